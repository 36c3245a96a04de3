import Verif.Kmap.Model

/-! # Static mapping: strategies, and stores of mappings — src/libscotch/kgraph_map_st.c, kgraph_store.c -/

set_option autoImplicit false

namespace Scotch.Kmap

variable {D : Type}

/-- Path of a call in the execution of a strategy. -/
abbrev Path := List Nat

/-- State of `Kgraph` (kgraph.h:98–119) that stores save. `bal x` stands for `(Gnum) ((double) x * kbalval)`, kgraph_map_st.c:345, 356. -/
structure KState (D : Type) extends Kgraph D where
  bal : Int → Int

/-- `KgraphStore` — kgraph.h:123–134. -/
structure KStore (D : Type) where
  fronnbr : Int
  domnnbr : Int
  commload : Int
  bal : Int → Int
  parttab : Arr Int
  domntab : Arr D
  comploadavg : Arr Int
  comploaddlt : Arr Int
  frontab : Arr Int

/-- `memCpy (dst + do_, src + so, n * sizeof (...))`. -/
def copyA {α : Type} (dst src : Arr α) (do_ so n : Int) : M (Arr α) := forUp 0 n dst fun i a => do a.wr (do_ + i) (← src.rd (so + i))

/-- `kgraphStoreInit` — kgraph_store.c:77–94. Fields of the store which are not arrays are set by `kgraphStoreSave` before they are read. -/
def storeInit (g : Graph) (k : KState D) (junk : Path → Int → Int) (junkD : Int → D) : KStore D :=
  ⟨junk [0] 0, junk [0] 1, junk [0] 2, junk [1], ⟨0, g.vertnbr, junk [2]⟩, ⟨0, k.m.domnmax, junkD⟩, ⟨0, k.m.domnmax, junk [3]⟩, ⟨0, k.m.domnmax, junk [4]⟩, ⟨0, g.vertnbr, junk [5]⟩⟩

/-- `kgraphStoreSave` — kgraph_store.c:122–145. -/
def storeSave (g : Graph) (k : KState D) (st : KStore D) : M (KStore D) := do
  if k.m.domnnbr > 0 then do
    let part ← copyA st.parttab k.m.parttax 0 g.baseval g.vertnbr
    let domn ← copyA st.domntab k.m.domntab 0 0 k.m.domnnbr
    let avg ← copyA st.comploadavg k.comploadavg 0 0 k.m.domnnbr
    let dlt ← copyA st.comploaddlt k.comploaddlt 0 0 k.m.domnnbr
    let fron ← copyA st.frontab k.frontab 0 0 k.fronnbr
    return ⟨k.fronnbr, k.m.domnnbr, k.commload, k.bal, part, domn, avg, dlt, fron⟩
  else return { st with fronnbr := k.fronnbr, domnnbr := k.m.domnnbr, commload := k.commload, bal := k.bal }

/-- `kgraphStoreUpdt` — kgraph_store.c:154–182. -/
def storeUpdt (g : Graph) (k : KState D) (st : KStore D) : M (KState D) := do
  if st.domnnbr > 0 then do
    let part ← copyA k.m.parttax st.parttab g.baseval 0 g.vertnbr
    let domn ← copyA k.m.domntab st.domntab 0 0 st.domnnbr
    let avg ← copyA k.comploadavg st.comploadavg 0 0 st.domnnbr
    let dlt ← copyA k.comploaddlt st.comploaddlt 0 0 st.domnnbr
    let fron ← copyA k.frontab st.frontab 0 0 st.fronnbr
    return ⟨⟨⟨part, domn, st.domnnbr, k.m.domnmax⟩, fron, st.fronnbr, avg, dlt, st.commload⟩, st.bal⟩
  else return { k with m := { k.m with domnnbr := st.domnnbr }, fronnbr := st.fronnbr, commload := st.commload, bal := st.bal }

/-- A method gives an error code, 0 or 1, and changes the mapping. -/
abbrev KMethod (D : Type) := Path → KState D → M (Int × KState D)

/-- Strategies. Conditions may depend on values that the model leaves out, such as the level: they depend on the path. Methods are arbitrary functions. -/
inductive KStrat (D : Type) where
  | empty
  | concat (a b : KStrat D)
  | cond (test : Path → KState D → Option Bool) (a b : KStrat D)
  | cond1 (test : Path → KState D → Option Bool) (a : KStrat D)
  | select (a b : KStrat D)
  | meth (f : KMethod D)

/-- Is some part too far from its average load, and sum of the differences — kgraph_map_st.c:340–348, 351–359. `abs` is taken on integers of any size (the C function takes an `int`). -/
def scan (n : Int) (bal : Int → Int) (avg dlt : Arr Int) : M (Bool × Int) :=
  forUp 0 n (false, 0) fun i s => do
    let d := |← dlt.rd i|
    return (s.1 || decide (d > bal (← avg.rd i)), s.2 + d)

/-- Is the second mapping kept — kgraph_map_st.c:361–378. Parameters are the values of `b`, `comploaddltasu` and `commload` of both mappings. -/
def keepSecond (b0 b1 : Bool) (u0 u1 c0 c1 : Int) : Bool :=
  if b0 = true ∧ b1 = false then true
  else if b0 = b1 then
    if b0 = false then decide (c0 > c1 ∨ (c0 = c1 ∧ u0 > u1))
    else decide (u0 > u1 ∨ (u0 = u1 ∧ c0 > c1))
  else false

/-- Choice between the mapping of the store and the current one — kgraph_map_st.c:335–381. Error codes being 0 or 1, `b0 = o`, to which 1 is or'ed, tells that the method has failed or that a part is too far from its average. -/
def selKeep (g : Graph) (o o2 : Int) (s0 : KStore D) (k : KState D) : M (KState D) := do
  if o = 0 ∨ o2 = 0 then do
    let (x0, u0) ← scan s0.domnnbr s0.bal s0.comploadavg s0.comploaddlt
    let (x1, u1) ← scan k.m.domnnbr k.bal k.comploadavg k.comploaddlt
    if keepSecond (decide (o ≠ 0) || x0) (decide (o2 ≠ 0) || x1) u0 u1 s0.commload k.commload then return k else storeUpdt g k s0
  else return k

/-- End of a selection — kgraph_map_st.c:335–383. -/
def selEnd (g : Graph) (o o2 : Int) (s0 : KStore D) (k : KState D) : M (Int × KState D) := do
  return (if o2 < o then o2 else o, ← selKeep g o o2 s0 k)

/-- `kgraphMapSt` — kgraph_map_st.c:261–402. -/
def mapSt (g : Graph) (junk : Path → Int → Int) (junkD : Path → Int → D) : KStrat D → KMethod D
  | .empty, _, k => return (0, k)
  | .concat s t, p, k => do
    let (o, k) ← mapSt g junk junkD s (1 :: p) k
    if o = 0 then mapSt g junk junkD t (2 :: p) k else return (o, k)
  | .cond c s t, p, k =>
    match c p k with
    | none => return (1, k)
    | some true => mapSt g junk junkD s (1 :: p) k
    | some false => mapSt g junk junkD t (2 :: p) k
  | .cond1 c s, p, k =>
    match c p k with
    | none => return (1, k)
    | some true => mapSt g junk junkD s (1 :: p) k
    | some false => return (0, k)
  | .select s t, p, k => do
    let s1 ← storeSave g k (storeInit g k (fun q => junk (q ++ 3 :: p)) (junkD (3 :: p)))
    let (o, k) ← mapSt g junk junkD s (1 :: p) k
    let s0 ← storeSave g k (storeInit g k (fun q => junk (q ++ 4 :: p)) (junkD (4 :: p)))
    let k ← storeUpdt g k s1
    let (o2, k) ← mapSt g junk junkD t (2 :: p) k
    selEnd g o o2 s0 k
  | .meth f, p, k => f p k

end Scotch.Kmap
