import Verif.Separ.ModelSt
import Verif.Graph.Induce

/-!
# Partitioning with overlap: model

src/libscotch/wgraph.c, wgraph_store.c, wgraph_part_zr.c, and wgraph_part_rb.c.
-/

set_option autoImplicit false

namespace Scotch.Ovl
open Bipart (copyN)

/-- Path of a call in the execution of a strategy. -/
abbrev Path := List Nat

/-- `Wgraph` — wgraph.h:62–73, without the level number and the execution context. -/
structure Wgraph where
  s : Graph
  partnbr : Int
  fronnbr : Int
  fronload : Int
  frontab : Arr Int
  compload : Arr Int
  compsize : Arr Int
  parttax : Arr Int

/-- `memSet (tab + lo, val, (hi - lo) * sizeof (...))`, for values 0 and ~0. -/
def fill (a : Arr Int) (lo hi x : Int) : M (Arr Int) := forUp lo hi a fun i a => a.wr i x

/-- `wgraphZero` — wgraph.c:145–157. If there are no parts, the size that is given to `memSet` is negative, which is out of bounds. -/
def zero (b : Wgraph) : M Wgraph := do
  if b.partnbr < 1 then throw .oob
  else do
    let load ← fill b.compload 1 b.partnbr 0
    let size ← fill b.compsize 1 b.partnbr 0
    let load ← load.wr 0 b.s.velosum
    let size ← size.wr 0 b.s.vertnbr
    let part ← fill b.parttax b.s.baseval (b.s.baseval + b.s.vertnbr) 0
    return { b with compload := load, compsize := size, fronload := 0, fronnbr := 0, parttax := part }

/-! ## Cost -/

/-- State of the loops of `wgraphCost`: `compload`, `compsize`, `flagtab`, `frlosum`. -/
structure CostState where
  load : Arr Int
  size : Arr Int
  flag : Arr Int
  frlo : Int

/-- Body of the loop on arcs — wgraph.c:213–219. -/
def costArc (part : Arr Int) (v velo : Int) (w : Int) (s : CostState) : M CostState := do
  let k ← part.rd w
  if (← s.flag.rd k) ≠ v then do
    let flag ← s.flag.wr k v
    let load ← s.load.wr k ((← s.load.rd k) + velo)
    let size ← s.size.wr k ((← s.size.rd k) + 1)
    return { s with flag := flag, load := load, size := size }
  else return s

/-- Body of the loop on vertices — wgraph.c:197–221. -/
def costVertex (g : Graph) (part : Arr Int) (v : Int) (s : CostState) : M CostState := do
  let velo ← g.rdVelo v
  let k ← part.rd v
  if k ≥ 0 then do
    let load ← s.load.wr k ((← s.load.rd k) + velo)
    let size ← s.size.wr k ((← s.size.rd k) + 1)
    return { s with load := load, size := size }
  else do
    let flag ← s.flag.wr (-1) v
    g.forArcs v { s with flag := flag, frlo := s.frlo + velo } fun _ w => costArc part v velo w

/-- `wgraphCost` — wgraph.c:166–228. `junk` is the content of `flagtab`, whose cells are numbered from -1. -/
def cost (junk : Int → Int) (b : Wgraph) : M Wgraph := do
  let load ← fill b.compload 0 b.partnbr 0
  let size ← fill b.compsize 0 b.partnbr 0
  let flag ← fill ⟨-1, b.partnbr, junk⟩ 0 b.partnbr (-1)
  let s ← forUp b.s.baseval b.s.vertnnd ⟨load, size, flag, 0⟩ (costVertex b.s b.parttax)
  return { b with compload := s.load, compsize := s.size, fronload := s.frlo }

/-! ## Stores -/

/-- `WgraphStore` — wgraph.h:77–82. The data area is modelled by four arrays, which are copied at the same offsets by the routines below. -/
structure Store where
  partnbr : Int
  fronnbr : Int
  fronload : Int
  compload : Arr Int
  compsize : Arr Int
  frontab : Arr Int
  parttab : Arr Int

/-- `wgraphStoreInit` — wgraph_store.c:75–91. -/
def storeInit (b : Wgraph) (junk : Path → Int → Int) (st : Store) : Store :=
  { st with compload := ⟨0, b.partnbr, junk [0]⟩, compsize := ⟨0, b.partnbr, junk [1]⟩, frontab := ⟨0, b.s.vertnbr, junk [2]⟩, parttab := ⟨0, b.s.vertnbr, junk [3]⟩ }

/-- `wgraphStoreSave` — wgraph_store.c:114–137. -/
def storeSave (b : Wgraph) (st : Store) : M Store := do
  let load ← copyN st.compload b.compload 0 0 b.partnbr
  let size ← copyN st.compsize b.compsize 0 0 b.partnbr
  let fron ← copyN st.frontab b.frontab 0 0 b.fronnbr
  let part ← copyN st.parttab b.parttax 0 b.s.baseval b.s.vertnbr
  return ⟨b.partnbr, b.fronnbr, b.fronload, load, size, fron, part⟩

/-- `wgraphStoreUpdt` — wgraph_store.c:145–173. -/
def storeUpdt (b : Wgraph) (st : Store) : M Wgraph := do
  let load ← copyN b.compload st.compload 0 0 st.partnbr
  let size ← copyN b.compsize st.compsize 0 0 st.partnbr
  let fron ← copyN b.frontab st.frontab 0 0 st.fronnbr
  let part ← copyN b.parttax st.parttab b.s.baseval 0 b.s.vertnbr
  return { b with partnbr := st.partnbr, fronnbr := st.fronnbr, fronload := st.fronload, compload := load, compsize := size, frontab := fron, parttax := part }

/-! ## Zero method -/

/-- `wgraphPartZr` — wgraph_part_zr.c:78–86. -/
def partZr (b : Wgraph) : M Wgraph := do
  if (← b.compsize.rd 0) ≠ b.s.vertnbr then zero b else return b

/-! ## Recursive bipartitioning -/

/-- Number of the vertex in the partitioned graph — wgraph_part_rb.c:107–112, 153–170, 203–220, 250–265. -/
def orgNum (g : Graph) (v : Int) : M Int :=
  match g.vnumtax with
  | none => return v
  | some a => a.rd v

/-- Arrays that are shared by all calls: `WgraphPartRbData` — wgraph_part_rb.h:68–77. -/
structure Shared where
  part : Arr Int
  fron : Arr Int
  nbr : Int

/-- What a call does to the shared arrays. -/
inductive Act where
  | fron (g : Graph) (tab : Arr Int) (nbr : Int)
  | sepFron (g : Graph) (tab : Arr Int) (nbr : Int)
  | one (g : Graph) (part : Arr Int) (val dom : Int)
  | both (g : Graph) (part : Arr Int) (dom : Int)

/-- `wgraphPartRb3Fron` — wgraph_part_rb.c:84–113, `wgraphPartRb3SepFron` — 122–171, `wgraphPartRb3One` — 180–221, and `wgraphPartRb3Both` — 230–266. Cells of the frontier array are reserved under a lock; the cells of the part array that are
written by different calls are different, and what is written does not depend on these arrays. Calls are run one after the other, in any order. -/
def Act.run (s : Shared) : Act → M Shared
  | .fron g tab nbr => do
    let fron ← forUp 0 nbr s.fron fun i a => do a.wr (s.nbr + i) (← orgNum g (← tab.rd i))
    return { s with fron := fron, nbr := s.nbr + nbr }
  | .sepFron g tab nbr => do
    let r ← forUp 0 nbr (s.fron, s.part) fun i r => do
      let v ← orgNum g (← tab.rd i)
      return (← r.1.wr (s.nbr + i) v, ← r.2.wr v (-1))
    return ⟨r.2, r.1, s.nbr + nbr⟩
  | .one g part val dom => do
    let a ← forUp g.baseval g.vertnnd s.part fun v a => do
      let k ← part.rd v
      if k ≠ 1 - val then a.wr (← orgNum g v) (if k = val then dom else -1) else return a
    return { s with part := a }
  | .both g part dom => do
    let a ← forUp g.baseval g.vertnnd s.part fun v a => do
      let k ← part.rd v
      a.wr (← orgNum g v) (if k < 2 then dom + k else -1)
    return { s with part := a }

/-- `WgraphPartRbSplit` and its entry `splttab[spltnum]` — wgraph_part_rb.h:81–95: part `val` of graph `g` (all of `g` if there is no part array), made of `nbr` vertices, goes to the `siz` parts from `dom` on. -/
structure Split where
  g : Graph
  fron : Arr Int
  fronnbr : Int
  part : Option (Arr Int)
  val : Int
  nbr : Int
  dom : Int
  siz : Int

/-- What the run depends on: separation, contents of memory, alignment, whether the two halves are run one after the other, and order of accesses to shared arrays. -/
structure RbEnv where
  sep : Path → Separ.Vgraph → M (Int × Separ.Vgraph)
  mem : Path → Graph.IndMem
  al : Int
  /-- part array, frontier array, and other fields of the separation graph -/
  blank : Path → Separ.Vgraph
  seq : Path → Bool
  order : List Act → List Act

/-- Graph to separate — wgraph_part_rb.c:306–316. -/
def rbInduce (env : RbEnv) (p : Path) (s : Split) : M Graph :=
  match s.part with
  | none => return { s.g with vlbltax := none }
  | some a => Graph.inducePart env.al s.g (env.mem p) a s.nbr s.val

/-- Separation graph — wgraph_part_rb.c:306–332. -/
def rbGraph (env : RbEnv) (p : Path) (s : Split) : M Separ.Vgraph := do
  let h ← rbInduce env p s
  let b := env.blank p
  Separ.zero { b with
    s := h, parttax := ⟨h.baseval, h.baseval + h.vertnbr, b.parttax.get⟩, frontab := ⟨0, h.vertnbr, b.frontab.get⟩,
    dwgt0 := s.siz / 2, dwgt1 := s.siz - s.siz / 2 }

/-- First accesses of a call — wgraph_part_rb.c:297–304. The second result tells whether the call ends there. The part array is read by `wgraphPartRb3One`. -/
def rbFirst (s : Split) : M (List Act × Bool) := do
  if s.val = 0 then do
    if s.siz ≤ 1 then do
      match s.part with
      | none => throw .null
      | some a => return ([.fron s.g s.fron s.fronnbr, .one s.g a s.val s.dom], true)
    else return ([.sepFron s.g s.fron s.fronnbr], false)
  else return ([], false)

/-- An array that is not read: the null pointer. -/
def nullArr : Arr Int := ⟨0, 0, fun _ => 0⟩

/-- `wgraphPartRb2` — wgraph_part_rb.c:275–398: error code, and accesses to shared arrays. `fuel` bounds the depth of calls. If a part is empty, the number of vertices of part 0 is not set (357), but it is not used. The `int` variable that holds a number
of vertices (293) is unbounded. -/
def rb2 (env : RbEnv) : Nat → Path → Split → M (Int × List Act)
  | 0, _, _ => throw .fuel
  | f + 1, p, s => do
    let (acts, stop) ← rbFirst s
    if stop then return (0, acts)
    else do
      let b ← rbGraph env p s
      let (o, b) ← env.sep p b
      if o ≠ 0 then return (1, acts)
      else if s.siz ≤ 2 then return (0, acts ++ [.fron b.s b.frontab b.fronnbr, .both b.s b.parttax s.dom])
      else if b.compsize0 ≤ 0 then do
        let (c, l) ← rb2 env f (0 :: p) ⟨b.s, nullArr, 0, none, 1, b.s.vertnbr, s.dom + s.siz / 2, s.siz - s.siz / 2⟩
        return (c, acts ++ l)
      else if b.compsize1 ≤ 0 then do
        let (c, l) ← rb2 env f (0 :: p) ⟨b.s, nullArr, 0, none, 0, b.s.vertnbr, s.dom, s.siz / 2⟩
        return (c, acts ++ l)
      else do
        let (c0, l0) ← rb2 env f (1 :: p) ⟨b.s, b.frontab, b.fronnbr, some b.parttax, 0, b.compsize0, s.dom, s.siz / 2⟩
        if c0 ≠ 0 ∧ env.seq p = true then return (1, acts ++ l0)
        else do
          let (c1, l1) ← rb2 env f (2 :: p) ⟨b.s, b.frontab, b.fronnbr, some b.parttax, 1, b.compsize1, s.dom + s.siz / 2, s.siz - s.siz / 2⟩
          return (if c0 = 0 ∧ c1 = 0 then 0 else 1, acts ++ (l0 ++ l1))

/-- Accesses, one after the other. -/
def runAll : List Act → Shared → M Shared
  | [], s => return s
  | a :: l, s => do runAll l (← a.run s)

/-- `wgraphPartRb` — wgraph_part_rb.c:408–464. -/
def partRb (env : RbEnv) (junk : Int → Int) (p : Path) (b : Wgraph) : M (Int × Wgraph) := do
  if b.partnbr ≤ 1 then return (0, ← zero b)
  else do
    let (o, acts) ← rb2 env b.partnbr.toNat p ⟨b.s, nullArr, 0, none, 1, b.s.vertnbr, 0, b.partnbr⟩
    let s ← runAll (env.order acts) ⟨b.parttax, b.frontab, 0⟩
    let b := { b with parttax := s.part, frontab := s.fron }
    if o ≠ 0 then return (1, b)
    else return (0, ← cost junk { b with fronnbr := s.nbr })

end Scotch.Ovl
