import Verif.Ovl.Model
import Verif.Coarsen.Model

/-!
# Partitioning with overlap: multilevel method, strategies, library routine

src/libscotch/wgraph_part_ml.c, wgraph_part_st.c, and library_graph_part_ovl.c:80–125.
-/

set_option autoImplicit false

namespace Scotch.Ovl

/-- A method gives an error code and changes the partition. -/
abbrev WMethod := Path → Wgraph → M (Int × Wgraph)

/-- Coarsening, contents of memory, and what recursive bipartitioning depends on. -/
structure WEnv where
  coarsen : Path → Graph → M (Option Coarsen.Result)
  junk : Path → Int → Int
  /-- partitions whose fields are not set -/
  blank : Path → Wgraph
  store : Path → Store
  rb : RbEnv
  sep : Separ.SEnv

/-- `wgraphAlloc` — wgraph.c:116–137: arrays of loads, sizes, frontier. -/
def alloc (env : WEnv) (p : Path) (g : Graph) (n : Int) (part : Arr Int) : Wgraph :=
  { env.blank p with
    s := g, partnbr := n, parttax := part, frontab := ⟨0, g.vertnbr, env.junk (2 :: p)⟩, compload := ⟨0, n, env.junk (0 :: p)⟩, compsize := ⟨0, n, env.junk (1 :: p)⟩ }

/-! ## Multilevel method -/

/-- `wgraphPartMlCoarsen`, after coarsening — wgraph_part_ml.c:107–113 —, and allocation of the arrays of the coarse graph (151–155), which is done later by the program. -/
def mlCoarsen (env : WEnv) (p : Path) (b : Wgraph) (r : Coarsen.Result) : Wgraph :=
  alloc env p r.graph b.partnbr ⟨r.graph.baseval, r.graph.baseval + r.graph.vertnbr, env.junk (3 :: p)⟩

/-- State of the loop on coarse vertices: `fineparttax`, `finefrontab`, `finefronnbr`. -/
structure MlState where
  part : Arr Int
  fron : Arr Int
  nbr : Int

/-- Body of the loop on coarse vertices — wgraph_part_ml.c:190–210. -/
def mlStep (mult : Arr (Int × Int)) (cpart : Arr Int) (c : Int) (s : MlState) : M MlState := do
  let partval ← cpart.rd c
  let (v0, v1) ← mult.rd c
  let part ← s.part.wr v0 partval
  if partval ≥ 0 then do
    if v0 ≠ v1 then return { s with part := (← part.wr v1 partval) } else return { s with part := part }
  else do
    let fron ← s.fron.wr s.nbr v0
    if v0 ≠ v1 then return { s with part := (← part.wr v1 partval), fron := (← fron.wr (s.nbr + 1) v1), nbr := s.nbr + 2 }
    else return { s with part := part, fron := fron, nbr := s.nbr + 1 }

/-- `WgraphPartList` — wgraph_part_ml.h:65–68 —, and the head of the list. Cells are numbered from -1. -/
structure PartList where
  vert : Arr Int
  next : Arr Int
  head : Int

/-- Body of the loop on arcs — wgraph_part_ml.c:231–241. -/
def mlArc (part : Arr Int) (v : Int) (w : Int) (l : PartList) : M PartList := do
  let k ← part.rd w
  if (← l.vert.rd k) ≠ v then return ⟨← l.vert.wr k v, ← l.next.wr k l.head, k⟩ else return l

/-- `while (finelistidx != -1)` — wgraph_part_ml.c:245–249. The first parameter bounds the number of turns. -/
def mlWalk (next : Arr Int) (velo : Int) : Nat → Int → Arr Int → Arr Int → M (Arr Int × Arr Int)
  | 0, _, _, _ => throw .fuel
  | f + 1, idx, load, size => do
    if idx = -1 then return (load, size)
    else do
      let load ← load.wr idx ((← load.rd idx) + velo)
      let size ← size.wr idx ((← size.rd idx) + 1)
      mlWalk next velo f (← next.rd idx) load size

/-- State of the loop on fine vertices. -/
structure MlLoads where
  load : Arr Int
  size : Arr Int
  vert : Arr Int
  next : Arr Int

/-- Body of the loop on fine vertices — wgraph_part_ml.c:215–251. -/
def mlVertex (g : Graph) (n : Int) (part : Arr Int) (v : Int) (s : MlLoads) : M MlLoads := do
  let k ← part.rd v
  if k ≥ 0 then do
    let velo ← g.rdVelo v
    let load ← s.load.wr k ((← s.load.rd k) + velo)
    let size ← s.size.wr k ((← s.size.rd k) + 1)
    return { s with load := load, size := size }
  else do
    let vert ← s.vert.wr (-1) v
    let l ← g.forArcs v ⟨vert, s.next, -1⟩ fun _ w => mlArc part v w
    let velo ← g.rdVelo v
    let (load, size) ← mlWalk l.next velo (n.toNat + 1) l.head s.load s.size
    return ⟨load, size, l.vert, l.next⟩

/-- `wgraphPartMlUncoarsen`, when there is a coarse graph — wgraph_part_ml.c:162–263. `junk0` and `junk1` are the contents of the list. Coarse vertices are counted from the base value, and not from 0. -/
def mlUncoarsen (junk0 junk1 : Int → Int) (b cb : Wgraph) (mult : Arr (Int × Int)) : M Wgraph := do
  let vert ← fill ⟨-1, b.partnbr, junk0⟩ 0 b.partnbr (-1)
  let next ← fill ⟨-1, b.partnbr, junk1⟩ 0 b.partnbr (-1)
  let load ← fill b.compload 0 b.partnbr 0
  let size ← fill b.compsize 0 b.partnbr 0
  let s ← forUp cb.s.baseval cb.s.vertnnd ⟨b.parttax, b.frontab, 0⟩ (mlStep mult cb.parttax)
  let t ← forUp b.s.baseval b.s.vertnnd ⟨load, size, vert, next⟩ (mlVertex b.s b.partnbr s.part)
  return { b with parttax := s.part, frontab := s.fron, fronnbr := s.nbr, fronload := cb.fronload, compload := t.load, compsize := t.size }

/-- End of a level — wgraph_part_ml.c:282–286. -/
def mlUp (env : WEnv) (asc : WMethod) (p : Path) (b : Wgraph) (mult : Arr (Int × Int)) (o : Int) (cb : Wgraph) : M (Int × Wgraph) := do
  if o = 0 then do
    let b ← mlUncoarsen (env.junk (4 :: p)) (env.junk (5 :: p)) b cb mult
    asc (4 :: p) b
  else return (o, b)

/-- `wgraphPartMl2` — wgraph_part_ml.c:271–295. The first parameter bounds the number of levels. -/
def partMl2 (env : WEnv) (asc low : WMethod) : Nat → WMethod
  | 0, _, _ => throw .fuel
  | n + 1, p, b => do
    match ← env.coarsen p b.s with
    | some r => do
      let (o, cb) ← partMl2 env asc low n (3 :: p) (mlCoarsen env p b r)
      mlUp env asc p b r.mult o cb
    | none => do low (5 :: p) (← zero b)

/-! ## Strategies -/

/-- Strategies. Conditions may depend on values that the model leaves out, such as the level: they depend on the path. Methods `f` (wgraph_part_fm.c) and `e` (wgraph_part_es.c) are arbitrary functions. -/
inductive WStrat where
  | empty
  | zr
  | rb (sep : Separ.SStrat)
  | ml (asc low : WStrat)
  | concat (a b : WStrat)
  | cond (test : Path → Wgraph → Option Bool) (a b : WStrat)
  | cond1 (test : Path → Wgraph → Option Bool) (a : WStrat)
  | select (a b : WStrat)
  | ext (f : WMethod)

/-- End of a selection — wgraph_part_st.c:260–263. -/
def selEnd (o o2 : Int) (b : Wgraph) (s0 : Store) : M (Int × Wgraph) := do
  if (o = 0 ∨ o2 = 0) ∧ s0.fronload < b.fronload then return (o, ← storeUpdt b s0)
  else return (o, b)

/-- `wgraphPartSt` — wgraph_part_st.c:188–282. -/
def partSt (env : WEnv) (fuel : Nat) : WStrat → WMethod
  | .empty, _, b => return (0, b)
  | .zr, _, b => do return (0, ← partZr b)
  | .rb sep, p, b => partRb { env.rb with sep := fun q => Separ.separateSt env.sep fuel sep q } (env.junk (6 :: p)) p b
  | .ml asc low, p, b => partMl2 env (fun q => partSt env fuel asc q) (fun q => partSt env fuel low q) (b.s.vertnbr.toNat + 1) p b
  | .concat s t, p, b => do
    let (o, b) ← partSt env fuel s (1 :: p) b
    if o = 0 then partSt env fuel t (2 :: p) b else return (o, b)
  | .cond c s t, p, b =>
    match c p b with
    | none => return (1, b)
    | some true => partSt env fuel s (1 :: p) b
    | some false => partSt env fuel t (2 :: p) b
  | .cond1 c s, p, b =>
    match c p b with
    | none => return (1, b)
    | some true => partSt env fuel s (1 :: p) b
    | some false => return (0, b)
  | .select s t, p, b => do
    let s1 ← storeSave b (storeInit b (fun q => env.junk (q ++ 7 :: p)) (env.store (7 :: p)))
    let (o, b) ← partSt env fuel s (1 :: p) b
    let s0 ← storeSave b (storeInit b (fun q => env.junk (q ++ 8 :: p)) (env.store (8 :: p)))
    let b ← storeUpdt b s1
    let (o2, b) ← partSt env fuel t (2 :: p) b
    selEnd o o2 b s0
  | .ext f, p, b => f p b

/-- `SCOTCH_graphPartOvl` — library_graph_part_ovl.c:80–125: error code, and array of parts. `user` is the array given by the caller, seen from the base value. -/
def graphPartOvl (env : WEnv) (fuel : Nat) (strat : WStrat) (g : Graph) (n : Int) (user : Arr Int) : M (Int × Arr Int) := do
  let (o, b) ← partSt env fuel strat [0] (alloc env [] g n user)
  return (o, b.parttax)

end Scotch.Ovl
