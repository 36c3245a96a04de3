import Verif.Bipart.ModelBd
import Verif.Bipart.ModelDf
import Verif.Bipart.ModelFm
import Verif.Bipart.ModelGg
import Verif.Bipart.ModelGp
import Verif.Coarsen.Model

/-!
# Bipartition strategies: model

src/libscotch/bgraph_bipart_ex.c, bgraph_bipart_ml.c and bgraph_bipart_st.c:253–376. Each call of a method is known by its path in the execution of the strategy, so that random draws and contents of allocated memory may differ from one
call to another. Methods that are not modelled are represented by arbitrary functions.
-/

set_option autoImplicit false

namespace Scotch.Bipart

/-- Path of a call in the execution of a strategy. -/
abbrev Path := List Nat

/-- A method: return code, and bipartition. -/
abbrev BMethod := Path → Bgraph → M (Int × Bgraph)

/-- Draws, contents of memory, floating-point values, and coarsening. -/
structure BEnv where
  fmJunk : Path → Int → FmSave
  pick : Path → FmPick
  /-- value of bgraph_bipart_fm.c:292–294 -/
  dltmat : Path → Bgraph → Int
  junk : Path → Int → Int
  gg : Path → Bgraph → Int → GgOracle
  store : Path → Store
  absI : Int → Int
  /-- `graphCoarsen`; `none` stands for the value 1 -/
  coarsen : Path → Graph → M (Option Coarsen.Result)
  /-- value of bgraph_bipart_ml.c:148–150 -/
  widen : Path → Bgraph → Int
  /-- contents of the data structure of a coarse graph -/
  blank : Path → Bgraph
  /-- uninitialised memory of band graphs -/
  bd : Path → BdJunk
  /-- threads and floating-point operations of diffusion -/
  df : Path → DfEnv

/-- `bgraphBipartFm`, with the greedy graph growing method that it calls. -/
def stFm (env : BEnv) (fuel : Nat) (p : Path) (para : FmParam) (dltmat : Int) (b : Bgraph) : M Bgraph :=
  bipartFm (env.fmJunk p) (env.pick p) (bipartGg (env.junk p) (env.gg p b) 4) para dltmat fuel b

/-- `bgraphBipartEx` — bgraph_bipart_ex.c:91–124. -/
def bipartEx (env : BEnv) (fuel : Nat) (p : Path) (b : Bgraph) : M Bgraph := do
  if b.compload0dlt = 0 then return b
  else do
    let b ← stFm env fuel (1 :: p) ⟨b.s.vertnbr, -1⟩ 0 b
    if b.s.vertnbr > 1 ∧ (b.compsize0 = 0 ∨ b.compsize0 = b.s.vertnbr) then bipartGg (env.junk (2 :: p)) (env.gg (2 :: p) b) 4 b
    else return b

/-! ## Multilevel -/

/-- Body of the loop on coarse vertices — bgraph_bipart_ml.c:126–136. The array is not based. -/
def mlVeexStep (mult : Arr (Int × Int)) (baseval : Int) (fine : Arr Int) (i : Int) (a : Arr Int) : M (Arr Int) := do
  let (v0, v1) ← mult.rd (baseval + i)
  if v0 ≠ v1 then a.wr i ((← fine.rd v0) + (← fine.rd v1)) else a.wr i (← fine.rd v0)

/-- External gains of the coarse graph — bgraph_bipart_ml.c:111–142. -/
def mlVeex (junk : Int → Int) (r : Coarsen.Result) (veextax : Option (Arr Int)) : M (Option (Arr Int)) :=
  match veextax with
  | none => return none
  | some fine => do
    let a ← forUp 0 r.graph.vertnbr (⟨0, r.graph.vertnbr, junk⟩ : Arr Int) (mlVeexStep r.mult r.graph.baseval fine)
    return some (a.shift r.graph.baseval)

/-- Coarse bipartition graph — bgraph_bipart_ml.c:111–164. The part array, which is only allocated when the graph is uncoarsened (200–206), is present from the start. The frontier array is the one of the fine graph. -/
def mlCoarsen (env : BEnv) (p : Path) (b : Bgraph) (r : Coarsen.Result) : M Bgraph := do
  let veextax ← mlVeex (env.junk (1 :: p)) r b.veextax
  let tmp := env.widen p b
  return { env.blank p with
    s := r.graph, veextax := veextax, parttax := ⟨r.graph.baseval, r.graph.baseval + r.graph.vertnbr, env.junk (2 :: p)⟩, frontab := b.frontab,
    compload0min := b.compload0min - tmp, compload0max := b.compload0max + tmp, compload0avg := b.compload0avg, commloadextn0 := b.commloadextn0, commgainextn0 := b.commgainextn0,
    domndist := b.domndist, domnwght0 := b.domnwght0, domnwght1 := b.domnwght1, vfixload0 := b.vfixload0, vfixload1 := b.vfixload1 }

/-- Body of the loop on coarse vertices — bgraph_bipart_ml.c:218–233. The state holds the fine parts and `finecompsize1`. -/
def mlPartStep (mult : Arr (Int × Int)) (cpart : Arr Int) (c : Int) (s : Arr Int × Int) : M (Arr Int × Int) := do
  let (v0, v1) ← mult.rd c
  let partval ← cpart.rd c
  let part ← s.1.wr v0 partval
  if v0 ≠ v1 then return (← part.wr v1 partval, s.2 + partval) else return (part, s.2)

/-- Whether a fine vertex has a neighbour in another part — bgraph_bipart_ml.c:262–268, 274–280. -/
def mlCuts (g : Graph) (part : Arr Int) (v partval : Int) : M Bool := do
  let l ← forUpB (← g.verttax.rd v) (← g.rdVend v) () fun e _ => do
    if (← part.rd (← g.edgetax.rd e)) ≠ partval then return Loop.brk () else return Loop.next ()
  match l with
  | .next _ => return false
  | .brk _ => return true

/-- Body of the loop on the frontier of the coarse graph — bgraph_bipart_ml.c:243–291. The state holds the frontier array and the number of fine frontier vertices. -/
def mlFronStep (g : Graph) (mult : Arr (Int × Int)) (cpart part : Arr Int) (i : Int) (s : Arr Int × Int) : M (Arr Int × Int) := do
  let c ← s.1.rd i
  let (v0, v1) ← mult.rd c
  if v0 ≠ v1 then do
    let partval ← cpart.rd c
    if ← mlCuts g part v0 partval then do
      let a ← s.1.wr i v0
      if ← mlCuts g part v1 partval then return (← a.wr s.2 v1, s.2 + 1) else return (a, s.2)
    else return (← s.1.wr i v1, s.2)
  else return (← s.1.wr i v0, s.2)

/-- `bgraphBipartMlUncoarsen`, when there is a coarse graph — bgraph_bipart_ml.c:213–292. The frontier arrays of the two graphs are the same. -/
def mlUncoarsen (b cb : Bgraph) (mult : Arr (Int × Int)) : M Bgraph := do
  let (part, size1) ← forUp cb.s.baseval cb.s.vertnnd (b.parttax, cb.s.vertnbr - cb.compsize0) (mlPartStep mult cb.parttax)
  let (frontab, fronnbr) ← forUp 0 cb.fronnbr (cb.frontab, cb.fronnbr) (mlFronStep b.s mult cb.parttax part)
  return { b with
    parttax := part, frontab := frontab, fronnbr := fronnbr, compload0 := cb.compload0, compload0dlt := cb.compload0dlt, compsize0 := b.s.vertnbr - size1, commload := cb.commload,
    commgainextn := cb.commgainextn }

/-- End of a level: the bipartition of the coarse graph is brought back to the fine graph, and refined — bgraph_bipart_ml.c:322–326. -/
def mlUp (asc : BMethod) (p : Path) (b : Bgraph) (mult : Arr (Int × Int)) (o : Int) (cb : Bgraph) : M (Int × Bgraph) := do
  if o = 0 then do
    let b ← mlUncoarsen b cb mult
    asc (4 :: p) b
  else return (o, { b with frontab := cb.frontab })

/-- `bgraphBipartMl2` — bgraph_bipart_ml.c:313–335. `fuel` bounds the number of levels. -/
def bipartMl2 (env : BEnv) (asc low : BMethod) : Nat → BMethod
  | 0, _, _ => throw .fuel
  | n + 1, p, b => do
    match ← env.coarsen p b.s with
    | some r => do
      let cb ← mlCoarsen env p b r
      let (o, cb) ← bipartMl2 env asc low n (3 :: p) cb
      mlUp asc p b r.mult o cb
    | none => do low (5 :: p) (← zero b)

/-! ## Strategies -/

/-- Strategies. Conditions may depend on values that the model leaves out, such as the level: they depend on the path. -/
inductive BStrat where
  | empty
  | zr
  | gp (passnbr : Int)
  | gg (passnbr : Int)
  | fm (para : FmParam)
  | ex
  | ml (asc low : BStrat)
  | bd (distmax : Int) (bnd org : BStrat)
  | df (para : DfParam)
  | concat (a b : BStrat)
  | cond (test : Path → Bgraph → Option Bool) (a b : BStrat)
  | cond1 (test : Path → Bgraph → Option Bool) (a : BStrat)
  | select (a b : BStrat)
  | ext (f : BMethod)

/-- Initial values of a store, after `bgraphStoreInit`. -/
def stInit (env : BEnv) (p : Path) (b : Bgraph) : Store := storeInit b (env.junk (0 :: p)) (env.junk (1 :: p)) (env.store p)

/-- `b0`, `b1`: whether a bipartition is out of range, or else its return code — bgraph_bipart_st.c:328–333. -/
def selRange (b : Bgraph) (dlt o : Int) : Int := if b.compload0avg + dlt < b.compload0min ∨ b.compload0avg + dlt > b.compload0max then 1 else o

/-- Whether the second bipartition is kept — bgraph_bipart_st.c:336–351. The C function `abs`, which is on type `int`, is arbitrary. -/
def selKeep (absI : Int → Int) (b0 b1 : Int) (s : Store) (b : Bgraph) : Bool :=
  if b0 > b1 then true
  else if b0 = b1 then
    if b0 = 0 then decide (s.commload > b.commload ∨ (s.commload = b.commload ∧ absI s.compload0dlt > absI b.compload0dlt))
    else decide (absI s.compload0dlt > absI b.compload0dlt ∨ (absI s.compload0dlt = absI b.compload0dlt ∧ s.commload > b.commload))
  else false

/-- Choice between the two bipartitions — bgraph_bipart_st.c:323–355. -/
def selBest (absI : Int → Int) (o o2 : Int) (s0 : Store) (b : Bgraph) : M Bgraph := do
  if o = 0 ∨ o2 = 0 then do
    if selKeep absI (selRange b s0.compload0dlt o) (selRange b b.compload0dlt o2) s0 b then return b else storeUpdt b s0
  else return b

/-- `bgraphBipartSt` — bgraph_bipart_st.c:253–376. `fuel` bounds the number of passes of Fiduccia-Mattheyses refinements and the number of levels. -/
def bipartSt (env : BEnv) (fuel : Nat) : BStrat → BMethod
  | .empty, _, b => return (0, b)
  | .zr, _, b => do return (0, ← bipartZr b)
  | .gp n, p, b => do return (0, ← bipartGp (env.junk p) n b)
  | .gg n, p, b => do return (0, ← bipartGg (env.junk p) (env.gg p b) n b)
  | .fm para, p, b => do return (0, ← stFm env fuel p para (env.dltmat p b) b)
  | .ex, p, b => do return (0, ← bipartEx env fuel p b)
  | .ml asc low, p, b => bipartMl2 env (bipartSt env fuel asc) (bipartSt env fuel low) fuel p b
  | .bd distmax bnd org, p, b => bipartBd (env.bd p) (bipartSt env fuel bnd (1 :: p)) (bipartSt env fuel org (2 :: p)) distmax b
  | .df para, p, b => do return (0, ← bipartDf (env.df p) para b)
  | .concat s t, p, b => do
    let (o, b) ← bipartSt env fuel s (1 :: p) b
    if o = 0 then bipartSt env fuel t (2 :: p) b else return (o, b)
  | .cond c s t, p, b =>
    match c p b with
    | none => return (1, b)
    | some true => bipartSt env fuel s (1 :: p) b
    | some false => bipartSt env fuel t (2 :: p) b
  | .cond1 c s, p, b =>
    match c p b with
    | none => return (1, b)
    | some true => bipartSt env fuel s (1 :: p) b
    | some false => return (0, b)
  | .select s t, p, b => do
    let s1 ← storeSave b (stInit env (4 :: p) b)
    let (o, b) ← bipartSt env fuel s (1 :: p) b
    let s0 ← storeSave b (stInit env (3 :: p) b)
    let b ← storeUpdt b s1
    let (o2, b) ← bipartSt env fuel t (2 :: p) b
    let b ← selBest env.absI o o2 s0 b
    return (min o o2, b)
  | .ext f, p, b => f p b

end Scotch.Bipart
