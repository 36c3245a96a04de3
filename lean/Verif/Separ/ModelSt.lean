import Verif.Separ.ModelGg
import Verif.Separ.ModelGp
import Verif.Separ.ModelFm
import Verif.Separ.ModelBd
import Verif.Separ.ModelDf
import Verif.Coarsen.Model

/-!
# Separation strategies: model

src/libscotch/vgraph_separate_ml.c and vgraph_separate_st.c:235–337. Methods that are not modelled are represented by arbitrary functions; each call of a method is known by its path in the execution of the strategy, so that random draws and
contents of allocated memory may differ from one call to another.
-/

set_option autoImplicit false

namespace Scotch.Separ

/-- Path of a call in the execution of a strategy. -/
abbrev Path := List Nat

/-- A method: return code, and separation. -/
abbrev SMethod := Path → Vgraph → M (Int × Vgraph)

/-- Draws, contents of memory, floating-point values, and coarsening. -/
structure SEnv where
  junk : Path → Int → Int
  store : Path → Store
  gg : Path → Vgraph → Int → GgOracle
  absI : Int → Int
  fmJunk : Path → Int → Bipart.FmSave
  order : Path → SOrder
  /-- value of vgraph_separate_fm.c:190–193 -/
  mat : Path → Vgraph → Int
  /-- `graphCoarsen`; `none` stands for the value 1 -/
  coarsen : Path → Graph → M (Option Coarsen.Result)
  /-- contents of the data structure of a coarse graph -/
  blank : Path → Vgraph
  df : Path → SdEnv

/-! ## Multilevel -/

/-- Coarse separation graph — vgraph_separate_ml.c:92–114. The part array, which is only allocated when the graph is uncoarsened (142–147), is present from the start. The frontier array is the one of the fine graph. -/
def mlCoarsen (env : SEnv) (p : Path) (b : Vgraph) (r : Coarsen.Result) : Vgraph :=
  { env.blank p with
    s := r.graph, parttax := ⟨r.graph.baseval, r.graph.baseval + r.graph.vertnbr, env.junk p⟩, frontab := b.frontab, dwgt0 := b.dwgt0, dwgt1 := b.dwgt1 }

/-- State of the loop on coarse vertices: `fineparttax`, `finefrontab`, `finefronnbr`, `finecompsize1`. -/
structure MlState where
  part : Arr Int
  fron : Arr Int
  nbr : Int
  size1 : Int

/-- Body of the loop on coarse vertices — vgraph_separate_ml.c:160–184. -/
def mlStep (mult : Arr (Int × Int)) (cpart : Arr Int) (c : Int) (s : MlState) : M MlState := do
  let (v0, v1) ← mult.rd c
  let partval ← cpart.rd c
  let part ← s.part.wr v0 partval
  if partval ≠ 2 then do
    if v0 ≠ v1 then return { s with part := (← part.wr v1 partval), size1 := s.size1 + partval } else return { s with part := part }
  else do
    let fron ← s.fron.wr s.nbr v0
    if v0 ≠ v1 then return { s with part := (← part.wr v1 partval), fron := (← fron.wr (s.nbr + 1) v1), nbr := s.nbr + 2 }
    else return { s with part := part, fron := fron, nbr := s.nbr + 1 }

/-- `vgraphSeparateMlUncoarsen`, when there is a coarse graph — vgraph_separate_ml.c:149–196. The frontier arrays of the two graphs are the same. -/
def mlUncoarsen (b cb : Vgraph) (mult : Arr (Int × Int)) : M Vgraph := do
  let s ← forUp cb.s.baseval cb.s.vertnnd ⟨b.parttax, cb.frontab, 0, cb.compsize1⟩ (mlStep mult cb.parttax)
  return { b with
    parttax := s.part, frontab := s.fron, fronnbr := s.nbr, compload0 := cb.compload0, compload1 := cb.compload1, compload2 := cb.compload2, comploaddlt := cb.comploaddlt,
    compsize0 := b.s.vertnbr - s.nbr - s.size1, compsize1 := s.size1 }

/-- End of a level: the separation of the coarse graph is brought back to the fine graph, and refined — vgraph_separate_ml.c:220–224. -/
def mlUp (asc : SMethod) (p : Path) (b : Vgraph) (mult : Arr (Int × Int)) (o : Int) (cb : Vgraph) : M (Int × Vgraph) := do
  if o = 0 then do
    let b ← mlUncoarsen b cb mult
    asc (4 :: p) b
  else return (o, { b with frontab := cb.frontab })

/-- `vgraphSeparateMl2` — vgraph_separate_ml.c:210–234. The first parameter bounds the number of levels. -/
def separateMl2 (env : SEnv) (asc low : SMethod) : Nat → SMethod
  | 0, _, _ => throw .fuel
  | n + 1, p, b => do
    match ← env.coarsen p b.s with
    | some r => do
      let (o, cb) ← separateMl2 env asc low n (3 :: p) (mlCoarsen env p b r)
      mlUp asc p b r.mult o cb
    | none => do low (5 :: p) (← zero b)

/-! ## Strategies -/

/-- Strategies. Conditions may depend on values that the model leaves out, such as the level: they depend on the path. -/
inductive SStrat where
  | empty
  | zr
  | gp (passnbr : Int)
  | gg (passnbr : Int)
  | fm (para : SfParam)
  | df (para : SdParam)
  | ml (asc low : SStrat)
  | bd (distmax : Int) (bnd org : SStrat)
  /-- the file may not be written -/
  | vw (fails : Path → Bool)
  | concat (a b : SStrat)
  | cond (test : Path → Vgraph → Option Bool) (a b : SStrat)
  | cond1 (test : Path → Vgraph → Option Bool) (a : SStrat)
  | select (a b : SStrat)
  | ext (f : SMethod)

/-- Initial values of a store, after `vgraphStoreInit`. -/
def stInit (env : SEnv) (p : Path) (b : Vgraph) : Store := storeInit b (env.junk (0 :: p)) (env.junk (1 :: p)) (env.store p)

/-- The first strategy of a selection is followed by a save; the initial separation is put back — vgraph_separate_st.c:303–310. -/
def selFirst (env : SEnv) (p : Path) (r : Int × Vgraph) (s1 : Store) : M (Vgraph × Store) := do
  if r.1 ≠ 0 then do
    let b ← storeUpdt r.2 s1
    return (b, ← storeSave b (stInit env (3 :: p) b))
  else do
    let s0 ← storeSave r.2 (stInit env (3 :: p) r.2)
    return (← storeUpdt r.2 s1, s0)

/-- Contents of the arrays that are allocated for a band graph. -/
def bdJunk (env : SEnv) (p : Path) : BdJunk := ⟨env.junk (10 :: p), env.junk (11 :: p), env.junk (12 :: p), env.junk (13 :: p), env.junk (14 :: p), env.junk (15 :: p)⟩

/-- `vgraphSeparateSt` — vgraph_separate_st.c:235–337. The C function `abs`, which is on type `int`, is arbitrary. `fuel` bounds the numbers of steps of refinement. `vgraphSeparateVw`,
in vgraph_separate_vw.c:82–111, only writes a file. -/
def separateSt (env : SEnv) (fuel : Nat) : SStrat → SMethod
  | .empty, _, b => return (0, b)
  | .zr, _, b => do return (0, ← separateZr b)
  | .gp n, p, b => do return (0, ← separateGp (env.junk p) n b)
  | .gg n, p, b => do return (0, ← separateGg (env.gg p b) n b)
  | .fm para, p, b => do
    return (0, ← separateFm ⟨env.fmJunk p, env.order p, env.absI⟩ (separateGg (env.gg p b) 4) para (env.mat p b) fuel b)
  | .df para, p, b => do return (0, ← separateDf (env.df p) para b)
  | .ml asc low, p, b => separateMl2 env (fun q => separateSt env fuel asc q) (fun q => separateSt env fuel low q) (b.s.vertnbr.toNat + 1) p b
  | .bd distmax bnd org, p, b => separateBd (bdJunk env p) (separateSt env fuel bnd (1 :: p)) (separateSt env fuel org (2 :: p)) distmax b
  | .vw fails, p, b => return (if fails p then 1 else 0, b)
  | .concat s t, p, b => do
    let (o, b) ← separateSt env fuel s (1 :: p) b
    if o = 0 then separateSt env fuel t (2 :: p) b else return (o, b)
  | .cond c s t, p, b =>
    match c p b with
    | none => return (1, b)
    | some true => separateSt env fuel s (1 :: p) b
    | some false => separateSt env fuel t (2 :: p) b
  | .cond1 c s, p, b =>
    match c p b with
    | none => return (1, b)
    | some true => separateSt env fuel s (1 :: p) b
    | some false => return (0, b)
  | .select s t, p, b => do
    let s1 ← storeSave b (stInit env (4 :: p) b)
    let (b, s0) ← selFirst env p (← separateSt env fuel s (1 :: p) b) s1
    let (o, b) ← separateSt env fuel t (2 :: p) b
    let b ← (if o ≠ 0 then storeUpdt b s1 else return b)
    let compload2 := b.s.velosum - s0.compload0 - s0.compload1
    if compload2 < b.compload2 ∨ (compload2 = b.compload2 ∧ env.absI s0.comploaddlt < env.absI b.comploaddlt) then return (0, ← storeUpdt b s0)
    else return (0, b)
  | .ext f, p, b => f p b

end Scotch.Separ
