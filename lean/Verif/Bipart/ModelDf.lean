import Verif.Bipart.ModelGp
import Verif.Rand.Model

/-!
# Bipartition by diffusion: model

src/libscotch/bgraph_bipart_df.c. Floating-point operations are arbitrary functions. Between two synchronisations, the threads are run one after the other: they write disjoint cells, unless a value is not a number. `threadReduce` and
`threadScan` are represented by what they compute (C35). The contributions to anchor vertices (bgraph_bipart_df.c:329–338, 367–373) are reduced but never used, and are left out; so is the balance `bbalval` (525).
-/

set_option autoImplicit false

namespace Scotch.Bipart

/-- Floating-point operations, on type `float`. -/
structure Flo where
  F : Type
  ofInt : Int → F
  /-- `BGRAPHBIPARTDFEPSILON` -/
  eps : F
  neg : F → F
  add : F → F → F
  sub : F → F → F
  mul : F → F → F
  div : F → F → F
  /-- `x <= 0.0F` -/
  le0 : F → Bool
  /-- `x >= 0.0F` -/
  ge0 : F → Bool
  isnan : F → Bool

/-- Number of threads, floating-point operations, and contents of allocated memory: difference arrays, inverse of loads of each thread, and frontier of each thread. -/
structure DfEnv where
  thrdnbr : Int
  flo : Flo
  difo : Int → flo.F
  difn : Int → flo.F
  iels : Int → Int → flo.F
  fron : Int → Int → Int

/-- Parameters; `bal` for `BGRAPHBIPARTDFTYPEBAL`. -/
structure DfParam where
  passnbr : Int
  bal : Bool

variable (env : DfEnv)

/-- First vertex of a thread — bgraph_bipart_df.c:191. -/
def dfStart (b : Bgraph) (t : Int) : M Int := do return b.s.baseval + (← Rand.dataScan (b.s.vertnbr - 2) env.thrdnbr t)

/-- End of the vertices of a thread — bgraph_bipart_df.c:192–199. -/
def dfEnd (b : Bgraph) (t : Int) : M Int := if t = env.thrdnbr - 1 then return b.s.vertnnd else dfStart env b (t + 1)

/-- End of the vertices of a thread that are not anchors — bgraph_bipart_df.c:192–199. -/
def dfAnc (b : Bgraph) (t : Int) : M Int := if t = env.thrdnbr - 1 then return b.s.vertnnd - 2 else dfStart env b (t + 1)

/-! ## Initial values -/

/-- Inverse of the sum of the loads of a vertex, and external gain — bgraph_bipart_df.c:226–254. The sum of loads is also computed by a loop when edges have no load. -/
def dfIels (b : Bgraph) (v : Int) : M (env.flo.F × Int) := do
  let edlosum ← b.s.forArcs v 0 fun e _ s => do return s + (← b.s.rdEdlo e)
  let veexval ← rdVeex b.veextax v
  return (env.flo.div (env.flo.ofInt 1) (env.flo.ofInt (edlosum * b.domndist + veexval - 2 * min veexval 0)), veexval)

/-- State of the first phase: `difotax`, and, for each thread, `ielstax`; sums of external gains. -/
structure DfInit where
  difo : Arr env.flo.F
  iels : Int → Arr env.flo.F
  veexsum : Int
  veexsum1 : Int

/-- First phase of a thread — bgraph_bipart_df.c:207–255, and reduction of the sums (256–263). -/
def dfInitThread (b : Bgraph) (t : Int) (s : DfInit env) : M (DfInit env) := do
  let lo ← dfStart env b t
  let hi ← dfEnd env b t
  let (difo, iels, veexsum, veexsum1) ← forUp lo hi (s.difo, (⟨lo, hi, env.iels t⟩ : Arr env.flo.F), s.veexsum, s.veexsum1) fun v (d, i, x, x1) => do
    let (f, veexval) ← dfIels env b v
    return (← d.wr v (env.flo.ofInt 0), ← i.wr v f, x + veexval, x1 + min veexval 0)
  return ⟨difo, fun u => if u = t then iels else s.iels u, veexsum, veexsum1⟩

/-- External gains are added to the loads of anchor vertices — bgraph_bipart_df.c:265–268. -/
def dfAncIels (b : Bgraph) (x x1 : Int) (a : Arr env.flo.F) : M (Arr env.flo.F) :=
  match b.veextax with
  | none => return a
  | some _ => do
    let f := env.flo
    let a ← a.wr (b.s.vertnnd - 2) (f.div (f.ofInt 1) (f.add (f.div (f.ofInt 1) (← a.rd (b.s.vertnnd - 2))) (f.ofInt (x - x1))))
    a.wr (b.s.vertnnd - 1) (f.div (f.ofInt 1) (f.sub (f.div (f.ofInt 1) (← a.rd (b.s.vertnnd - 1))) (f.ofInt x1)))

/-- First phase — bgraph_bipart_df.c:207–273. `vanc` holds the loads of the anchor vertices. -/
def dfInit (b : Bgraph) (vanc : env.flo.F × env.flo.F) : M (Arr env.flo.F × (Int → Arr env.flo.F)) := do
  let s ← forUp 0 env.thrdnbr ⟨⟨b.s.baseval, b.s.baseval + b.s.vertnbr, env.difo⟩, fun _ => ⟨0, 0, env.difo⟩, 0, 0⟩ (dfInitThread env b)
  let l := env.thrdnbr - 1
  let a ← dfAncIels env b s.veexsum s.veexsum1 (s.iels l)
  let difo ← s.difo.wr (b.s.vertnnd - 2) (env.flo.mul vanc.1 (← a.rd (b.s.vertnnd - 2)))
  let difo ← difo.wr (b.s.vertnnd - 1) (env.flo.mul vanc.2 (← a.rd (b.s.vertnnd - 1)))
  return (difo, fun u => if u = l then a else s.iels u)

/-! ## Passes -/

/-- Contribution of external gains — bgraph_bipart_df.c:320–340. -/
def dfVeex (b : Bgraph) (difo : Arr env.flo.F) (v : Int) (old : env.flo.F × env.flo.F) (d : env.flo.F) : M env.flo.F :=
  match b.veextax with
  | none => return d
  | some a => do
    let veexval ← a.rd v
    if veexval ≠ 0 then do
      let _ ← difo.rd v
      if veexval > 0 then return env.flo.add d (env.flo.mul (env.flo.ofInt veexval) old.1)
      else return env.flo.sub d (env.flo.mul (env.flo.ofInt veexval) old.2)
    else return d

/-- Absorption of the load of a vertex — bgraph_bipart_df.c:346–355. -/
def dfAbsorb (d velf : env.flo.F) : env.flo.F :=
  let f := env.flo
  if f.ge0 d then (if f.le0 (f.sub d velf) then f.eps else f.sub d velf)
  else (if f.ge0 (f.add d velf) then f.neg f.eps else f.add d velf)

/-- New value of a vertex, before the division by the sum of loads — bgraph_bipart_df.c:308–355. -/
def dfDiff (b : Bgraph) (difo : Arr env.flo.F) (old : env.flo.F × env.flo.F) (vancval : env.flo.F) (v : Int) : M env.flo.F := do
  let f := env.flo
  let d ← b.s.forArcs v (f.ofInt 0) fun e w d => do
    let x ← difo.rd w
    match b.s.edlotax with
    | none => return f.add d x
    | some a => return f.add d (f.mul x (f.ofInt (← a.rd e)))
  let d ← dfVeex env b difo v old (f.mul d (f.ofInt b.domndist))
  let velf ← b.s.rdVelo v
  return dfAbsorb env (f.add d vancval) (f.ofInt velf)

/-- Loop on vertices — bgraph_bipart_df.c:303–365. Returns `difntax`, `vertnum`, and whether a value is not a number: the value is then written at the end of the range. -/
def dfRange (b : Bgraph) (iels difo : Arr env.flo.F) (old : env.flo.F × env.flo.F) (vancval : env.flo.F) (lo hi : Int) (difn : Arr env.flo.F) : M (Arr env.flo.F × Int × Bool) := do
  let r ← forUpB lo hi difn fun v difn => do
    let d ← dfDiff env b difo old vancval v
    if env.flo.isnan d then return .brk (← difn.wr hi (env.flo.mul d (← iels.rd hi)))
    else return .next (← difn.wr v (env.flo.mul d (← iels.rd v)))
  match r with
  | .next difn => return (difn, max lo hi, false)
  | .brk difn => return (difn, hi + 1, true)

/-- Load of an anchor vertex, twice — bgraph_bipart_df.c:380. -/
def dfVanc (vanc : env.flo.F × env.flo.F) (k : Int) : M env.flo.F :=
  if k = 0 then return env.flo.add vanc.1 vanc.1
  else if k = 1 then return env.flo.add vanc.2 vanc.2
  else throw .oob

/-- Anchor vertices: rounds of the loop of lines 302–381 after the first one, for the last thread. -/
def dfAnchors (b : Bgraph) (iels difo : Arr env.flo.F) (old vanc : env.flo.F × env.flo.F) (s : Arr env.flo.F × Int × Bool) : M (Arr env.flo.F × Bool) := do
  let anc := b.s.vertnnd - 2
  let (difn, v, a) := s
  let (difn, v, a1) ← dfRange env b iels difo old (← dfVanc env vanc (v - anc)) v (anc + 1) difn
  if v ≥ b.s.vertnnd then return (difn, a || a1)
  else do
    let (difn, _, a2) ← dfRange env b iels difo old (← dfVanc env vanc (v - anc)) v (anc + 2) difn
    return (difn, a || a1 || a2)

/-- A pass of a thread — bgraph_bipart_df.c:292–381. A thread that has met a value which is not a number does not take part in the reduction of line 371, for which the others wait. -/
def dfPassThread (b : Bgraph) (iels : Int → Arr env.flo.F) (difo : Arr env.flo.F) (vanc : env.flo.F × env.flo.F) (t : Int) (s : Arr env.flo.F × Bool) : M (Arr env.flo.F × Bool) := do
  let lo ← dfStart env b t
  let anc ← dfAnc env b t
  let old := (← difo.rd (b.s.vertnnd - 2), ← difo.rd (b.s.vertnnd - 1))
  let r ← dfRange env b (iels t) difo old (env.flo.ofInt 0) lo anc s.1
  if r.2.1 ≠ anc ∧ b.veextax.isSome ∧ env.thrdnbr > 1 then throw .fuel
  else if t = env.thrdnbr - 1 then do
    let (difn, a) ← dfAnchors env b (iels t) difo old vanc r
    return (difn, s.2 || a)
  else return (r.1, s.2 || r.2.2)

/-- Passes — bgraph_bipart_df.c:286–395. After an abort, the values of the previous pass are kept. -/
def dfPasses (b : Bgraph) (iels : Int → Arr env.flo.F) (vanc : env.flo.F × env.flo.F) (passnbr : Int) (difo : Arr env.flo.F) : M (Arr env.flo.F) := do
  let r ← forUpB 0 passnbr (difo, (⟨b.s.baseval, b.s.baseval + b.s.vertnbr, env.difn⟩ : Arr env.flo.F)) fun _ (difo, difn) => do
    let (difn, abrt) ← forUp 0 env.thrdnbr (difn, false) (dfPassThread env b iels difo vanc)
    if abrt then return .brk difo else return .next (difn, difo)
  match r with
  | .next (difo, _) => return difo
  | .brk difo => return difo

/-! ## Parts -/

/-- Parts — bgraph_bipart_df.c:397–398. -/
def dfParts (b : Bgraph) (difo : Arr env.flo.F) (t : Int) (part : Arr Int) : M (Arr Int) := do
  let lo ← dfStart env b t
  let hi ← dfEnd env b t
  forUp lo hi part fun v part => do part.wr v (if env.flo.le0 (← difo.rd v) then 0 else 1)

/-- Values of a thread: its frontier array, `fronnbr`, `compload1`, `compsize1`, `commloadextn`, `commloadintn`, `commgainextn`. -/
structure DfSum where
  fron : Arr Int
  nbr : Int
  load1 : Int
  size1 : Int
  extn : Int
  intn : Int
  gain : Int

/-- Body of the loop on vertices — bgraph_bipart_df.c:411–439. -/
def dfSumVert (b : Bgraph) (part : Arr Int) (v : Int) (s : DfSum) : M DfSum := do
  let partval ← part.rd v
  let veloval ← b.s.rdVelo v
  let veexval ← rdVeex b.veextax v
  let commload ← b.s.forArcs v 0 fun e w c => do
    let partend ← part.rd w
    return c + xorP partval partend * (← b.s.rdEdlo e)
  let s := { s with load1 := s.load1 + partval * veloval, size1 := s.size1 + partval, extn := s.extn + veexval * partval, intn := s.intn + commload, gain := s.gain + veexval * (1 - 2 * partval) }
  if commload ≠ 0 then return { s with fron := (← s.fron.wr s.nbr v), nbr := s.nbr + 1 } else return s

/-- Values of a thread — bgraph_bipart_df.c:201–215, 404–446. The first thread uses the frontier array of the bipartition. -/
def dfSumThread (b : Bgraph) (part : Arr Int) (t : Int) (tab : Int → DfSum) : M (Int → DfSum) := do
  let lo ← dfStart env b t
  let hi ← dfEnd env b t
  let fron := if t ≠ 0 then ⟨0, hi - lo, env.fron t⟩ else b.frontab
  let s ← forUp lo hi ⟨fron, 0, 0, 0, 0, 0, 0⟩ (dfSumVert b part)
  return fun u => if u = t then s else tab u

/-- Sum of the values of threads 0 to `t`: `threadScan`, bgraph_bipart_df.c:449. -/
def dfScan (f : Int → Int) (t : Int) : Int := sumI 0 (t + 1) f

/-- Copy of the frontier of a thread — bgraph_bipart_df.c:452–453. -/
def dfCopy (tab : Int → DfSum) (t : Int) (fron : Arr Int) : M (Arr Int) :=
  forUp 0 (tab t).nbr fron fun i fron => do fron.wr (dfScan (fun u => (tab u).nbr) t - (tab t).nbr + i) (← (tab t).fron.rd i)

/-- Loads of the anchor vertices — bgraph_bipart_df.c:505–510. -/
def dfLoads (b : Bgraph) (bal : Bool) : env.flo.F × env.flo.F :=
  let compload0 := if bal then b.compload0avg else if b.compload0 < b.compload0min then b.compload0min else if b.compload0 > b.compload0max then b.compload0max else b.compload0
  (env.flo.ofInt (- compload0), env.flo.sub (env.flo.ofInt (b.s.velosum - compload0)) env.flo.eps)

/-- `bgraphBipartDf` — bgraph_bipart_df.c:142–537. -/
def bipartDf (para : DfParam) (b : Bgraph) : M Bgraph := do
  let vanc := dfLoads env b para.bal
  let (difo, iels) ← dfInit env b vanc
  let difo ← dfPasses env b iels vanc para.passnbr difo
  let part ← forUp 0 env.thrdnbr b.parttax (dfParts env b difo)
  let tab ← forUp 0 env.thrdnbr (fun _ => ⟨b.frontab, 0, 0, 0, 0, 0, 0⟩) (dfSumThread env b part)
  let fron ← forUp 1 env.thrdnbr (tab 0).fron (dfCopy tab)
  let l := env.thrdnbr - 1
  let compload0 := b.s.velosum - dfScan (fun u => (tab u).load1) l
  return { b with
    parttax := part, frontab := fron, fronnbr := dfScan (fun u => (tab u).nbr) l, compload0 := compload0, compload0dlt := compload0 - b.compload0avg, compsize0 := b.s.vertnbr - dfScan (fun u => (tab u).size1) l,
    commload := dfScan (fun u => (tab u).extn) l + b.commloadextn0 + (dfScan (fun u => (tab u).intn) l).tdiv 2 * b.domndist, commgainextn := dfScan (fun u => (tab u).gain) l }

end Scotch.Bipart
