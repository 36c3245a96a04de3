import Verif.Bipart.Model

/-!
# Bipartition by greedy graph growing: model

src/libscotch/bgraph_bipart_gg.c and bgraph_bipart_gg.h, with `SCOTCH_TABLE_GAIN` (bgraph_bipart_gg.c:72). The state of a vertex is 0 when it is free, 1 when it has gone to part 1, 2 when it is linked in the gain table
(bgraph_bipart_gg.h:111–113). `gainTablDel` does not change the links of the vertex that it removes (gain.h:129–130), so that a vertex that has been removed without going to part 1 still counts as linked. What is left arbitrary:
* the linked vertex that `gainTablFrst` returns (`pick`, which is only obeyed if it returns a linked vertex);
* the root vertex and the permutation drawn at random for each pass (`root`, `perm`);
* the values of `abs`, which is the `int` function of the C library, applied to integers that may be larger (`absI`).
-/

set_option autoImplicit false

namespace Scotch.Bipart

/-- Decisions that are left arbitrary. -/
structure GgOracle where
  pick : Nat → Int
  root : Int
  perm : Arr Int
  absI : Int → Int

/-- State of a pass. -/
structure Gg where
  st : Arr Int
  gain : Arr Int
  dlt : Int
  comm : Int
  tick : Nat

/-- Load of the arcs of a vertex — bgraph_bipart_gg.c:170, 184–186. -/
def ggLoad (b : Bgraph) (v : Int) : M Int :=
  match b.s.edlotax with
  | none => do return (← b.s.rdVend v) - (← b.s.verttax.rd v)
  | some edlotax => b.s.forArcs v 0 fun e _ c => do return c + (← edlotax.rd e)

/-- `commgain0` of a vertex — bgraph_bipart_gg.c:164–192. -/
def ggGain0 (b : Bgraph) (v : Int) : M Int := do
  let commload ← ggLoad b v
  return commload * b.domndist + (← rdVeex b.veextax v)

/-- Array of the `commgain0` — bgraph_bipart_gg.c:164–192. -/
def ggGains (b : Bgraph) (junk : Int → Int) : M (Arr Int) :=
  forUp b.s.baseval b.s.vertnnd ⟨b.s.baseval, b.s.baseval + b.s.vertnbr, junk⟩ fun v a => do a.wr v (← ggGain0 b v)

/-- Neighbour of a vertex that goes to part 1 — bgraph_bipart_gg.c:253–264. -/
def ggArc (b : Bgraph) (e w : Int) (s : Gg) : M Gg := do
  if (← s.st.rd w) ≠ 1 then do
    let gain ← s.gain.wr w ((← s.gain.rd w) - (← b.s.rdEdlo e) * (b.domndist * 2))
    let st ← s.st.wr w 2
    return { s with gain := gain, st := st }
  else return s

/-- A linked vertex, if any: the one that the oracle gives, or else the one of smallest number. -/
def ggFirst (b : Bgraph) (o : GgOracle) (s : Gg) : M (Option Int) := do
  let r ← forUpB b.s.baseval b.s.vertnnd () fun v _ => do
    if (← s.st.rd v) = 2 then return .brk v else return .next ()
  match r with
  | .next _ => return none
  | .brk v => if s.st.In (o.pick s.tick) ∧ s.st.get (o.pick s.tick) = 2 then return some (o.pick s.tick) else return some v

/-- One turn of the loop that grows part 1 — bgraph_bipart_gg.c:225–267: the loop ends with `true` if the balance would be worse. -/
def ggStep (b : Bgraph) (o : GgOracle) (s : Int × Gg) : M (Loop (Int × Gg) (Bool × Gg)) := do
  let v := s.1
  let veloval ← b.s.rdVelo v
  if o.absI (s.2.dlt - veloval) ≥ o.absI s.2.dlt ∧ veloval > 0 then return .brk (true, s.2)
  else do
    let st ← s.2.st.wr v 1
    let g ← s.2.gain.rd v
    let t ← b.s.forArcs v { s.2 with st := st, dlt := s.2.dlt - veloval, comm := s.2.comm + g } (ggArc b)
    match ← ggFirst b o t with
    | none => return .brk (false, t)
    | some w => return .next (w, { t with tick := t.tick + 1 })

/-- Next free vertex in the permutation — bgraph_bipart_gg.c:281–286: its index, and the vertex. -/
def ggScan (b : Bgraph) (perm st : Arr Int) (permnum : Int) : M (Option (Int × Int)) := do
  let r ← forUpB permnum b.s.vertnbr () fun i _ => do
    let v ← perm.rd i
    if (← st.rd v) = 0 then return .brk (i, v) else return .next ()
  match r with
  | .next _ => return none
  | .brk x => return some x

/-- One turn of the loop on roots — bgraph_bipart_gg.c:217–287. The root is linked to itself. -/
def ggRoot (b : Bgraph) (o : GgOracle) (s : Int × Int × Gg) : M (Loop (Int × Int × Gg) Gg) := do
  let st ← s.2.2.st.wr s.1 2
  let (stop, t) ← loopM (ggStep b o) (b.s.vertnbr.toNat + 1) (s.1, { s.2.2 with st := st })
  if stop then return .brk t
  else do
    match ← ggScan b o.perm t.st s.2.1 with
    | none => return .brk t
    | some (i, v) => return .next (v, i + 1, t)

/-- One pass — bgraph_bipart_gg.c:204–287. -/
def ggPass (b : Bgraph) (o : GgOracle) (gain0 : Arr Int) : M Gg :=
  loopM (ggRoot b o) (b.s.vertnbr.toNat + 1)
    (b.s.baseval + o.root, 0, ⟨Arr.const b.s.baseval (b.s.baseval + b.s.vertnbr) 0, gain0, b.s.velosum - b.compload0avg, b.commloadextn0, 0⟩)

/-- Parts of the vertices — bgraph_bipart_gg.c:298–299. -/
def ggParts (b : Bgraph) (st part : Arr Int) : M (Arr Int) :=
  forUp b.s.baseval b.s.vertnnd part fun v part => do
    let x ← st.rd v
    part.wr v (if x ≥ 2 then 2 else x)

/-- `contextIntRandVal` divides by its argument, the number of vertices — bgraph_bipart_gg.c:215. -/
def ggDraw (b : Bgraph) : M Unit := if b.s.vertnbr = 0 then throw .divZero else return ()

/-- Body of the loop on passes — bgraph_bipart_gg.c:203–301. The state holds the part array, the imbalance and the communication load of the graph. -/
def ggTry (b : Bgraph) (o : Int → GgOracle) (gain0 : Arr Int) (passnum : Int) (s : Arr Int × Int × Int) : M (Arr Int × Int × Int) := do
  ggDraw b
  let t ← ggPass b (o passnum) gain0
  let absI := (o passnum).absI
  if passnum = 0 ∨ s.2.2 > t.comm ∨ (s.2.2 = t.comm ∧ absI s.2.1 > absI t.dlt) then do
    let part ← ggParts b t.st s.1
    return (part, t.dlt, t.comm)
  else return s

/-- State of the computation of the frontier. -/
structure GgFron where
  part : Arr Int
  flag : Arr Int
  frontab : Arr Int
  fronnum : Int
  compsize1 : Int
  commgainextn : Int

/-- Neighbour of a vertex of the frontier of part 0 — bgraph_bipart_gg.c:316–327. The second element is `frontmp`. -/
def ggFronArc (_e w : Int) (s : GgFron × Int) : M (GgFron × Int) := do
  if (← s.1.part.rd w) = 1 then do
    if (← s.1.flag.rd w) ≠ 0 then do
      let frontab ← s.1.frontab.wr s.1.fronnum w
      let flag ← s.1.flag.wr w 0
      return ({ s.1 with frontab := frontab, fronnum := s.1.fronnum + 1, flag := flag }, 0)
    else return (s.1, 0)
  else return s

/-- Frontier around a vertex — bgraph_bipart_gg.c:309–329. -/
def ggFronVert (b : Bgraph) (v : Int) (s : GgFron) : M GgFron := do
  let frontab ← s.frontab.wr s.fronnum v
  let part ← s.part.wr v 0
  let (s, frontmp) ← b.s.forArcs v ({ s with frontab := frontab, fronnum := s.fronnum + 1, part := part }, 1) ggFronArc
  return { s with fronnum := s.fronnum - frontmp }

/-- Test of the part of a vertex — bgraph_bipart_gg.c:309. -/
def ggFronHead (b : Bgraph) (v partval : Int) (s : GgFron) : M GgFron := if partval > 1 then ggFronVert b v s else return s

/-- Body of the loop that builds the frontier — bgraph_bipart_gg.c:307–334. -/
def ggFronStep (b : Bgraph) (v : Int) (s : GgFron) : M GgFron := do
  let partval ← s.part.rd v
  let s ← ggFronHead b v partval s
  let x ← rdVeex b.veextax v
  return { s with compsize1 := s.compsize1 + partval % 2, commgainextn := s.commgainextn - partval % 2 * 2 * x }

/-- `bgraphBipartGg` — bgraph_bipart_gg.c:125–359, without `bbalval`. -/
def bipartGg (junk : Int → Int) (o : Int → GgOracle) (passnbr : Int) (b : Bgraph) : M Bgraph := do
  let gain0 ← ggGains b junk
  let (part, dlt, comm) ← forUp 0 passnbr (b.parttax, b.compload0dlt, b.commload) (ggTry b o gain0)
  let f ← forUp b.s.baseval b.s.vertnnd (⟨part, Arr.const b.s.baseval (b.s.baseval + b.s.vertnbr) 255, b.frontab, 0, 0, b.commgainextn0⟩ : GgFron) (ggFronStep b)
  return { b with
    parttax := f.part, frontab := f.frontab, fronnbr := f.fronnum, compload0 := b.compload0avg + dlt, compload0dlt := dlt, compsize0 := b.s.vertnbr - f.compsize1, commload := comm,
    commgainextn := f.commgainextn }

end Scotch.Bipart
