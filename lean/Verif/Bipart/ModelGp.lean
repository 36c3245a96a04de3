import Verif.Bipart.Model

/-!
# Bipartition by the Gibbs-Poole-Stockmeyer method: model

src/libscotch/bgraph_bipart_gp.c and bgraph_bipart_gp.h.
-/

set_option autoImplicit false

namespace Scotch.Bipart

/-- Queue and complementary vertex arrays — bgraph_bipart_gp.h:72–83. The queue is flushed by setting `head` and `tail`
to 0, grows at `head`, and is read at `tail`. -/
structure Gp where
  queu : Arr Int
  head : Int
  tail : Int
  pass : Arr Int
  dist : Arr Int

/-- `bgraphBipartGpQueuePut`. -/
def gpPut (s : Gp) (v : Int) : M Gp := do
  let queu ← s.queu.wr s.head v
  return { s with queu := queu, head := s.head + 1 }

/-- `QueuePut`, then record of pass and distance. -/
def gpVisit (s : Gp) (v passnum distval : Int) : M Gp := do
  let s ← gpPut s v
  let pass ← s.pass.wr v passnum
  let dist ← s.dist.wr v distval
  return { s with pass := pass, dist := dist }

/-- Queue with only one vertex — bgraph_bipart_gp.c:136–139, 172–175. -/
def gpStart (s : Gp) (v passnum : Int) : M Gp := gpVisit { s with head := 0, tail := 0 } v passnum 0

/-- Neighbours of a vertex — bgraph_bipart_gp.c:159–168, 190–199. -/
def gpArcs (g : Graph) (v passnum distval : Int) (s : Gp) : M Gp :=
  g.forArcs v s fun _ w s => do
    if (← s.pass.rd w) < passnum then gpVisit s w passnum distval else return s

/-- Current peripheral vertex. -/
structure Diam where
  num : Int
  val : Int
  deg : Int
  flag : Int

/-- Update of the peripheral vertex — bgraph_bipart_gp.c:149–156. -/
def gpDiam (v distval deg : Int) (d : Diam) : Diam :=
  if distval > d.val ∨ (distval = d.val ∧ deg < d.deg) then ⟨v, distval, deg, 1⟩ else d

/-- One turn of the breadth-first search — bgraph_bipart_gp.c:141–169. -/
def gpSearchStep (g : Graph) (passnum : Int) (s : Gp × Diam) : M (Loop (Gp × Diam) (Gp × Diam)) := do
  let v ← s.1.queu.rd s.1.tail
  let distval ← s.1.dist.rd v
  let d := gpDiam v distval ((← g.rdVend v) - (← g.verttax.rd v)) s.2
  let s ← gpArcs g v passnum (distval + 1) { s.1 with tail := s.1.tail + 1 }
  if s.head ≤ s.tail then return .brk (s, d) else return .next (s, d)

/-- State of the loop on passes. -/
structure GpPass where
  gp : Gp
  diam : Diam
  passnum : Int

/-- One turn of the loop on passes — bgraph_bipart_gp.c:134–170. -/
def gpPassStep (g : Graph) (passnbr : Int) (s : GpPass) : M (Loop GpPass GpPass) := do
  if ¬ s.passnum < passnbr then return .brk s
  else if s.diam.flag = 0 then return .brk { s with diam := { s.diam with flag := s.diam.flag - 1 } }
  else do
    let d := { s.diam with flag := s.diam.flag - 1 }
    let gp ← gpStart s.gp d.num s.passnum
    let (gp, d) ← loopM (gpSearchStep g s.passnum) (g.vertnbr.toNat + 1) (gp, d)
    return .next ⟨gp, d, s.passnum + 1⟩

/-- State of the growth of part 1. -/
structure GpGrow where
  gp : Gp
  part : Arr Int
  compsize0 : Int
  compload0dlt : Int
  commloadextn : Int

/-- One turn of the growth of part 1 — bgraph_bipart_gp.c:177–200. -/
def gpGrowStep (b : Bgraph) (passnum : Int) (s : GpGrow) : M (Loop GpGrow GpGrow) := do
  let v ← s.gp.queu.rd s.gp.tail
  let part ← s.part.wr v 1
  let compload0dlt := s.compload0dlt - (← b.s.rdVelo v)
  let commloadextn := s.commloadextn + (← rdVeex b.veextax v)
  let distval := (← s.gp.dist.rd v) + 1
  let gp ← gpArcs b.s v passnum distval { s.gp with tail := s.gp.tail + 1 }
  let s : GpGrow := ⟨gp, part, s.compsize0 - 1, compload0dlt, commloadextn⟩
  if compload0dlt > 0 ∧ ¬ gp.head ≤ gp.tail then return .next s else return .brk s

/-- State of the computation of the frontier. -/
structure GpFron where
  tail : Int
  dist : Arr Int
  frontab : Arr Int
  fronnbr : Int
  commloadintn : Int

/-- Arc of a vertex of the remaining queue — bgraph_bipart_gp.c:224–233. -/
def gpFronArc (b : Bgraph) (part : Arr Int) (e w : Int) (s : GpFron) : M GpFron := do
  if (← part.rd w) = 1 then do
    let edloval ← b.s.rdEdlo e
    if (← s.dist.rd w) ≠ -1 then do
      let frontab ← s.frontab.wr s.fronnbr w
      let dist ← s.dist.wr w (-1)
      return { s with commloadintn := s.commloadintn + edloval, frontab := frontab, fronnbr := s.fronnbr + 1, dist := dist }
    else return { s with commloadintn := s.commloadintn + edloval }
  else return s

/-- One turn of the loop on the remaining queue — bgraph_bipart_gp.c:208–235. -/
def gpFronStep (b : Bgraph) (part queu : Arr Int) (head : Int) (s : GpFron) : M (Loop GpFron GpFron) := do
  let v ← queu.rd s.tail
  let frontab ← s.frontab.wr s.fronnbr v
  let s ← b.s.forArcs v { s with tail := s.tail + 1, frontab := frontab, fronnbr := s.fronnbr + 1 } (gpFronArc b part)
  if head ≤ s.tail then return .brk s else return .next s

/-- State of the loop on roots. -/
structure GpRoot where
  grow : GpGrow
  frontab : Arr Int
  fronnbr : Int
  commloadintn : Int
  rootnum : Int

/-- `while (vexxtax[rootnum].passnum != 0) rootnum ++;` — bgraph_bipart_gp.c:131–132. -/
def gpNextRoot (pass : Arr Int) (fuel : Nat) (rootnum : Int) : M Int :=
  loopM (fun r => do if (← pass.rd r) ≠ 0 then return .next (r + 1) else return .brk r) fuel rootnum

/-- One turn of the loop on roots — bgraph_bipart_gp.c:123–239. -/
def gpRootStep (b : Bgraph) (passnbr : Int) (s : GpRoot) : M (Loop GpRoot GpRoot) := do
  if ¬ (s.rootnum < b.s.vertnnd ∧ s.grow.compload0dlt > 0) then return .brk s
  else do
    let rootnum ← gpNextRoot s.grow.gp.pass (b.s.vertnbr.toNat + 1) s.rootnum
    let p ← loopM (gpPassStep b.s passnbr) (passnbr.toNat + 1) ⟨s.grow.gp, ⟨rootnum, 0, 0, 1⟩, 1⟩
    let gp ← gpStart p.gp p.diam.num p.passnum
    let grow ← loopM (gpGrowStep b p.passnum) (b.s.vertnbr.toNat + 1) { s.grow with gp := gp }
    if ¬ grow.gp.head ≤ grow.gp.tail then do
      let f ← loopM (gpFronStep b grow.part grow.gp.queu grow.gp.head) (b.s.vertnbr.toNat + 1)
        ⟨grow.gp.tail, grow.gp.dist, s.frontab, 0, s.commloadintn⟩
      return .brk ⟨grow, f.frontab, f.fronnbr, f.commloadintn, rootnum⟩
    else return .next ⟨grow, s.frontab, s.fronnbr, s.commloadintn, rootnum + 1⟩

/-- Rest of `bgraphBipartGp` once all vertices are in part 0 — bgraph_bipart_gp.c:109–257. -/
def gpMain (junk : Int → Int) (passnbr : Int) (b : Bgraph) : M Bgraph := do
  let n := b.s.baseval + b.s.vertnbr
  let r ← loopM (gpRootStep b passnbr) (b.s.vertnbr.toNat + 1)
    ⟨⟨⟨⟨0, b.s.vertnbr, junk⟩, 0, 0, Arr.const b.s.baseval n 0, Arr.const b.s.baseval n 0⟩, b.parttax, b.s.vertnbr,
      b.s.velosum - b.compload0avg, 0⟩, b.frontab, b.fronnbr, 0, b.s.baseval⟩
  return { b with
    parttax := r.grow.part, frontab := r.frontab, fronnbr := r.fronnbr,
    compload0 := b.compload0avg + r.grow.compload0dlt, compload0dlt := r.grow.compload0dlt, compsize0 := r.grow.compsize0,
    commload := b.commloadextn0 + r.grow.commloadextn + r.commloadintn * b.domndist,
    commgainextn := b.commgainextn0 - r.grow.commloadextn * 2 }

/-- `bgraphBipartGp` — bgraph_bipart_gp.c:86–258. -/
def bipartGp (junk : Int → Int) (passnbr : Int) (b : Bgraph) : M Bgraph := do
  if b.compsize0 ≠ b.s.vertnbr then gpMain junk passnbr (← zero b) else gpMain junk passnbr b

end Scotch.Bipart
