import Verif.Separ.Model

/-!
# Separation by the Gibbs-Poole-Stockmeyer method: model

src/libscotch/vgraph_separate_gp.c and vgraph_separate_gp.h. The queue and the search of a peripheral vertex
(vgraph_separate_gp.c:127–166) are the same as in bgraph_bipart_gp.c:131–170, statement for statement: their model is shared.
-/

set_option autoImplicit false

namespace Scotch.Separ
open Bipart (Gp gpVisit gpStart gpPassStep gpNextRoot)

/-- State of the growth of part 1. -/
structure GpGrow where
  gp : Gp
  part : Arr Int
  comploaddlt : Int
  compload2 : Int

/-- Vertex that enters the separator — vgraph_separate_gp.c:173–175, 200–202. -/
def gpSepar (b : Vgraph) (v veloval : Int) (s : GpGrow) : M GpGrow := do
  let part ← s.part.wr v 2
  return { s with part := part, comploaddlt := s.comploaddlt - veloval * b.dwgt1, compload2 := s.compload2 + veloval }

/-- Arc of a vertex — vgraph_separate_gp.c:190–204. -/
def gpGrowArc (b : Vgraph) (passnum distval : Int) (_e w : Int) (s : GpGrow) : M GpGrow := do
  let veloval ← b.s.rdVelo w
  if (← s.gp.pass.rd w) < passnum then do
    let gp ← gpVisit s.gp w passnum distval
    gpSepar b w veloval { s with gp := gp }
  else return s

/-- One turn of the growth of part 1 — vgraph_separate_gp.c:177–205. -/
def gpGrowStep (b : Vgraph) (passnum : Int) (s : GpGrow) : M (Loop GpGrow GpGrow) := do
  let v ← s.gp.queu.rd s.gp.tail
  let veloval ← b.s.rdVelo v
  let distval := (← s.gp.dist.rd v) + 1
  let part ← s.part.wr v 1
  let s ← b.s.forArcs v { gp := { s.gp with tail := s.gp.tail + 1 }, part := part, comploaddlt := s.comploaddlt - veloval * b.dwgt0, compload2 := s.compload2 - veloval }
    (gpGrowArc b passnum distval)
  if s.comploaddlt > 0 ∧ ¬ s.gp.head ≤ s.gp.tail then return .next s else return .brk s

/-- One turn of the loop on roots — vgraph_separate_gp.c:118–206. -/
def gpRootStep (b : Vgraph) (passnbr : Int) (s : Int × GpGrow) : M (Loop (Int × GpGrow) GpGrow) := do
  if ¬ (s.1 < b.s.vertnnd ∧ s.2.comploaddlt > 0) then return .brk s.2
  else do
    let rootnum ← gpNextRoot s.2.gp.pass (b.s.vertnbr.toNat + 1) s.1
    let p ← loopM (gpPassStep b.s passnbr) (passnbr.toNat + 1) ⟨s.2.gp, ⟨rootnum, 0, 0, 1⟩, 1⟩
    let gp ← gpStart p.gp p.diam.num p.passnum
    let veloval ← b.s.rdVelo p.diam.num
    let grow ← gpSepar b p.diam.num veloval { s.2 with gp := gp }
    let grow ← loopM (gpGrowStep b p.passnum) (b.s.vertnbr.toNat + 1) grow
    return .next (rootnum + 1, grow)

/-- Rest of `vgraphSeparateGp` once all vertices are in part 0 — vgraph_separate_gp.c:107–237. -/
def gpMain (junk : Int → Int) (passnbr : Int) (b : Vgraph) : M Vgraph := do
  let n := b.s.baseval + b.s.vertnbr
  let r ← loopM (gpRootStep b passnbr) (b.s.vertnbr.toNat + 1)
    (b.s.baseval, ⟨⟨⟨0, b.s.vertnbr, junk⟩, 0, 0, Arr.const b.s.baseval n 0, Arr.const b.s.baseval n 0⟩, b.parttax, b.s.velosum * b.dwgt1, 0⟩)
  finish b r.part r.comploaddlt r.compload2

/-- `vgraphSeparateGp` — vgraph_separate_gp.c:80–238. -/
def separateGp (junk : Int → Int) (passnbr : Int) (b : Vgraph) : M Vgraph := do
  if b.compsize0 ≠ b.s.vertnbr then gpMain junk passnbr (← zero b) else gpMain junk passnbr b

end Scotch.Separ
