import Verif.HOrder.Spec

/-!
# Check of halo graphs: model

src/libscotch/hgraph_check.c. This check is made on the halo graphs that orderings build, when the library is compiled for it.
-/

set_option autoImplicit false

namespace Scotch.HOrder
open Graph

/-- Body of the loop on vertices that are not in the halo — hgraph_check.c:98–111. -/
def hcheckVert (h : Hgraph) (v : Int) (sum : Int) : M (Loop Int Unit) := do
  let nh ← (unhalo h).rdVend v
  let b ← h.s.verttax.rd v
  let nd ← h.s.rdVend v
  if nh < b ∨ nh > nd then return .brk ()
  else
    match h.s.edlotax with
    | none => return .next sum
    | some w => return .next (← forUp b nh sum fun e t => do return t + (← w.rd e))

/-- Body of the loop on vertices of the halo — hgraph_check.c:118–125. -/
def hcheckHalo (h : Hgraph) (v : Int) (_ : Unit) : M (Loop Unit Unit) := do
  let b ← h.s.verttax.rd v
  let nd ← h.s.rdVend v
  forUpB b nd () fun e _ => do
    if (← h.s.edgetax.rd e) ≥ h.vnohnnd then return .brk () else return .next ()

/-- Check of the halo, from line 87 on — hgraph_check.c:87–127. -/
def hcheckRest (h : Hgraph) : M Bool := do
  if h.vnohnbr < 0 ∨ h.vnohnbr > h.s.vertnbr ∨ h.vnohnnd ≠ h.vnohnbr + h.s.baseval ∨ h.vnlosum > h.s.velosum ∨ h.enohnbr > h.s.edgenbr ∨ h.enlosum < h.enohnbr then return false
  else
    match ← forUpB h.s.baseval h.vnohnnd (if h.s.edlotax.isNone then h.enohnbr else 0) (hcheckVert h) with
    | .brk _ => return false
    | .next sum =>
      if h.enlosum ≠ sum then return false
      else
        match ← forUpB h.vnohnnd h.s.vertnnd () (hcheckHalo h) with
        | .brk _ => return false
        | .next _ => return true

/-- `hgraphCheck` — hgraph_check.c:74–128: `true` when 0 is returned. -/
def hcheck (numMax : Int) (h : Hgraph) : M Bool := do
  if ← h.s.check numMax then hcheckRest h else return false

/-! ## Specification -/

/-- What the check finds out. -/
structure Checked (h : Hgraph) : Prop where
  whole : h.s.Consistent
  /-- the halo is made of the last vertices -/
  nbr : 0 ≤ h.vnohnbr ∧ h.vnohnbr ≤ h.s.vertnbr ∧ h.vnohnnd = h.s.baseval + h.vnohnbr
  sums : h.vnlosum ≤ h.s.velosum ∧ h.enohnbr ≤ h.s.edgenbr
  /-- arcs without the halo are the first ones of vertices -/
  ends : ∀ v, (unhalo h).Vertex v → h.s.vert v ≤ (unhalo h).vend v ∧ (unhalo h).vend v ≤ h.s.vend v
  /-- the sum of their loads -/
  enlosum : h.enlosum = if h.s.edlotax.isNone then h.enohnbr else sumI h.s.baseval h.vnohnnd (fun v => sumI (h.s.vert v) ((unhalo h).vend v) h.s.edlo)
  /-- halo vertices are not adjacent to one another -/
  halo : ∀ v e, h.s.Vertex v → h.vnohnnd ≤ v → h.s.vert v ≤ e → e < h.s.vend v → h.s.dest e < h.vnohnnd

end Scotch.HOrder
