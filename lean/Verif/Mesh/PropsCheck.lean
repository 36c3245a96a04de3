import Verif.Mesh.LemmasCheck
import Verif.Mesh.Props

/-!
# C51 — checking of meshes

For a mesh whose arrays have their announced sizes, whose base value is that of its first range, and whose sums of loads can be represented, the checker accepts exactly the consistent meshes, apart from the number of arcs, which it never looks at (`C51_edgenbr_unchecked`): a mesh that has been accepted may thus make the routines that rely on this number write outside of their arrays.
-/

set_option autoImplicit false

namespace Scotch.Mesh

/-- **C51**, up to the number of arcs: the checker never accesses memory outside of the arrays, and accepts a mesh if and only if it is consistent — for the true number of arcs — and its number of isolated elements is right. -/
theorem C51_check_partial (numMax : Int) (m : Mesh) (hM : 0 ≤ numMax) (hb : m.baseval = min m.velmbas m.vnodbas) (ha : m.Allocated)
    (h1 : ∀ v, m.Elem v → sumI m.velmbas (v + 1) m.velo ≤ numMax) (h2 : ∀ v, m.Node v → sumI m.vnodbas (v + 1) m.vnlo ≤ numMax) :
    ∃ b, check numMax m = .ok b ∧ (b = true ↔ Consistent { m with edgenbr := m.arcs } ∧ m.veisnbr = m.isolated) := by
  obtain ⟨b, e, hb⟩ := Holds_iff_exists.1 (check_holds hM hb ha h1 h2)
  exact ⟨b, e, hb.trans ⟨Checked.consistent, fun h => Checked.of_consistent ha h.1 h.2⟩⟩

/-- **C51**, for meshes whose number of arcs is right. -/
theorem C51_check_exact_partial (numMax : Int) (m : Mesh) (hM : 0 ≤ numMax) (hb : m.baseval = min m.velmbas m.vnodbas) (ha : m.Allocated)
    (h1 : ∀ v, m.Elem v → sumI m.velmbas (v + 1) m.velo ≤ numMax) (h2 : ∀ v, m.Node v → sumI m.vnodbas (v + 1) m.vnlo ≤ numMax) (he : m.edgenbr = m.arcs) :
    ∃ b, check numMax m = .ok b ∧ (b = true ↔ Consistent m ∧ m.veisnbr = m.isolated) := by
  have := C51_check_partial numMax m hM hb ha h1 h2
  rw [← he] at this
  exact this

/-- The hypotheses are met. -/
example : ∃ b, check 2147483647 exMesh = .ok b ∧ (b = true ↔ Consistent exMesh ∧ exMesh.veisnbr = exMesh.isolated) := by
  refine C51_check_exact_partial 2147483647 exMesh (by decide) (by decide) exMesh_alloc ?_ ?_ (by decide +kernel)
  · have : allI 0 2 (fun v => decide (sumI exMesh.velmbas (v + 1) exMesh.velo ≤ 2147483647)) = true := by decide +kernel
    intro v hv
    exact of_decide_eq_true (allI_iff.1 this v hv.1 hv.2)
  · have : allI 2 6 (fun v => decide (sumI exMesh.vnodbas (v + 1) exMesh.vnlo ≤ 2147483647)) = true := by decide +kernel
    intro v hv
    exact of_decide_eq_true (allI_iff.1 this v hv.1 hv.2)

/-- Accepted; refused when an arc is duplicated, when two nodes are connected, or when a load is zero. -/
example : check 2147483647 exMesh = .ok true := by decide +kernel
example : check 2147483647 { exMesh with edgetax := Arr.ofList 0 [2, 3, 3, 3, 4, 5, 0, 0, 1, 0, 1, 1] } = .ok false := by decide +kernel
example : check 2147483647 { exMesh with edgetax := Arr.ofList 0 [2, 3, 4, 3, 4, 5, 3, 0, 1, 0, 1, 1] } = .ok false := by decide +kernel
example : check 2147483647 { exMesh with vnlotax := some (Arr.ofList 2 [1, 2, 3, 0]), vnlosum := 6 } = .ok false := by decide +kernel

/-- The mesh above, with a wrong number of arcs. -/
def exArcs : Mesh := { exMesh with edgenbr := 1 }

/-- The number of arcs is not checked, and the routine that builds the graph of nodes, which trusts it, writes outside of its array. -/
theorem C51_edgenbr_unchecked : check 2147483647 exArcs = .ok true ∧ ¬ exArcs.Consistent ∧ toGraph 2147483647 exArcs ⟨fun _ => 0, fun _ => 0⟩ = .error .oob := by
  refine ⟨by decide +kernel, fun h => ?_, ?_⟩
  · have h1 := h.edgenbr
    have h2 : exArcs.arcs = 12 := by decide +kernel
    unfold arcs at h2
    rw [h2] at h1
    exact absurd h1 (by decide)
  · have : (match toGraph 2147483647 exArcs ⟨fun _ => 0, fun _ => 0⟩ with | .error .oob => true | _ => false) = true := by decide +kernel
    cases h : toGraph 2147483647 exArcs ⟨fun _ => 0, fun _ => 0⟩ with
    | ok _ => rw [h] at this; cases this
    | error e =>
      rw [h] at this
      cases e <;> first | rfl | cases this

end Scotch.Mesh
