import Verif.Msep.LemmasHalo
import Verif.Mesh.Props

/-!
# C65: meshes without their halos

Nested dissection separates submeshes, whose halos are the nodes of the separators around them. The mesh to separate is the submesh without its halo: `WithoutHalo`, in `Msep/ModelHalo.lean`.
-/

set_option autoImplicit false

namespace Scotch.Msep
open Mesh (allI allI_iff)

/-- The mesh that is built from a halo mesh is a consistent mesh that has the same elements, and the nodes that are not in the halo, with the same neighbours but for nodes of the halo, and that is consistent but for its number of arcs, which is the one of the halo mesh, whatever memory holds, if elements are numbered before nodes, or if
there is no halo.

What is missing: halo meshes whose nodes are numbered before elements; see `C65_nodes_first_wrong`. -/
theorem C65_mesh_partial (h : Hmesh) (H : h.Consistent) (A : h.Allocated) (ho : h.m.velmbas = h.m.baseval ∨ h.vnohnbr = h.m.vnodnbr) (sz : Int) (junk : Int → Int) : ∃ m, hmeshMesh sz junk h = .ok m ∧ WithoutHalo h m := by
  have hx : h.m.velmbas ≤ h.m.vnodbas ∨ h.vnohnbr = h.m.vnodnbr := by
    have := H.mesh.order
    have := H.mesh.velmnbr
    have := H.mesh.vnodnbr
    have := H.mesh.velmnnd
    have := H.mesh.vnodnnd
    omega
  have k := hmeshMesh_holds H A hx sz junk
  cases hr : hmeshMesh sz junk h with
  | error e => rw [hr] at k; exact False.elim k
  | ok m => rw [hr] at k; exact ⟨m, rfl, k⟩

/-- If the number of arcs that is recorded in the halo mesh is right, the mesh is consistent. -/
theorem C65_arcs_partial (h : Hmesh) (H : h.Consistent) (A : h.Allocated) (ho : h.m.velmbas = h.m.baseval ∨ h.vnohnbr = h.m.vnodnbr) (he : h.enohnbr = h.arcs) (sz : Int) (junk : Int → Int) : ∃ m, hmeshMesh sz junk h = .ok m ∧ m.Consistent ∧ WithoutHalo h m := by
  obtain ⟨m, h1, W⟩ := C65_mesh_partial h H A ho sz junk
  refine ⟨m, h1, ?_, W⟩
  have := W.consistent
  rw [← he, ← W.edgenbr] at this
  exact this

/-! ## Cases -/

/-- Conditions on arcs of elements, as a test. -/
def splitB (h : Hmesh) : Bool :=
  allI h.m.velmbas h.m.velmnnd fun e => decide (h.m.vert e ≤ h.vehdtax.get e ∧ h.vehdtax.get e ≤ h.m.vend e) && allI (h.m.vert e) (h.m.vend e) fun i => decide (h.Inner (h.m.edgetax.get i) ↔ i < h.vehdtax.get e)

theorem splitB_sound {h : Hmesh} (hb : splitB h = true) : (∀ e, h.m.Elem e → h.m.vert e ≤ h.vehdtax.get e ∧ h.vehdtax.get e ≤ h.m.vend e) ∧
    ∀ e i, h.m.Elem e → h.m.vert e ≤ i → i < h.m.vend e → (h.Inner (h.m.edgetax.get i) ↔ i < h.vehdtax.get e) := by
  unfold splitB at hb
  simp only [allI_iff, Bool.and_eq_true, decide_eq_true_eq] at hb
  exact ⟨fun e he => (hb e he.1 he.2).1, fun e i he i1 i2 => (hb e he.1 he.2).2 i i1 i2⟩

/-- Two triangles; node 5, of the second one, is the halo. -/
def exHalo : Hmesh := { m := Mesh.exMesh, vehdtax := Arr.ofList 0 [3, 5], veihnbr := 0, vnohnbr := 3, vnohnnd := 5, vnhlsum := 6, enohnbr := 10 }

theorem exHalo_cons : exHalo.Consistent :=
  ⟨Mesh.exMesh_cons, by decide, by decide, (splitB_sound (by decide +kernel)).1, (splitB_sound (by decide +kernel)).2, by decide +kernel⟩

theorem exHalo_alloc : exHalo.Allocated := ⟨Mesh.exMesh_alloc, by decide⟩

example (sz : Int) (junk : Int → Int) := C65_mesh_partial exHalo exHalo_cons exHalo_alloc (by decide) sz junk
example (sz : Int) (junk : Int → Int) := C65_arcs_partial exHalo exHalo_cons exHalo_alloc (by decide) (by decide +kernel) sz junk

example : (hmeshMesh 4 (fun _ => 9) exHalo).map (fun m => [m.nbr 0, m.nbr 1, m.nbr 2, m.nbr 4, [m.vnodnnd, m.edgenbr]]) = .ok [[2, 3, 4], [3, 4], [0], [0, 1], [5, 10]] := by decide +kernel

/-- No halo. -/
def exWhole : Hmesh := { m := Mesh.exMesh, vehdtax := Arr.ofList 0 [3, 6], veihnbr := 0, vnohnbr := 4, vnohnnd := 6, vnhlsum := 10, enohnbr := 12 }

theorem exWhole_cons : exWhole.Consistent :=
  ⟨Mesh.exMesh_cons, by decide, by decide, (splitB_sound (by decide +kernel)).1, (splitB_sound (by decide +kernel)).2, by decide +kernel⟩

example (sz : Int) (junk : Int → Int) := C65_mesh_partial exWhole exWhole_cons ⟨Mesh.exMesh_alloc, by decide⟩ (by decide) sz junk

/-! ## Disagreement -/

/-- Nodes 0, 1 and 2, then element 3, which has all of them; node 2 is the halo. -/
def exFirstMesh : Mesh :=
  { baseval := 0, velmnbr := 1, velmbas := 3, velmnnd := 4, veisnbr := 0, vnodnbr := 3, vnodbas := 0, vnodnnd := 3, verttax := Arr.ofList 0 [0, 1, 2, 3, 6], vendtax := none, velotax := none, vnlotax := none, velosum := 1, vnlosum := 3, edgenbr := 6,
    edgetax := Arr.ofList 0 [3, 3, 3, 0, 1, 2], degrmax := 3 }

/-- The halo mesh: node 2 is the halo. -/
def exFirst : Hmesh := { m := exFirstMesh, vehdtax := Arr.ofList 3 [5], veihnbr := 0, vnohnbr := 2, vnohnnd := 2, vnhlsum := 2, enohnbr := 4 }

/-- If nodes are numbered before elements, the copy of an array has a size of `vnodnbr - vnohnbr * sizeof (Gnum)` bytes, instead of `(vnodnbr - vnohnbr) * sizeof (Gnum)`: memory is accessed out of the arrays of a consistent halo mesh, whether numbers have 4
or 8 bytes. -/
theorem C65_nodes_first_wrong : ∃ h : Hmesh, h.Consistent ∧ h.Allocated ∧ ∀ sz, sz = 4 ∨ sz = 8 → ∀ junk, hmeshMesh sz junk h = .error .oob := by
  refine ⟨exFirst, ⟨Mesh.consB_sound (by decide +kernel), by decide, by decide, (splitB_sound (by decide +kernel)).1, (splitB_sound (by decide +kernel)).2, by decide +kernel⟩,
    ⟨Mesh.allocB_sound (by decide +kernel), by decide⟩, ?_⟩
  rintro sz (rfl | rfl) junk <;> rfl

end Scotch.Msep
