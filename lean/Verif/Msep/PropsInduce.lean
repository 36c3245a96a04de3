import Verif.Msep.LemmasInduceCons
import Verif.Msep.PropsHalo

/-!
# C66: submeshes of nested dissection

Once a mesh is separated, nested dissection goes on in the submeshes of the two parts, whose halos are the nodes of the separators around them. `Induced`, in `Msep/ModelInduce.lean`, says what the submesh of a part is.
-/

set_option autoImplicit false

namespace Scotch.Msep
open Mesh (allI allI_iff)

/-- The submesh of a part of a separation of a halo mesh has the elements of the part that have nodes out of the halo, the nodes of the part, and, as its halo, the other nodes of these elements: vertices have the same neighbours and the same loads, up to
renumbering, and nodes out of the halo are given the numbers that they have in the mesh of the user. This holds for whatever memory holds.

What is missing: that memory is not accessed out of arrays, which is assumed; the number of arcs without the halo, which is wrong: see `C66_arcs_wrong`. -/
theorem C66_induce_partial (h : Hmesh) (H : h.Consistent) (org : Option (Arr Int)) (part : Arr Int) (pv velmnbr vnodnbr vnspnbr : Int) (S : Separation h part pv velmnbr vnodnbr vnspnbr) (junk : Int → Int) (r : Hmesh) (vnum : Arr Int)
    (hr : hmeshInducePart junk h org part pv velmnbr vnodnbr vnspnbr = .ok (r, vnum)) : ∃ num, Induced h org part pv num r vnum :=
  (Post_iff.1 (induce_post H S junk org) (r, vnum) hr).2.2

/-- The submesh of a part is a consistent halo mesh: its arcs are symmetric and without repetition, arcs of elements to the halo come last, and the sums of loads, the number of arcs and the maximum degree are right.

What is missing: that memory is not accessed out of arrays, which is assumed; the number of arcs without the halo, on which `Consistent` says nothing. -/
theorem C66_consistent_partial (h : Hmesh) (H : h.Consistent) (org : Option (Arr Int)) (part : Arr Int) (pv velmnbr vnodnbr vnspnbr : Int) (S : Separation h part pv velmnbr vnodnbr vnspnbr) (junk : Int → Int) (r : Hmesh) (vnum : Arr Int)
    (hr : hmeshInducePart junk h org part pv velmnbr vnodnbr vnspnbr = .ok (r, vnum)) : r.Consistent :=
  (Post_iff.1 (induce_post H S junk org) (r, vnum) hr).1

/-- The number of arcs without the halo that is recorded in the submesh is the number of all the arcs of elements, including those to the halo, and of nodes that are not in the halo.

What is missing: it should be `Hmesh.arcs`, and it is not: see `C66_arcs_wrong`. -/
theorem C66_recorded_partial (h : Hmesh) (H : h.Consistent) (org : Option (Arr Int)) (part : Arr Int) (pv velmnbr vnodnbr vnspnbr : Int) (S : Separation h part pv velmnbr vnodnbr vnspnbr) (junk : Int → Int) (r : Hmesh) (vnum : Arr Int)
    (hr : hmeshInducePart junk h org part pv velmnbr vnodnbr vnspnbr = .ok (r, vnum)) :
    r.enohnbr = sumI r.m.velmbas r.m.velmnnd (fun v => (r.m.nbr v).length) + sumI r.m.vnodbas r.vnohnnd (fun v => (r.m.nbr v).length) :=
  (Post_iff.1 (induce_post H S junk org) (r, vnum) hr).2.1.enohnbr

/-! ## Cases -/

/-- Conditions on a separation, as a test. -/
def sepB (h : Hmesh) (part : Arr Int) (pv : Int) : Bool :=
  allI h.m.velmbas h.m.velmnnd fun e => decide ((part.get e = pv → ∀ n ∈ h.m.nbr e, h.Inner n → part.get n = pv ∨ part.get n = 2) ∧ (∀ n ∈ h.m.nbr e, h.Inner n → part.get n = pv → part.get e = pv) ∧ (h.m.vert e = h.vehdtax.get e → part.get e = 0))

theorem sepB_sound {h : Hmesh} {part : Arr Int} {pv : Int} (hb : sepB h part pv = true) :
    (∀ e, h.m.Elem e → part.get e = pv → ∀ n ∈ h.m.nbr e, h.Inner n → part.get n = pv ∨ part.get n = 2) ∧ (∀ e, h.m.Elem e → ∀ n ∈ h.m.nbr e, h.Inner n → part.get n = pv → part.get e = pv) ∧ ∀ e, h.m.Elem e → h.m.vert e = h.vehdtax.get e → part.get e = 0 := by
  unfold sepB at hb
  simp only [allI_iff, decide_eq_true_eq] at hb
  exact ⟨fun e he => (hb e he.1 he.2).1, fun e he => (hb e he.1 he.2).2.1, fun e he => (hb e he.1 he.2).2.2⟩

/-- A separation of two triangles: nodes 3 and 4, which they share, are the separator. -/
def exCut : Arr Int := Arr.ofList 0 [0, 1, 0, 2, 2, 1]

theorem exCut_sep : Separation exWhole exCut 1 1 1 2 :=
  ⟨by decide, by decide, (sepB_sound (by decide +kernel)).1, (sepB_sound (by decide +kernel)).2.1, (sepB_sound (pv := 1) (by decide +kernel)).2.2, by decide +kernel, by decide +kernel, by decide +kernel, by decide +kernel⟩

theorem exCut_sep0 : Separation exWhole exCut 0 1 1 2 :=
  ⟨by decide, by decide, (sepB_sound (by decide +kernel)).1, (sepB_sound (by decide +kernel)).2.1, (sepB_sound (pv := 0) (by decide +kernel)).2.2, by decide +kernel, by decide +kernel, by decide +kernel, by decide +kernel⟩

/-- The submesh of the second triangle: element 0, node 1, and nodes 2 and 3, which are the halo. -/
theorem exCut_run : (hmeshInducePart (fun _ => 9) exWhole none exCut 1 1 1 2).map (fun r => [r.1.m.nbr 0, r.1.m.nbr 1, r.1.m.nbr 2, r.1.m.nbr 3, [r.1.vehdtax.get 0, r.1.m.vnlo 1, r.1.m.vnlo 2, r.2.get 1]]) = .ok [[1, 3, 2], [0], [0], [0], [1, 4, 2, 3]] := by
  decide +kernel

example (r : Hmesh) (vnum : Arr Int) := C66_induce_partial exWhole exWhole_cons none exCut 1 1 1 2 exCut_sep (fun _ => 9) r vnum

example (r : Hmesh) (vnum : Arr Int) := C66_recorded_partial exWhole exWhole_cons none exCut 1 1 1 2 exCut_sep (fun _ => 9) r vnum

example (r : Hmesh) (vnum : Arr Int) := C66_consistent_partial exWhole exWhole_cons none exCut 1 1 1 2 exCut_sep (fun _ => 9) r vnum

/-! ## Disagreement -/

/-- The result of a call is a consistent halo mesh, but its number of arcs is not that of `arcs`, and the mesh without its halo does not have as many arcs as it is said. -/
def arcsB (x : M (Hmesh × Arr Int)) : Bool :=
  match x with
  | .ok (r, _) => r.m.consB && splitB r && decide (0 ≤ r.vnohnbr ∧ r.vnohnbr ≤ r.m.vnodnbr) && decide (r.vnohnnd = r.m.vnodbas + r.vnohnbr) && decide (r.vnhlsum = sumI r.m.vnodbas r.vnohnnd r.m.vnlo) && decide (r.enohnbr ≠ r.arcs) &&
    (match hmeshMesh 4 (fun _ => 9) r with
    | .ok m => decide (m.edgenbr ≠ sumI m.velmbas m.velmnnd (fun v => (m.nbr v).length) + sumI m.vnodbas m.vnodnnd (fun v => (m.nbr v).length))
    | .error _ => false)
  | .error _ => false

theorem arcsB_sound {x : M (Hmesh × Arr Int)} (hb : arcsB x = true) : ∃ r vnum, x = .ok (r, vnum) ∧ r.Consistent ∧ r.enohnbr ≠ r.arcs ∧ ∃ m, hmeshMesh 4 (fun _ => 9) r = .ok m ∧ ¬ m.Consistent := by
  unfold arcsB at hb
  match x, hb with
  | .ok (r, v), hb =>
    dsimp only at hb
    simp only [Bool.and_eq_true, decide_eq_true_eq] at hb
    obtain ⟨⟨⟨⟨⟨⟨b1, b2⟩, b3⟩, b4⟩, b5⟩, b6⟩, b7⟩ := hb
    refine ⟨r, v, rfl, ⟨Mesh.consB_sound b1, b3, b4, (splitB_sound b2).1, (splitB_sound b2).2, b5⟩, b6, ?_⟩
    match hmeshMesh 4 (fun _ => 9) r, b7 with
    | .ok m, b7 =>
      exact ⟨m, rfl, fun C => of_decide_eq_true b7 C.edgenbr⟩
    | .error e, b7 => cases b7
  | .error _, hb => cases hb

/-- The number of arcs without the halo that is recorded in a submesh counts the arcs of elements to nodes of the halo: it is wrong, and the mesh without halo which is built from the submesh is not consistent. -/
theorem C66_arcs_wrong : ∃ (h : Hmesh) (part : Arr Int) (velmnbr vnodnbr vnspnbr : Int), h.Consistent ∧ h.Allocated ∧ Separation h part 0 velmnbr vnodnbr vnspnbr ∧
    ∃ junk r vnum, hmeshInducePart junk h none part 0 velmnbr vnodnbr vnspnbr = .ok (r, vnum) ∧ r.Consistent ∧ r.enohnbr ≠ r.arcs ∧ ∃ m, hmeshMesh 4 junk r = .ok m ∧ ¬ m.Consistent :=
  ⟨exWhole, exCut, 1, 1, 2, exWhole_cons, ⟨Mesh.exMesh_alloc, by decide⟩, exCut_sep0, fun _ => 9, arcsB_sound (by decide +kernel)⟩

end Scotch.Msep
