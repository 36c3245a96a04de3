import Verif.Msep.ModelHchk
import Verif.Msep.PropsHalo
import Verif.Mesh.PropsCheck

/-!
# C70: check of halo meshes

When the library is compiled for it, halo meshes of nested dissection are checked: `HaloChecked`, in `Msep/ModelHchk.lean`, says what the check finds out, and `Hmesh.Consistent`, in `Msep/ModelHalo.lean`, what halo meshes must be.
-/

set_option autoImplicit false

namespace Scotch.Msep

theorem hchkSum_ok (h : Hmesh) (A : h.Allocated) (hb : h.m.vnodbas ≤ h.vnohnnd ∧ h.vnohnnd ≤ h.m.vnodnnd) : hchkSum h = .ok (sumI h.m.vnodbas h.vnohnnd h.m.vnlo) := by
  unfold hchkSum
  cases hl : h.m.vnlotax with
  | none =>
    have e : ∀ v, h.m.vnlo v = 1 := fun v => by unfold Mesh.vnlo; rw [hl]
    rw [sumI_congr (g := fun _ => 1) (fun v _ _ => e v), sumI_const hb.1]
    show Except.ok _ = _
    congr 1
    omega
  | some l =>
    have e : ∀ v, h.m.vnlo v = l.get v := fun v => by unfold Mesh.vnlo; rw [hl]
    obtain ⟨l1, l2⟩ := A.mesh.vnlo l hl
    dsimp only
    suffices Holds (forUp h.m.vnodbas h.vnohnnd 0 fun n s => do return s + (← l.rd n)) (fun s => s = sumI h.m.vnodbas h.vnohnnd h.m.vnlo) by
      obtain ⟨s, k, rfl⟩ := Holds_iff_exists.1 this
      exact k
    apply Holds_forUp (fun i s => s = sumI h.m.vnodbas i h.m.vnlo) hb.1
    · rw [sumI_empty (Int.le_refl _)]
    · intro i s i1 i2 hs
      rw [Arr.rd_ok l (by omega) (by omega)]
      show s + l.get i = _
      rw [sumI_succ i1, hs, e]
    · exact fun s k => k

theorem hchkElems_holds (h : Hmesh) (C : ({ h.m with edgenbr := h.m.arcs } : Mesh).Consistent) (A : h.Allocated) : Holds (hchkElems false h) (Loop.Sat
    (fun n => (∀ e, h.m.Elem e → h.m.vert e ≤ h.vehdtax.get e ∧ h.vehdtax.get e ≤ h.m.vend e) ∧ n = sumI h.m.velmbas h.m.velmnnd (fun e => if h.vehdtax.get e = h.m.vert e then 1 else 0))
    (fun _ => ¬ ∀ e, h.m.Elem e → h.m.vert e ≤ h.vehdtax.get e ∧ h.vehdtax.get e ≤ h.m.vend e)) := by
  have AM : ({ h.m with edgenbr := h.m.arcs } : Mesh).Allocated := ⟨A.mesh.vlo, A.mesh.vhi, A.mesh.vhi', A.mesh.ends, A.mesh.velo, A.mesh.vnlo, A.mesh.edge⟩
  have vd : ∀ e, h.m.Elem e → h.m.rdVend e = .ok (h.m.vend e) := fun e he => rdVend_ok (m := { h.m with edgenbr := h.m.arcs }) C AM (Or.inl he)
  obtain ⟨a1, a2⟩ := A.vehd
  have n1 := C.velmnbr
  have n2 : h.m.velmnnd = h.m.velmbas + h.m.velmnbr := C.velmnnd
  have n1 : 0 ≤ h.m.velmnbr := n1
  unfold hchkElems
  rw [if_neg (by simp)]
  apply Holds_forUpB (fun i n => (∀ e, h.m.velmbas ≤ e → e < i → h.m.vert e ≤ h.vehdtax.get e ∧ h.vehdtax.get e ≤ h.m.vend e) ∧ n = sumI h.m.velmbas i (fun e => if h.vehdtax.get e = h.m.vert e then 1 else 0))
    (fun _ => ¬ ∀ e, h.m.Elem e → h.m.vert e ≤ h.vehdtax.get e ∧ h.vehdtax.get e ≤ h.m.vend e) (by omega)
  · exact ⟨fun e _ _ => by omega, by rw [sumI_empty (Int.le_refl _)]⟩
  · rintro i n i1 i2 ⟨I1, I2⟩
    have hr := Mesh.in_range C (Or.inl (show Mesh.Elem { h.m with edgenbr := h.m.arcs } i from ⟨i1, i2⟩))
    dsimp only at hr
    have v1 := A.mesh.vlo
    have v2 := A.mesh.vhi
    unfold hchkElem
    rw [Arr.rd_ok _ (by omega) (by omega), Arr.rd_ok h.m.verttax (by omega) (by omega), vd i ⟨i1, i2⟩]
    simp only [bind, Except.bind]
    split
    · rename_i hc
      intro k
      have := k i ⟨i1, i2⟩
      unfold Mesh.vert at this
      omega
    · rename_i hc
      refine ⟨fun e e1 e2 => ?_, ?_⟩
      · by_cases q : e = i
        · rw [q]; unfold Mesh.vert; omega
        · exact I1 e e1 (by omega)
      · rw [sumI_succ i1, I2]; rfl
  · exact fun n k => ⟨fun e he => k.1 e he.1 he.2, k.2⟩
  · exact fun _ k => k

/-- The check ends without access out of arrays, and accepts exactly the halo meshes of `HaloChecked`, for meshes whose sums of loads can be represented.

What is missing: that halo meshes that are accepted are right: see `C70_check_wrong`. -/
theorem C70_check_partial (numMax : Int) (same : Bool) (h : Hmesh) (hM : 0 ≤ numMax) (hb : h.m.baseval = min h.m.velmbas h.m.vnodbas) (A : h.Allocated) (hs : same = true → h.m.vendtax = some h.vehdtax)
    (h1 : ∀ v, h.m.Elem v → sumI h.m.velmbas (v + 1) h.m.velo ≤ numMax) (h2 : ∀ v, h.m.Node v → sumI h.m.vnodbas (v + 1) h.m.vnlo ≤ numMax) :
    ∃ b, hmeshCheck numMax same h = .ok b ∧ (b = true ↔ HaloChecked same h) := by
  unfold hmeshCheck
  by_cases hc : h.vnohnnd < h.m.vnodbas ∨ h.vnohnnd > h.m.vnodnnd
  · rw [if_pos hc]
    exact ⟨false, rfl, by simp, fun k => by have := k.bounds; omega⟩
  rw [if_neg hc]
  obtain ⟨b, e, hk⟩ := Mesh.C51_check_partial numMax h.m hM hb A.mesh h1 h2
  rw [e]
  cases b with
  | false => exact ⟨false, rfl, by simp, fun k => hk.2 ⟨k.mesh, k.isolated⟩⟩
  | true =>
    obtain ⟨C, K⟩ := hk.1 rfl
    have hsum := hchkSum_ok h A (by omega)
    have fin : ∀ n, (∀ e, h.m.Elem e → h.m.vert e ≤ h.vehdtax.get e ∧ h.vehdtax.get e ≤ h.m.vend e) → n = (if same then 0 else sumI h.m.velmbas h.m.velmnnd (fun e => if h.vehdtax.get e = h.m.vert e then 1 else 0)) →
        ∃ b, (if n ≠ h.veihnbr then return false else return decide ((← hchkSum h) = h.vnhlsum) : M Bool) = .ok b ∧ (b = true ↔ HaloChecked same h) := by
      intro n r1 r2
      by_cases q : n ≠ h.veihnbr
      · rw [if_pos q]
        exact ⟨false, rfl, by simp, fun k => by have := k.veihnbr; omega⟩
      · rw [if_neg q, hsum]
        refine ⟨_, rfl, fun k => ?_, fun k => ?_⟩
        · exact ⟨by omega, C, K, r1, by omega, (of_decide_eq_true k).symm⟩
        · exact decide_eq_true k.vnhlsum.symm
    cases same with
    | true =>
      have hv := hs rfl
      refine fin 0 (fun e he => ?_) rfl
      have r := (C.range e (Or.inl he)).2
      have r : h.m.vert e ≤ h.m.vend e := r
      have z : h.m.vend e = h.vehdtax.get e := by unfold Mesh.vend; rw [hv]
      omega
    | false =>
      have k := hchkElems_holds h C A
      cases hr : hchkElems false h with
      | error x => rw [hr] at k; exact (show False from k).elim
      | ok l =>
        rw [hr] at k
        cases l with
        | next n => exact fin n k.1 k.2
        | brk u => exact ⟨false, rfl, by simp, fun q => (k q.range).elim⟩

/-- Right halo meshes are accepted. -/
theorem C70_accept (numMax : Int) (h : Hmesh) (H : h.Consistent) (hM : 0 ≤ numMax) (A : h.Allocated) (h1 : ∀ v, h.m.Elem v → sumI h.m.velmbas (v + 1) h.m.velo ≤ numMax) (h2 : ∀ v, h.m.Node v → sumI h.m.vnodbas (v + 1) h.m.vnlo ≤ numMax)
    (hi : h.m.veisnbr = h.m.isolated) (hv : h.veihnbr = sumI h.m.velmbas h.m.velmnnd (fun e => if h.vehdtax.get e = h.m.vert e then 1 else 0)) : hmeshCheck numMax false h = .ok true := by
  have hb : h.m.baseval = min h.m.velmbas h.m.vnodbas := by
    have := H.mesh.order
    have := H.mesh.velmnbr
    have := H.mesh.vnodnbr
    have := H.mesh.velmnnd
    have := H.mesh.vnodnnd
    omega
  obtain ⟨b, e, k⟩ := C70_check_partial numMax false h hM hb A (by simp) h1 h2
  have n1 := H.vnohnbr
  have n2 := H.vnohnnd
  have n3 := H.mesh.vnodnnd
  have he : h.m.edgenbr = h.m.arcs := H.mesh.edgenbr
  have := k.2 ⟨by omega, by rw [← he]; exact H.mesh, hi, H.range, by simpa using hv, H.vnhlsum⟩
  rw [e, this]

/-! ## Cases -/

theorem exMesh_loads : (∀ v, Mesh.exMesh.Elem v → sumI Mesh.exMesh.velmbas (v + 1) Mesh.exMesh.velo ≤ 2147483647) ∧ ∀ v, Mesh.exMesh.Node v → sumI Mesh.exMesh.vnodbas (v + 1) Mesh.exMesh.vnlo ≤ 2147483647 := by
  constructor
  · have : Mesh.allI 0 2 (fun v => decide (sumI Mesh.exMesh.velmbas (v + 1) Mesh.exMesh.velo ≤ 2147483647)) = true := by decide +kernel
    intro v hv
    exact of_decide_eq_true (Mesh.allI_iff.1 this v hv.1 hv.2)
  · have : Mesh.allI 2 6 (fun v => decide (sumI Mesh.exMesh.vnodbas (v + 1) Mesh.exMesh.vnlo ≤ 2147483647)) = true := by decide +kernel
    intro v hv
    exact of_decide_eq_true (Mesh.allI_iff.1 this v hv.1 hv.2)

example := C70_check_partial 2147483647 false exHalo (by decide) (by decide) exHalo_alloc (by simp) exMesh_loads.1 exMesh_loads.2

example := C70_accept 2147483647 exHalo exHalo_cons (by decide) exHalo_alloc exMesh_loads.1 exMesh_loads.2 (by decide +kernel) (by decide +kernel)

/-! ## Disagreement -/

/-- Two triangles; node 5, of the second one, is the halo, but its arc is not said to be to the halo. -/
def exHaloBad : Hmesh := { exHalo with vehdtax := Arr.ofList 0 [3, 6] }

/-- The check accepts halo meshes whose arcs to the halo are not those that are said. -/
theorem C70_check_wrong : ∃ h : Hmesh, hmeshCheck 2147483647 false h = .ok true ∧ ¬ h.Consistent := by
  refine ⟨exHaloBad, by decide +kernel, fun H => ?_⟩
  have k := (H.split 1 5 ⟨by decide, by decide⟩ (by decide +kernel) (by decide +kernel)).2 (by decide +kernel)
  revert k
  decide +kernel

end Scotch.Msep
