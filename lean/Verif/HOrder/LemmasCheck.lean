import Verif.HOrder.ModelCheck
import Verif.Graph.LemmasCheck
import Verif.Graph.Access

/-! # Check of halo graphs: lemmas -/

set_option autoImplicit false

namespace Scotch.HOrder
open Graph

theorem hcheckRest_post (h : Hgraph) (C : ConsE h.s) : Post (hcheckRest h) (fun r => r = true → Checked h) := by
  unfold hcheckRest
  split
  · rw [Post_pure]; simp
  · rename_i hc
    have hnn := C.vertnnd
    rw [Post_bind]
    apply Post_forUpB (fun i (s : Int) => (∀ v, h.s.baseval ≤ v → v < i → h.s.vert v ≤ (unhalo h).vend v ∧ (unhalo h).vend v ≤ h.s.vend v) ∧
      s = (if h.s.edlotax.isNone then h.enohnbr else sumI h.s.baseval i (fun v => sumI (h.s.vert v) ((unhalo h).vend v) h.s.edlo))) (fun _ => True) (by omega)
    · refine ⟨fun v _ _ => by omega, ?_⟩
      rw [sumI_empty (Int.le_refl _)]
    · intro i s i1 i2 hI
      unfold hcheckVert
      rw [Post_bind]
      apply rdVend_post
      rw [Post_bind, Post_rd]
      intro _ _
      rw [Post_bind]
      apply rdVend_post
      split
      · rw [Post_pure]; trivial
      · rename_i hr
        have hr : h.s.vert i ≤ (unhalo h).vend i ∧ (unhalo h).vend i ≤ h.s.vend i := by unfold vert; omega
        have step : ∀ v, h.s.baseval ≤ v → v < i + 1 → h.s.vert v ≤ (unhalo h).vend v ∧ (unhalo h).vend v ≤ h.s.vend v := by
          intro v v1 v2
          by_cases q : v = i
          · rw [q]; exact hr
          · exact hI.1 v v1 (by omega)
        have hs := hI.2
        cases hw : h.s.edlotax with
        | none =>
          dsimp only
          rw [Post_pure]
          rw [hw] at hs
          exact ⟨step, hs⟩
        | some w =>
          dsimp only
          rw [hw] at hs
          rw [Post_bind]
          apply Post_forUp (fun e t => t = s + sumI (h.s.vert i) e h.s.edlo) hr.1
          · show s = s + sumI (h.s.vert i) (h.s.vert i) _
            rw [sumI_empty (Int.le_refl _)]; omega
          · intro e t e1 e2 ht
            rw [Post_bind, Post_rd]
            intro _ _
            rw [Post_pure, ht, sumI_succ e1]
            have : h.s.edlo e = w.get e := by unfold Graph.edlo; rw [hw]
            omega
          · intro t ht
            rw [Post_pure]
            refine ⟨step, ?_⟩
            rw [ht, hs]
            simp only [Option.isNone_some, Bool.false_eq_true, if_false]
            rw [sumI_succ i1]
    · rintro s ⟨hI1, hI2⟩
      dsimp only
      split
      · rw [Post_pure]; simp
      · rename_i he
        rw [Post_bind]
        apply Post_forUpB (fun i (_ : Unit) => ∀ v e, h.vnohnnd ≤ v → v < i → h.s.vert v ≤ e → e < h.s.vend v → h.s.dest e < h.vnohnnd) (fun _ => True) (by omega)
        · intro v e v1 v2; omega
        · intro i _ i1 i2 hI
          unfold hcheckHalo
          rw [Post_bind, Post_rd]
          intro _ _
          rw [Post_bind]
          apply rdVend_post
          apply Post_forUpB (fun j (_ : Unit) => ∀ e, h.s.vert i ≤ e → e < j → h.s.dest e < h.vnohnnd) (fun _ => True) (C.range i ⟨by omega, i2⟩).2
          · intro e e1 e2
            have : h.s.vert i = h.s.verttax.get i := rfl
            omega
          · intro j _ j1 j2 hJ
            rw [Post_bind, Post_rd]
            intro _ _
            split
            · rw [Post_pure]; trivial
            · rename_i hd
              rw [Post_pure]
              intro e e1 e2
              by_cases q : e = j
              · rw [q]; show h.s.edgetax.get j < _; omega
              · exact hJ e e1 (by omega)
          · intro _ hJ v e v1 v2 e1 e2
            by_cases q : v = i
            · subst q; exact hJ e e1 e2
            · exact hI v e v1 (by omega) e1 e2
          · intro _ _; trivial
        · intro _ hI
          dsimp only
          rw [Post_pure]
          intro _
          refine ⟨consE_iff.1 C, by omega, by omega, fun v hv => hI1 v hv.1 hv.2, ?_, fun v e hv v1 e1 e2 => hI v e v1 hv.2 e1 e2⟩
          rw [← hI2]; omega
        · intro _ _
          dsimp only
          rw [Post_pure]; simp
    · intro _ _
      dsimp only
      rw [Post_pure]; simp

theorem hcheckRest_ok (h : Hgraph) (H : HCons h) (A : HAlloc h) : hcheckRest h = .ok true := by
  suffices Holds (hcheckRest h) (fun r => r = true) by
    obtain ⟨r, e, rfl⟩ := Holds_iff_exists.1 this
    exact e
  have C := consE_iff.2 H.whole
  have D := consE_iff.2 H.part
  have c1 := C.vertnnd
  have d1 : h.vnohnnd = h.s.baseval + h.vnohnbr := D.vertnnd
  obtain ⟨n1, n2⟩ := H.nbr
  have rng : ∀ v, (unhalo h).Vertex v → h.s.Vertex v := fun v hv => ⟨hv.1, by have : v < h.vnohnnd := hv.2; omega⟩
  have range : ∀ v, (unhalo h).Vertex v → h.s.vert v ≤ (unhalo h).vend v := fun v hv => (D.range v hv).2
  have q1 : h.vnlosum ≤ h.s.velosum := by
    have a : h.vnlosum = sumI h.s.baseval h.vnohnnd h.s.velo := D.velosum
    have b := C.velosum
    rw [sumI_split (mid := h.vnohnnd) (by omega) (by omega)] at b
    have : 0 ≤ sumI h.vnohnnd h.s.vertnnd h.s.velo := sumI_nonneg fun i i1 i2 => C.velo i ⟨by omega, i2⟩
    omega
  have dn : h.enohnbr = sumI h.s.baseval h.vnohnnd (fun v => (unhalo h).vend v - h.s.vert v) := D.edgenbr
  have q2 : h.enohnbr ≤ h.s.edgenbr := by
    have b := C.edgenbr
    rw [sumI_split (mid := h.vnohnnd) (by omega) (by omega)] at b
    have z1 : 0 ≤ sumI h.vnohnnd h.s.vertnnd (fun v => h.s.vend v - h.s.vert v) := sumI_nonneg fun i i1 i2 => by have := (C.range i ⟨by omega, i2⟩).2; omega
    have z2 : sumI h.s.baseval h.vnohnnd (fun v => (unhalo h).vend v - h.s.vert v) ≤ sumI h.s.baseval h.vnohnnd (fun v => h.s.vend v - h.s.vert v) := sumI_mono fun i i1 i2 => by have := (H.ends i ⟨i1, i2⟩).1; omega
    omega
  have q3 : h.enlosum = h.enohnbr := by
    have a : h.enlosum = sumI h.s.baseval h.vnohnnd (fun v => sumI (h.s.vert v) ((unhalo h).vend v) h.s.edlo) := D.edlosum
    rw [a, dn]
    refine sumI_congr fun v v1 v2 => ?_
    have e1 : ∀ e, h.s.edlo e = 1 := fun e => by unfold Graph.edlo; rw [H.edlo]
    rw [sumI_congr (g := fun _ => 1) (fun e _ _ => e1 e), sumI_const (range v ⟨v1, v2⟩)]
    omega
  unfold hcheckRest
  rw [if_neg (by omega), H.edlo]
  simp only [Option.isNone_none, if_true]
  rw [Holds_bind]
  apply Holds_forUpB (fun _ (s : Int) => s = h.enohnbr) (fun _ => False) (by omega) rfl
  · intro i s i1 i2 hs
    have iu : (unhalo h).Vertex i := ⟨i1, i2⟩
    unfold hcheckVert
    rw [rdVend_eq A.part iu, Arr.rd_ok _ (by have := A.whole.vlo; omega) (by have := A.whole.vhi; omega), rdVend_eq A.whole (rng i iu)]
    simp only [bind, Except.bind]
    have r1 : h.s.verttax.get i ≤ (unhalo h).vend i := range i iu
    have r2 := (H.ends i iu).1
    rw [if_neg (by omega), H.edlo]
    exact hs
  · intro s hs
    dsimp only
    rw [if_neg (by omega), Holds_bind]
    apply Holds_forUpB (fun _ (_ : Unit) => True) (fun _ => False) (by omega) trivial
    · intro i _ i1 i2 _
      have iv : h.s.Vertex i := ⟨by omega, i2⟩
      unfold hcheckHalo
      rw [Arr.rd_ok _ (by have := A.whole.vlo; omega) (by have := A.whole.vhi; omega), rdVend_eq A.whole iv]
      simp only [bind, Except.bind]
      apply Holds_forUpB (fun _ (_ : Unit) => True) (fun _ => False) (C.range i iv).2 trivial
      · intro e _ e1 e2 _
        have e1 : h.s.vert i ≤ e := e1
        have ed := A.whole.edge i iv (by omega)
        rw [Arr.rd_ok _ (by omega) (by omega)]
        have hd : h.s.dest e < h.vnohnnd := H.halo i (h.s.dest e, h.s.edlo e) iv i1 (List.mem_map.2 ⟨e, (mem_arcs _ _ _).2 ⟨e1, e2⟩, rfl⟩)
        have hd : h.s.edgetax.get e < h.vnohnnd := hd
        simp only []
        rw [if_neg (by omega)]
        trivial
      · intro _ _; trivial
      · intro _ k; exact k.elim
    · intro _ _; rfl
    · intro _ k; exact k.elim
  · intro _ k; exact k.elim

end Scotch.HOrder
