import Verif.Msep.ModelHalo
import Verif.Mesh.Lemmas
import Verif.Bipart.LemmasCheck

/-! # Meshes with halos -/

set_option autoImplicit false
set_option linter.unusedSimpArgs false

namespace Scotch.Msep
open Bipart (copyN copyN_holds)

variable {h : Hmesh}

theorem rdVend_ok {m : Mesh} (C : m.Consistent) (A : m.Allocated) {v : Int} (hv : m.Elem v ∨ m.Node v) : m.rdVend v = .ok (m.vend v) := by
  have hr := Mesh.in_range C hv
  have := A.vlo
  unfold Mesh.rdVend Mesh.vend
  cases hx : m.vendtax with
  | none =>
    have := A.vhi' hx
    exact Arr.rd_ok _ (by omega) (by omega)
  | some a =>
    have := A.ends a hx
    exact Arr.rd_ok _ (by omega) (by omega)

theorem copyVend_holds {m : Mesh} (C : m.Consistent) (A : m.Allocated) {dst : Arr Int} {d s n : Int} (hn : 0 ≤ n) (h1 : dst.lo ≤ d) (h2 : d + n ≤ dst.hi) (hs : ∀ i, 0 ≤ i → i < n → m.Elem (s + i) ∨ m.Node (s + i)) :
    Holds (copyVend m dst d s n) (fun a => (a.lo = dst.lo ∧ a.hi = dst.hi) ∧ (∀ i, 0 ≤ i → i < n → a.get (d + i) = m.vend (s + i)) ∧ ∀ j, j < d → a.get j = dst.get j) := by
  unfold copyVend
  refine Holds_forUp (fun k (a : Arr Int) => (a.lo = dst.lo ∧ a.hi = dst.hi) ∧ (∀ i, 0 ≤ i → i < k → a.get (d + i) = m.vend (s + i)) ∧ ∀ j, j < d → a.get j = dst.get j) hn ⟨⟨rfl, rfl⟩, fun i i1 i2 => by omega, fun _ _ => rfl⟩ ?_ (fun _ h => h)
  rintro k a k1 k2 ⟨e1, e2, e3⟩
  rw [rdVend_ok C A (hs k k1 k2), ok_bind, Arr.wr_ok _ _ (by omega) (by omega), Holds_ok]
  refine ⟨e1, fun i i1 i2 => ?_, fun j hj => ?_⟩
  · by_cases hi : i = k
    · rw [hi, Arr.set_get_same]
    · rw [Arr.set_get_ne _ _ (by omega), e2 i i1 (by omega)]
  · rw [Arr.set_get_ne _ _ (by omega), e3 j hj]

/-- Nodes of an element that are not in the halo: the first ones. -/
theorem inner_eq (H : h.Consistent) {e : Int} (he : h.m.Elem e) : h.inner e = seg h.m.edgetax.get (h.m.vert e) (h.vehdtax.get e) := by
  obtain ⟨r1, r2⟩ := H.range e he
  unfold Hmesh.inner Mesh.nbr
  rw [seg_append _ r1 r2, List.filter_append, List.filter_eq_self.2, List.filter_eq_nil_iff.2, List.append_nil]
  · intro n hn
    obtain ⟨i, i1, i2, rfl⟩ := (mem_seg _ _ _ _).1 hn
    rw [decide_eq_true_iff, H.split e i he (by omega) i2]
    omega
  · intro n hn
    obtain ⟨i, i1, i2, rfl⟩ := (mem_seg _ _ _ _).1 hn
    rw [decide_eq_true_iff, H.split e i he i1 (by omega)]
    exact i2

/-- The same, for a right number of arcs. -/
structure Without0 (h : Hmesh) (m : Mesh) : Prop where
  consistent : m.Consistent
  allocated : m.Allocated
  base : m.baseval = h.m.baseval
  elem : ∀ e, m.Elem e ↔ h.m.Elem e
  node : ∀ n, m.Node n ↔ h.Inner n
  nodes : ∀ e, m.Elem e → m.nbr e = h.inner e
  elems : ∀ n, m.Node n → m.nbr n = h.m.nbr n
  velo : ∀ e, m.velo e = h.m.velo e
  vnlo : ∀ n, m.vnlo n = h.m.vnlo n

/-- A mesh whose vertices end where they should. -/
theorem without0 (H : h.Consistent) (A : h.Allocated) {m : Mesh} {v : Option (Arr Int)} (hm : m = { meshBase h with vendtax := v, edgenbr := h.arcs }) (hE : ∀ e, h.m.Elem e → m.vend e = h.vehdtax.get e) (hN : ∀ n, h.Inner n → m.vend n = h.m.vend n)
    (ho : h.m.velmbas ≤ h.m.vnodbas ∨ h.vnohnbr = h.m.vnodnbr) (hv : (v = none → h.m.baseval + h.m.velmnbr + h.vnohnbr + 1 ≤ h.m.verttax.hi) ∧ ∀ a, v = some a → a.lo ≤ h.m.baseval ∧ h.m.baseval + h.m.velmnbr + h.vnohnbr ≤ a.hi) : Without0 h m := by
  have C := H.mesh
  have c1 := C.velmnbr
  have c2 := C.vnodnbr
  have c3 := C.velmnnd
  have c4 := C.vnodnnd
  have c5 := C.order
  have k1 := H.vnohnbr
  have k2 := H.vnohnnd
  have el : ∀ e, m.Elem e ↔ h.m.Elem e := by intro e; rw [hm]; exact Iff.rfl
  have no : ∀ n, m.Node n ↔ h.Inner n := by
    intro n
    rw [hm]
    show (h.m.vnodbas ≤ n ∧ n < h.vnohnbr + h.m.vnodbas) ↔ (h.m.vnodbas ≤ n ∧ n < h.vnohnnd)
    omega
  have inN : ∀ n, h.Inner n → h.m.Node n := by
    rintro n ⟨n1, n2⟩
    exact ⟨n1, by omega⟩
  have ve : ∀ v, m.vert v = h.m.vert v := by intro v; rw [hm]; rfl
  have ed : m.edgetax = h.m.edgetax := by rw [hm]; rfl
  have nbE : ∀ e, h.m.Elem e → m.nbr e = h.inner e := by
    intro e he
    rw [inner_eq H he]
    unfold Mesh.nbr
    rw [ve, hE e he, ed]
  have nbN : ∀ n, h.Inner n → m.nbr n = h.m.nbr n := by
    intro n hn
    unfold Mesh.nbr
    rw [ve, hN n hn, ed]
  have sub : ∀ e, h.m.Elem e → ∀ n, n ∈ h.inner e ↔ n ∈ h.m.nbr e ∧ h.Inner n := by
    intro e _ n
    unfold Hmesh.inner
    rw [List.mem_filter, decide_eq_true_iff]
  have lenE : ∀ e, h.m.Elem e → (h.inner e).length ≤ (h.m.nbr e).length := fun e _ => List.length_filter_le _ _
  have e1 : m.velmnbr = h.m.velmnbr := by rw [hm]; rfl
  have e2 : m.vnodnbr = h.vnohnbr := by rw [hm]; rfl
  have e3 : m.velmbas = h.m.velmbas := by rw [hm]; rfl
  have e4 : m.velmnnd = h.m.velmnnd := by rw [hm]; rfl
  have e5 : m.vnodbas = h.m.vnodbas := by rw [hm]; rfl
  have e6 : m.vnodnnd = h.vnohnnd := by rw [hm, k2]; show h.vnohnbr + h.m.vnodbas = _; omega
  have e7 : m.baseval = h.m.baseval := by rw [hm]; rfl
  have e8 : m.velo = h.m.velo := by funext v; rw [hm]; rfl
  have e9 : m.vnlo = h.m.vnlo := by funext v; rw [hm]; rfl
  have e10 : m.verttax = h.m.verttax := by rw [hm]; rfl
  have e11 : m.vendtax = v := by rw [hm]
  refine ⟨⟨by omega, by omega, by omega, by omega, by omega, ?_, ?_, ?_, ?_, ?_, ?_, ?_, ?_, ?_, ?_⟩, ⟨by rw [e10, e7]; exact A.mesh.vlo, ?_, ?_, ?_, ?_, ?_, ?_⟩, e7, el, no, fun e he => nbE e ((el e).1 he), fun n hn => nbN n ((no n).1 hn), fun e => by rw [e8], fun n => by rw [e9]⟩
  · rintro v (hv | hv)
    · have hv := (el v).1 hv
      rw [ve, hE v hv, e7]
      exact ⟨(C.range v (Or.inl hv)).1, (H.range v hv).1⟩
    · have hv := (no v).1 hv
      rw [ve, hN v hv, e7]
      exact C.range v (Or.inr (inN v hv))
  · intro e he n hn
    have he := (el e).1 he
    rw [nbE e he, sub e he] at hn
    refine ⟨(no n).2 hn.2, ?_⟩
    rw [nbN n hn.2]
    exact (C.nodes e he n hn.1).2
  · intro n hn e he
    have hn := (no n).1 hn
    rw [nbN n hn] at he
    obtain ⟨q1, q2⟩ := C.elems n (inN n hn) e he
    refine ⟨(el e).2 q1, ?_⟩
    rw [nbE e q1, sub e q1]
    exact ⟨q2, hn⟩
  · rintro v (hv | hv)
    · have hv := (el v).1 hv
      rw [nbE v hv]
      exact (C.simple v (Or.inl hv)).filter _
    · have hv := (no v).1 hv
      rw [nbN v hv]
      exact C.simple v (Or.inr (inN v hv))
  · have : m.edgenbr = h.arcs := by rw [hm]
    rw [this, Hmesh.arcs, e3, e4, e5, e6]
    congr 1
    · exact sumI_congr fun e x1 x2 => by rw [nbE e ⟨x1, x2⟩]
    · exact sumI_congr fun n x1 x2 => by rw [nbN n ⟨x1, x2⟩]
  · intro e he
    rw [e8]
    exact C.velo e ((el e).1 he)
  · have : m.velosum = h.m.velosum := by rw [hm]; rfl
    rw [this, C.velosum, e3, e4, e8]
  · intro n hn
    rw [e9]
    exact C.vnlo n (inN n ((no n).1 hn))
  · have : m.vnlosum = h.vnhlsum := by rw [hm]; rfl
    rw [this, H.vnhlsum, e5, e6, e9]
  · have : m.degrmax = h.m.degrmax := by rw [hm]; rfl
    rw [this]
    refine ⟨C.degrmax.1, ?_⟩
    rintro v (hv | hv)
    · have hv := (el v).1 hv
      rw [nbE v hv]
      have := C.degrmax.2 v (Or.inl hv)
      have := lenE v hv
      omega
    · have hv := (no v).1 hv
      rw [nbN v hv]
      exact C.degrmax.2 v (Or.inr (inN v hv))
  · have := A.mesh.vhi
    rw [e10]
    omega
  · intro hx
    have := hv.1 (e11.symm.trans hx)
    rw [e10]
    omega
  · intro a ha
    have := hv.2 a (e11.symm.trans ha)
    omega
  · intro a ha
    rw [e3, e4]
    exact A.mesh.velo a (by rw [← ha, hm]; rfl)
  · intro a ha
    have := A.mesh.vnlo a (by rw [← ha, hm]; rfl)
    omega
  · rintro v (hv | hv) hlt
    · have hv := (el v).1 hv
      rw [ve, hE v hv] at hlt
      rw [ve, hE v hv, ed]
      have := (H.range v hv).2
      have := A.mesh.edge v (Or.inl hv) (by omega)
      omega
    · have hv := (no v).1 hv
      rw [ve, hN v hv] at hlt
      rw [ve, hN v hv, ed]
      exact A.mesh.edge v (Or.inr (inN v hv)) hlt

theorem without_of (H : h.Consistent) (A : h.Allocated) {m : Mesh} {v : Option (Arr Int)} (hm : m = { meshBase h with vendtax := v }) (hE : ∀ e, h.m.Elem e → m.vend e = h.vehdtax.get e) (hN : ∀ n, h.Inner n → m.vend n = h.m.vend n)
    (ho : h.m.velmbas ≤ h.m.vnodbas ∨ h.vnohnbr = h.m.vnodnbr) (hv : (v = none → h.m.baseval + h.m.velmnbr + h.vnohnbr + 1 ≤ h.m.verttax.hi) ∧ ∀ a, v = some a → a.lo ≤ h.m.baseval ∧ h.m.baseval + h.m.velmnbr + h.vnohnbr ≤ a.hi) : WithoutHalo h m := by
  have W := without0 (m := { m with edgenbr := h.arcs }) (v := v) H A (by rw [hm]) hE hN ho hv
  obtain ⟨w1, w2, w3, w4, w5, w6, w7, w8, w9⟩ := W
  exact ⟨w1, by rw [hm]; rfl, ⟨w2.vlo, w2.vhi, w2.vhi', w2.ends, w2.velo, w2.vnlo, w2.edge⟩, w3, w4, w5, w6, w7, w8, w9⟩

theorem hmeshMesh_holds (H : h.Consistent) (A : h.Allocated) (ho : h.m.velmbas ≤ h.m.vnodbas ∨ h.vnohnbr = h.m.vnodnbr) (sz : Int) (junk : Int → Int) : Holds (hmeshMesh sz junk h) (WithoutHalo h) := by
  have C := H.mesh
  have c1 := C.velmnbr
  have c2 := C.vnodnbr
  have c3 := C.velmnnd
  have c4 := C.vnodnnd
  have c5 := C.order
  have k1 := H.vnohnbr
  have k2 := H.vnohnnd
  have a1 := A.vehd
  unfold hmeshMesh
  rw [Holds_ite]
  refine ⟨fun hn => ?_, fun hn => ?_⟩
  · rw [Holds_pure]
    refine without_of (v := h.m.vendtax) H A rfl (fun e he => ?_) (fun n _ => rfl) (Or.inr hn) ⟨fun hx => ?_, fun a ha => ?_⟩
    · show h.m.vend e = h.vehdtax.get e
      obtain ⟨r1, r2⟩ := H.range e he
      refine Classical.byContradiction fun hx => ?_
      have hi : h.m.Node (h.m.edgetax.get (h.vehdtax.get e)) := (C.nodes e he _ ((mem_seg _ _ _ _).2 ⟨_, r1, by omega, rfl⟩)).1
      have := (H.split e (h.vehdtax.get e) he r1 (by omega)).1 ⟨hi.1, by have := hi.2; omega⟩
      omega
    · have := A.mesh.vhi' hx
      omega
    · have := A.mesh.ends a ha
      omega
  rw [if_pos (by omega)]
  have hb : h.m.velmbas = h.m.baseval ∧ h.m.vnodbas = h.m.velmnnd := by omega
  unfold meshElems
  rw [Holds_bind]
  refine (copyN_holds c1 (Int.le_refl _) (by show 0 + h.m.velmnbr ≤ h.m.velmnbr + h.vnohnbr; omega) (by omega) (by omega)).mono ?_
  rintro a ⟨x1, x2, x3⟩
  have x1 : a.lo = 0 := x1
  have x2 : a.hi = h.m.velmnbr + h.vnohnbr := x2
  rw [Holds_bind]
  refine (copyVend_holds C A.mesh k1.1 (by omega) (by omega) (fun i i1 i2 => Or.inr ⟨by omega, by omega⟩)).mono ?_
  rintro a' ⟨y1, y2, y3⟩
  rw [Holds_pure]
  refine without_of (v := some (a'.shift h.m.baseval)) H A rfl (fun e he => ?_) (fun n hn => ?_) (Or.inl (by omega)) ⟨fun hx => absurd hx (by simp), fun x ha => ?_⟩
  · show a'.get (e - h.m.baseval) = _
    have q1 := he.1
    have q2 := he.2
    have := x3 (e - h.m.baseval) (by omega) (by omega)
    rw [y3 _ (by omega)]
    rw [Int.zero_add, hb.1, show h.m.baseval + (e - h.m.baseval) = e by omega] at this
    exact this
  · show a'.get (n - h.m.baseval) = _
    have q1 := hn.1
    have q2 := hn.2
    have := y2 (n - h.m.vnodbas) (by omega) (by omega)
    rw [show h.m.velmnbr + (n - h.m.vnodbas) = n - h.m.baseval by omega, show h.m.vnodbas + (n - h.m.vnodbas) = n by omega] at this
    exact this
  · have : x = a'.shift h.m.baseval := (Option.some.inj ha).symm
    rw [this]
    show a'.lo + h.m.baseval ≤ _ ∧ _ ≤ a'.hi + h.m.baseval
    omega

end Scotch.Msep
