import Verif.HOrder.LemmasCp4

/-! # Compressed graphs: vertices -/

set_option autoImplicit false
set_option linter.unusedSimpArgs false

namespace Scotch.HOrder
open Graph
open Coarsen (land maskLoop IsMask land_mask)

variable {h : Hgraph} {φ ρ : Int → Int} {K : Int}

/-- The first vertex of the next class, or a vertex of a previous one. -/
theorem Cx.turn (C : Cx h φ ρ K) {v c : Int} (v1 : h.s.baseval ≤ v) (v2 : v < h.vnohnnd) (hc1 : 1 ≤ c) (hc2 : c ≤ K) (hs : ∀ u, h.s.baseval ≤ u → u < v → φ u < c) : (φ v = c → c < K ∧ ρ c = v) ∧ (φ v ≠ c → φ v < c) := by
  have hn := C.cls.num v v1 v2
  by_cases hk : c < K
  · obtain ⟨r1, r2, r3, r4⟩ := C.cls.rep c hc1 hk
    have hr : v ≤ ρ c := by
      apply Classical.byContradiction
      intro hx
      have := hs (ρ c) r1 (by omega)
      omega
    constructor
    · intro he
      refine ⟨hk, ?_⟩
      apply Classical.byContradiction
      intro hx
      have := r4 v v1 (by omega)
      omega
    · intro he
      exact r4 v v1 (by
        apply Classical.byContradiction
        intro hx
        have : ρ c = v := by omega
        rw [this] at r3
        omega)
  · exact ⟨fun he => by omega, fun _ => by omega⟩

theorem cpV1_holds (C : Cx h φ ρ K) {coar : Arr Int} (A : CoarOk h φ coar) {msk E v c : Int} (hm : IsMask msk) (hmsk : h.s.degrmax ≤ msk) (hE : sumI 1 (cnnd h K) (fun c => ((cadj h φ ρ K c).length : Int)) ≤ E)
    (v1 : h.s.baseval ≤ v) (v2 : v < h.vnohnnd) (hc1 : 1 ≤ c) (hc2 : c ≤ K) (hs : ∀ u, h.s.baseval ≤ u → u < v → φ u < c) {s : CpV} (I : CVInv h φ ρ K E msk c s) :
    Holds (cpV1 h msk coar v s) (fun s' => ∃ c', 1 ≤ c' ∧ c' ≤ K ∧ (∀ u, h.s.baseval ≤ u → u < v + 1 → φ u < c') ∧ CVInv h φ ρ K E msk c' s') := by
  have hv := C.H.vtx v1 v2
  have hle := C.H.le
  obtain ⟨t1, t2⟩ := C.turn v1 v2 hc1 hc2 hs
  have hcn : K ≤ cnnd h K := by unfold cnnd; omega
  have hnum := I.num
  unfold cpV1
  rw [A.rd hv, ok_bind]
  by_cases he : φ v = c
  · obtain ⟨hk, hrho⟩ := t1 he
    obtain ⟨n1, n2⟩ := I.room hE hc1 (by omega)
    have hA : ((A1 h φ ρ c).length : Int) ≤ (cadj h φ ρ K c).length := by
      unfold cadj; rw [if_pos hk, List.length_append]; push_cast; omega
    rw [if_neg (fun hx => hx (by omega)), hnum, Arr.wr_ok _ _ (by rw [I.vlo]; omega) (by rw [I.vhi]; omega), ok_bind, Arr.wr_ok _ _ (by rw [I.zlo]; omega) (by rw [I.zhi]; omega), ok_bind, Holds_bind, ← hrho]
    refine (cpArcs1_holds C A (a := ⟨s.a.tab, s.a.edge, s.a.num, s.a.vsiz.set c 1⟩) (E := E) (n0 := s.a.num) (f := s.a.edge.get) hc1 hk hm hmsk n1 (by omega) (CpTab.start hm I.tlo I.thi I.old) (EInv.init (a := ⟨s.a.tab, s.a.edge, s.a.num, s.a.vsiz.set c 1⟩) I.elo I.ehi rfl) (z1 := 1) (z2 := 1 + cnnd h K) I.zlo I.zhi ⟨hc1, by omega⟩ (Arr.set_get_same _ _ _)).mono ?_
    rintro a ⟨i1, i2, i3, i4, i5, i6⟩
    rw [Holds_bind]
    have hu : (unhalo h).Vertex (ρ c) := by rw [hrho]; exact ⟨v1, v2⟩
    have hw : h.s.Vertex (ρ c) := by rw [hrho]; exact hv
    have key : ∀ (s2 : CpV) (vert' : Arr Int), s2.a = s.a → s2.c = c → (∀ u, u < c → s2.vert.get u = s.vert.get u) → s2.vert.get c = s.a.num → s2.vert.lo = 1 → s2.vert.hi = cnnd h K + 1 + 1 →
        (s2.vnhd = none → h.s.vertnbr = h.vnohnbr) → (∀ t, s2.vnhd = some t → t.lo = 1 ∧ t.hi = K ∧ ∀ d, 1 ≤ d → d < c + 1 → d < K → t.get d = s2.vert.get d + (A1 h φ ρ d).length) →
        Holds (do
          let a ← forUp (← (unhalo h).rdVend (ρ c)) (← h.s.rdVend (ρ c)) a fun e a => do
            let d ← coar.rd (← h.s.edgetax.rd e)
            return { a with edge := ← a.edge.wr a.num d, num := a.num + 1 }
          return { s2 with a := a, c := s2.c + 1 } : M CpV) (fun s' => ∃ c', 1 ≤ c' ∧ c' ≤ K ∧ (∀ u, h.s.baseval ≤ u → u < ρ c + 1 → φ u < c') ∧ CVInv h φ ρ K E msk c' s') := by
      intro s2 _ k1 k2 k3 k4 k5 k6 k7 k8
      rw [Graph.rdVend_eq C.H.alloc.part hu, ok_bind, Graph.rdVend_eq C.H.alloc.whole hw, ok_bind, Holds_bind]
      refine (cpArcs2_holds C A (E := E) (n0 := s.a.num) (f := s.a.edge.get) hc1 hk n1 n2 i2).mono ?_
      rintro a' ⟨j1, j2, j3⟩
      rw [Holds_pure]
      have jn := j1.num
      refine ⟨c + 1, by omega, by omega, ?_, ⟨by show s2.c + 1 = c + 1; omega, ?_, ?_, ?_, ?_, j1.elo, j1.ehi, k5, k6, by dsimp only; rw [j3]; exact i3, by dsimp only; rw [j3]; exact i4, ?_, k7, k8⟩⟩
      · intro u u1 u2
        by_cases hu : u = ρ c
        · rw [hu, hrho, he]; omega
        · have := hs u u1 (by omega); omega
      · refine Lists.step (lists_congr (vert' := fun u => if u = c then 0 else s2.vert.get u) I.lists ?_) hc1 ?_ k4 j1.low (by show s.a.num ≤ a'.num; omega) j1.list
        · intro u _ u2
          rw [if_neg (by omega)]; exact k3 u u2
        · intro u hu
          rw [if_neg hu]
      · dsimp only; rw [j2]; exact i1.lo
      · dsimp only; rw [j2]; exact i1.hi
      · intro x x1 x2
        have := i1.old x x1 x2
        dsimp only
        rw [j2]; omega
      · intro d d1 d2
        dsimp only
        rw [j3]
        by_cases hd : d = c
        · rw [hd]; exact i5
        · rw [i6 d hd, Arr.set_get_ne _ _ hd]
          exact I.siz d d1 (by omega)
    unfold cpVnhd
    cases hvn : s.vnhd with
    | none =>
      dsimp only
      rw [Arr.wr_ok _ _ (by show s.vert.lo ≤ _; rw [I.vlo]; omega) (by show _ < s.vert.hi; rw [I.vhi]; omega), ok_bind, Holds_pure]
      refine key _ s.vert rfl rfl ?_ ?_ I.vlo I.vhi ?_ ?_
      · intro u hu
        dsimp only
        rw [Arr.set_get_ne _ _ (by omega), Arr.set_get_ne _ _ (by omega)]
      · dsimp only
        rw [Arr.set_get_ne _ _ (by omega), Arr.set_get_same]
      · intro _; exact I.nh hvn
      · intro t ht
        cases ht
    | some t =>
      obtain ⟨q1, q2, q3⟩ := I.hh t hvn
      dsimp only
      rw [Arr.wr_ok _ _ (by omega) (by omega), ok_bind, Holds_pure]
      refine key _ s.vert rfl rfl ?_ ?_ I.vlo I.vhi ?_ ?_
      · intro u hu
        dsimp only
        rw [Arr.set_get_ne _ _ (by omega)]
      · dsimp only
        rw [Arr.set_get_same]
      · intro hx; cases hx
      · intro t' ht
        cases ht
        refine ⟨q1, q2, ?_⟩
        intro d d1 d2 d3
        dsimp only
        by_cases hd : d = c
        · rw [hd, Arr.set_get_same, Arr.set_get_same]; exact i2.num
        · rw [Arr.set_get_ne _ _ hd, Arr.set_get_ne _ _ hd]
          exact q3 d d1 (by omega) d3
  · have := t2 he
    rw [if_pos (by omega), Holds_pure]
    refine ⟨c, hc1, hc2, ?_, I⟩
    intro u u1 u2
    by_cases hu : u = v
    · rw [hu]; exact this
    · exact hs u u1 (by omega)

theorem cpV2_holds (C : Cx h φ ρ K) {coar : Arr Int} (A : CoarOk h φ coar) {msk E v : Int} (hm : IsMask msk) (hmsk : h.s.degrmax ≤ msk) (hE : sumI 1 (cnnd h K) (fun c => ((cadj h φ ρ K c).length : Int)) ≤ E)
    (v1 : h.vnohnnd ≤ v) (v2 : v < h.s.vertnnd) {s : CpV} (I : CVInv h φ ρ K E msk (K + (v - h.vnohnnd)) s) :
    Holds (cpV2 h msk coar v s) (CVInv h φ ρ K E msk (K + (v + 1 - h.vnohnnd))) := by
  have hp := C.cls.pos
  have hnum := I.num
  have hcn : K + (v - h.vnohnnd) < cnnd h K := by unfold cnnd; omega
  obtain ⟨n1, n2⟩ := I.room hE (by omega) hcn
  have hcad : cadj h φ ρ K (K + (v - h.vnohnnd)) = A3 h φ K (K + (v - h.vnohnnd)) := by
    unfold cadj; rw [if_neg (by omega)]
  unfold cpV2
  rw [hnum, Arr.wr_ok _ _ (by rw [I.vlo]; omega) (by rw [I.vhi]; omega), ok_bind, Arr.wr_ok _ _ (by rw [I.zlo]; omega) (by rw [I.zhi]; omega), ok_bind, Holds_bind]
  refine (cpArcs3_holds C A (a := ⟨s.a.tab, s.a.edge, s.a.num, s.a.vsiz.set (K + (v - h.vnohnnd)) 1⟩) (E := E) (n0 := s.a.num) (f := s.a.edge.get) v1 v2 hm hmsk n1 (by rw [← hcad]; exact n2) (CpTab.start hm I.tlo I.thi I.old) (EInv.init (a := ⟨s.a.tab, s.a.edge, s.a.num, s.a.vsiz.set (K + (v - h.vnohnnd)) 1⟩) I.elo I.ehi rfl)).mono ?_
  rintro a ⟨i1, i2, i3⟩
  rw [Holds_pure]
  have jn := i2.num
  refine ⟨by dsimp only; omega, ?_, i1.lo, i1.hi, ?_, i2.elo, i2.ehi, I.vlo, I.vhi, by dsimp only; rw [i3]; exact I.zlo, by dsimp only; rw [i3]; exact I.zhi, ?_, I.nh, ?_⟩
  · rw [show K + (v + 1 - h.vnohnnd) = K + (v - h.vnohnnd) + 1 by omega]
    refine I.lists.step (by omega) ?_ (Arr.set_get_same _ _ _) i2.low (by show s.a.num ≤ a.num; omega) (i2.list.trans hcad.symm)
    intro u hu
    dsimp only
    rw [Arr.set_get_ne _ _ hu]
  · intro x x1 x2
    have := i1.old x x1 x2
    dsimp only
    omega
  · intro d d1 d2
    dsimp only
    rw [i3]
    by_cases hd : d = K + (v - h.vnohnnd)
    · rw [hd, Arr.set_get_same]
      unfold csize
      rw [C.high_sum (by omega) hcn (fun _ => 1)]
    · dsimp only
      rw [Arr.set_get_ne _ _ hd]
      exact I.siz d d1 (by omega)
  · intro t ht
    obtain ⟨q1, q2, q3⟩ := I.hh t ht
    refine ⟨q1, q2, ?_⟩
    intro d d1 d2 d3
    dsimp only
    rw [Arr.set_get_ne _ _ (by omega)]
    exact q3 d d1 (by omega) d3

theorem cpVelo_holds (C : Cx h φ ρ K) {coar vsiz : Arr Int} (A : CoarOk h φ coar) (z1 : vsiz.lo = 1) (z2 : vsiz.hi = 1 + cnnd h K) (hz : ∀ d, 1 ≤ d → d < cnnd h K → vsiz.get d = csize h φ d) :
    Holds (cpVelo h.s coar vsiz (cnnd h K)) (fun t => t.lo = 1 ∧ cnnd h K ≤ t.hi ∧ ∀ d, 1 ≤ d → d < cnnd h K → t.get d = cload h φ d) := by
  have hp := C.cls.pos
  have hn := C.H.nnd
  have hw := C.H.wnnd
  have hle := C.H.le
  have hso := C.H.some
  unfold cpVelo
  cases hv : h.s.velotax with
  | none =>
    dsimp only
    rw [Holds_pure]
    refine ⟨z1, by omega, ?_⟩
    intro d d1 d2
    rw [hz d d1 d2]
    unfold csize cload
    apply sumI_congr
    intro u _ _
    unfold Graph.velo
    rw [hv]
  | some a =>
    dsimp only
    have hvel := C.H.alloc.whole.velo a hv
    refine Holds_forUp (fun v t => t.lo = 1 ∧ t.hi = cnnd h K ∧ ∀ d, 1 ≤ d → d < cnnd h K → t.get d = sumI h.s.baseval v (fun u => if φ u = d then h.s.velo u else 0)) (by omega) ?_ ?_ ?_
    · refine ⟨rfl, rfl, ?_⟩
      intro d _ _
      rw [sumI_empty (Int.le_refl _)]
      rfl
    · rintro v t w1 w2 ⟨i1, i2, i3⟩
      have hn := C.num ⟨w1, w2⟩
      rw [A.rd ⟨w1, w2⟩, ok_bind, Arr.rd_ok _ (by omega) (by omega), ok_bind, Arr.rd_ok _ (by omega) (by omega), ok_bind, Arr.wr_ok _ _ (by omega) (by omega), Holds_ok]
      refine ⟨i1, i2, ?_⟩
      intro d d1 d2
      have hve : h.s.velo v = a.get v := by unfold Graph.velo; rw [hv]
      rw [sumI_succ w1]
      by_cases hd : d = φ v
      · rw [hd, Arr.set_get_same, if_pos rfl, i3 _ hn.1 hn.2, hve]
      · rw [Arr.set_get_ne _ _ hd, if_neg (fun hx => hd hx.symm), i3 d d1 d2, Int.add_zero]
    · rintro t ⟨i1, i2, i3⟩
      exact ⟨i1, by omega, i3⟩

/-- What is known of the compressed graph. -/
structure Built (h : Hgraph) (φ ρ : Int → Int) (K : Int) (hc : Hgraph) (vsiz : Arr Int) : Prop where
  lists : IsLists hc.s (cadj h φ ρ K)
  base : hc.s.baseval = 1
  nbr : hc.s.vertnbr = cnnd h K - 1
  nnd : hc.s.vertnnd = cnnd h K
  vnum : hc.s.vnumtax = none
  vlbl : hc.s.vlbltax = none
  vlo : hc.s.verttax.lo = 1
  vhi : hc.s.verttax.hi = cnnd h K + 1 + 1
  elo : hc.s.edgetax.lo = 1
  ehi : hc.s.edgetax.hi = 1 + hc.s.edgenbr
  velo : ∃ t, hc.s.velotax = some t ∧ t.lo = 1 ∧ cnnd h K ≤ t.hi ∧ ∀ d, 1 ≤ d → d < cnnd h K → t.get d = cload h φ d
  velosum : hc.s.velosum = h.s.velosum
  degrmax : hc.s.degrmax = h.s.degrmax
  nohnbr : hc.vnohnbr = K - 1
  nohnnd : hc.vnohnnd = K
  nh : hc.vnhdtax = none → h.s.vertnbr = h.vnohnbr
  hh : ∀ t, hc.vnhdtax = some t → t.lo = 1 ∧ t.hi = K ∧ ∀ d, 1 ≤ d → d < K → t.get d = hc.s.verttax.get d + (A1 h φ ρ d).length
  vnlosum : hc.vnlosum = h.vnlosum
  enoh : hc.enohnbr = sumI 1 K (fun c => ((cadj h φ ρ K c).length : Int)) - sumI K (cnnd h K) (fun c => ((cadj h φ ρ K c).length : Int))
  enlo : hc.enlosum = hc.enohnbr
  zlo : vsiz.lo = 1
  zhi : vsiz.hi = 1 + cnnd h K
  siz : ∀ d, 1 ≤ d → d < cnnd h K → vsiz.get d = csize h φ d

theorem cpBuild_holds (H : CpH h) (junk : Nat → Int → Int) {msk : Int} (hm : IsMask msk) (hmsk : h.s.degrmax ≤ msk) {b : CpB} (I : BInv h msk h.vnohnnd b) :
    Holds (cpBuild h junk msk b) (fun r => ∃ φ ρ, Cx h φ ρ b.nbr ∧ CoarOk h φ r.2.1 ∧ Built h φ ρ b.nbr r.1 r.2.2) := by
  have hn := H.nnd
  have hw := H.wnnd
  have hle := H.le
  have hso := H.some
  obtain ⟨ρ, C0, hen⟩ := I.cls
  have hp := C0.pos
  unfold cpBuild
  dsimp only
  rw [Holds_bind]
  refine Holds_forUp (fun v t => t.1.lo = h.s.baseval ∧ t.1.hi = h.s.vertnnd ∧ t.2 = b.nbr + (v - h.vnohnnd) ∧ (∀ u, u < h.vnohnnd → t.1.get u = b.coar.get u) ∧ ∀ u, h.vnohnnd ≤ u → u < v → t.1.get u = b.nbr + (u - h.vnohnnd)) hle ?_ ?_ ?_
  · exact ⟨I.clo, I.chi, by dsimp only; omega, fun _ _ => rfl, fun u u1 u2 => by omega⟩
  · rintro v ⟨t, n⟩ v1 v2 ⟨i1, i2, i3, i4, i5⟩
    dsimp only at i1 i2 i3 i4 i5 ⊢
    rw [Arr.wr_ok _ _ (by omega) (by omega), ok_bind, Holds_pure]
    refine ⟨i1, i2, by dsimp only; omega, ?_, ?_⟩
    · intro u hu
      rw [Arr.set_get_ne _ _ (by omega)]; exact i4 u hu
    · intro u u1 u2
      by_cases hu : u = v
      · rw [hu, Arr.set_get_same, i3]
      · rw [Arr.set_get_ne _ _ hu]; exact i5 u u1 (by omega)
  rintro ⟨coar, nnd⟩ ⟨i1, i2, i3, i4, i5⟩
  dsimp only at i1 i2 i3 i4 i5 ⊢
  have C : Cx h coar.get ρ b.nbr := ⟨H, C0.congr (fun u _ u2 => i4 u u2), i5⟩
  have A : CoarOk h coar.get coar := ⟨i1, i2, fun _ _ => rfl⟩
  have hE := C.room hen
  have hnd : nnd = cnnd h b.nbr := i3
  subst hnd
  rw [Holds_bind]
  refine Holds_forUp (fun v s => ∃ c, 1 ≤ c ∧ c ≤ b.nbr ∧ (∀ u, h.s.baseval ≤ u → u < v → coar.get u < c) ∧ CVInv h coar.get ρ b.nbr b.enbr msk c s) (by omega) ?_ ?_ ?_
  · refine ⟨1, Int.le_refl _, hp, fun u u1 u2 => by omega, ⟨rfl, Lists.init _ _ _ _, rfl, rfl, ?_, rfl, rfl, rfl, ?_, rfl, rfl, fun d d1 d2 => by omega, ?_, ?_⟩⟩
    · intro x _ _
      show (-1 : Int) < 1
      decide
    · dsimp only; omega
    · dsimp only
      by_cases hx : h.s.vertnbr = h.vnohnbr
      · exact fun _ => hx
      · rw [if_neg hx]; intro hy; cases hy
    · dsimp only
      by_cases hx : h.s.vertnbr = h.vnohnbr
      · rw [if_pos hx]; intro t hy; cases hy
      · rw [if_neg hx]; intro t hy; cases hy
        exact ⟨rfl, rfl, fun d d1 d2 => by omega⟩
  · rintro v s v1 v2 ⟨c, c1, c2, c3, J⟩
    exact cpV1_holds C A hm hmsk hE v1 v2 c1 c2 c3 J
  rintro s1 ⟨c, c1, c2, c3, J⟩
  have hcK : c = b.nbr := by
    apply Classical.byContradiction
    intro hx
    obtain ⟨r1, r2, r3, _⟩ := C.cls.rep c c1 (by omega)
    have := c3 (ρ c) r1 r2
    omega
  subst hcK
  rw [Holds_bind]
  refine Holds_forUp (fun v s => CVInv h coar.get ρ b.nbr b.enbr msk (b.nbr + (v - h.vnohnnd)) s) hle ?_ ?_ ?_
  · rw [show b.nbr + (h.vnohnnd - h.vnohnnd) = b.nbr by omega]; exact J
  · intro v s v1 v2 J
    exact cpV2_holds C A hm hmsk hE v1 v2 J
  intro s J2
  have hcn : b.nbr + (h.s.vertnnd - h.vnohnnd) = cnnd h b.nbr := rfl
  rw [hcn] at J2
  have hnum := J2.num
  have hK : b.nbr ≤ cnnd h b.nbr := by unfold cnnd; omega
  rw [hnum, Arr.wr_ok _ _ (by rw [J2.vlo]; omega) (by rw [J2.vhi]; omega), ok_bind, Holds_bind]
  refine (cpVelo_holds C A J2.zlo J2.zhi J2.siz).mono ?_
  rintro velo ⟨k1, k2, k3⟩
  rw [Holds_pure]
  refine ⟨coar.get, ρ, C, A, ?_⟩
  have e1 := J.lists.next
  have e2 := J2.lists.next
  have e3 := sumI_split hp hK (fun c => ((cadj h coar.get ρ b.nbr c).length : Int))
  refine ⟨⟨?_, ?_, rfl, rfl, ?_, ?_, rfl, ?_⟩, rfl, rfl, rfl, rfl, rfl, J2.vlo, J2.vhi, rfl, rfl, ⟨velo, rfl, k1, k2, k3⟩, rfl, rfl, rfl, rfl, J2.nh, ?_, rfl, ?_, rfl, J2.zlo, J2.zhi, J2.siz⟩
  · show 0 ≤ cnnd h b.nbr - 1
    omega
  · show cnnd h b.nbr = 1 + (cnnd h b.nbr - 1)
    omega
  · refine Eq.mp ?_ (lists_congr (vert' := (s.vert.set (cnnd h b.nbr) s.a.num).get) J2.lists (fun u _ u2 => Arr.set_get_ne _ _ (by omega)))
    dsimp only
    rw [show 1 + (s.a.num - 1) = s.a.num by omega]
  · dsimp only
    rw [Arr.set_get_same]
    omega
  · refine ⟨H.w.degrmax.1, ?_⟩
    intro v hv
    exact C.cadj_deg hv.1 hv.2
  · intro t ht
    obtain ⟨q1, q2, q3⟩ := J2.hh t ht
    refine ⟨q1, q2, ?_⟩
    intro d d1 d2
    dsimp only
    rw [Arr.set_get_ne _ _ (by omega)]
    exact q3 d d1 (by omega) d2
  · dsimp only
    omega

end Scotch.HOrder
