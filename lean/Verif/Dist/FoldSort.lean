import Verif.Dist.FoldLemmas

set_option autoImplicit false
set_option linter.unusedSimpArgs false

namespace Scotch.Fold

open Scotch.MapIO (Asc)
open Scotch.Sorting

/-- Sorted tables of senders and receivers. -/
structure Srt (f : FoldIn) (T : Int → Int × Int) : Prop where
  rng : ∀ k, 0 ≤ k → k < f.procglbnbr → 0 ≤ (T k).2 ∧ (T k).2 < f.procglbnbr
  rcv : ∀ k, 0 ≤ k → k < f.procglbnbr → (f.Rcv (T k).2 ↔ f.Rcv k)
  inj : ∀ k l, 0 ≤ k → k < f.procglbnbr → 0 ≤ l → l < f.procglbnbr → (T k).2 = (T l).2 → k = l
  surj : ∀ p, 0 ≤ p → p < f.procglbnbr → ∃ k, 0 ≤ k ∧ k < f.procglbnbr ∧ (T k).2 = p
  sval : ∀ k, f.procsndbas ≤ k → k < f.procsndnnd → (T k).1 = f.cnt (T k).2
  rval : ∀ k, f.procrcvbas ≤ k → k < f.procrcvnnd → (T k).1 = f.cnt (T k).2 - dataSize f.vertglbnbr f.procfldnbr ((T k).2 - f.procrcvbas)
  sasc : ∀ k l, f.procsndbas ≤ k → k < l → l < f.procsndnnd → (T k).1 ≤ (T l).1
  rasc : ∀ k l, f.procrcvbas ≤ k → k < l → l < f.procrcvnnd → (T k).1 ≤ (T l).1

/-- Sorted table of one of the two groups of processes. -/
structure Half (tab : Arr (Int × Int)) (bas nnd : Int) (val : Int → Int) : Prop where
  rng : ∀ k, bas ≤ k → k < nnd → bas ≤ (tab.get k).2 ∧ (tab.get k).2 < nnd
  inj : ∀ k l, bas ≤ k → k < nnd → bas ≤ l → l < nnd → (tab.get k).2 = (tab.get l).2 → k = l
  surj : ∀ p, bas ≤ p → p < nnd → ∃ k, bas ≤ k ∧ k < nnd ∧ (tab.get k).2 = p
  val : ∀ k, bas ≤ k → k < nnd → (tab.get k).1 = val (tab.get k).2
  asc : ∀ k l, bas ≤ k → k < l → l < nnd → (tab.get k).1 ≤ (tab.get l).1

theorem sortAt_holds {tab : Arr (Int × Int)} {d n : Int} (h0 : 0 ≤ n) (hn : n < 2 ^ 31) :
    Holds (sortAt tab d n) (fun r => PermOn tab r d (d + n) ∧ Asc r d (d + n)) := by
  unfold sortAt
  rw [Holds_bind]
  refine (C02_sort Sorting.lt2asc1 strictWeak_lt2asc1 (part tab d n) n 31 h0 hn (Int.le_refl _) (Int.le_refl _)).mono ?_
  rintro a ⟨⟨l1, u1, f, hf1, hf2⟩, hs⟩
  rw [Holds_pure]
  have hin : ∀ i, 0 ≤ i → i < n → 0 ≤ f i ∧ f i < n := by
    intro i i0 i1
    refine Classical.byContradiction fun hb => ?_
    have e1 := hf1 (f i) (by omega)
    have e2 := f.injective e1
    rw [e2] at hb
    omega
  refine ⟨⟨rfl, rfl, ⟨fun i => f (i - d) + d, fun i => f.symm (i - d) + d, fun i => ?_, fun i => ?_⟩, fun i hi => ?_, fun i => ?_⟩, fun i j i1 i2 i3 => ?_⟩
  · dsimp only
    rw [Int.add_sub_cancel, Equiv.symm_apply_apply, Int.sub_add_cancel]
  · dsimp only
    rw [Int.add_sub_cancel, Equiv.apply_symm_apply, Int.sub_add_cancel]
  · show f (i - d) + d = i
    rw [hf1 (i - d) (by omega)]
    omega
  · show (if d ≤ i ∧ i < d + n then a.get (i - d) else tab.get i) = tab.get (f (i - d) + d)
    by_cases c : d ≤ i ∧ i < d + n
    · rw [if_pos c, hf2]
      have := hin (i - d) (by omega) (by omega)
      unfold part
      dsimp only
      rw [if_pos this, Int.add_comm]
    · rw [if_neg c, hf1 (i - d) (by omega), Int.sub_add_cancel]
  · have := hs (i - d) (j - d) (by omega) (by omega) (by omega)
    simp only [Sorting.lt2asc1, decide_eq_false_iff_not] at this
    dsimp only
    rw [if_pos (by omega), if_pos (by omega)]
    omega

theorem half_sort {P bas nnd : Int} (val : Int → Int) (hP : P < 2 ^ 31) (h0 : 0 ≤ bas) (h1 : bas < nnd) (h2 : nnd ≤ P)
    {tab : Arr (Int × Int)} (hlo : tab.lo = 0) (hhi : tab.hi = P) (body : Int → Arr (Int × Int) → M (Arr (Int × Int)))
    (hbody : ∀ p t, bas ≤ p → p < nnd → body p t = t.wr p (val p, p)) :
    Holds (do
      let tab ← forUp bas nnd tab body
      sortAt tab bas (nnd - bas)) (fun r => r.lo = 0 ∧ r.hi = P ∧ Half r bas nnd val ∧
        ∀ k, k < bas ∨ nnd ≤ k → r.get k = tab.get k) := by
  rw [Holds_bind]
  refine Holds_forUp (fun i t => t.lo = 0 ∧ t.hi = P ∧ (∀ k, bas ≤ k → k < i → t.get k = (val k, k)) ∧
    ∀ k, k < bas ∨ i ≤ k → t.get k = tab.get k) (by omega) ⟨hlo, hhi, fun k a b => by omega, fun k _ => rfl⟩ ?_ ?_
  · rintro i t i1 i2 ⟨a1, a2, a3, a4⟩
    rw [hbody i t i1 i2, Holds_wr]
    refine ⟨by omega, a1, a2, fun k k1 k2 => ?_, fun k hk => ?_⟩
    · by_cases e : k = i
      · subst e; rw [Arr.set_get_same]
      · rw [Arr.set_get_ne _ _ e]; exact a3 k k1 (by omega)
    · rw [Arr.set_get_ne _ _ (by omega)]; exact a4 k (by omega)
  · rintro t ⟨a1, a2, a3, a4⟩
    refine (sortAt_holds (by omega) (by omega)).mono ?_
    rintro r ⟨⟨b1, b2, g, g1, g2⟩, hasc⟩
    have en : bas + (nnd - bas) = nnd := by omega
    rw [en] at g1 hasc
    have hg : ∀ j, bas ≤ j → j < nnd → bas ≤ g j ∧ g j < nnd := by
      intro j j1 j2
      refine Classical.byContradiction fun hb => ?_
      have e1 := g1 (g j) (by omega)
      have e2 := g.injective e1
      rw [e2] at hb
      omega
    have hr : ∀ k, bas ≤ k → k < nnd → r.get k = (val (g k), g k) := by
      intro k k1 k2
      rw [g2]
      exact a3 _ (hg k k1 k2).1 (hg k k1 k2).2
    refine ⟨by omega, by omega, ⟨?_, ?_, ?_, ?_, ?_⟩, ?_⟩
    · intro k k1 k2
      rw [hr k k1 k2]
      exact hg k k1 k2
    · intro k l k1 k2 l1 l2 e
      rw [hr k k1 k2, hr l l1 l2] at e
      exact g.injective e
    · intro p p1 p2
      have e := g.apply_symm_apply p
      by_cases hb : bas ≤ g.symm p ∧ g.symm p < nnd
      · exact ⟨_, hb.1, hb.2, by rw [hr _ hb.1 hb.2]; exact e⟩
      · have := g1 (g.symm p) (by omega)
        omega
    · intro k k1 k2
      rw [hr k k1 k2]
    · intro k l k1 k2 l2
      exact hasc k l k1 k2 l2
    · intro k hk
      rw [g2, g1 k (by omega)]
      exact a4 k (by omega)

theorem sortSnd_holds {f : FoldIn} (h : f.Ok) {tab : Arr (Int × Int)} (hlo : tab.lo = 0) (hhi : tab.hi = f.procglbnbr) :
    Holds (sortSnd f tab) (fun r => r.lo = 0 ∧ r.hi = f.procglbnbr ∧ Half r f.procsndbas f.procsndnnd f.cnt) := by
  obtain ⟨r1, r2, r3, r4, r5, r6⟩ := h.ranges
  have hc := h.clo
  have hc' := h.chi
  unfold sortSnd
  refine (half_sort f.cnt h.max r2.1 r2.2.1 r2.2.2 hlo hhi _ ?_).mono ?_
  · intro p t p1 p2
    rw [Arr.rd_ok _ (by omega) (by omega), ok_bind]; rfl
  · rintro r ⟨a1, a2, a3, _⟩
    exact ⟨a1, a2, a3⟩

theorem sortRcv_holds {f : FoldIn} (h : f.Ok) {tab : Arr (Int × Int)} (hlo : tab.lo = 0) (hhi : tab.hi = f.procglbnbr)
    (hs : Half tab f.procsndbas f.procsndnnd f.cnt) :
    Holds (sortRcv f tab) (fun r => r.lo = 0 ∧ r.hi = f.procglbnbr ∧ Srt f r.get ∧ Half r f.procsndbas f.procsndnnd f.cnt) := by
  obtain ⟨r1, r2, r3, r4, r5, r6⟩ := h.ranges
  have hc := h.clo
  have hc' := h.chi
  unfold sortRcv
  refine (half_sort (fun p => f.cnt p - dataSize f.vertglbnbr f.procfldnbr (p - f.procrcvbas)) h.max r1.1 r1.2.1 r1.2.2 hlo hhi _ ?_).mono ?_
  · intro p t p1 p2
    rw [Arr.rd_ok _ (by omega) (by omega), ok_bind]; rfl
  · rintro r ⟨a1, a2, a3, a4⟩
    have hS : Half r f.procsndbas f.procsndnnd f.cnt := by
      have e : ∀ k, f.procsndbas ≤ k → k < f.procsndnnd → r.get k = tab.get k := by
        intro k k1 k2
        refine a4 k ?_
        have := r5 k k1 k2
        unfold FoldIn.Rcv at this
        omega
      refine ⟨fun k k1 k2 => ?_, fun k l k1 k2 l1 l2 => ?_, fun p p1 p2 => ?_, fun k k1 k2 => ?_, fun k l k1 k2 l2 => ?_⟩
      · rw [e k k1 k2]; exact hs.rng k k1 k2
      · rw [e k k1 k2, e l l1 l2]; exact hs.inj k l k1 k2 l1 l2
      · obtain ⟨k, k1, k2, k3⟩ := hs.surj p p1 p2
        exact ⟨k, k1, k2, by rw [e k k1 k2]; exact k3⟩
      · rw [e k k1 k2]; exact hs.val k k1 k2
      · rw [e k k1 (by omega), e l (by omega) l2]; exact hs.asc k l k1 k2 l2
    refine ⟨a1, a2, ?_, hS⟩
    have hrk : ∀ k, f.Rcv k → f.Rcv (r.get k).2 := fun k hk => a3.rng k hk.1 hk.2
    have hsk : ∀ k, 0 ≤ k → k < f.procglbnbr → ¬ f.Rcv k → ¬ f.Rcv (r.get k).2 ∧ f.procsndbas ≤ (r.get k).2 ∧ (r.get k).2 < f.procsndnnd := by
      intro k k1 k2 hk
      have := (r4 k k1 k2).1 hk
      have := hS.rng k this.1 this.2
      exact ⟨r5 _ this.1 this.2, this⟩
    refine ⟨?_, ?_, ?_, ?_, hS.val, a3.val, hS.asc, a3.asc⟩
    · intro k k1 k2
      by_cases hk : f.Rcv k
      · have := hrk k hk
        unfold FoldIn.Rcv at this
        omega
      · have := hsk k k1 k2 hk
        omega
    · intro k k1 k2
      refine ⟨fun hh => Classical.byContradiction fun hk => (hsk k k1 k2 hk).1 hh, hrk k⟩
    · intro k l k1 k2 l1 l2 e
      by_cases hk : f.Rcv k
      · by_cases hl : f.Rcv l
        · exact a3.inj k l hk.1 hk.2 hl.1 hl.2 e
        · exact absurd (e ▸ hrk k hk) (hsk l l1 l2 hl).1
      · by_cases hl : f.Rcv l
        · exact absurd (e.symm ▸ hrk l hl) (hsk k k1 k2 hk).1
        · have b1 := (r4 k k1 k2).1 hk
          have b2 := (r4 l l1 l2).1 hl
          exact hS.inj k l b1.1 b1.2 b2.1 b2.2 e
    · intro p p1 p2
      by_cases hp : f.Rcv p
      · obtain ⟨k, k1, k2, k3⟩ := a3.surj p hp.1 hp.2
        exact ⟨k, by omega, by omega, k3⟩
      · have b := (r4 p p1 p2).1 hp
        obtain ⟨k, k1, k2, k3⟩ := hS.surj p b.1 b.2
        exact ⟨k, by omega, by omega, k3⟩

theorem skipEmpty_holds {f : FoldIn} (h : f.Ok) {tab : Arr (Int × Int)} (hlo : tab.lo = 0) (hhi : tab.hi = f.procglbnbr)
    (hT : Srt f tab.get) :
    Holds (skipEmpty f tab) (fun a => f.procsndbas ≤ a ∧ a ≤ f.procsndnnd ∧ (∀ k, f.procsndbas ≤ k → k < a → (tab.get k).1 = 0) ∧
      ∀ k, a ≤ k → k < f.procsndnnd → 0 < (tab.get k).1) := by
  obtain ⟨r1, r2, r3, r4, r5, r6⟩ := h.ranges
  unfold skipEmpty
  rw [Holds_bind]
  refine Holds_forUpB (fun i _ => ∀ k, f.procsndbas ≤ k → k < i → (tab.get k).1 = 0)
    (fun i => f.procsndbas ≤ i ∧ i < f.procsndnnd ∧ (tab.get i).1 ≠ 0 ∧ ∀ k, f.procsndbas ≤ k → k < i → (tab.get k).1 = 0)
    (by omega) (fun k a b => by omega) ?_ ?_ ?_
  · intro i _ i1 i2 hI
    rw [Arr.rd_ok _ (by omega) (by omega), ok_bind]
    by_cases hc : (tab.get i).1 ≠ 0
    · rw [if_pos hc, Holds_pure]
      exact ⟨i1, i2, hc, hI⟩
    · rw [if_neg hc, Holds_pure]
      intro k k1 k2
      by_cases e : k = i
      · subst e; omega
      · exact hI k k1 (by omega)
  · intro _ hI
    rw [Holds_pure]
    exact ⟨by omega, by omega, hI, fun k a b => by omega⟩
  · rintro i ⟨b1, b2, b3, b4⟩
    rw [Holds_pure]
    refine ⟨b1, by omega, b4, fun k k1 k2 => ?_⟩
    have v := hT.sval i b1 b2
    have c0 := h.cnt0 _ (hT.rng i (by omega) (by omega)).1 (hT.rng i (by omega) (by omega)).2
    by_cases e : k = i
    · subst e; omega
    · have := hT.sasc i k b1 (by omega) k2
      omega

end Scotch.Fold
