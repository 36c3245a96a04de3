import Verif.Dist.FoldPlan3

set_option autoImplicit false
set_option linter.unusedSimpArgs false

namespace Scotch.Fold

section
variable {f : FoldIn} {T : Int → Int × Int} {cm a0 x : Int}

/-- When no sender remains, the plan is sound. -/
theorem CI.good (hf : f.Ok) (hT : Srt f T) {c : Ctl} (h : CI f T cm a0 c) (hd : c.sortsndnnd < c.sortsndbas) : f.Good cm c.moves := by
  obtain ⟨q1, q2, q3, q4, q5, q6⟩ := hf.ranges
  refine ⟨h.cb.mv, ?_, ?_⟩
  · intro p p0 p1 hp
    obtain ⟨k, k0, k1, rfl⟩ := hT.surj p p0 p1
    rw [hT.rcv k k0 k1, q4 k k0 k1] at hp
    exact h.cb.s2 k hp.1 hp.2 (by omega) (by omega)
  · intro q hq
    obtain ⟨k, k0, k1, rfl⟩ := hT.surj q (by unfold FoldIn.Rcv at hq; omega) (by unfold FoldIn.Rcv at hq; omega)
    rw [hT.rcv k k0 k1] at hq
    have hr := hT.rng k k0 k1
    by_cases e1 : c.sortrcvnnd < k
    · obtain ⟨⟨a1, a2, a3, a4⟩, a5⟩ := h.cb.r1 k e1 hq.2 (by omega)
      refine Or.inr ⟨a1, a2, ?_, a3, a4⟩
      have := hT.rval k hq.1 hq.2
      have h2 := dataSize_nonneg (n := f.vertglbnbr) (p := f.procfldnbr) (i := (T k).2 - f.procrcvbas) (by omega) (by
        rw [hf.sum]
        exact sumI_nonneg (fun i i0 i1 => hf.cnt0 i i0 i1)) (by have := (hT.rcv k k0 k1).2 hq; unfold FoldIn.Rcv at this; omega)
      omega
    · by_cases e2 : k < c.sortrcvnum
      · obtain ⟨a1, a2, a3, a4⟩ := h.cb.r2 k hq.1 e2 (by omega)
        exact Or.inl ⟨a1, a2, a3⟩
      · by_cases e3 : k = c.sortrcvnum
        · subst e3
          obtain ⟨⟨a1, a2, a3, a4⟩, a5⟩ := h.cur (by omega)
          have := h.com1
          exact Or.inl ⟨a1, a2, by omega⟩
        · obtain ⟨a1, a2⟩ := h.cb.r4 k (by omega) (by omega)
          refine Or.inl ⟨a1, ?_, ?_⟩
          · rw [a2]; trivial
          · rw [a2]
            have := h.com0
            have := h.com1
            simp; omega

theorem sumI_one_le {lo hi p : Int} {g : Int → Int} (h0 : lo ≤ p) (h1 : p < hi) (h : ∀ i, lo ≤ i → i < hi → 0 ≤ g i) : g p ≤ sumI lo hi g := by
  rw [sumI_split h0 (by omega : p ≤ hi), sumI_split (show p ≤ p + 1 by omega) (by omega : p + 1 ≤ hi)]
  have a1 := sumI_nonneg (lo := lo) (hi := p) (f := g) (fun i i0 i1 => h i i0 (by omega))
  have a2 := sumI_nonneg (lo := p + 1) (hi := hi) (f := g) (fun i i0 i1 => h i (by omega) i1)
  have a3 : sumI p (p + 1) g = g p := by rw [sumI_succ (by omega), sumI_empty (by omega)]; omega
  omega

theorem sumI_sub_dist (lo hi : Int) (g h : Int → Int) : sumI lo hi (fun i => g i - h i) = sumI lo hi g - sumI lo hi h := by
  have := sumI_add_dist lo hi (fun i => g i - h i) h
  rw [sumI_congr (g := g) (fun i _ _ => by omega)] at this
  omega

/-- Receivers cannot be all full when there remains a sender, if the number of messages is not bounded. -/
theorem CI.redo (hf : f.Ok) (hT : Srt f T) (ha0 : f.procsndbas ≤ a0) (hpos : ∀ k, a0 ≤ k → k < f.procsndnnd → 0 < (T k).1)
    {c : Ctl} (h : CI f T cm a0 c) (hi : c.sortrcvnnd < c.sortrcvnum) (hb : c.sortsndbas ≤ c.sortsndnnd) : cm ≤ f.procglbnbr := by
  refine Classical.byContradiction fun hcm => ?_
  obtain ⟨q1, q2, q3, q4, q5, q6⟩ := hf.ranges
  have hmv := h.cb.mv
  have ha1 := h.cb.a1
  have hb1 := h.cb.b1
  obtain ⟨L, hL⟩ : ∃ L, L = c.moves := ⟨_, rfl⟩
  have hnn : ∀ (P : List Move → Int → List Move) p, (∀ m ∈ P c.moves p, m ∈ c.moves) → 0 ≤ tot (P c.moves p) :=
    fun P p hP => tot_nonneg (fun m hm => (hmv m (hP m hm)).1)
  have hrn : ∀ p, 0 ≤ tot (recvs c.moves p) := fun p => hnn recvs p (fun m hm => (mem_recvs.1 hm).1)
  let lev : Int → Int := fun p => f.cnt p + tot (recvs c.moves p) - tot (sends c.moves p)
  let tgt : Int → Int := fun p => if f.Rcv p then dataSize f.vertglbnbr f.procfldnbr (p - f.procrcvbas) else 0
  have hlev : sumI 0 f.procglbnbr lev = f.vertglbnbr := by
    show sumI 0 f.procglbnbr (fun p => (f.cnt p + tot (recvs c.moves p)) - tot (sends c.moves p)) = _
    rw [sumI_sub_dist, sumI_add_dist, sum_sends (fun m hm => (hmv m hm).2.1), sum_recvs (fun m hm => ?_), ← hf.sum]
    · omega
    · have := (hmv m hm).2.2.1
      unfold FoldIn.Rcv at this
      omega
  have htgt : sumI 0 f.procglbnbr tgt = f.vertglbnbr := by
    rw [sumI_split (show 0 ≤ f.procrcvbas by omega) (by omega), sumI_split (show f.procrcvbas ≤ f.procrcvnnd by omega) (by omega)]
    rw [sumI_congr (lo := 0) (g := fun _ => 0) (fun i i0 i1 => if_neg (by unfold FoldIn.Rcv; omega)),
      sumI_congr (lo := f.procrcvnnd) (g := fun _ => 0) (fun i i0 i1 => if_neg (by unfold FoldIn.Rcv; omega)),
      sumI_congr (lo := f.procrcvbas) (g := fun i => dataSize f.vertglbnbr f.procfldnbr (i - f.procrcvbas)) (fun i i0 i1 => if_pos ⟨i0, i1⟩),
      q3, sum_dataSize (by omega), sumI_const (by omega), sumI_const (by omega)]
    omega
  have hge : ∀ p, 0 ≤ p → p < f.procglbnbr → 0 ≤ lev p - tgt p := by
    intro p p0 p1
    obtain ⟨k, k0, k1, rfl⟩ := hT.surj p p0 p1
    have hr := hrn (T k).2
    show 0 ≤ (f.cnt (T k).2 + tot (recvs c.moves (T k).2) - tot (sends c.moves (T k).2)) - (if f.Rcv (T k).2 then dataSize f.vertglbnbr f.procfldnbr ((T k).2 - f.procrcvbas) else 0)
    by_cases hk : f.Rcv (T k).2
    · rw [if_pos hk]
      rw [hT.rcv k k0 k1] at hk
      have hv := hT.rval k hk.1 hk.2
      by_cases e1 : c.sortrcvnnd < k
      · have := (h.cb.r1 k e1 hk.2 (by omega)).2
        omega
      · obtain ⟨a1, a2, a3, a4⟩ := h.cb.r2 k hk.1 (by omega) (by omega)
        have := a4 (by omega)
        rw [a1, tot_nil]
        omega
    · rw [if_neg hk]
      rw [hT.rcv k k0 k1, q4 k k0 k1] at hk
      by_cases e1 : c.sortsndbas ≤ k ∧ k ≤ c.sortsndnnd
      · rw [h.cb.s1 k e1.1 e1.2, tot_nil]
        have := hf.cnt0 _ p0 p1
        omega
      · have := (h.cb.s2 k hk.1 hk.2 (by omega) (by omega)).2.2.1
        omega
  have hsum : sumI 0 f.procglbnbr (fun p => lev p - tgt p) = 0 := by rw [sumI_sub_dist, hlev, htgt]; omega
  have hr := hT.rng c.sortsndnnd (by omega) (by omega)
  have hone := sumI_one_le (g := fun p => lev p - tgt p) hr.1 hr.2 hge
  rw [hsum] at hone
  have e : lev (T c.sortsndnnd).2 - tgt (T c.sortsndnnd).2 = (f.cnt (T c.sortsndnnd).2 + tot (recvs c.moves (T c.sortsndnnd).2) - tot (sends c.moves (T c.sortsndnnd).2)) - 0 := by
    show _ - (if f.Rcv (T c.sortsndnnd).2 then _ else _) = _
    rw [if_neg]
    rw [hT.rcv _ (by omega) (by omega)]
    exact q5 _ (by omega) (by omega)
  rw [e, h.cb.s1 _ hb (Int.le_refl _), tot_nil] at hone
  have := hT.sval c.sortsndnnd (by omega) (by omega)
  have := hpos c.sortsndnnd (by omega) (by omega)
  have := hrn (T c.sortsndnnd).2
  omega

theorem planStep_holds (hf : f.Ok) (hT : Srt f T) (ha0 : f.procsndbas ≤ a0) (hpos : ∀ k, a0 ≤ k → k < f.procsndnnd → 0 < (T k).1) (hcm : 4 ≤ cm)
    {c : Ctl} (h : CI f T cm a0 c) :
    Holds (planStep f cm c) (Loop.Sat (fun c' => CI f T cm a0 c' ∧ mu c' < mu c)
      (fun r => (r.1 = true → f.Good cm r.2) ∧ (r.1 = false → cm ≤ f.procglbnbr))) := by
  unfold planStep
  rw [Holds_bind]
  refine (pick_holds hf hT ha0 hpos h).mono ?_
  intro p hp
  cases p with
  | redo =>
    rw [Holds_pure]
    exact ⟨fun hh => (by cases hh), fun _ => h.redo hf hT ha0 hpos hp.1 hp.2⟩
  | done =>
    rw [Holds_pure]
    exact ⟨fun _ => h.good hf hT hp, fun hh => (by cases hh)⟩
  | go x n both c' =>
    have := plan_go hf hT ha0 hpos hcm h hp
    simp only [Holds_bind] at this ⊢
    refine this.mono ?_
    intro a ha
    refine ha.mono ?_
    intro b hb
    refine hb.mono ?_
    intro d hd
    refine hd.mono ?_
    intro e he
    refine he.mono ?_
    intro g hg
    refine hg.mono ?_
    intro i hi
    refine hi.mono ?_
    intro j hj
    rw [Holds_pure]
    exact hj

theorem foldTry_holds (hf : f.Ok) (hcm : 4 ≤ cm) {tab : Arr (Int × Int)} (hlo : tab.lo = 0) (hhi : tab.hi = f.procglbnbr)
    (hs : Half tab f.procsndbas f.procsndnnd f.cnt) :
    Holds (foldTry f (cm, tab)) (Loop.Sat (fun st => st.1 = cm + 1 ∧ cm ≤ f.procglbnbr ∧ st.2.lo = 0 ∧ st.2.hi = f.procglbnbr ∧ Half st.2 f.procsndbas f.procsndnnd f.cnt)
      (fun r => r.1 = cm ∧ f.Good cm r.2)) := by
  obtain ⟨q1, q2, q3, q4, q5, q6⟩ := hf.ranges
  unfold foldTry
  rw [Holds_bind]
  refine (sortRcv_holds hf hlo hhi hs).mono ?_
  rintro tab ⟨t1, t2, t3, t4⟩
  rw [Holds_bind]
  refine (skipEmpty_holds hf t1 t2 t3).mono ?_
  rintro a0 ⟨a1, a2, a3, a4⟩
  rw [Holds_bind]
  have h0 : CI f tab.get cm a0 ⟨tab, a0, f.procsndnnd - 1, f.procrcvbas, f.procrcvnnd - 1, 0, 0, []⟩ := by
    refine { cb := ?_, ij := by dsimp only; omega, cur := fun _ => ⟨⟨rfl, trivial, rfl, by simp [recvs, tot]⟩, Or.inl rfl⟩, com0 := Int.le_refl _, com1 := by dsimp only; omega, com2 := by unfold used; dsimp only; omega, comn := fun hh => absurd hh (Int.lt_irrefl _) }
    refine { lo := t1, hi := t2, key := fun _ _ _ => rfl, same := fun _ _ _ _ => rfl, a1 := Int.le_refl _, ab := by dsimp only; omega, b1 := by dsimp only; omega, i1 := Int.le_refl _, j0 := by dsimp only; omega, j1 := by dsimp only; omega, gd := Int.le_refl _, mv := fun m hm => (by cases hm), s1 := fun _ _ _ => rfl, s2 := ?_, r1 := ?_, r2 := ?_, r4 := fun _ _ _ => ⟨rfl, rfl⟩ }
    · intro k k0 k1 _ k2
      dsimp only at k2
      have e := a3 k k0 (by omega)
      rw [t3.sval k k0 k1] at e
      exact ⟨trivial, trivial, e.symm, by simp [sends]; omega⟩
    · intro k k0 k1 _
      dsimp only at k0
      omega
    · intro k k0 k1 _
      dsimp only at k1
      omega
  refine (Holds_loopM (fun c => CI f tab.get cm a0 c) mu (Q := fun r => (r.1 = true → f.Good cm r.2) ∧ (r.1 = false → cm ≤ f.procglbnbr))
    (fun c hc => planStep_holds hf t3 a1 a4 hcm hc) _ _ h0 ?_).mono ?_
  · unfold mu
    dsimp only
    omega
  · rintro ⟨ok, L⟩ ⟨b1, b2⟩
    dsimp only at b1 b2 ⊢
    cases ok with
    | true =>
      rw [if_pos rfl, Holds_pure]
      exact ⟨rfl, b1 rfl⟩
    | false =>
      rw [if_neg (by simp), Holds_pure]
      exact ⟨rfl, b2 rfl, t1, t2, t4⟩

theorem foldPlan_holds (hf : f.Ok) (junk : Int → Int × Int) :
    Holds (foldPlan f junk) (fun r => 4 ≤ r.1 ∧ f.Good r.1 r.2) := by
  obtain ⟨q1, q2, q3, q4, q5, q6⟩ := hf.ranges
  unfold foldPlan
  rw [Holds_bind]
  refine (sortSnd_holds hf rfl rfl).mono ?_
  rintro tab ⟨t1, t2, t3⟩
  refine Holds_loopM (fun st => 4 ≤ st.1 ∧ st.2.lo = 0 ∧ st.2.hi = f.procglbnbr ∧ Half st.2 f.procsndbas f.procsndnnd f.cnt)
    (fun st => (f.procglbnbr + 2 - st.1).toNat) ?_ _ _ ⟨Int.le_refl _, t1, t2, t3⟩ (by dsimp only; omega)
  rintro ⟨cm, tb⟩ ⟨c1, c2, c3, c4⟩
  dsimp only at c1 c2 c3 c4
  refine (foldTry_holds hf c1 c2 c3 c4).mono ?_
  intro l hl
  refine hl.mono ?_ ?_
  · rintro ⟨cm', tb'⟩ ⟨d1, d2, d3, d4, d5⟩
    dsimp only at d1 d2 d3 d4 d5 ⊢
    exact ⟨⟨by omega, d3, d4, d5⟩, by omega⟩
  · rintro ⟨cm', L⟩ ⟨d1, d2⟩
    dsimp only at d1 d2 ⊢
    rw [d1]
    exact ⟨c1, d2⟩

end

end Scotch.Fold
