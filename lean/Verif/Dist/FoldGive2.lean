import Verif.Dist.FoldGive

set_option autoImplicit false
set_option linter.unusedSimpArgs false

namespace Scotch.Fold

section
variable {f : FoldIn} {T : Int → Int × Int} {cm a0 x : Int} {both : Bool} {adj0 n0 i0 w : Int}

theorem bigMove_holds (hf : f.Ok) (hT : Srt f T) (ha0 : f.procsndbas ≤ a0) {s : Inn} (h : MI f T cm a0 x both adj0 n0 i0 w s) :
    (0 < (bigMove cm (T x).2 both s).vertsndnbr → II f T cm a0 x both adj0 n0 i0 w (bigMove cm (T x).2 both s) ∧
      s.c.sortrcvnum < (bigMove cm (T x).2 both s).c.sortrcvnum) ∧
    (¬ 0 < (bigMove cm (T x).2 both s).vertsndnbr → Post f T cm a0 x both adj0 n0 i0 (bigMove cm (T x).2 both s)) ∧
    Frame s.c (bigMove cm (T x).2 both s).c := by
  obtain ⟨q1, q2, q3, q4, q5, q6⟩ := hf.ranges
  have hi1 := h.cb.i1
  have hj1 := h.cb.j1
  have hiw := h.iw
  have hwj := h.wj
  have hwc := h.wc
  have hlo := h.cb.lo
  have hhi := h.cb.hi
  have hx0 := h.xb.x0
  have hx1 := h.xb.x1
  have hxs := h.xb.xs
  have hxr := h.xb.xr
  have hvr := h.vr0
  have hsn := h.snb0
  have hrd := h.rd0
  have hgd := h.cb.gd
  have htb := h.tb
  have hco1 := h.com1
  have hco2 := h.com2
  have hcap := h.cap
  have hle := h.le
  have hus := used_le hf h.cb
  obtain ⟨n, hn⟩ : ∃ n, n = if s.vertsndnbr < s.vertrcvnbr then s.vertsndnbr else s.vertrcvnbr := ⟨_, rfl⟩
  have hn0 : 0 ≤ n ∧ n ≤ s.vertsndnbr ∧ n ≤ s.vertrcvnbr := by
    rw [hn]; split <;> omega
  obtain ⟨m, hm⟩ : ∃ m : Move, m = ⟨(T x).2, s.vertadjval, n, s.procrcvnum, s.commsndnum, s.c.commrcvnum, both⟩ := ⟨_, rfl⟩
  have m1 : m.snd = (T x).2 := by rw [hm]
  have m2 : m.rcv = (T s.c.sortrcvnum).2 := by rw [hm]; exact h.pr
  have m3 : m.num = n := by rw [hm]
  have m4 : m.adj = s.vertadjval := by rw [hm]
  have m5 : m.sidx = s.commsndnum := by rw [hm]
  have m6 : m.ridx = s.c.commrcvnum := by rw [hm]
  have m7 : m.both = both := by rw [hm]
  have hcb : CB f T cm a0 x { s.c with moves := s.c.moves ++ [m] } := by
    refine h.cb.push hf hT ha0 (by omega) (ks := x) hx0 hx1 m1 m2 (by omega) ?_ (Or.inl ⟨rfl, rfl, hxs, hxr⟩)
    rw [m7, m1, hT.rcv _ hx0 hx1]
    exact h.xb.xb
  have hsm : (T x).2 ≠ (T s.c.sortrcvnum).2 := hT.ne hx0 hx1 (by omega) (by omega) (by omega)
  have hcur : Cur T { s.c with commrcvnum := s.c.commrcvnum + 1, moves := s.c.moves ++ [m] } (s.c.vertglbdlt - s.vertrcvnbr + n) := by
    obtain ⟨c1, c2, c3, c4⟩ := h.cur
    unfold Cur
    dsimp only
    rw [sends_other _ (by rw [m1]; exact hsm), recvs_same _ m2]
    refine ⟨c1, row_snoc c2 (by rw [m6]; omega), ?_, ?_⟩
    · rw [List.length_append]; simp; omega
    · rw [tot_snoc, m3]; omega
  have hsx : ∀ s' : Inn, s'.c.moves = s.c.moves ++ [m] → s'.vertadjval = s.vertadjval + n → s'.vertsndnbr = s.vertsndnbr - n →
      s'.commsndnum = s.commsndnum + 1 → SX T x adj0 n0 s' := by
    intro s' e1 e2 e3 e4
    have a1 := h.sx.adj
    have a2 := h.sx.tt
    have a3 := h.sx.len
    refine ⟨?_, ?_, ?_, ?_, ?_, ?_⟩
    · rw [e1, sends_same _ m1]; exact chain_snoc h.sx.ch (by rw [m4]; exact a1)
    · rw [e1, sends_same _ m1]; exact row_snoc h.sx.row (by rw [m5]; omega)
    · rw [e1, sends_same _ m1, tot_snoc, m3, e2]; omega
    · rw [e1, sends_same _ m1, tot_snoc, m3, e3]; omega
    · rw [e1, sends_same _ m1, e4, List.length_append]; simp; omega
    · rw [e1, recvs_other _ (by rw [m2]; exact hsm.symm)]; exact h.sx.rcv
  have hcm0 : 0 ≤ s.c.commrcvnum := by
    obtain ⟨_, _, c3, _⟩ := h.cur
    omega
  unfold bigMove
  dsimp only
  rw [← hn, ← hm]
  by_cases hadv : ¬ s.vertsndnbr < s.vertrcvnbr ∨ s.c.commrcvnum + 1 = cm
  · rw [if_pos (by simpa using hadv), if_pos (by simpa using hadv)]
    have hlev : f.procglbnbr < cm → 0 ≤ s.c.vertglbdlt - s.vertrcvnbr + n := by
      intro hh
      have : ¬ s.vertsndnbr < s.vertrcvnbr := by omega
      rw [if_neg this] at hn
      omega
    have hcb1 := (hcb.com (s.c.commrcvnum + 1)).advance hcur (by dsimp only; omega) hlev 0
    dsimp only at hcb1
    refine ⟨fun hp => ⟨?_, by omega⟩, fun hp => ?_, ⟨rfl, rfl, rfl, Int.le_refl _, by dsimp only; omega⟩⟩
    · have hns : ¬ s.vertsndnbr < s.vertrcvnbr := by
        intro hh
        rw [if_pos hh] at hn
        omega
      rw [if_neg hns] at hn
      have hiw' : s.c.sortrcvnum + 1 < w := by
        refine Classical.byContradiction fun hn' => ?_
        rw [sumI_empty (by omega)] at hcap
        omega
      obtain ⟨d1, d2⟩ := hcb.cur hf (by dsimp only; omega)
      dsimp only at d1 d2
      refine { cb := hcb1, cur := by (dsimp only; rw [d2]; exact d1), w1 := Or.inl (by dsimp only; rw [d2]), com1 := by dsimp only; omega, com2 := by unfold used at hco2 ⊢; dsimp only; omega, xb := ⟨hx0, hx1, hxs, hxr, h.xb.xb⟩, sx := hsx _ rfl rfl rfl rfl, snb0 := by dsimp only; omega, rd0 := hrd, rd1 := fun hh => ⟨h.rd1 hh, hp⟩, iw := hiw', wj := hwj, wc := hwc, le := by dsimp only; omega, cap := ?_ }
      show s.vertsndnbr - n + s.vertrcvdlt ≤ sumI (s.c.sortrcvnum + 1) w (cap s.c)
      omega
    · refine { cb := hcb1, xb := ⟨hx0, hx1, hxs, hxr, h.xb.xb⟩, sx := hsx _ rfl rfl rfl rfl, snb := by dsimp only; omega, len := by dsimp only; omega, ij := by dsimp only; omega, st := Or.inl ⟨rfl, fun hh => ?_⟩ }
      obtain ⟨d1, d2⟩ := hcb.cur hf (by dsimp only at hh ⊢; omega)
      exact ⟨d1, d2⟩
  · rw [if_neg (by simpa using hadv), if_neg (by simpa using hadv)]
    have hs : s.vertsndnbr < s.vertrcvnbr := by omega
    rw [if_pos hs] at hn
    refine ⟨fun hp => absurd hp (by omega), fun hp => ?_, ⟨rfl, rfl, rfl, Int.le_refl _, Int.le_refl _⟩⟩
    refine { cb := hcb.com _, xb := ⟨hx0, hx1, hxs, hxr, h.xb.xb⟩, sx := hsx _ rfl rfl rfl rfl, snb := by dsimp only; omega, len := by dsimp only; omega, ij := by dsimp only; omega, st := Or.inr ⟨by dsimp only; omega, by dsimp only; omega, by dsimp only; omega, by unfold used at hco2 ⊢; dsimp only; omega, ?_⟩ }
    obtain ⟨c1, c2, c3, c4⟩ := hcur
    exact ⟨c1, c2, c3, by dsimp only at c4 ⊢; omega⟩

theorem giveStep_holds (hf : f.Ok) (hT : Srt f T) (ha0 : f.procsndbas ≤ a0) (hpos : ∀ k, a0 ≤ k → k < f.procsndnnd → 0 < (T k).1) (hcm : 4 ≤ cm)
    {s : Inn} (h : II f T cm a0 x both adj0 n0 i0 w s) :
    Holds (giveStep f cm (T x).2 both s) (Loop.Sat (fun s' => (II f T cm a0 x both adj0 n0 i0 w s' ∧ Frame s.c s'.c) ∧ s.c.sortrcvnum < s'.c.sortrcvnum)
      (fun s' => Post f T cm a0 x both adj0 n0 i0 s' ∧ Frame s.c s'.c)) := by
  unfold giveStep
  rw [Holds_bind]
  refine (nextRcv_holds hf hT h).mono ?_
  rintro s1 ⟨h1, h2, h3, h4⟩
  have key : ∀ s2 : Inn, MI f T cm a0 x both adj0 n0 i0 w s2 ∧ Frame s1.c s2.c →
      Holds (if (bigMove cm (T x).2 both s2).vertsndnbr > 0 then return .next (bigMove cm (T x).2 both s2) else return .brk (bigMove cm (T x).2 both s2))
        (Loop.Sat (fun s' => (II f T cm a0 x both adj0 n0 i0 w s' ∧ Frame s.c s'.c) ∧ s.c.sortrcvnum < s'.c.sortrcvnum)
      (fun s' => Post f T cm a0 x both adj0 n0 i0 s' ∧ Frame s.c s'.c)) := by
    rintro s2 ⟨g1, g2⟩
    obtain ⟨b1, b2, b3⟩ := bigMove_holds hf hT ha0 g1
    have fr : Frame s.c (bigMove cm (T x).2 both s2).c := by
      have := g2.trans b3
      rw [h3] at this
      exact this
    have := g2.i
    rw [h3] at this
    rw [Holds_ite]
    refine ⟨fun hp => ?_, fun hp => ?_⟩
    · rw [Holds_pure]
      have := b1 hp
      exact ⟨⟨this.1, fr⟩, by omega⟩
    · rw [Holds_pure]
      exact ⟨b2 hp, fr⟩
  have a1 := h1.cb.a1
  have b1 := h1.cb.b1
  have hlo := h1.cb.lo
  have hhi := h1.cb.hi
  obtain ⟨q1, q2, q3, q4, q5, q6⟩ := hf.ranges
  unfold smallCond
  by_cases hc : s1.vertrcvdlt > 0 ∧ s1.c.commrcvnum = 0 ∧ s1.c.sortsndbas ≤ s1.c.sortsndnnd
  · rw [if_pos hc, Arr.rd_ok _ (by omega) (by omega), ok_bind, pure_bind]
    by_cases hd : s1.vertrcvdlt ≥ (s1.c.tab.get s1.c.sortsndbas).1 ∧ s1.vertrcvnbr ≥ (s1.c.tab.get s1.c.sortsndbas).1
    · rw [if_pos (by simpa using hd), Holds_bind]
      exact (small_holds hf hT ha0 hpos hcm h1 (h2 hc.1) hc.1 hc.2.1 hc.2.2 hd.1 hd.2).mono key
    · rw [if_neg (by simpa using hd), Holds_bind, Holds_pure]
      exact key s1 ⟨h1, Frame.refl _⟩
  · rw [if_neg hc, pure_bind, if_neg (by simp), Holds_bind, Holds_pure]
    exact key s1 ⟨h1, Frame.refl _⟩

theorem give_holds (hf : f.Ok) (hT : Srt f T) (ha0 : f.procsndbas ≤ a0) (hpos : ∀ k, a0 ≤ k → k < f.procsndnnd → 0 < (T k).1) (hcm : 4 ≤ cm)
    {s : Inn} (h : II f T cm a0 x both adj0 n0 i0 w s) :
    Holds (loopM (giveStep f cm (T x).2 both) (f.procglbnbr.toNat + 2) s) (fun s' => Post f T cm a0 x both adj0 n0 i0 s' ∧ Frame s.c s'.c) := by
  obtain ⟨q1, q2, q3, q4, q5, q6⟩ := hf.ranges
  refine Holds_loopM (fun s' => II f T cm a0 x both adj0 n0 i0 w s' ∧ Frame s.c s'.c) (fun s => (w - s.c.sortrcvnum).toNat) ?_ _ _ ⟨h, Frame.refl _⟩ ?_
  · rintro s1 ⟨h1, h2⟩
    refine (giveStep_holds hf hT ha0 hpos hcm h1).mono ?_
    intro l hl
    refine hl.mono ?_ ?_
    · rintro s2 ⟨⟨c1, c2⟩, c3⟩
      have := c1.iw
      exact ⟨⟨c1, h2.trans c2⟩, by omega⟩
    · rintro s2 ⟨c1, c2⟩
      exact ⟨c1, h2.trans c2⟩
  · have := h.wj
    have := h.cb.j1
    have := h.cb.i1
    omega

end

end Scotch.Fold
