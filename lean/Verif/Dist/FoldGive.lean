import Verif.Dist.FoldCtl

set_option autoImplicit false
set_option linter.unusedSimpArgs false

namespace Scotch.Fold

/-- Number of processes that have already sent, or that are sending. -/
def used (f : FoldIn) (c : Ctl) : Int :=
  (c.sortsndbas - f.procsndbas) + (f.procsndnnd - 1 - c.sortsndnnd) + (f.procrcvnnd - 1 - c.sortrcvnnd)

/-- What the process that is sending has sent so far. -/
structure SX (T : Int → Int × Int) (x adj0 n0 : Int) (s : Inn) : Prop where
  ch : Chain adj0 (sends s.c.moves (T x).2)
  row : Row Move.sidx 0 (sends s.c.moves (T x).2)
  adj : s.vertadjval = adj0 + tot (sends s.c.moves (T x).2)
  tt : tot (sends s.c.moves (T x).2) = n0 - s.vertsndnbr
  len : (sends s.c.moves (T x).2).length = s.commsndnum
  rcv : recvs s.c.moves (T x).2 = []

/-- Bounds on the rank of the process that is sending. -/
structure XB (f : FoldIn) (x : Int) (both : Bool) (c : Ctl) : Prop where
  x0 : 0 ≤ x
  x1 : x < f.procglbnbr
  xs : ¬ (c.sortsndbas ≤ x ∧ x ≤ c.sortsndnnd)
  xr : ¬ (f.procrcvbas ≤ x ∧ x ≤ c.sortrcvnnd)
  xb : both = true ↔ f.Rcv x

def cap (c : Ctl) (k : Int) : Int := c.vertglbdlt - (c.tab.get k).1

/-- Invariant of the loop on receivers. -/
structure II (f : FoldIn) (T : Int → Int × Int) (cm a0 x : Int) (both : Bool) (adj0 n0 i0 w : Int) (s : Inn) : Prop where
  cb : CB f T cm a0 x s.c
  cur : Cur T s.c (s.c.tab.get s.c.sortrcvnum).1
  w1 : (s.c.tab.get s.c.sortrcvnum).1 = (T s.c.sortrcvnum).1 ∨ (s.c.tab.get s.c.sortrcvnum).1 < 0
  com1 : s.c.commrcvnum < cm
  com2 : s.c.commrcvnum + 1 ≤ used f s.c
  xb : XB f x both s.c
  sx : SX T x adj0 n0 s
  snb0 : 0 ≤ s.vertsndnbr
  rd0 : 0 ≤ s.vertrcvdlt
  rd1 : 0 < s.vertrcvdlt → both = true ∧ 0 < s.vertsndnbr
  iw : s.c.sortrcvnum < w
  wj : w ≤ s.c.sortrcvnnd + 1
  wc : w - i0 ≤ cm
  le : s.commsndnum ≤ s.c.sortrcvnum - i0
  cap : s.vertsndnbr + s.vertrcvdlt ≤ sumI s.c.sortrcvnum w (cap s.c)

/-- State before the message of the current sender. -/
structure MI (f : FoldIn) (T : Int → Int × Int) (cm a0 x : Int) (both : Bool) (adj0 n0 i0 w : Int) (s : Inn) : Prop where
  cb : CB f T cm a0 x s.c
  cur : Cur T s.c (s.c.vertglbdlt - s.vertrcvnbr)
  tb : (s.c.tab.get s.c.sortrcvnum).1 ≤ s.c.vertglbdlt - s.vertrcvnbr
  w1 : (s.c.tab.get s.c.sortrcvnum).1 = (T s.c.sortrcvnum).1 ∨ (s.c.tab.get s.c.sortrcvnum).1 < 0
  com1 : s.c.commrcvnum < cm
  com2 : s.c.commrcvnum + 1 ≤ used f s.c
  xb : XB f x both s.c
  sx : SX T x adj0 n0 s
  pr : s.procrcvnum = (T s.c.sortrcvnum).2
  snb0 : 0 ≤ s.vertsndnbr
  rd0 : 0 ≤ s.vertrcvdlt
  rd1 : 0 < s.vertrcvdlt → both = true
  vr0 : 0 ≤ s.vertrcvnbr
  iw : s.c.sortrcvnum < w
  wj : w ≤ s.c.sortrcvnnd + 1
  wc : w - i0 ≤ cm
  le : s.commsndnum ≤ s.c.sortrcvnum - i0
  cap : s.vertsndnbr + s.vertrcvdlt ≤ s.vertrcvnbr + sumI (s.c.sortrcvnum + 1) w (cap s.c)

/-- Result of the loop on receivers. -/
structure Post (f : FoldIn) (T : Int → Int × Int) (cm a0 x : Int) (both : Bool) (adj0 n0 i0 : Int) (s : Inn) : Prop where
  cb : CB f T cm a0 x s.c
  xb : XB f x both s.c
  sx : SX T x adj0 n0 s
  snb : s.vertsndnbr = 0
  len : s.commsndnum ≤ cm
  ij : s.c.sortrcvnum ≤ s.c.sortrcvnnd + 1
  st : (s.c.commrcvnum = 0 ∧ (s.c.sortrcvnum ≤ s.c.sortrcvnnd → Cur T s.c (T s.c.sortrcvnum).1 ∧ s.c.tab.get s.c.sortrcvnum = T s.c.sortrcvnum)) ∨
    (0 < s.c.commrcvnum ∧ s.c.sortrcvnum ≤ s.c.sortrcvnnd ∧ s.c.commrcvnum < cm ∧ s.c.commrcvnum ≤ used f s.c ∧
      Cur T s.c ((s.c.tab.get s.c.sortrcvnum).1 + s.vertrcvnbr))

/-- What the loop on receivers does not change. -/
structure Frame (s s' : Ctl) : Prop where
  b : s'.sortsndnnd = s.sortsndnnd
  j : s'.sortrcvnnd = s.sortrcvnnd
  g : s'.vertglbdlt = s.vertglbdlt
  a : s.sortsndbas ≤ s'.sortsndbas
  i : s.sortrcvnum ≤ s'.sortrcvnum

theorem Frame.refl (s : Ctl) : Frame s s := ⟨rfl, rfl, rfl, Int.le_refl _, Int.le_refl _⟩

theorem Frame.trans {a b c : Ctl} (h : Frame a b) (h' : Frame b c) : Frame a c :=
  ⟨by rw [h'.b, h.b], by rw [h'.j, h.j], by rw [h'.g, h.g], by have := h.a; have := h'.a; omega, by have := h.i; have := h'.i; omega⟩

section
variable {f : FoldIn} {T : Int → Int × Int} {cm a0 x : Int} {both : Bool} {adj0 n0 i0 w : Int}

theorem used_le (hf : f.Ok) {c : Ctl} (h : CB f T cm a0 x c) : used f c ≤ f.procglbnbr := by
  obtain ⟨q1, q2, q3, q4, q5, q6⟩ := hf.ranges
  have := h.ab
  have := h.j0
  unfold used
  omega

/-- Receivers that come first have the largest capacities. -/
theorem cap_nonneg (hf : f.Ok) (hT : Srt f T) {c : Ctl} (h : CB f T cm a0 x c)
    (w1 : (c.tab.get c.sortrcvnum).1 = (T c.sortrcvnum).1 ∨ (c.tab.get c.sortrcvnum).1 < 0) (iw : c.sortrcvnum < w)
    (wj : w ≤ c.sortrcvnnd + 1) (hs : 0 ≤ sumI c.sortrcvnum w (cap c)) : 0 ≤ cap c c.sortrcvnum := by
  obtain ⟨q1, q2, q3, q4, q5, q6⟩ := hf.ranges
  have := h.i1
  have := h.j1
  have hg := h.gd
  refine Classical.byContradiction fun hneg => ?_
  have hc : cap c c.sortrcvnum = c.vertglbdlt - (c.tab.get c.sortrcvnum).1 := rfl
  have e1 : (c.tab.get c.sortrcvnum).1 = (T c.sortrcvnum).1 := by rcases w1 with e | e <;> omega
  have hall : ∀ k, c.sortrcvnum ≤ k → k < w → cap c k ≤ -1 := by
    intro k k1 k2
    by_cases e : k = c.sortrcvnum
    · subst e; omega
    · have := h.same k (by omega) (by omega) (by omega)
      have := hT.rasc c.sortrcvnum k (by omega) (by omega) (by omega)
      unfold cap
      rw [h.same k (by omega) (by omega) (by omega)]
      omega
  have := sumI_mono (lo := c.sortrcvnum) (hi := w) hall
  rw [sumI_const (by omega)] at this
  omega

theorem sum_cap_first {c : Ctl} {i w : Int} (h : i < w) : sumI i w (cap c) = cap c i + sumI (i + 1) w (cap c) := by
  rw [sumI_split (mid := i + 1) (by omega) (by omega), sumI_succ (Int.le_refl _), sumI_empty (Int.le_refl _)]
  omega

theorem SX.keep {s s' : Inn} (h : SX T x adj0 n0 s) (h1 : sends s'.c.moves (T x).2 = sends s.c.moves (T x).2)
    (h2 : recvs s'.c.moves (T x).2 = recvs s.c.moves (T x).2) (h3 : s'.vertadjval = s.vertadjval) (h4 : s'.vertsndnbr = s.vertsndnbr)
    (h5 : s'.commsndnum = s.commsndnum) : SX T x adj0 n0 s' :=
  ⟨by rw [h1]; exact h.ch, by rw [h1]; exact h.row, by rw [h1, h3]; exact h.adj, by rw [h1, h4]; exact h.tt, by rw [h1, h5]; exact h.len, by rw [h2]; exact h.rcv⟩

/-- Reading of the current receiver. -/
theorem nextRcv_holds (hf : f.Ok) (hT : Srt f T) {s : Inn} (h : II f T cm a0 x both adj0 n0 i0 w s) :
    Holds (nextRcv s) (fun s' => MI f T cm a0 x both adj0 n0 i0 w s' ∧ (0 < s'.vertrcvdlt → 0 < s'.vertsndnbr) ∧ s'.c = s.c ∧
      (s'.c.tab.get s'.c.sortrcvnum).1 = s'.c.vertglbdlt - s'.vertrcvnbr) := by
  obtain ⟨q1, q2, q3, q4, q5, q6⟩ := hf.ranges
  have := h.cb.i1
  have := h.cb.j1
  have := h.iw
  have := h.wj
  have := h.cb.lo
  have := h.cb.hi
  have hrd := h.rd0
  have hsn := h.snb0
  have hcap := h.cap
  unfold nextRcv
  rw [Arr.rd_ok _ (by omega) (by omega), ok_bind, Holds_pure]
  refine ⟨?_, fun hh => (h.rd1 hh).2, rfl, by dsimp only; omega⟩
  have hcn := cap_nonneg hf hT h.cb h.w1 h.iw h.wj (by omega)
  rw [sum_cap_first h.iw] at hcap
  have ec : cap s.c s.c.sortrcvnum = s.c.vertglbdlt - (s.c.tab.get s.c.sortrcvnum).1 := rfl
  refine { cb := h.cb, cur := ?_, tb := by dsimp only; omega, w1 := h.w1, com1 := h.com1, com2 := h.com2, xb := h.xb, sx := h.sx.keep rfl rfl rfl rfl rfl, pr := ?_, snb0 := hsn, rd0 := hrd, rd1 := fun hh => (h.rd1 hh).1, vr0 := by dsimp only; omega, iw := h.iw, wj := h.wj, wc := h.wc, le := h.le, cap := by dsimp only; omega }
  · have e : s.c.vertglbdlt - (s.c.vertglbdlt - (s.c.tab.get s.c.sortrcvnum).1) = (s.c.tab.get s.c.sortrcvnum).1 := by omega
    dsimp only
    rw [e]
    exact h.cur
  · exact h.cb.key _ (by omega) (by omega)

theorem small_holds (hf : f.Ok) (hT : Srt f T) (ha0 : f.procsndbas ≤ a0) (hpos : ∀ k, a0 ≤ k → k < f.procsndnnd → 0 < (T k).1) (hcm : 4 ≤ cm)
    {s : Inn} (h : MI f T cm a0 x both adj0 n0 i0 w s) (hsn : 0 < s.vertsndnbr) (hrd : 0 < s.vertrcvdlt) (hc0 : s.c.commrcvnum = 0)
    (hab : s.c.sortsndbas ≤ s.c.sortsndnnd) (ht1 : (s.c.tab.get s.c.sortsndbas).1 ≤ s.vertrcvdlt)
    (ht2 : (s.c.tab.get s.c.sortsndbas).1 ≤ s.vertrcvnbr) :
    Holds (small f s) (fun s' => MI f T cm a0 x both adj0 n0 i0 w s' ∧ Frame s.c s'.c) := by
  obtain ⟨q1, q2, q3, q4, q5, q6⟩ := hf.ranges
  have hi1 := h.cb.i1
  have hj1 := h.cb.j1
  have hiw := h.iw
  have hwj := h.wj
  have hlo := h.cb.lo
  have hhi := h.cb.hi
  have ha1 := h.cb.a1
  have hb1 := h.cb.b1
  have hbs : ¬ f.Rcv s.c.sortsndbas := q5 _ (by omega) (by omega)
  have hT1 : s.c.tab.get s.c.sortsndbas = T s.c.sortsndbas := by
    refine h.cb.same _ (by omega) (by omega) ?_
    unfold FoldIn.Rcv at hbs
    omega
  have hrg := hT.rng s.c.sortsndbas (by omega) (by omega)
  have hvl := hf.vlo
  have hvh := hf.vhi
  have hp := hpos s.c.sortsndbas (by omega) (by omega)
  have hv := hT.sval s.c.sortsndbas (by omega) (by omega)
  have hx0 := h.xb.x0
  have hx1 := h.xb.x1
  have hxs := h.xb.xs
  have hxr := h.xb.xr
  unfold small
  rw [Arr.rd_ok _ (by omega) (by omega), ok_bind, hT1, Arr.rd_ok _ (by omega) (by omega), ok_bind]
  rw [hT1] at ht1 ht2
  have hsm : (T s.c.sortsndbas).2 ≠ (T x).2 := hT.ne (by omega) (by omega) hx0 hx1 (by omega)
  have hrm : (T s.c.sortrcvnum).2 ≠ (T x).2 := hT.ne (by omega) (by omega) hx0 hx1 (by omega)
  obtain ⟨m, hm⟩ : ∃ m : Move, m = ⟨(T s.c.sortsndbas).2, f.procvrttab.get (T s.c.sortsndbas).2, (T s.c.sortsndbas).1, s.procrcvnum, 0, s.c.commrcvnum, false⟩ := ⟨_, rfl⟩
  have m1 : m.snd = (T s.c.sortsndbas).2 := by rw [hm]
  have m2 : m.rcv = (T s.c.sortrcvnum).2 := by rw [hm]; exact h.pr
  have m3 : m.num = (T s.c.sortsndbas).1 := by rw [hm]
  have m4 : m.adj = f.vrt (T s.c.sortsndbas).2 := by rw [hm]; rfl
  have m5 : m.sidx = 0 := by rw [hm]
  have m6 : m.ridx = s.c.commrcvnum := by rw [hm]
  have m7 : m.both = false := by rw [hm]
  rw [← hm]
  have hcb : CB f T cm a0 x { s.c with sortsndbas := s.c.sortsndbas + 1, moves := s.c.moves ++ [m] } := by
    refine h.cb.push hf hT ha0 (by omega) (ks := s.c.sortsndbas) (by omega) (by omega) m1 m2 (by omega) ?_ (Or.inr ⟨rfl, rfl, hab, ?_⟩)
    · rw [m7, m1, hT.rcv _ (by omega) (by omega)]
      exact ⟨fun hh => (by cases hh), fun hh => absurd hh hbs⟩
    · have e0 := h.cb.s1 s.c.sortsndbas (Int.le_refl _) hab
      unfold SndOk
      rw [sends_same _ m1, e0]
      refine ⟨⟨m4, trivial⟩, ⟨m5, trivial⟩, ?_, ?_⟩
      · rw [List.nil_append, tot_cons, tot_nil, m3, hv]; omega
      · simp; omega
  have hcur : Cur T { s.c with sortsndbas := s.c.sortsndbas + 1, commrcvnum := s.c.commrcvnum + 1, moves := s.c.moves ++ [m] } (s.c.vertglbdlt - (s.vertrcvnbr - (T s.c.sortsndbas).1)) := by
    obtain ⟨c1, c2, c3, c4⟩ := h.cur
    unfold Cur
    dsimp only
    rw [sends_other _ (by rw [m1]; exact hT.ne (by omega) (by omega) (by omega) (by omega) (fun e => hbs (by rw [e]; exact ⟨by omega, by omega⟩))), recvs_same _ m2]
    refine ⟨c1, row_snoc c2 (by rw [m6]; omega), ?_, ?_⟩
    · rw [List.length_append]; simp; omega
    · rw [tot_snoc, m3]; omega
  have hsx : ∀ s' : Inn, s'.c.moves = s.c.moves ++ [m] → s'.vertadjval = s.vertadjval → s'.vertsndnbr = s.vertsndnbr → s'.commsndnum = s.commsndnum → SX T x adj0 n0 s' := by
    intro s' e1 e2 e3 e4
    refine h.sx.keep ?_ ?_ e2 e3 e4
    · rw [e1, sends_other _ (by rw [m1]; exact hsm)]
    · rw [e1, recvs_other _ (by rw [m2]; exact hrm)]
  have hxb : ∀ c' : Ctl, c'.sortsndbas = s.c.sortsndbas + 1 → c'.sortsndnnd = s.c.sortsndnnd → c'.sortrcvnnd = s.c.sortrcvnnd → XB f x both c' := by
    intro c' e1 e2 e3
    exact ⟨hx0, hx1, by rw [e1, e2]; omega, by rw [e3]; omega, h.xb.xb⟩
  have hcap := h.cap
  have hvr := h.vr0
  have hgd := h.cb.gd
  have htb := h.tb
  have hco := h.com2
  unfold used at hco
  dsimp only
  rw [Holds_ite]
  refine ⟨fun hz => ?_, fun hz => ?_⟩
  · have hiw' : s.c.sortrcvnum + 1 < w := by
      refine Classical.byContradiction fun hn => ?_
      rw [sumI_empty (by omega)] at hcap
      omega
    have hcb1 := (hcb.com (s.c.commrcvnum + 1)).advance (v := s.c.vertglbdlt - (s.vertrcvnbr - (T s.c.sortsndbas).1)) hcur (by dsimp only; omega) (fun _ => by omega) 0
    obtain ⟨d1, d2⟩ := hcb.cur hf (by dsimp only; omega)
    dsimp only at d1 d2 hcb1
    unfold nextRcv
    dsimp only
    rw [Arr.rd_ok _ (by omega) (by omega), ok_bind, Holds_pure]
    have hcn := cap_nonneg hf hT hcb1 (w := w) (Or.inl (by dsimp only; rw [d2])) hiw' hwj (by
      show 0 ≤ sumI (s.c.sortrcvnum + 1) w (cap s.c)
      omega)
    have ec : cap s.c (s.c.sortrcvnum + 1) = s.c.vertglbdlt - (s.c.tab.get (s.c.sortrcvnum + 1)).1 := rfl
    have hcn' : 0 ≤ cap s.c (s.c.sortrcvnum + 1) := hcn
    rw [sum_cap_first (by omega)] at hcap
    refine ⟨{ cb := hcb1, cur := ?_, tb := by dsimp only; omega, w1 := Or.inl (by dsimp only; rw [d2]), com1 := by dsimp only; omega, com2 := by unfold used; dsimp only; omega, xb := hxb _ rfl rfl rfl, sx := hsx _ rfl rfl rfl rfl, pr := by dsimp only; rw [d2], snb0 := by dsimp only; omega, rd0 := by dsimp only; omega, rd1 := fun _ => h.rd1 hrd, vr0 := by dsimp only; omega, iw := hiw', wj := hwj, wc := h.wc, le := by have := h.le; dsimp only; omega, cap := ?_ }, ⟨rfl, rfl, rfl, by dsimp only; omega, by dsimp only; omega⟩⟩
    · dsimp only
      have e : s.c.vertglbdlt - (s.c.vertglbdlt - (s.c.tab.get (s.c.sortrcvnum + 1)).1) = (T (s.c.sortrcvnum + 1)).1 := by rw [d2]; omega
      rw [e]
      exact d1
    · have : sumI (s.c.sortrcvnum + 1 + 1) w (cap { s.c with sortsndbas := s.c.sortsndbas + 1, sortrcvnum := s.c.sortrcvnum + 1, commrcvnum := 0, moves := s.c.moves ++ [m] }) = sumI (s.c.sortrcvnum + 1 + 1) w (cap s.c) := rfl
      dsimp only
      rw [this]
      omega
  · rw [Holds_pure]
    refine ⟨{ cb := ?_, cur := hcur, tb := by dsimp only; omega, w1 := h.w1, com1 := by dsimp only; omega, com2 := by unfold used; dsimp only; omega, xb := hxb _ rfl rfl rfl, sx := hsx _ rfl rfl rfl rfl, pr := h.pr, snb0 := by dsimp only; omega, rd0 := by dsimp only; omega, rd1 := fun _ => h.rd1 hrd, vr0 := by dsimp only; omega, iw := hiw, wj := hwj, wc := h.wc, le := h.le, cap := ?_ }, ⟨rfl, rfl, rfl, by dsimp only; omega, Int.le_refl _⟩⟩
    · exact hcb.com _
    · have : sumI (s.c.sortrcvnum + 1) w (cap { s.c with sortsndbas := s.c.sortsndbas + 1, commrcvnum := s.c.commrcvnum + 1, moves := s.c.moves ++ [m] }) = sumI (s.c.sortrcvnum + 1) w (cap s.c) := rfl
      dsimp only
      rw [this]
      omega

end

end Scotch.Fold
