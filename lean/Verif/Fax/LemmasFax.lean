import Verif.Fax.LemmasStep

/-! # Result of the block symbolic factorization -/

set_option autoImplicit false
set_option linter.unusedSimpArgs false

namespace Scotch.Fax

/-- Result of the factorization: structure of column blocks. -/
structure Res (g : Graph) (o : Order) (S : Symbol) : Prop where
  wf : WellFormed g o S
  cov : ∀ k, g.baseval ≤ k → k < g.baseval + o.cblknbr → ∀ i, Covers S k i ↔ T (Entry g o) (rg g o) g.baseval (g.baseval + o.cblknbr) k i

theorem symbolFax_may {g : Graph} {o : Order} {slack : Int} {bits : Nat} (junk : Int → Junk) (C : g.Consistent) (A : g.Allocated) (V : o.Valid g) (hb : 0 ≤ g.baseval) (hs : 0 ≤ slack) (hv : 0 < g.vertnbr) (hn : g.vertnbr < 2 ^ bits) :
    May (slack + 3 * g.baseval < 4) (symbolFax slack bits junk g o) (Res g o) := by
  have hnb := V.nbr
  have hedge : 0 ≤ g.edgenbr := by
    rw [C.edgenbr]
    exact sumI_nonneg (fun v _ _ => by omega)
  have hq : 0 ≤ g.edgenbr / g.vertnbr := Int.ediv_nonneg hedge (by omega)
  have hmul : 0 ≤ o.cblknbr * (2 + g.edgenbr / g.vertnbr) := Int.mul_nonneg hnb (by omega)
  unfold symbolFax
  rw [if_neg (show ¬ g.vertnbr = 0 by omega), ok_bind]
  dsimp only
  generalize o.cblknbr * (2 + g.edgenbr / g.vertnbr) = bm at hmul
  generalize htop : o.cblknbr + g.baseval = top
  rw [May_bind]
  refine May_forUp (fun k s => ∃ st, Inv g o top st k s) (by omega) ⟨fun _ => g.baseval, ?_⟩ ?_ ?_
  · refine ⟨⟨rfl, rfl⟩, ⟨rfl, rfl⟩, ⟨rfl, rfl⟩, ⟨Int.le_refl _, by dsimp only; omega⟩, rfl, rfl, (fun c _ _ => by omega), (fun c _ _ => by omega), (fun c _ _ => by omega), (fun c _ _ => by omega), ?_⟩
    intro f f1 f2
    refine ⟨[], rfl, List.nodup_nil, ?_⟩
    intro c
    constructor
    · intro h; cases h
    · intro h; omega
  · rintro k s k1 k2 ⟨st, I⟩
    exact cblkStep_may junk C A V hb hs hn (by omega) k1 k2 I
  · rintro s ⟨st, I⟩
    obtain ⟨clo, chi⟩ := I.cblk
    obtain ⟨fit1, fit2⟩ := I.fit
    have hlast := I.last
    rw [Arr.wr_ok _ _ (by omega) (by omega), ok_bind, May_pure]
    have etop : g.baseval + o.cblknbr = top := by omega
    have hrg : ∀ c, c ≤ top → rg g o c = o.rang.get c := fun c hc => rg_eq (by omega)
    -- start of the blocks of a column block
    have hst : ∀ c, g.baseval ≤ c → c ≤ top → ((s.cblk.set top ⟨g.vertnbr + g.baseval, g.vertnbr + g.baseval, s.bloknum⟩).get c).blok = st c := by
      intro c c1 c2
      by_cases e : c = top
      · rw [e, Arr.set_get_same, hlast]
      · rw [Arr.set_get_ne _ _ e, I.cols c c1 (by omega)]
    have hcol : ∀ c, g.baseval ≤ c → c < top → (s.cblk.set top ⟨g.vertnbr + g.baseval, g.vertnbr + g.baseval, s.bloknum⟩).get c = ⟨rg g o c, rg g o (c + 1) - 1, st c⟩ := by
      intro c c1 c2
      rw [Arr.set_get_ne _ _ (by omega), I.cols c c1 c2]
    refine ⟨⟨rfl, rfl, rfl, ⟨clo, by dsimp only; rw [Arr.set_hi]; omega⟩, ⟨rfl, by dsimp only; omega⟩, ?_, ?_, ?_, ?_, ?_, ?_, ?_⟩, ?_⟩
    · intro k k1 k2
      dsimp only
      rw [hcol k k1 (by omega), hrg k (by omega), hrg (k + 1) (by omega)]
      exact ⟨rfl, rfl⟩
    · dsimp only
      rw [hst _ (Int.le_refl _) (by omega)]
      exact I.first
    · intro k k1 k2
      dsimp only
      rw [hst k k1 (by omega), hst (k + 1) (by omega) (by omega)]
      exact (I.done k k1 (by omega)).lt
    · dsimp only
      rw [etop, Arr.set_get_same, show g.vertnbr + g.baseval = g.baseval + g.vertnbr by omega, show g.baseval + (s.bloknum - g.baseval) = s.bloknum by omega]
    · intro k k1 k2
      dsimp only
      rw [hst k k1 (by omega), (I.done k k1 (by omega)).diag, hrg k (by omega), hrg (k + 1) (by omega)]
    · intro k b k1 k2 b1 b2
      dsimp only at b1 b2 ⊢
      rw [hst k k1 (by omega)] at b1
      rw [hst (k + 1) (by omega) (by omega)] at b2
      have ok := (I.done k k1 (by omega)).ok b b1 b2
      have g1 := ok.ge
      have g2 := ok.le
      have g3 := ok.frow
      have g4 := ok.rows
      have g5 := ok.lrow
      rw [hrg _ (by omega)] at g3 g5
      unfold InCblk
      exact ⟨by omega, by omega, g4, ⟨g3, by omega⟩, by omega, g5⟩
    · intro k b k1 k2 b1 b2
      dsimp only at b1 b2 ⊢
      rw [hst k k1 (by omega)] at b1
      rw [hst (k + 1) (by omega) (by omega)] at b2
      exact (I.done k k1 (by omega)).sorted b (b + 1) b1 (by omega) b2
    · intro k k1 k2 i
      rw [etop, (I.done k k1 (by omega)).cov]
      unfold Covers
      dsimp only
      rw [hst k k1 (by omega), hst (k + 1) (by omega) (by omega)]

theorem checkBloks_holds {g : Graph} {o : Order} {S : Symbol} (V : o.Valid g) (W : WellFormed g o S) {k : Int} (h1 : g.baseval ≤ k) (h2 : k < g.baseval + o.cblknbr) (hin : S.baseval ≤ (S.cblk.get k).blok ∧ (S.cblk.get (k + 1)).blok ≤ S.blok.hi) :
    Holds (checkBloks S ((S.cblk.get k).blok + 1) (S.cblk.get (k + 1)).blok) (fun r => r = .next ()) := by
  have hst := W.step k h1 h2
  have hlo := W.blokIn.1
  have hbv := W.baseval
  have hcn := W.cblknbr
  have hR := rng V
  unfold checkBloks
  refine Holds_forUpB (fun _ _ => True) (fun _ => False) (by omega) True.intro ?_ (fun _ _ => rfl) (fun _ h => h.elim)
  intro i _ i1 i2 _
  rw [Arr.rd_ok _ (by omega) (by omega), ok_bind, Arr.rd_ok _ (by omega) (by omega), ok_bind]
  have hf := W.face k i h1 h2 (by omega) i2
  unfold InCblk at hf
  rw [if_neg]
  · exact True.intro
  · by_cases e : i = (S.cblk.get k).blok + 1
    · have hd := W.diag k h1 h2
      rw [show i - 1 = (S.cblk.get k).blok by omega, hd]
      dsimp only
      have := hR.mono_le (a := k + 1) (b := (S.blok.get i).cblk) (by omega) (by omega) (by omega)
      rw [rg_eq (by omega), rg_eq (by omega)] at this
      omega
    · have ho := W.order k (i - 1) h1 h2 (by omega) (by omega)
      have hf' := W.face k (i - 1) h1 h2 (by omega) (by omega)
      unfold InCblk at hf'
      rw [show i - 1 + 1 = i by omega] at ho
      rcases ho with ho | ho
      · have := hR.mono_le (a := (S.blok.get (i - 1)).cblk + 1) (b := (S.blok.get i).cblk) (by omega) (by omega) (by omega)
        rw [rg_eq (by omega), rg_eq (by omega)] at this
        omega
      · omega

theorem symbolCheck_holds {g : Graph} {o : Order} {S : Symbol} (V : o.Valid g) (W : WellFormed g o S) : Holds (symbolCheck S) (fun r => r = true) := by
  have hlo := W.blokIn
  have hcl := W.cblkIn
  have hbv := W.baseval
  have hcn := W.cblknbr
  have hnn := W.nodenbr
  have hnb := V.nbr
  have hR := rng V
  have hmono : ∀ n : Nat, ∀ k, g.baseval ≤ k → k + n = g.baseval + o.cblknbr → (S.cblk.get k).blok + n ≤ g.baseval + S.bloknbr := by
    intro n
    induction n with
    | zero =>
      intro k k1 k2
      have e : k = g.baseval + o.cblknbr := by simpa using k2
      rw [e, W.last]
      simp
    | succ n ih =>
      intro k k1 k2
      have := ih (k + 1) (by omega) (by push_cast at k2; omega)
      have := W.step k k1 (by push_cast at k2; omega)
      push_cast
      omega
  have hmono' : ∀ n : Nat, n ≤ o.cblknbr → g.baseval ≤ (S.cblk.get (g.baseval + n)).blok := by
    intro n
    induction n with
    | zero => intro _; simp [W.first]
    | succ n ih =>
      intro hn
      have := ih (by push_cast at hn; omega)
      have := W.step (g.baseval + n) (by omega) (by push_cast at hn; omega)
      rw [show g.baseval + ((n + 1 : Nat) : Int) = g.baseval + n + 1 by push_cast; omega]
      omega
  unfold symbolCheck
  rw [Holds_bind]
  refine Holds_forUpB (fun k b => b = (S.cblk.get k).blok) (fun _ => False) (by omega) (by rw [hbv, W.first]) ?_ (fun _ _ => rfl) (fun _ h => h.elim)
  intro k b k1 k2 hb
  subst hb
  have e1 := hmono (g.baseval + o.cblknbr - (k + 1)).toNat (k + 1) (by omega) (by omega)
  have e2 := hmono' (k - g.baseval).toNat (by omega)
  rw [show g.baseval + ((k - g.baseval).toNat : Int) = k by omega] at e2
  have hst := W.step k (by omega) (by omega)
  have hc := W.cols k (by omega) (by omega)
  have hd := W.diag k (by omega) (by omega)
  have hs := V.step k (by omega) (by omega)
  have m1 := hR.mono_le (a := g.baseval) (b := k) (by omega) (by omega) (by omega)
  have m2 := hR.mono_le (a := k + 1) (b := g.baseval + o.cblknbr) (by omega) (by omega) (by omega)
  rw [rg_base V, rg_eq (by omega)] at m1
  rw [rg_top V, rg_eq (by omega)] at m2
  have hnext : (S.cblk.get (k + 1)).fcol = o.rang.get (k + 1) := by
    by_cases e : k + 1 = g.baseval + o.cblknbr
    · rw [e, W.last, V.last]
    · exact (W.cols (k + 1) (by omega) (by omega)).1
  unfold checkCblk
  rw [Arr.rd_ok _ (by omega) (by omega), ok_bind, Arr.rd_ok _ (by omega) (by omega), ok_bind, if_neg (by rw [hc.1, hc.2, hnext]; omega), Arr.rd_ok _ (by omega) (by omega), ok_bind, hd, if_neg (by rw [hc.1, hc.2]; simp), Holds_bind]
  refine Holds.mono (checkBloks_holds V W (by omega) (by omega) ⟨by omega, by omega⟩) ?_
  rintro r rfl
  dsimp only
  rw [Holds_pure]
  show (if (S.cblk.get k).blok + 1 < (S.cblk.get (k + 1)).blok then (S.cblk.get (k + 1)).blok else (S.cblk.get k).blok + 1) = _
  split <;> omega

/-- The rows of column blocks are those of fill. -/
theorem Res.fill {g : Graph} {o : Order} {S : Symbol} (C : g.Consistent) (V : o.Valid g) (r : Res g o S) {k : Int} (h1 : g.baseval ≤ k) (h2 : k < g.baseval + o.cblknbr) :
    (∀ i, o.rang.get (k + 1) ≤ i → (Covers S k i ↔ Fill (BlockEntry g o) (o.rang.get (k + 1) - 1) i)) ∧ ∀ i j, InCblk o k j → o.rang.get (k + 1) ≤ i → Fill (Entry g o) j i → Covers S k i := by
  have hR := rng V
  have hE := entry_rg C V
  have hbe : ∀ i j, BlockEntry g o i j ↔ Full (Entry g o) (rg g o) g.baseval (g.baseval + o.cblknbr) i j := by
    intro i j
    unfold BlockEntry Full InCblk
    constructor
    · rintro (h | ⟨h, c, c1, c2, c3, c4⟩)
      · exact .inl h
      · refine .inr ⟨h, c, c1, c2, ?_⟩
        rw [rg_eq (by omega), rg_eq (by omega)]
        exact ⟨c3, c4⟩
    · rintro (h | ⟨h, c, c1, c2, c3⟩)
      · exact .inl h
      · rw [rg_eq (by omega), rg_eq (by omega)] at c3
        exact .inr ⟨h, c, c1, c2, c3⟩
  have hs := V.step k h1 h2
  have hof : ∀ j i, Fill (BlockEntry g o) j i → InCblk o k j → o.rang.get (k + 1) ≤ i → Covers S k i := by
    intro j i hf hj hi
    rw [r.cov k h1 h2]
    have hf' := Fill.mono (fun i j => (hbe i j).1) hf
    refine T.of_fill hR hE hf' k h1 h2 ?_ ?_ ?_
    · rw [rg_eq (by omega)]; exact hj.1
    · rw [rg_eq (by omega)]; exact hj.2
    · rw [rg_eq (by omega)]; exact hi
  refine ⟨?_, ?_⟩
  · intro i hi
    constructor
    · intro h
      rw [r.cov k h1 h2] at h
      have := h.fill_last
      rw [rg_eq (by omega)] at this
      exact Fill.mono (fun i j => (hbe i j).2) this
    · intro h
      exact hof _ _ h ⟨by omega, by omega⟩ hi
  · intro i j hj hi hf
    exact hof j i (Fill.mono (fun _ _ h => .inl h) hf) hj hi

end Scotch.Fax
