import Verif.Fax.LemmasT
import Verif.TextIO.Pairs

/-! # Blocks of neighbours -/

set_option autoImplicit false
set_option linter.unusedSimpArgs false

namespace Scotch.Fax

variable {g : Graph} {o : Order}

/-- Bounds of column blocks, with a dummy block after the last one. -/
def rg (g : Graph) (o : Order) (c : Int) : Int := if c ≤ g.baseval + o.cblknbr then o.rang.get c else g.baseval + g.vertnbr + 1

theorem rg_eq {c : Int} (h : c ≤ g.baseval + o.cblknbr) : rg g o c = o.rang.get c := if_pos h

theorem rg_top (V : o.Valid g) : rg g o (g.baseval + o.cblknbr) = g.baseval + g.vertnbr := by
  rw [rg_eq (Int.le_refl _), V.last]

theorem rg_top' : rg g o (g.baseval + o.cblknbr + 1) = g.baseval + g.vertnbr + 1 := if_neg (by omega)

theorem rg_base (V : o.Valid g) : rg g o g.baseval = g.baseval := by
  rw [rg_eq (by have := V.nbr; omega), V.first]

theorem rng (V : o.Valid g) : Rng (rg g o) g.baseval (g.baseval + o.cblknbr) := by
  refine ⟨by have := V.nbr; omega, ?_⟩
  intro k h1 h2
  by_cases e : k = g.baseval + o.cblknbr
  · rw [e, rg_top V, rg_top']
    omega
  · rw [rg_eq h2, rg_eq (by omega)]
    exact V.step k h1 (by omega)

/-- A block within a column block. -/
structure BOk (R : Int → Int) (lo top : Int) (b : Blok) : Prop where
  ge : lo ≤ b.cblk
  le : b.cblk ≤ top
  frow : R b.cblk ≤ b.frow
  rows : b.frow ≤ b.lrow
  lrow : b.lrow < R (b.cblk + 1)

/-- Order of blocks: those of a column block are not contiguous. -/
def Before (a b : Blok) : Prop := a.cblk < b.cblk ∨ (a.cblk = b.cblk ∧ a.lrow + 1 < b.frow)

/-- Rows of a list of blocks. -/
def cov (l : List Blok) (i : Int) : Prop := ∃ b ∈ l, b.frow ≤ i ∧ i ≤ b.lrow

theorem cov_append (l l' : List Blok) (i : Int) : cov (l ++ l') i ↔ cov l i ∨ cov l' i := by
  unfold cov
  constructor
  · rintro ⟨b, hb, h⟩
    rcases List.mem_append.1 hb with hb | hb
    · exact .inl ⟨b, hb, h⟩
    · exact .inr ⟨b, hb, h⟩
  · rintro (⟨b, hb, h⟩ | ⟨b, hb, h⟩)
    · exact ⟨b, List.mem_append.2 (.inl hb), h⟩
    · exact ⟨b, List.mem_append.2 (.inr hb), h⟩

theorem cov_cons (b : Blok) (l : List Blok) (i : Int) : cov (b :: l) i ↔ (b.frow ≤ i ∧ i ≤ b.lrow) ∨ cov l i := by
  unfold cov
  constructor
  · rintro ⟨c, hc, h⟩
    rcases List.mem_cons.1 hc with hc | hc
    · exact .inl (hc ▸ h)
    · exact .inr ⟨c, hc, h⟩
  · rintro (h | ⟨c, hc, h⟩)
    · exact ⟨b, List.mem_cons_self, h⟩
    · exact ⟨c, List.mem_cons_of_mem _ hc, h⟩

theorem cov_nil (i : Int) : cov [] i ↔ False := by simp [cov]

theorem BOk.lt_rows {R : Int → Int} {base lo top : Int} (hR : Rng R base top) (hlo : base ≤ lo) {a b : Blok} (ha : BOk R lo top a) (hb : BOk R lo top b) (h : a.cblk < b.cblk) : a.lrow < b.frow := by
  have h1 := ha.lrow
  have h2 := hb.frow
  have h3 := hR.mono_le (a := a.cblk + 1) (b := b.cblk) (by have := ha.ge; omega) (by omega) (by have := hb.le; omega)
  omega

theorem Before.rows {R : Int → Int} {base lo top : Int} (hR : Rng R base top) (hlo : base ≤ lo) {a b : Blok} (ha : BOk R lo top a) (hb : BOk R lo top b) (h : Before a b) : a.lrow < b.frow := by
  rcases h with h | h
  · exact BOk.lt_rows hR hlo ha hb h
  · omega

theorem Before.trans {a b c : Blok} (hb : b.frow ≤ b.lrow) (h1 : Before a b) (h2 : Before b c) : Before a c := by
  unfold Before at *
  omega

/-! ## Search of the column block of a row -/

theorem findCblk_holds (V : o.Valid g) {top colend ctr : Int} (htop : top = g.baseval + o.cblknbr) (h1 : g.baseval ≤ ctr) (h2 : ctr < top) (h3 : rg g o ctr ≤ colend) (h4 : colend < rg g o top) :
    Holds (findCblk o top colend ctr) (fun c => ctr ≤ c ∧ c < top ∧ rg g o c ≤ colend ∧ colend < rg g o (c + 1)) := by
  have hin := V.rangIn
  unfold findCblk
  rw [Arr.rd_ok _ (by omega) (by omega), ok_bind, ← rg_eq (g := g) (by omega)]
  by_cases h : colend ≥ rg g o (ctr + 1)
  · rw [if_pos h]
    have hlt : ctr + 1 < top := by
      have := (rng V).lt_of (a := ctr + 1) (b := top) (by omega) (by omega) (by omega)
      exact this
    refine Holds_loopM (Q := fun c => ctr ≤ c ∧ c < top ∧ rg g o c ≤ colend ∧ colend < rg g o (c + 1))
      (fun (s : Int × Int) => ctr < s.1 ∧ s.1 < s.2 ∧ s.2 ≤ top ∧ rg g o s.1 ≤ colend ∧ colend < rg g o s.2) (fun s => (s.2 - s.1).toNat) ?_ _ _ ⟨by dsimp only; omega, by dsimp only; omega, Int.le_refl _, h, h4⟩ (by dsimp only; omega)
    rintro ⟨a, b⟩ ⟨a1, a2, a3, a4, a5⟩
    dsimp only at a1 a2 a3 a4 a5 ⊢
    by_cases hd : b - a > 1
    · rw [if_pos hd]
      rw [Arr.rd_ok _ (by omega) (by omega), ok_bind, ← rg_eq (g := g) (by omega)]
      by_cases hm : rg g o ((b + a) / 2) ≤ colend
      · rw [if_pos hm, Holds_pure]
        exact ⟨⟨by dsimp only; omega, by dsimp only; omega, a3, hm, a5⟩, by dsimp only; omega⟩
      · rw [if_neg hm, Holds_pure]
        exact ⟨⟨a1, by dsimp only; omega, by dsimp only; omega, a4, by dsimp only; omega⟩, by dsimp only; omega⟩
    · rw [if_neg hd, Holds_pure]
      refine ⟨by omega, by omega, a4, ?_⟩
      rw [show a + 1 = b by omega]
      exact a5
  · rw [if_neg h, Holds_pure]
    exact ⟨Int.le_refl _, h2, h3, by omega⟩

/-! ## Runs -/

/-- A sorted array of distinct columns. -/
structure SortOk (sort : Arr Int) (nbr lo hi : Int) : Prop where
  nonneg : 0 ≤ nbr
  alo : sort.lo ≤ 0
  ahi : nbr ≤ sort.hi
  lt : ∀ i j, 0 ≤ i → i < j → j < nbr → sort.get i < sort.get j
  inside : ∀ i, 0 ≤ i → i < nbr → lo ≤ sort.get i ∧ sort.get i < hi

theorem runEnd_holds (V : o.Valid g) {sort : Arr Int} {nbr lo hi : Int} (S : SortOk sort nbr lo hi) {top c s : Int} (htop : top = g.baseval + o.cblknbr) (h1 : g.baseval ≤ c) (h2 : c < top) (s1 : 0 ≤ s) (s2 : s < nbr)
    (h3 : sort.get s < rg g o (c + 1)) :
    Holds (runEnd o sort nbr c s) (fun e => s < e ∧ e ≤ nbr ∧ (∀ x, s ≤ x → x < e → sort.get x = sort.get s + (x - s) ∧ sort.get x < rg g o (c + 1)) ∧
      (e < nbr → sort.get e < rg g o (c + 1) → sort.get (e - 1) + 1 < sort.get e)) := by
  have hin := V.rangIn
  have hlo := S.alo
  have hhi := S.ahi
  unfold runEnd
  refine Holds_loopM (Q := fun e => s < e ∧ e ≤ nbr ∧ (∀ x, s ≤ x → x < e → sort.get x = sort.get s + (x - s) ∧ sort.get x < rg g o (c + 1)) ∧
      (e < nbr → sort.get e < rg g o (c + 1) → sort.get (e - 1) + 1 < sort.get e))
    (fun e : Int => s < e ∧ e ≤ nbr ∧ ∀ x, s ≤ x → x < e → sort.get x = sort.get s + (x - s) ∧ sort.get x < rg g o (c + 1)) (fun e => (nbr - e).toNat) ?_ _ _
    ⟨by omega, by omega, fun x x1 x2 => by rw [show x = s by omega]; exact ⟨by omega, h3⟩⟩ (by omega)
  rintro e ⟨e1, e2, e3⟩
  by_cases he : e < nbr
  · rw [if_pos he, Arr.rd_ok _ (by omega) (by omega), ok_bind, Arr.rd_ok _ (by omega) (by omega), ok_bind]
    have hlt := S.lt (e - 1) e (by omega) (by omega) he
    by_cases ha : sort.get e - 1 = sort.get (e - 1)
    · rw [if_pos ha, Arr.rd_ok _ (by omega) (by omega), ok_bind, ← rg_eq (g := g) (by omega)]
      by_cases hr : sort.get e < rg g o (c + 1)
      · rw [if_pos hr, Holds_pure]
        refine ⟨⟨by omega, by omega, ?_⟩, by omega⟩
        intro x x1 x2
        by_cases ex : x = e
        · rw [ex]
          have := (e3 (e - 1) (by omega) (by omega)).1
          exact ⟨by omega, hr⟩
        · exact e3 x x1 (by omega)
      · rw [if_neg hr, Holds_pure]
        exact ⟨e1, e2, e3, fun _ h => absurd h hr⟩
    · rw [if_neg ha, Holds_pure]
      exact ⟨e1, e2, e3, fun _ _ => by omega⟩
  · rw [if_neg he, Holds_pure]
    exact ⟨e1, e2, e3, fun h => absurd h he⟩

/-- Blocks of a list of rows. -/
structure Canon (R : Int → Int) (lo top : Int) (B : List Blok) : Prop where
  ok : ∀ b ∈ B, BOk R lo top b
  sorted : B.Pairwise Before

theorem runs_holds {σ : Type} (V : o.Valid g) {sort : Arr Int} {nbr top k : Int} (htop : top = g.baseval + o.cblknbr) (h1 : g.baseval ≤ k) (h2 : k < top) (S : SortOk sort nbr (rg g o (k + 1)) (rg g o top))
    (put : Blok → σ → M σ) (I : List Blok → σ → Prop) (hput : ∀ B b st, I B st → (B.length : Int) < nbr → Holds (put b st) (I (B ++ [b]))) (st : σ) (h0 : I [] st) :
    Holds (runs o top sort nbr put k st) (fun st' => ∃ B, I B st' ∧ Canon (rg g o) (k + 1) (top - 1) B ∧ (∀ i, cov B i ↔ ∃ x, 0 ≤ x ∧ x < nbr ∧ sort.get x = i) ∧ (B.length : Int) ≤ nbr) := by
  have hlo := S.alo
  have hhi := S.ahi
  have hn := S.nonneg
  have hR := rng V
  rw [← htop] at hR
  unfold runs
  refine Holds_loopM (Q := fun st' => ∃ B, I B st' ∧ Canon (rg g o) (k + 1) (top - 1) B ∧ (∀ i, cov B i ↔ ∃ x, 0 ≤ x ∧ x < nbr ∧ sort.get x = i) ∧ (B.length : Int) ≤ nbr)
    (fun (s : Int × Int × σ) => 0 ≤ s.1 ∧ s.1 ≤ nbr ∧ k ≤ s.2.1 ∧ s.2.1 < top ∧ (s.1 < nbr → rg g o s.2.1 ≤ sort.get s.1) ∧
      ∃ B, I B s.2.2 ∧ Canon (rg g o) (k + 1) (top - 1) B ∧ (∀ i, cov B i ↔ ∃ x, 0 ≤ x ∧ x < s.1 ∧ sort.get x = i) ∧ (B.length : Int) ≤ s.1 ∧
        ∀ b ∈ B, b.cblk ≤ s.2.1 ∧ (s.1 < nbr → sort.get s.1 < rg g o (s.2.1 + 1) → b.cblk = s.2.1 → b.lrow + 1 < sort.get s.1))
    (fun s => (nbr - s.1).toNat) ?_ _ _ ⟨Int.le_refl _, hn, Int.le_refl _, h2, ?_, [], h0, ⟨by simp, by simp⟩, ?_, by simp, by simp⟩ (by dsimp only; omega)
  · rintro ⟨s, c, st⟩ ⟨s1, s2, c1, c2, c3, B, hI, hC, hcov, hlen, hJ⟩
    dsimp only at s1 s2 c1 c2 c3 hI hC hcov hlen hJ ⊢
    by_cases hs : s < nbr
    · rw [if_pos hs, Arr.rd_ok _ (by omega) (by omega), ok_bind, Holds_bind]
      have hins := S.inside s s1 hs
      refine Holds.mono (findCblk_holds V htop (by omega) c2 (c3 hs) hins.2) ?_
      rintro c' ⟨d1, d2, d3, d4⟩
      rw [Holds_bind]
      refine Holds.mono (runEnd_holds V S htop (by omega) d2 s1 hs d4) ?_
      rintro e ⟨e1, e2, e3, e4⟩
      rw [Arr.rd_ok _ (by omega) (by omega), ok_bind, Holds_bind]
      refine Holds.mono (hput B _ st hI (by omega)) ?_
      intro st' hI'
      rw [Holds_pure]
      have hck : k + 1 ≤ c' := by
        have := hR.lt_of (a := k + 1) (b := c' + 1) (by omega) (by omega) (by omega)
        omega
      have hl := e3 (e - 1) (by omega) (by omega)
      have hnb : BOk (rg g o) (k + 1) (top - 1) ⟨sort.get s, sort.get (e - 1), c'⟩ := ⟨hck, by dsimp only; omega, d3, by dsimp only; omega, hl.2⟩
      refine ⟨⟨by dsimp only; omega, e2, by dsimp only; omega, d2, ?_, B ++ [⟨sort.get s, sort.get (e - 1), c'⟩], hI', ?_, ?_, ?_, ?_⟩, by dsimp only; omega⟩
      · dsimp only
        intro he
        have := S.lt s e s1 (by omega) he
        omega
      · refine ⟨?_, ?_⟩
        · intro b hb
          rcases List.mem_append.1 hb with hb | hb
          · exact hC.ok b hb
          · rw [List.mem_singleton.1 hb]; exact hnb
        · rw [List.pairwise_append]
          refine ⟨hC.sorted, List.pairwise_singleton _ _, ?_⟩
          intro b hb b' hb'
          rw [List.mem_singleton.1 hb']
          have hj := hJ b hb
          unfold Before
          dsimp only
          by_cases hlt : b.cblk < c'
          · exact .inl hlt
          · right
            have ec : c' = c := by omega
            rw [ec] at d4
            exact ⟨by omega, hj.2 hs d4 (by omega)⟩
      · intro i
        rw [cov_append, hcov, cov_cons, cov_nil]
        dsimp only
        constructor
        · rintro (⟨x, x1, x2, x3⟩ | (⟨h3, h4⟩ | h))
          · exact ⟨x, x1, by omega, x3⟩
          · exact ⟨s + (i - sort.get s), by omega, by omega, by rw [(e3 (s + (i - sort.get s)) (by omega) (by omega)).1]; omega⟩
          · exact h.elim
        · rintro ⟨x, x1, x2, x3⟩
          by_cases hx : x < s
          · exact .inl ⟨x, x1, hx, x3⟩
          · have := (e3 x (by omega) x2).1
            exact .inr (.inl ⟨by omega, by omega⟩)
      · dsimp only
        rw [List.length_append, List.length_singleton]
        push_cast
        omega
      · dsimp only
        intro b hb
        rcases List.mem_append.1 hb with hb | hb
        · have hj := hJ b hb
          refine ⟨by omega, ?_⟩
          intro he h5 h6
          have ec : c' = c := by omega
          have := hj.2 hs (by rw [← ec]; exact d4) (by omega)
          have := S.lt s e s1 (by omega) he
          omega
        · rw [List.mem_singleton.1 hb]
          exact ⟨Int.le_refl _, fun he h5 _ => e4 he h5⟩
    · rw [if_neg hs, Holds_pure]
      have : s = nbr := by omega
      subst this
      exact ⟨B, hI, hC, hcov, hlen⟩
  · dsimp only
    intro h
    have := S.inside 0 (Int.le_refl _) h
    have := hR.step k (by omega) (by omega)
    omega
  · intro i
    rw [cov_nil]
    constructor
    · exact False.elim
    · rintro ⟨x, x1, x2, _⟩
      dsimp only at x2
      omega

end Scotch.Fax
