import Verif.Esmumps.Spec
import Verif.Fax.LemmasFax
import Verif.Build.Lemmas

/-! # Interface of MUMPS: proofs -/

set_option autoImplicit false
set_option linter.unusedSimpArgs false

namespace Scotch.Esmumps
open Build Fax

/-- Sum on a part of a range. -/
theorem sumI_part {lo a c hi : Int} (h1 : lo ≤ a) (h2 : a ≤ c) (h3 : c ≤ hi) (f : Int → Int) : sumI lo hi (fun i => if a ≤ i ∧ i < c then f i else 0) = sumI a c f := by
  have z : ∀ x y : Int, x ≤ y → (∀ i, x ≤ i → i < y → ¬ (a ≤ i ∧ i < c)) → sumI x y (fun i => if a ≤ i ∧ i < c then f i else 0) = 0 := by
    intro x y hxy h
    rw [sumI_congr (g := fun _ => 0) (fun i i1 i2 => if_neg (h i i1 i2)), sumI_const hxy, Int.mul_zero]
  rw [sumI_split (lo := lo) (mid := a) (hi := hi) h1 (by omega), sumI_split (lo := a) (mid := c) (hi := hi) h2 h3, z lo a h1 (fun i _ _ => by omega), z c hi h3 (fun i _ _ => by omega),
    sumI_congr (lo := a) (hi := c) (g := f) (fun i i1 i2 => if_pos ⟨i1, i2⟩)]
  omega

section
variable {g : Graph} {o : Order} {S : Symbol}

theorem rang_mono (V : o.Valid g) {a b : Int} (h1 : g.baseval ≤ a) (h2 : a ≤ b) (h3 : b ≤ g.baseval + o.cblknbr) : o.rang.get a ≤ o.rang.get b := by
  have h := V.step
  obtain ⟨n, rfl⟩ := Int.le.dest h2
  induction n with
  | zero => simp
  | succ n ih =>
    have := ih (by omega) (by push_cast at h3; omega)
    have := h (a + n) (by omega) (by push_cast at h3; omega)
    rw [show a + ((n + 1 : Nat) : Int) = a + n + 1 by push_cast; omega]
    omega

theorem rang_in (V : o.Valid g) (hn : g.vertnnd = g.baseval + g.vertnbr) {k : Int} (hk : IsBlock g o k) : g.baseval ≤ o.rang.get k ∧ o.rang.get k < o.rang.get (k + 1) ∧ o.rang.get (k + 1) ≤ g.vertnnd := by
  have h1 := hk.1
  have h2 := hk.2
  have a := rang_mono V (Int.le_refl _) h1 (by omega)
  have b := rang_mono V (a := k + 1) (b := g.baseval + o.cblknbr) (by omega) (by omega) (by omega)
  rw [V.first] at a
  rw [V.last] at b
  exact ⟨a, V.step k h1 h2, by omega⟩

theorem blok_mono (W : WellFormed g o S) {a b : Int} (h1 : g.baseval ≤ a) (h2 : a ≤ b) (h3 : b ≤ g.baseval + o.cblknbr) : (S.cblk.get a).blok ≤ (S.cblk.get b).blok := by
  have h := W.step
  obtain ⟨n, rfl⟩ := Int.le.dest h2
  induction n with
  | zero => simp
  | succ n ih =>
    have := ih (by omega) (by push_cast at h3; omega)
    have := h (a + n) (by omega) (by push_cast at h3; omega)
    rw [show a + ((n + 1 : Nat) : Int) = a + n + 1 by push_cast; omega]
    omega

theorem blok_in (W : WellFormed g o S) {k : Int} (hk : IsBlock g o k) :
    g.baseval ≤ (S.cblk.get k).blok ∧ (S.cblk.get k).blok < (S.cblk.get (k + 1)).blok ∧ (S.cblk.get (k + 1)).blok ≤ g.baseval + S.bloknbr := by
  have h1 := hk.1
  have h2 := hk.2
  have a := blok_mono W (Int.le_refl _) h1 (by omega)
  have b := blok_mono W (a := k + 1) (b := g.baseval + o.cblknbr) (by omega) (by omega) (by omega)
  rw [W.first] at a
  rw [W.last] at b
  exact ⟨a, W.step k h1 h2, b⟩

/-- Rows of a block of a column block. -/
theorem rows_in (V : o.Valid g) (W : WellFormed g o S) (hn : g.vertnnd = g.baseval + g.vertnbr) {k b : Int} (hk : IsBlock g o k) (b1 : (S.cblk.get k).blok ≤ b) (b2 : b < (S.cblk.get (k + 1)).blok) :
    o.rang.get k ≤ (S.blok.get b).frow ∧ (S.blok.get b).frow ≤ (S.blok.get b).lrow ∧ (S.blok.get b).lrow < g.vertnnd ∧ ((S.cblk.get k).blok < b → o.rang.get (k + 1) ≤ (S.blok.get b).frow) := by
  obtain ⟨r1, r2, r3⟩ := rang_in V hn hk
  by_cases e : b = (S.cblk.get k).blok
  · rw [e, W.diag k hk.1 hk.2]
    dsimp only
    omega
  · obtain ⟨f1, f2, f3, f4, f5⟩ := W.face k b hk.1 hk.2 (by omega) b2
    have hk' : IsBlock g o (S.blok.get b).cblk := ⟨by have := hk.1; omega, f2⟩
    obtain ⟨s1, s2, s3⟩ := rang_in V hn hk'
    have := rang_mono V (a := k + 1) (b := (S.blok.get b).cblk) (by have := hk.1; omega) (by omega) (by omega)
    have := f4.1
    have := f5.2
    omega

/-- Blocks of a column block are in increasing order. -/
theorem rows_lt (V : o.Valid g) (W : WellFormed g o S) (hn : g.vertnnd = g.baseval + g.vertnbr) {k b c : Int} (hk : IsBlock g o k) (b1 : (S.cblk.get k).blok ≤ b) (b2 : b < c) (b3 : c < (S.cblk.get (k + 1)).blok) :
    (S.blok.get b).lrow < (S.blok.get c).frow := by
  have adj : ∀ d, (S.cblk.get k).blok ≤ d → d + 1 < (S.cblk.get (k + 1)).blok → (S.blok.get d).lrow < (S.blok.get (d + 1)).frow := by
    intro d d1 d2
    by_cases e : d = (S.cblk.get k).blok
    · have := (rows_in V W hn hk (b := d + 1) (by omega) d2).2.2.2 (by omega)
      have hd := W.diag k hk.1 hk.2
      rw [← e] at hd
      rw [hd]
      dsimp only
      omega
    · rcases W.order k d hk.1 hk.2 (by omega) d2 with h | h
      · obtain ⟨f1, f2, f3, f4, f5⟩ := W.face k d hk.1 hk.2 (by omega) (by omega)
        obtain ⟨e1, e2, e3, e4, e5⟩ := W.face k (d + 1) hk.1 hk.2 (by omega) d2
        have := rang_mono V (a := (S.blok.get d).cblk + 1) (b := (S.blok.get (d + 1)).cblk) (by have := hk.1; omega) (by omega) (by omega)
        have := f5.2
        have := e4.1
        omega
      · omega
  obtain ⟨n, hn'⟩ := Int.le.dest (show b + 1 ≤ c by omega)
  induction n generalizing c with
  | zero =>
    obtain rfl : c = b + 1 := by simpa using hn'.symm
    exact adj b b1 b3
  | succ n ih =>
    obtain rfl : c = b + 1 + n + 1 := by push_cast at hn'; omega
    have := ih (c := b + 1 + n) (by omega) (by omega) rfl
    have := rows_in V W hn hk (b := b + 1 + n) (by omega) (by omega)
    have := adj (b + 1 + n) (by omega) b3
    omega

/-- Rows of the blocks of a column block, up to a given one. -/
def Cov (S : Symbol) (k b i : Int) : Prop := ∃ c, (S.cblk.get k).blok ≤ c ∧ c < b ∧ (S.blok.get c).frow ≤ i ∧ i ≤ (S.blok.get c).lrow

theorem cov_iff (V : o.Valid g) (W : WellFormed g o S) (hn : g.vertnnd = g.baseval + g.vertnbr) {k : Int} (hk : IsBlock g o k)
    (hf : ∀ i, o.rang.get (k + 1) ≤ i → (Covers S k i ↔ Fill (BlockEntry g o) (o.rang.get (k + 1) - 1) i)) (i : Int) : Cov S k (S.cblk.get (k + 1)).blok i ↔ InCblk o k i ∨ Below g o k i := by
  have hd := W.diag k hk.1 hk.2
  have hb := (blok_in W hk).2.1
  constructor
  · rintro ⟨c, c1, c2, c3, c4⟩
    have hr := rows_in V W hn hk c1 c2
    by_cases e : c = (S.cblk.get k).blok
    · rw [e, hd] at c3 c4
      dsimp only at c3 c4
      exact .inl ⟨c3, by omega⟩
    · have := hr.2.2.2 (by omega)
      exact .inr ⟨by omega, by omega, (hf i (by omega)).1 ⟨c, by omega, c2, c3, c4⟩⟩
  · rintro (h | ⟨h1, h2, h3⟩)
    · refine ⟨(S.cblk.get k).blok, Int.le_refl _, hb, ?_⟩
      rw [hd]
      have := h.1
      have := h.2
      dsimp only
      omega
    · obtain ⟨c, c1, c2, c3, c4⟩ := (hf i h1).2 h3
      exact ⟨c, by omega, c2, c3, c4⟩

theorem emBlok_holds {weighted : Bool} {peri nv : Arr Int} {b : Blok} {d : Int} {w : Int → Int} (hrow : b.frow ≤ b.lrow)
    (hp : ∀ i, b.frow ≤ i → i ≤ b.lrow → peri.lo ≤ i ∧ i < peri.hi ∧ nv.lo ≤ peri.get i ∧ peri.get i < nv.hi) (hw : ∀ i, b.frow ≤ i → i ≤ b.lrow → if weighted then nv.get (peri.get i) = w (peri.get i) else w (peri.get i) = 1) :
    Holds (emBlok weighted peri nv b d) (fun r => r = d + sumI b.frow (b.lrow + 1) (fun i => w (peri.get i))) := by
  unfold emBlok
  cases weighted with
  | true =>
    rw [if_pos rfl]
    refine Holds_forUp (fun i r => r = d + sumI b.frow i (fun i => w (peri.get i))) (by omega) (by rw [sumI_empty (Int.le_refl _)]; omega) ?_ (fun _ h => h)
    intro i r i1 i2 hr
    obtain ⟨p1, p2, p3, p4⟩ := hp i i1 (by omega)
    rw [Arr.rd_ok _ p1 p2, ok_bind, Arr.rd_ok _ p3 p4]
    show r + nv.get (peri.get i) = _
    have := hw i i1 (by omega)
    rw [if_pos rfl] at this
    rw [this, hr, sumI_succ i1]
    omega
  | false =>
    rw [if_neg Bool.false_ne_true]
    show d + _ = _
    rw [sumI_congr (g := fun _ => 1) (fun i i1 i2 => by have := hw i i1 (by omega); rwa [if_neg Bool.false_ne_true] at this), sumI_const (by omega)]
    omega

theorem emDegr_holds {weighted : Bool} {nv : Arr Int} {w : Int → Int} (V : o.Valid g) (W : WellFormed g o S) (hn : g.vertnnd = g.baseval + g.vertnbr) {k : Int} (hk : IsBlock g o k)
    (hnv : ∀ v, g.Vertex v → nv.lo ≤ v ∧ v < nv.hi) (hw : ∀ i, o.rang.get k ≤ i → i < g.vertnnd → if weighted then nv.get (o.peri.get i) = w (o.peri.get i) else w (o.peri.get i) = 1)
    (dec : ∀ i, Decidable (Cov S k (S.cblk.get (k + 1)).blok i)) :
    Holds (emDegr weighted S o.peri nv (S.cblk.get k).blok (S.cblk.get (k + 1)).blok) (fun d => d = sumI g.baseval g.vertnnd (fun i => if Cov S k (S.cblk.get (k + 1)).blok i then w (o.peri.get i) else 0)) := by
  classical
  obtain ⟨b1, b2, b3⟩ := blok_in W hk
  obtain ⟨r1, r2, r3⟩ := rang_in V hn hk
  unfold emDegr
  refine Holds_forUp (fun b d => d = sumI g.baseval g.vertnnd (fun i => if Cov S k b i then w (o.peri.get i) else 0)) (by omega) ?_ ?_ ?_
  · rw [sumI_congr (g := fun _ => 0) (fun i _ _ => if_neg (by rintro ⟨c, c1, c2, _⟩; omega)), sumI_const (by omega), Int.mul_zero]
  · intro b d h1 h2 hd
    have hlo := W.blokIn.1
    have hhi := W.blokIn.2
    rw [Arr.rd_ok _ (by omega) (by omega), ok_bind]
    obtain ⟨f1, f2, f3, f4⟩ := rows_in V W hn hk h1 h2
    refine Holds.mono (emBlok_holds (w := w) f2 ?_ (fun i i1 i2 => hw i (by omega) (by omega))) ?_
    · intro i i1 i2
      have hv := (V.peri i ⟨by omega, by omega⟩).1
      have := hnv _ hv
      have := V.periIn
      exact ⟨by omega, by omega, by omega, by omega⟩
    · intro r hr
      rw [hr, hd, ← sumI_part (lo := g.baseval) (a := (S.blok.get b).frow) (c := (S.blok.get b).lrow + 1) (hi := g.vertnnd) (by omega) (by omega) (by omega), ← sumI_add_dist]
      refine sumI_congr fun i _ _ => ?_
      by_cases h : (S.blok.get b).frow ≤ i ∧ i < (S.blok.get b).lrow + 1
      · rw [if_pos h, if_neg, if_pos]
        · omega
        · exact ⟨b, h1, by omega, h.1, by omega⟩
        · rintro ⟨c, c1, c2, c3, c4⟩
          have := rows_lt V W hn hk c1 c2 h2
          omega
      · rw [if_neg h]
        by_cases hc : Cov S k b i
        · obtain ⟨c, c1, c2, c3, c4⟩ := hc
          rw [if_pos ⟨c, c1, c2, c3, c4⟩, if_pos ⟨c, c1, by omega, c3, c4⟩]
          omega
        · rw [if_neg hc, if_neg]
          · rfl
          · rintro ⟨c, c1, c2, c3, c4⟩
            by_cases e : c = b
            · rw [e] at c3 c4; exact h ⟨c3, by omega⟩
            · exact hc ⟨c, c1, by omega, c3, c4⟩
  · intro d hd
    rw [hd]
    refine sumI_congr fun i _ _ => ?_
    by_cases h : Cov S k (S.cblk.get (k + 1)).blok i
    · rw [if_pos h, if_pos h]
    · rw [if_neg h, if_neg h]

/-- Father of a column block. -/
noncomputable def fath (S : Symbol) (o : Order) (k : Int) : Int :=
  if (S.cblk.get k).blok = (S.cblk.get (k + 1)).blok - 1 then 0 else - o.peri.get (o.rang.get (S.blok.get ((S.cblk.get k).blok + 1)).cblk)

theorem emFath_holds (V : o.Valid g) (W : WellFormed g o S) (hn : g.vertnnd = g.baseval + g.vertnbr) {k : Int} (hk : IsBlock g o k) :
    Holds (emFath S o.peri (S.cblk.get k).blok (S.cblk.get (k + 1)).blok) (fun f => f = fath S o k) := by
  obtain ⟨b1, b2, b3⟩ := blok_in W hk
  unfold emFath fath
  by_cases h : (S.cblk.get k).blok = (S.cblk.get (k + 1)).blok - 1
  · rw [if_pos h, if_pos h]; rfl
  · rw [if_neg h, if_neg h]
    have hlo := W.blokIn.1
    have hhi := W.blokIn.2
    have hcl := W.cblkIn
    obtain ⟨f1, f2, f3, f4, f5⟩ := W.face k ((S.cblk.get k).blok + 1) hk.1 hk.2 (by omega) (by omega)
    have hk1 := hk.1
    have hk' : IsBlock g o (S.blok.get ((S.cblk.get k).blok + 1)).cblk := ⟨by omega, f2⟩
    obtain ⟨s1, s2, s3⟩ := rang_in V hn hk'
    have := V.periIn
    rw [Arr.rd_ok _ (by omega) (by omega), ok_bind, Arr.rd_ok _ (by omega) (by omega), ok_bind, (W.cols _ hk'.1 hk'.2).1, Arr.rd_ok _ (by omega) (by omega)]
    rfl

/-- The father is in the block of the first row below. -/
theorem fath_spec (V : o.Valid g) (W : WellFormed g o S) (hn : g.vertnnd = g.baseval + g.vertnbr) {k : Int} (hk : IsBlock g o k)
    (hf : ∀ i, o.rang.get (k + 1) ≤ i → (Covers S k i ↔ Fill (BlockEntry g o) (o.rang.get (k + 1) - 1) i)) :
    ((∀ i, ¬ Below g o k i) → fath S o k = 0) ∧ ∀ i, Below g o k i → (∀ j, Below g o k j → i ≤ j) → ∃ f, IsBlock g o f ∧ k < f ∧ InCblk o f i ∧ fath S o k = - principal o f := by
  obtain ⟨b1, b2, b3⟩ := blok_in W hk
  have hk1 := hk.1
  unfold fath
  by_cases h : (S.cblk.get k).blok = (S.cblk.get (k + 1)).blok - 1
  · rw [if_pos h]
    refine ⟨fun _ => rfl, fun i hi _ => ?_⟩
    obtain ⟨c, c1, c2, _⟩ := (hf i hi.1).2 hi.2.2
    omega
  · rw [if_neg h]
    obtain ⟨f1, f2, f3, f4, f5⟩ := W.face k ((S.cblk.get k).blok + 1) hk.1 hk.2 (by omega) (by omega)
    have hr := rows_in V W hn hk (b := (S.cblk.get k).blok + 1) (by omega) (by omega)
    have h4 := hr.2.2.2 (by omega)
    have hB : Below g o k (S.blok.get ((S.cblk.get k).blok + 1)).frow := ⟨h4, by omega, (hf _ h4).1 ⟨(S.cblk.get k).blok + 1, by omega, by omega, by omega, by omega⟩⟩
    refine ⟨fun hno => (hno _ hB).elim, ?_⟩
    intro i hi hmin
    have e : i = (S.blok.get ((S.cblk.get k).blok + 1)).frow := by
      have := hmin _ hB
      obtain ⟨c, c1, c2, c3, c4⟩ := (hf i hi.1).2 hi.2.2
      by_cases e : c = (S.cblk.get k).blok + 1
      · rw [e] at c3; omega
      · have := rows_lt V W hn hk (b := (S.cblk.get k).blok + 1) (c := c) (by omega) (by omega) c2
        omega
    refine ⟨_, ⟨by omega, f2⟩, f1, ?_, rfl⟩
    rw [e]
    exact f4

/-- Vertices of two positions are different. -/
theorem peri_inj (V : o.Valid g) {i j : Int} (hi : g.Vertex i) (hj : g.Vertex j) (h : o.peri.get i = o.peri.get j) : i = j := by
  rw [← (V.peri i hi).2, h, (V.peri j hj).2]

/-- State of the loop on column blocks: the blocks before `k` are done. -/
structure Inv (g : Graph) (o : Order) (N F : Int → Int) (weighted : Bool) (w : Int → Int) (k : Int) (s : Arr Int × Arr Int) : Prop where
  peIn : ∀ v, g.Vertex v → s.1.lo ≤ v ∧ v < s.1.hi
  nvIn : ∀ v, g.Vertex v → s.2.lo ≤ v ∧ v < s.2.hi
  done : ∀ c, g.baseval ≤ c → c < k → ∀ j, InCblk o c j →
    s.1.get (o.peri.get j) = (if j = o.rang.get c then F c else - principal o c) ∧ s.2.get (o.peri.get j) = (if j = o.rang.get c then N c else 0)
  rest : ∀ i, o.rang.get k ≤ i → i < g.vertnnd → if weighted then s.2.get (o.peri.get i) = w (o.peri.get i) else w (o.peri.get i) = 1

theorem emCblk_holds {weighted : Bool} {w N : Int → Int} (V : o.Valid g) (W : WellFormed g o S) (hn : g.vertnnd = g.baseval + g.vertnbr) {k : Int} (hk : IsBlock g o k)
    (hN : ∀ (dec : ∀ i, Decidable (Cov S k (S.cblk.get (k + 1)).blok i)), N k = sumI g.baseval g.vertnnd (fun i => if Cov S k (S.cblk.get (k + 1)).blok i then w (o.peri.get i) else 0))
    {s : Arr Int × Arr Int} (I : Inv g o N (fath S o) weighted w k s) : Holds (emCblk weighted S o.peri k s) (Inv g o N (fath S o) weighted w (k + 1)) := by
  classical
  have hk1 := hk.1
  have hk2 := hk.2
  obtain ⟨b1, b2, b3⟩ := blok_in W hk
  obtain ⟨r1, r2, r3⟩ := rang_in V hn hk
  have hcl := W.cblkIn
  have hper := V.periIn
  obtain ⟨hc1, hc2⟩ := W.cols k hk.1 hk.2
  have hvert : ∀ j, o.rang.get k ≤ j → j < o.rang.get (k + 1) → g.Vertex j := fun j j1 j2 => ⟨by omega, by omega⟩
  unfold emCblk
  rw [Arr.rd_ok _ (by omega) (by omega), ok_bind, Arr.rd_ok _ (by omega) (by omega), ok_bind, Holds_bind]
  refine Holds.mono (emDegr_holds V W hn hk I.nvIn I.rest inferInstance) ?_
  intro d hd
  rw [← hN] at hd
  rw [hc1, hc2, Arr.rd_ok _ (by omega) (by omega), ok_bind]
  have hp := (V.peri _ (hvert _ (Int.le_refl _) r2)).1
  have hnvp := I.nvIn _ hp
  have hpep := I.peIn _ hp
  rw [Arr.wr_ok _ _ hnvp.1 hnvp.2, ok_bind, Holds_bind]
  refine Holds.mono (emFath_holds V W hn hk) ?_
  intro f hf
  rw [Arr.wr_ok _ _ hpep.1 hpep.2, ok_bind]
  -- blocks before `k` have other columns
  have hother : ∀ c j j', g.baseval ≤ c → c < k → InCblk o c j → o.rang.get k ≤ j' → j' < g.vertnnd → o.peri.get j ≠ o.peri.get j' := by
    intro c j j' c1 c2 hj j1 j2 e
    have hc : IsBlock g o c := ⟨c1, by omega⟩
    have hr := rang_in V hn hc
    have := rang_mono V (a := c + 1) (b := k) (by omega) (by omega) (by omega)
    have h1 := hj.1
    have h2 := hj.2
    have := peri_inj V (i := j) (j := j') ⟨by omega, by omega⟩ ⟨by omega, by omega⟩ e
    omega
  refine Holds_forUp (fun m t => (∀ v, g.Vertex v → t.1.lo ≤ v ∧ v < t.1.hi) ∧ (∀ v, g.Vertex v → t.2.lo ≤ v ∧ v < t.2.hi) ∧
      (∀ c, g.baseval ≤ c → c < k → ∀ j, InCblk o c j → t.1.get (o.peri.get j) = s.1.get (o.peri.get j) ∧ t.2.get (o.peri.get j) = s.2.get (o.peri.get j)) ∧
      (∀ j, o.rang.get k ≤ j → j < m → t.1.get (o.peri.get j) = (if j = o.rang.get k then fath S o k else - principal o k) ∧ t.2.get (o.peri.get j) = (if j = o.rang.get k then N k else 0)) ∧
      ∀ j, m ≤ j → j < g.vertnnd → t.2.get (o.peri.get j) = s.2.get (o.peri.get j)) (by omega) ⟨I.peIn, I.nvIn, ?_, ?_, ?_⟩ ?_ ?_
  · intro c c1 c2 j hj
    have := hother c j (o.rang.get k) c1 c2 hj (Int.le_refl _) (by omega)
    exact ⟨Arr.set_get_ne _ _ this, Arr.set_get_ne _ _ this⟩
  · intro j j1 j2
    obtain rfl : j = o.rang.get k := by omega
    rw [if_pos rfl, if_pos rfl]
    exact ⟨by rw [Arr.set_get_same, hf], by rw [Arr.set_get_same, hd]⟩
  · intro j j1 j2
    refine Arr.set_get_ne _ _ fun e => ?_
    have := peri_inj V (i := j) (j := o.rang.get k) ⟨by omega, by omega⟩ ⟨by omega, by omega⟩ e
    omega
  · rintro m t m1 m2 ⟨t1, t2, t3, t4, t5⟩
    have hm := (V.peri m ⟨by omega, by omega⟩).1
    have h1 := t1 _ hm
    have h2 := t2 _ hm
    unfold emSecn
    rw [Arr.rd_ok _ (by omega) (by omega), ok_bind, Arr.wr_ok _ _ h2.1 h2.2, ok_bind, ok_bind, Arr.rd_ok _ (by omega) (by omega), ok_bind, Arr.wr_ok _ _ h1.1 h1.2]
    refine ⟨t1, t2, ?_, ?_, ?_⟩
    · intro c c1 c2 j hj
      have hne := hother c j m c1 c2 hj (by omega) (by omega)
      have := t3 c c1 c2 j hj
      exact ⟨(Arr.set_get_ne _ _ hne).trans this.1, (Arr.set_get_ne _ _ hne).trans this.2⟩
    · intro j j1 j2
      by_cases e : j = m
      · subst e
        rw [if_neg (by omega), if_neg (by omega)]
        exact ⟨Arr.set_get_same _ _ _, Arr.set_get_same _ _ _⟩
      · have hne : o.peri.get j ≠ o.peri.get m := fun h => e (peri_inj V ⟨by omega, by omega⟩ ⟨by omega, by omega⟩ h)
        have := t4 j j1 (by omega)
        exact ⟨(Arr.set_get_ne _ _ hne).trans this.1, (Arr.set_get_ne _ _ hne).trans this.2⟩
    · intro j j1 j2
      have hne : o.peri.get j ≠ o.peri.get m := fun h => by
        have := peri_inj V (i := j) (j := m) ⟨by omega, by omega⟩ ⟨by omega, by omega⟩ h
        omega
      exact (Arr.set_get_ne _ _ hne).trans (t5 j (by omega) j2)
  · rintro t ⟨t1, t2, t3, t4, t5⟩
    refine ⟨t1, t2, ?_, ?_⟩
    · intro c c1 c2 j hj
      by_cases e : c = k
      · subst e
        exact t4 j hj.1 (by have := hj.2; omega)
      · have h := t3 c c1 (by omega) j hj
        have h' := I.done c c1 (by omega) j hj
        exact ⟨h.1.trans h'.1, h.2.trans h'.2⟩
    · intro i i1 i2
      have h := I.rest i (by omega) i2
      rw [← t5 i (by omega) i2] at h
      exact h

/-- The tree that is built. -/
theorem tree_of (V : o.Valid g) (W : WellFormed g o S) (hn : g.vertnnd = g.baseval + g.vertnbr) {w N : Int → Int} {weighted : Bool}
    (hf : ∀ k, IsBlock g o k → ∀ i, o.rang.get (k + 1) ≤ i → (Covers S k i ↔ Fill (BlockEntry g o) (o.rang.get (k + 1) - 1) i))
    (hN : ∀ k, ∀ (dec : ∀ i, Decidable (Cov S k (S.cblk.get (k + 1)).blok i)), N k = sumI g.baseval g.vertnnd (fun i => if Cov S k (S.cblk.get (k + 1)).blok i then w (o.peri.get i) else 0))
    {s : Arr Int × Arr Int} (I : Inv g o N (fath S o) weighted w (g.baseval + o.cblknbr) s) : Tree g o w s.1.get s.2.get := by
  classical
  have hprin : ∀ k, IsBlock g o k → InCblk o k (o.rang.get k) := fun k hk => ⟨Int.le_refl _, (rang_in V hn hk).2.1⟩
  have hpe : ∀ k, IsBlock g o k → s.1.get (principal o k) = fath S o k := by
    intro k hk
    have := (I.done k hk.1 hk.2 _ (hprin k hk)).1
    rwa [if_pos rfl] at this
  refine ⟨?_, ?_, ?_, ?_⟩
  · intro k j hk hj hne
    have := I.done k hk.1 hk.2 j hj
    rw [if_neg hne, if_neg hne] at this
    exact ⟨this.2, this.1⟩
  · intro k hk dec
    have := (I.done k hk.1 hk.2 _ (hprin k hk)).2
    rw [if_pos rfl] at this
    refine Eq.trans this (Eq.trans (hN k inferInstance) (sumI_congr fun i _ _ => ?_))
    have hiff := cov_iff V W hn hk (hf k hk) i
    by_cases h : Cov S k (S.cblk.get (k + 1)).blok i
    · rw [if_pos h, if_pos (hiff.1 h)]
    · rw [if_neg h, if_neg (fun h' => h (hiff.2 h'))]
  · intro k hk h
    rw [hpe k hk]
    exact (fath_spec V W hn hk (hf k hk)).1 h
  · intro k i hk hi hmin
    rw [hpe k hk]
    exact (fath_spec V W hn hk (hf k hk)).2 i hi hmin

end

/-- The arrays given by users, once ends have been computed. -/
theorem emEnds_holds {n : Int} {pe len : Arr Int} (junk : Int → Int) (hn : 0 ≤ n) (h1 : pe.lo ≤ 0 ∧ n ≤ pe.hi) (h2 : len.lo ≤ 0 ∧ n ≤ len.hi) :
    Holds (emEnds n pe len junk) (fun a => a.lo = 0 ∧ a.hi = n ∧ ∀ i, 0 ≤ i → i < n → a.get i = pe.get i + len.get i) := by
  unfold emEnds
  refine Holds_forUp (fun v a => a.lo = 0 ∧ a.hi = n ∧ ∀ i, 0 ≤ i → i < v → a.get i = pe.get i + len.get i) hn ⟨rfl, rfl, fun i i1 i2 => by omega⟩ ?_ (fun _ h => h)
  rintro v a v1 v2 ⟨a1, a2, a3⟩
  rw [Arr.rd_ok _ (by omega) (by omega), ok_bind, Arr.rd_ok _ (by omega) (by omega), ok_bind, Arr.wr_ok _ _ (by omega) (by omega)]
  refine ⟨a1, a2, ?_⟩
  intro i i1 i2
  by_cases e : i = v
  · rw [e]; exact Arr.set_get_same _ _ _
  · exact (Arr.set_get_ne _ _ e).trans (a3 i i1 (by omega))

end Scotch.Esmumps
