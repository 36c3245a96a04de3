import Verif.Fax.Spec

/-!
# Structure of column blocks

`T k i`: row `i` belongs to the structure of column block `k`, computed block after block.
-/

set_option autoImplicit false

namespace Scotch.Fax

/-- Bounds of column blocks: strictly increasing. `top` is the number after the last block; the block `top` is a dummy one. -/
structure Rng (R : Int → Int) (base top : Int) : Prop where
  le : base ≤ top
  step : ∀ k, base ≤ k → k ≤ top → R k < R (k + 1)

variable {R : Int → Int} {base top : Int}

theorem Rng.mono_le (hR : Rng R base top) {a b : Int} (h1 : base ≤ a) (h2 : a ≤ b) (h3 : b ≤ top + 1) : R a ≤ R b := by
  obtain ⟨n, rfl⟩ : ∃ n : Nat, b = a + n := ⟨(b - a).toNat, by omega⟩
  induction n with
  | zero => simp
  | succ n ih =>
    have h4 := ih (by omega) (by push_cast at h3; omega)
    have h5 := hR.step (a + n) (by omega) (by push_cast at h3; omega)
    rw [show a + ((n + 1 : Nat) : Int) = a + n + 1 by push_cast; omega]
    omega

theorem Rng.mono_lt (hR : Rng R base top) {a b : Int} (h1 : base ≤ a) (h2 : a < b) (h3 : b ≤ top + 1) : R a < R b := by
  have h4 := hR.step a h1 (by omega)
  have h5 := hR.mono_le (a := a + 1) (b := b) (by omega) (by omega) h3
  omega

theorem Rng.lt_of (hR : Rng R base top) {a b : Int} (h1 : base ≤ b) (h2 : a ≤ top + 1) (h3 : R a < R b) : a < b := by
  apply Classical.byContradiction
  intro h
  have := hR.mono_le h1 (by omega : b ≤ a) h2
  omega

/-- A column belongs to a single column block. -/
theorem Rng.uniq (hR : Rng R base top) {a b j : Int} (a1 : base ≤ a) (a2 : a ≤ top) (b1 : base ≤ b) (b2 : b ≤ top) (h1 : R a ≤ j) (h2 : j < R (a + 1)) (h3 : R b ≤ j) (h4 : j < R (b + 1)) : a = b := by
  have h5 := hR.lt_of (a := a) (b := b + 1) (by omega) (by omega) (by omega)
  have h6 := hR.lt_of (a := b) (b := a + 1) (by omega) (by omega) (by omega)
  omega

/-- Every column belongs to a column block. -/
theorem Rng.exists_cblk (hR : Rng R base top) {j : Int} (h1 : R base ≤ j) (h2 : j < R top) : ∃ k, base ≤ k ∧ k < top ∧ R k ≤ j ∧ j < R (k + 1) := by
  have key : ∀ n : Nat, base + n ≤ top → j < R (base + n) → ∃ k, base ≤ k ∧ k < base + n ∧ R k ≤ j ∧ j < R (k + 1) := by
    intro n
    induction n with
    | zero => intro _ h; simp at h; omega
    | succ n ih =>
      intro h3 h4
      by_cases h5 : j < R (base + n)
      · obtain ⟨k, k1, k2, k3, k4⟩ := ih (by push_cast at h3; omega) h5
        exact ⟨k, k1, by push_cast; omega, k3, k4⟩
      · refine ⟨base + n, by omega, by push_cast; omega, by omega, ?_⟩
        rw [show base + (n : Int) + 1 = base + ((n + 1 : Nat) : Int) by push_cast; omega]
        exact h4
  have hle := hR.le
  have := key (top - base).toNat (by omega)
  rw [show base + ((top - base).toNat : Int) = top by omega] at this
  exact this h2

/-- Structure of column blocks. -/
inductive T (E : Int → Int → Prop) (R : Int → Int) (base top : Int) : Int → Int → Prop
  | edge {k j i : Int} : base ≤ k → k < top → R k ≤ j → j < R (k + 1) → E j i → R (k + 1) ≤ i → T E R base top k i
  | fill {c k i j : Int} : T E R base top c i → T E R base top c j → base ≤ k → k < top → R k ≤ j → j < R (k + 1) → R (k + 1) ≤ i → T E R base top k i

variable {E : Int → Int → Prop}

theorem T.bounds {k i : Int} (h : T E R base top k i) : base ≤ k ∧ k < top ∧ R (k + 1) ≤ i := by
  cases h with
  | edge h1 h2 _ _ _ h3 => exact ⟨h1, h2, h3⟩
  | fill _ _ h1 h2 _ _ h3 => exact ⟨h1, h2, h3⟩

theorem T.inside {hi : Int} (hE : ∀ j i, E j i → i < hi) {k i : Int} (h : T E R base top k i) : i < hi := by
  induction h with
  | edge _ _ _ _ h _ => exact hE _ _ h
  | fill _ _ _ _ _ _ _ ih _ => exact ih

/-- A row of the structure of a previous column block has an original entry before it. -/
theorem T.lower (hs : ∀ i j, E i j → E j i) {k i : Int} (h : T E R base top k i) : ∃ p, p < R (k + 1) ∧ E i p := by
  induction h with
  | edge _ _ _ h1 h2 _ => exact ⟨_, h1, hs _ _ h2⟩
  | @fill c k i j h1 h2 k1 k2 h3 h4 h5 ih1 ih2 =>
    obtain ⟨p, p1, p2⟩ := ih1
    refine ⟨p, ?_, p2⟩
    have hb := h2.bounds
    omega

/-- The tree argument: the structure of a column block is made of its own entries and of the structures of its sons. `F`
gives the first row of the structures of previous column blocks. -/
theorem T.son (hR : Rng R base top) {k : Int} (k1 : base ≤ k) (k2 : k < top) (F : Int → Int → Prop)
    (hF : ∀ c i, c < k → T E R base top c i → ∃ f j, F c f ∧ base ≤ f ∧ f < top ∧ R f ≤ j ∧ j < R (f + 1) ∧ T E R base top c j ∧ ∀ i', T E R base top c i' → j ≤ i')
    {i : Int} (h : T E R base top k i) :
    R (k + 1) ≤ i ∧ ((∃ j, R k ≤ j ∧ j < R (k + 1) ∧ E j i) ∨ ∃ c, c < k ∧ F c k ∧ T E R base top c i) := by
  have key : ∀ (n : Nat) (c j : Int), (k - c).toNat ≤ n → T E R base top c i → T E R base top c j → R k ≤ j → j < R (k + 1) → R (k + 1) ≤ i → ∃ c, c < k ∧ F c k ∧ T E R base top c i := by
    intro n
    induction n with
    | zero =>
      intro c j hn h1 h2 h3 h4 h5
      have hb := h2.bounds
      have := hR.lt_of (a := c + 1) (b := k + 1) (by omega) (by omega) (by omega)
      omega
    | succ n ih =>
      intro c j hn h1 h2 h3 h4 h5
      have hb := h2.bounds
      have hck : c < k := by
        have := hR.lt_of (a := c + 1) (b := k + 1) (by omega) (by omega) (by omega)
        omega
      obtain ⟨f, m, f1, f2, f3, f4, f5, f6, f7⟩ := hF c i hck h1
      have hmj := f7 j h2
      have hfk : f ≤ k := by
        have := hR.lt_of (a := f) (b := k + 1) (by omega) (by omega) (by omega)
        omega
      have hcf : c < f := by
        have := (f6.bounds).2.2
        have := hR.lt_of (a := c + 1) (b := f + 1) (by omega) (by omega) (by omega)
        omega
      by_cases e : f = k
      · rw [e] at f1
        exact ⟨c, hck, f1, h1⟩
      · have h6 : R (f + 1) ≤ R k := hR.mono_le (by omega) (by omega) (by omega)
        have h7 : R k < R (k + 1) := hR.step k k1 (by omega)
        exact ih f j (by omega) (.fill h1 f6 f2 f3 f4 f5 (by omega)) (.fill h2 f6 f2 f3 f4 f5 (by omega)) h3 h4 h5
  cases h with
  | edge _ _ h1 h2 h3 h4 => exact ⟨h4, .inl ⟨_, h1, h2, h3⟩⟩
  | fill h1 h2 _ _ h3 h4 h5 => exact ⟨h5, .inr (key _ _ _ (Nat.le_refl _) h1 h2 h3 h4 h5)⟩

/-! ## Fill -/

/-- Entries, diagonal blocks being full. -/
def Full (E : Int → Int → Prop) (R : Int → Int) (base top : Int) (i j : Int) : Prop :=
  E i j ∨ i ≠ j ∧ ∃ k, base ≤ k ∧ k < top ∧ (R k ≤ i ∧ i < R (k + 1)) ∧ (R k ≤ j ∧ j < R (k + 1))

theorem Fill.inside {P : Int → Prop} {E : Int → Int → Prop} (hE : ∀ i j, E i j → P i ∧ P j) {i j : Int} (h : Fill E i j) : P i ∧ P j := by
  induction h with
  | entry h => exact hE _ _ h
  | elim _ _ _ _ _ ih1 ih2 => exact ⟨ih1.2, ih2.2⟩

theorem Fill.mono {E E' : Int → Int → Prop} (hE : ∀ i j, E i j → E' i j) {i j : Int} (h : Fill E i j) : Fill E' i j := by
  induction h with
  | entry h => exact .entry (hE _ _ h)
  | elim _ _ h1 h2 h3 ih1 ih2 => exact .elim ih1 ih2 h1 h2 h3

/-- Fill below diagonal blocks belongs to the structure. -/
theorem T.of_fill (hR : Rng R base top) (hE : ∀ i j, E i j → (R base ≤ i ∧ i < R top) ∧ (R base ≤ j ∧ j < R top)) {j i : Int} (h : Fill (Full E R base top) j i) :
    ∀ k, base ≤ k → k < top → R k ≤ j → j < R (k + 1) → R (k + 1) ≤ i → T E R base top k i := by
  have hF : ∀ i j, Full E R base top i j → (R base ≤ i ∧ i < R top) ∧ (R base ≤ j ∧ j < R top) := by
    intro i j h
    rcases h with h | ⟨_, k, k1, k2, h1, h2⟩
    · exact hE i j h
    · have := hR.mono_le (a := base) (b := k) (by omega) k1 (by omega)
      have := hR.mono_le (a := k + 1) (b := top) (by omega) (by omega) (by omega)
      omega
  induction h with
  | @entry j i h =>
    intro k k1 k2 h1 h2 h3
    rcases h with h | ⟨_, k', a1, a2, h4, h5⟩
    · exact .edge k1 k2 h1 h2 h h3
    · have := hR.uniq k1 (by omega) a1 (by omega) h1 h2 h4.1 h4.2
      subst this
      omega
  | @elim p j i hj hi h4 h5 h6 ih1 ih2 =>
    intro k k1 k2 h1 h2 h3
    have hp := Fill.inside (P := fun i => R base ≤ i ∧ i < R top) hF hj
    obtain ⟨c, c1, c2, c3, c4⟩ := hR.exists_cblk hp.1.1 hp.1.2
    have hck : c ≤ k := by
      have := hR.lt_of (a := c) (b := k + 1) (by omega) (by omega) (by omega)
      omega
    by_cases e : c = k
    · subst e
      exact ih2 c c1 c2 c3 c4 h3
    · have h7 : R (c + 1) ≤ R k := hR.mono_le (by omega) (by omega) (by omega)
      exact .fill (ih2 c c1 c2 c3 c4 (by omega)) (ih1 c c1 c2 c3 c4 (by omega)) k1 k2 h1 h2 h3

/-- The structure is made of fill. -/
theorem T.fill_last {k i : Int} (h : T E R base top k i) : Fill (Full E R base top) (R (k + 1) - 1) i := by
  have last : ∀ k j i, base ≤ k → k < top → R k ≤ j → j < R (k + 1) → R (k + 1) ≤ i → Fill (Full E R base top) j i → Fill (Full E R base top) (R (k + 1) - 1) i := by
    intro k j i k1 k2 h1 h2 h3 hf
    by_cases e : j = R (k + 1) - 1
    · rw [← e]; exact hf
    · refine .elim (p := j) (.entry (.inr ⟨e, k, k1, k2, ⟨h1, h2⟩, by omega, by omega⟩)) hf (by omega) (by omega) (by omega)
  induction h with
  | edge k1 k2 h1 h2 h3 h4 => exact last _ _ _ k1 k2 h1 h2 h4 (.entry (.inl h3))
  | @fill c k i j h1 h2 k1 k2 h3 h4 h5 ih1 ih2 =>
    have hb := h2.bounds
    have hb' := h1.bounds
    exact last _ _ _ k1 k2 h3 h4 h5 (.elim ih2 ih1 (by omega) (by omega) (by omega))

end Scotch.Fax
