import Verif.Gain.Lemmas

set_option autoImplicit false
set_option linter.unusedSimpArgs false

namespace Scotch.Gain

theorem pow_pos' (n : Nat) : (0 : Int) < 2 ^ n := Int.pow_pos (by omega)
theorem pow_succ' (n : Nat) : (2 : Int) ^ (n + 1) = 2 * 2 ^ n := by rw [Int.pow_succ]; omega

/-- Number of shifts. -/
theorem shifts_spec (s : Nat) : ∀ (fuel : Nat) (i j : Int), 0 ≤ j → j < 2 ^ (s + 1 + fuel) →
    ∃ k : Nat, k ≤ fuel ∧ shifts (2 ^ (s + 1) - 1) fuel i j = (i + k, j / 2 ^ k) ∧ j / 2 ^ k < 2 ^ (s + 1) ∧
      (0 < k → 2 ^ s ≤ j / 2 ^ k) := by
  intro fuel
  induction fuel with
  | zero =>
    intro i j h0 h1
    refine ⟨0, by omega, ?_, ?_, fun h => absurd h (by omega)⟩
    · simp [shifts]
    · simpa using h1
  | succ n ih =>
    intro i j h0 h1
    simp only [shifts]
    by_cases hj : j > 2 ^ (s + 1) - 1
    · rw [if_pos hj]
      have h1' : j < 2 * 2 ^ (s + 1 + n) := by
        rw [← pow_succ']; exact h1
      obtain ⟨k, hk, he, hlt, hge⟩ := ih (i + 1) (j / 2) (by omega) (by omega)
      have hdiv : j / 2 / 2 ^ k = j / 2 ^ (k + 1) := by
        rw [Int.ediv_ediv_of_nonneg (by omega), ← pow_succ']
      rw [hdiv] at he hlt hge
      refine ⟨k + 1, by omega, ?_, hlt, ?_⟩
      · rw [he]; push_cast; congr 1; omega
      · intro _
        by_cases hk0 : 0 < k
        · exact hge hk0
        · have hk0 : k = 0 := by omega
          subst hk0
          have := pow_succ' s
          simp only [Nat.zero_add, Int.pow_one]
          have h2 : (2 : Int) ^ 1 = 2 := by decide
          omega
    · rw [if_neg hj]
      refine ⟨0, by omega, by simp, ?_, fun h => absurd h (by omega)⟩
      simp only [Int.pow_zero, Int.ediv_one]
      omega

/-- Value computed from a non-negative gain. -/
def lval (s : Nat) (w : Nat) (j : Int) : Int :=
  let r := shifts (2 ^ (s + 1) - 1) w 0 j
  r.1 * 2 ^ s + r.2

theorem mul_le_of {a b c : Int} (h : a ≤ b) (hc : 0 ≤ c) : a * c ≤ b * c := Int.mul_le_mul_of_nonneg_right h hc

theorem lval_spec {s w : Nat} {j : Int} (h0 : 0 ≤ j) (h1 : j < 2 ^ (s + 1 + w)) :
    ∃ k : Nat, k ≤ w ∧ lval s w j = k * 2 ^ s + j / 2 ^ k ∧ j / 2 ^ k < 2 ^ (s + 1) ∧ (0 < k → 2 ^ s ≤ j / 2 ^ k) := by
  obtain ⟨k, hk, he, h2, h3⟩ := shifts_spec s w 0 j h0 h1
  refine ⟨k, hk, ?_, h2, h3⟩
  unfold lval
  rw [he]
  simp

theorem div_anti {j : Int} (h0 : 0 ≤ j) {a b : Nat} (h : a ≤ b) : j / 2 ^ b ≤ j / 2 ^ a := by
  obtain ⟨c, rfl⟩ : ∃ c, b = a + c := ⟨b - a, by omega⟩
  rw [Int.pow_add, ← Int.ediv_ediv_of_nonneg (Int.le_of_lt (pow_pos' a))]
  have hx : 0 ≤ j / 2 ^ a := Int.ediv_nonneg h0 (Int.le_of_lt (pow_pos' a))
  exact Int.ediv_le_self _ hx

theorem lval_mono {s w : Nat} {i j : Int} (h0 : 0 ≤ i) (hij : i ≤ j) (h1 : j < 2 ^ (s + 1 + w)) : lval s w i ≤ lval s w j := by
  obtain ⟨a, _, ea, la, ga⟩ := lval_spec (s := s) (w := w) h0 (by omega : i < 2 ^ (s + 1 + w))
  obtain ⟨b, _, eb, lb, gb⟩ := lval_spec (s := s) (w := w) (by omega : 0 ≤ j) h1
  rw [ea, eb]
  have hp := pow_pos' s
  have hs := pow_succ' s
  by_cases hab : a = b
  · subst hab
    have := Int.ediv_le_ediv (pow_pos' a) hij
    omega
  · by_cases hlt : a < b
    · have hg := gb (by omega)
      have : ((a : Int) + 1) * 2 ^ s ≤ b * 2 ^ s := mul_le_of (by omega) (by omega)
      rw [Int.add_mul] at this
      omega
    · -- impossible: i needs more shifts than j
      exfalso
      have hg := ga (by omega)
      obtain ⟨c, rfl⟩ : ∃ c, a = c + 1 := ⟨a - 1, by omega⟩
      have hpc : (0 : Int) < 2 ^ c := pow_pos' c
      have hh : i / 2 ^ (c + 1) * 2 ^ (c + 1) ≤ i := by
        have := Int.ediv_mul_le i (b := 2 ^ (c + 1)) (by have := pow_pos' (c + 1); omega)
        exact this
      have h2 : (2 : Int) ^ s * 2 ^ (c + 1) ≤ i := Int.le_trans (mul_le_of hg (Int.le_of_lt (pow_pos' _))) hh
      have h3 : j / 2 ^ b < 2 ^ (s + 1) := lb
      have h4 : j < 2 ^ (s + 1) * 2 ^ b := (Int.ediv_lt_iff_lt_mul (pow_pos' b)).1 h3
      have h5 : (2 : Int) ^ b ≤ 2 ^ c := by
        obtain ⟨d, rfl⟩ : ∃ d, c = b + d := ⟨c - b, by omega⟩
        rw [Int.pow_add]
        have h6 : (1 : Int) ≤ 2 ^ d := by have := pow_pos' d; omega
        have := Int.mul_le_mul_of_nonneg_left h6 (Int.le_of_lt (pow_pos' b))
        omega
      have h7 : (2 : Int) ^ (s + 1) * 2 ^ b ≤ 2 ^ (s + 1) * 2 ^ c := Int.mul_le_mul_of_nonneg_left h5 (Int.le_of_lt (pow_pos' _))
      have h8 : (2 : Int) ^ (s + 1) * 2 ^ c = 2 ^ s * 2 ^ (c + 1) := by
        rw [← Int.pow_add, ← Int.pow_add]; congr 1; omega
      omega

theorem lval_nonneg {s w : Nat} {j : Int} (h0 : 0 ≤ j) (h1 : j < 2 ^ (s + 1 + w)) : 0 ≤ lval s w j := by
  obtain ⟨k, _, e, _, _⟩ := lval_spec h0 h1
  rw [e]
  have := Int.ediv_nonneg h0 (Int.le_of_lt (pow_pos' k))
  have h2 : 0 ≤ (k : Int) * 2 ^ s := Int.mul_nonneg (by omega) (Int.le_of_lt (pow_pos' s))
  omega

theorem lval_lt {s w : Nat} {j : Int} (hs : s + 2 ≤ w) (h0 : 0 ≤ j) (h1 : j < 2 ^ (w - 1)) : lval s w j < ((w : Int) - s) * 2 ^ s := by
  have hle : (2 : Int) ^ (w - 1) ≤ 2 ^ (s + 1 + w) := by
    have : s + 1 + w = (w - 1) + (s + 2) := by omega
    rw [this, Int.pow_add]
    have h6 : (1 : Int) ≤ 2 ^ (s + 2) := by have := pow_pos' (s + 2); omega
    have := Int.mul_le_mul_of_nonneg_left h6 (Int.le_of_lt (pow_pos' (w - 1)))
    omega
  obtain ⟨k, _, e, hl, hg⟩ := lval_spec (s := s) (w := w) h0 (by omega)
  rw [e]
  have hp := pow_pos' s
  have hp1 := pow_succ' s
  -- number of shifts
  have hk : (k : Int) ≤ w - s - 2 := by
    by_cases hk0 : k = 0
    · subst hk0; omega
    · have hg := hg (by omega)
      have hh : j / 2 ^ k * 2 ^ k ≤ j := Int.ediv_mul_le j (by have := pow_pos' k; omega)
      have h2 : (2 : Int) ^ s * 2 ^ k ≤ j := Int.le_trans (mul_le_of hg (Int.le_of_lt (pow_pos' _))) hh
      rw [← Int.pow_add] at h2
      apply Classical.byContradiction
      intro hc
      obtain ⟨d, hd⟩ : ∃ d, s + k = (w - 1) + d := ⟨s + k - (w - 1), by omega⟩
      rw [hd, Int.pow_add] at h2
      have h6 : (1 : Int) ≤ 2 ^ d := by have := pow_pos' d; omega
      have := Int.mul_le_mul_of_nonneg_left h6 (Int.le_of_lt (pow_pos' (w - 1)))
      omega
  have h3 : ((k : Int) + 2) * 2 ^ s ≤ (w - s) * 2 ^ s := mul_le_of (by omega) (by omega)
  rw [Int.add_mul] at h3
  omega

/-- Values smaller than `2 ^ (s + 1)` are not grouped. -/
theorem lval_small {s w : Nat} {j : Int} (hw : 0 < w) (_h0 : 0 ≤ j) (h1 : j < 2 ^ (s + 1)) : lval s w j = j := by
  unfold lval
  obtain ⟨v, rfl⟩ : ∃ v, w = v + 1 := ⟨w - 1, by omega⟩
  simp only [shifts]
  rw [if_neg (by omega)]
  simp

end Scotch.Gain
