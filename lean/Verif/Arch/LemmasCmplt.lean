import Verif.Arch.Generic
import Verif.Arch.Model
import Verif.Arch.Domains
import Mathlib.Tactic.Ring
import Mathlib.Tactic.Linarith

/-! # Complete graphs, hypercubes: laws -/

set_option autoImplicit false
set_option linter.unusedSimpArgs false

namespace Scotch.Arch

namespace Cmplt

theorem interval_single {a b a' : Int} (h : ∀ j : Int, (a ≤ j ∧ j < a + b) ↔ j = a') : a = a' ∧ b = 1 := by
  have h1 := (h a').2 rfl
  have h2 := h (a' + 1)
  have h3 := h (a' - 1)
  omega

theorem addLaws (n : Int) (hn : 1 ≤ n) :
    AddLaws (ops n) n (fun _ => 1) (Valid n) Has (fun d => d.termnbr) (fun d => d.termnbr) where
  within := by intro d k ⟨h1, h2, h3⟩ ⟨h4, h5⟩; omega
  frst := by
    simp only [ops, frst, Holds_pure, Valid, Has]
    refine ⟨⟨by omega, by omega, by omega⟩, by omega⟩
  size := by intro d _; simp [ops, size]
  wght := by intro d _; simp [ops, size]
  size_pos := by intro d h; exact h.2.1
  bipart := by
    intro d hd
    obtain ⟨h1, h2, h3⟩ := hd
    simp only [ops, bipart]
    split
    · simp only [Holds_pure]
      refine ⟨by omega, d.termmin, by omega, ?_⟩
      intro j; unfold Has; omega
    · simp only [Holds_pure, Valid, Has]
      have e : d.termnbr.tdiv 2 = d.termnbr / 2 := Int.tdiv_eq_ediv_of_nonneg (by omega)
      rw [e]
      refine ⟨?_, ?_, ?_, ?_, ?_, ?_⟩ <;> first | omega | (intro k; omega)
  num := by intro d ⟨h1, h2, h3⟩; simp only [ops, num, Holds_pure, Has]; omega
  term := by
    intro k h1 h2
    simp only [ops, term]
    rw [if_pos h2]
    simp only [Holds_pure]
    refine ⟨_, rfl, ?_, ?_, ?_⟩
    · simp only [Valid]; omega
    · intro j; simp only [Has]; omega
    · rintro ⟨a, b⟩ _ h
      have := interval_single h
      dsimp only at this
      simp [this.1, this.2]
  term_big := by
    intro k h
    simp only [ops, term]
    rw [if_neg (by omega)]
    simp

theorem inclLaw (n : Int) : InclLaw (ops n) (Valid n) Has := by
  rintro ⟨a, b⟩ ⟨a', b'⟩ ⟨h1, h2, h3⟩ ⟨h4, h5, h6⟩
  simp only [ops, incl, Holds_pure, decide_eq_true_iff, Has] at *
  constructor
  · intro h k; omega
  · intro h
    have e1 := h a' (by omega)
    have e2 := h (a' + b' - 1) (by omega)
    omega

end Cmplt

namespace Hcub

theorem has_iff {n : Nat} {d : Dom} (hd : Valid n d) (k : Int) :
    Has d k ↔ (d.bitsset : Int) ≤ k ∧ k < d.bitsset + 2 ^ d.dimncur := by
  obtain ⟨h1, ⟨q, hq⟩, h3⟩ := hd
  obtain ⟨c, b⟩ := d
  dsimp only at *
  subst hq
  have hp : 0 < 2 ^ c := Nat.two_pow_pos c
  unfold Has
  dsimp only
  rw [Nat.mul_div_cancel_left _ hp]
  constructor
  · rintro ⟨h0, h⟩
    have := (Nat.div_eq_iff hp).1 h
    have e : ((2 ^ c * q : Nat) : Int) + 2 ^ c = ((2 ^ c * q + 2 ^ c : Nat) : Int) := by push_cast; ring
    rw [e, Nat.mul_comm]
    omega
  · rintro ⟨h0, h⟩
    have e : ((2 ^ c * q : Nat) : Int) + 2 ^ c = ((2 ^ c * q + 2 ^ c : Nat) : Int) := by push_cast; ring
    rw [e] at h
    refine ⟨by omega, (Nat.div_eq_iff hp).2 ?_⟩
    rw [Nat.mul_comm q]
    omega

theorem top_le {n : Nat} {d : Dom} (hd : Valid n d) : d.bitsset + 2 ^ d.dimncur ≤ 2 ^ n := by
  obtain ⟨h1, ⟨q, hq⟩, h3⟩ := hd
  obtain ⟨r, rfl⟩ : ∃ r, n = d.dimncur + r := ⟨n - d.dimncur, by omega⟩
  rw [hq, Nat.pow_add] at *
  have hp : 0 < 2 ^ d.dimncur := Nat.two_pow_pos _
  have := Nat.lt_of_mul_lt_mul_left h3
  calc 2 ^ d.dimncur * q + 2 ^ d.dimncur = 2 ^ d.dimncur * (q + 1) := by ring
    _ ≤ _ := Nat.mul_le_mul_left _ this

theorem or_pow {b c : Nat} (h : 2 ^ (c + 1) ∣ b) : b ||| 2 ^ c = b + 2 ^ c := by
  obtain ⟨q, rfl⟩ := h
  have := Nat.shiftLeft_add_eq_or_of_lt (i := c + 1) (b := 2 ^ c) (Nat.pow_lt_pow_right (by omega) (by omega)) q
  rw [Nat.shiftLeft_eq, Nat.mul_comm] at this
  exact this.symm

theorem addLaws (n : Nat) (hn : n ≤ 30) :
    AddLaws (ops n) (2 ^ n) (fun _ => 1) (Valid n) Has (fun d => 2 ^ d.dimncur) (fun d => 2 ^ d.dimncur) where
  within := by
    intro d k hd hk
    have h1 := (has_iff hd k).1 hk
    have h2 := top_le hd
    have : ((d.bitsset + 2 ^ d.dimncur : Nat) : Int) ≤ ((2 ^ n : Nat) : Int) := by exact_mod_cast h2
    push_cast at this
    omega
  frst := by
    simp only [ops, frst, Holds_pure]
    have hv : Valid n ⟨n, 0⟩ := ⟨by simp, by simp, Nat.two_pow_pos n⟩
    refine ⟨hv, ?_⟩
    intro k h1 h2
    rw [has_iff hv]
    simpa using ⟨h1, h2⟩
  size := by intro d hd; simp only [ops, size, shl1]; rw [if_pos (by have := hd.1; omega)]; simp
  wght := by intro d hd; simp only [ops, size, shl1]; rw [if_pos (by have := hd.1; omega)]; simp
  size_pos := by
    intro d h
    have : (0 : Int) < 2 ^ d.dimncur := by positivity
    omega
  bipart := by
    intro d hd
    simp only [ops, bipart]
    split
    · rename_i h0
      simp only [Holds_pure]
      refine ⟨by rw [h0]; simp, d.bitsset, by rw [h0]; simp, ?_⟩
      intro j
      rw [has_iff hd, h0]
      simp; omega
    · rename_i h0
      obtain ⟨c, b⟩ := d
      dsimp only at h0
      obtain ⟨c, rfl⟩ : ∃ m, c = m + 1 := ⟨c - 1, by omega⟩
      have hv := hd
      obtain ⟨h1, h2, h3⟩ := hd
      dsimp only at h1 h2 h3
      simp only [shl1, Nat.add_sub_cancel]
      rw [if_pos (by omega)]
      simp only [Holds_bind, Holds_ok, Holds_pure]
      have e : ((2 : Int) ^ c).toNat = 2 ^ c := by
        have : ((2 : Int) ^ c) = ((2 ^ c : Nat) : Int) := by push_cast; rfl
        rw [this, Int.toNat_natCast]
      rw [e, or_pow h2]
      have hd2 : 2 ^ c ∣ b := Dvd.dvd.trans ⟨2, by rw [Nat.pow_succ]⟩ h2
      have ht := top_le hv
      dsimp only at ht
      rw [Nat.pow_succ] at ht
      have hp : 0 < 2 ^ c := Nat.two_pow_pos c
      have v0 : Valid n ⟨c, b⟩ := ⟨by simp; omega, hd2, h3⟩
      have v1 : Valid n ⟨c, b + 2 ^ c⟩ := ⟨by simp; omega, Nat.dvd_add hd2 (Nat.dvd_refl _), by simp; omega⟩
      refine ⟨v0, v1, ?_, ?_, ?_, ?_⟩
      · simp only [pow_succ]; ring
      · simp only [pow_succ]; ring
      · intro k
        rw [has_iff hv, has_iff v0, has_iff v1]
        dsimp only
        have hp' : (0 : Int) < 2 ^ c := by positivity
        rw [pow_succ]
        push_cast
        omega
      · intro k
        rw [has_iff v0, has_iff v1]
        dsimp only
        push_cast
        omega
  num := by
    intro d hd
    simp only [ops, num, Holds_pure]
    refine ⟨by omega, by simp⟩
  term := by
    intro k h1 h2
    simp only [ops, term, shl1]
    rw [if_pos (by omega)]
    simp only [Holds_bind, Holds_ok]
    rw [if_pos h2]
    simp only [Holds_pure]
    have hv : Valid n ⟨0, k.natAbs⟩ := by
      refine ⟨by simp, by simp, ?_⟩
      have : ((k.natAbs : Nat) : Int) < ((2 ^ n : Nat) : Int) := by
        rw [Int.natAbs_of_nonneg h1]; push_cast; exact h2
      exact_mod_cast this
    refine ⟨_, rfl, hv, ?_, ?_⟩
    · intro j; rw [has_iff hv]; simp only [Int.natAbs_of_nonneg h1, pow_zero]; omega
    · rintro ⟨c, b⟩ hv' h
      have h' : ∀ j : Int, ((b : Int) ≤ j ∧ j < b + 2 ^ c) ↔ j = k := fun j => by
        rw [← h j, has_iff hv']
      have := Cmplt.interval_single h'
      have hc : c = 0 := by
        by_contra hc
        obtain ⟨m, rfl⟩ : ∃ m, c = m + 1 := ⟨c - 1, by omega⟩
        have hp : (0 : Int) < 2 ^ m := by positivity
        have := this.2
        rw [pow_succ] at this
        omega
      subst hc
      have : b = k.natAbs := by omega
      rw [this]
  term_big := by
    intro k h
    simp only [ops, term, shl1]
    rw [if_pos (by omega)]
    simp only [Holds_bind, Holds_ok]
    rw [if_neg (by omega)]
    simp

theorem xor_shift_zero (a b c : Nat) : (a ^^^ b) >>> c = 0 ↔ a / 2 ^ c = b / 2 ^ c := by
  rw [Nat.shiftRight_xor_distrib, Nat.shiftRight_eq_div_pow, Nat.shiftRight_eq_div_pow]
  constructor
  · intro h
    have := congrArg (fun x => x ^^^ (b / 2 ^ c)) h
    simpa [Nat.xor_assoc] using this
  · intro h; rw [h]; simp

theorem inclLaw (n : Nat) : InclLaw (ops n) (Valid n) Has := by
  rintro ⟨c, b⟩ ⟨c', b'⟩ hv hv'
  simp only [ops, incl, Holds_pure, decide_eq_true_iff]
  rw [xor_shift_zero]
  constructor
  · rintro ⟨h1, h2⟩ k ⟨h3, h4⟩
    refine ⟨h3, ?_⟩
    dsimp only at *
    obtain ⟨r, rfl⟩ : ∃ r, c = c' + r := ⟨c - c', by omega⟩
    rw [Nat.pow_add, ← Nat.div_div_eq_div_mul, h4, Nat.div_div_eq_div_mul, ← Nat.pow_add]
    exact h2.symm
  · intro h
    have e1 := h b' ((has_iff hv' _).2 ⟨by simp, by simp⟩)
    have e2 := h (b' + 2 ^ c' - 1) ((has_iff hv' _).2 ⟨by
      have hp : (0 : Int) < 2 ^ c' := by positivity
      dsimp only; omega, by dsimp only; omega⟩)
    have e1' := e1.2
    simp only [Int.toNat_natCast] at e1'
    refine ⟨?_, e1'.symm⟩
    rw [has_iff hv] at e1 e2
    dsimp only at e1 e2 ⊢
    have hle : (2 : Int) ^ c' ≤ 2 ^ c := by omega
    have : (2 : Nat) ^ c' ≤ 2 ^ c := by exact_mod_cast hle
    exact (Nat.pow_le_pow_iff_right (by omega)).1 this

end Hcub
end Scotch.Arch
