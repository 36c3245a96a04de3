import Verif.Arch.Model
import Verif.Arch.Domains
import Verif.Arch.Spec
import Verif.Arch.LemmasDist
import Mathlib.Tactic.Ring

/-! # Variable-sized architectures -/

set_option autoImplicit false
set_option linter.unusedSimpArgs false

namespace Scotch.Arch.Var

theorem level_spec (f t l : Nat) (hf : t ≤ f) (ht : 1 ≤ t) :
    l ≤ level f t l ∧ 2 ^ (level f t l - l) ≤ t ∧ t < 2 ^ (level f t l - l + 1) := by
  induction f generalizing t l with
  | zero => omega
  | succ f ih =>
    unfold level
    split
    · rename_i h1
      rw [Nat.shiftRight_eq_div_pow, Nat.pow_one]
      obtain ⟨a, b, c⟩ := ih (t / 2) (l + 1) (by omega) (by omega)
      refine ⟨by omega, ?_, ?_⟩
      · rw [show level f (t / 2) (l + 1) - l = (level f (t / 2) (l + 1) - (l + 1)) + 1 by omega, Nat.pow_succ]
        omega
      · rw [show level f (t / 2) (l + 1) - l + 1 = (level f (t / 2) (l + 1) - (l + 1) + 1) + 1 by omega,
          Nat.pow_succ 2 (level f (t / 2) (l + 1) - (l + 1) + 1)]
        omega
    · have : t = 1 := by omega
      subst this
      simp

theorem pow_between {L l k : Nat} (h1 : 2 ^ l ≤ k) (h2 : k < 2 ^ (l + 1)) (h3 : 2 ^ L ≤ k) (h4 : k < 2 ^ (L + 1)) :
    l = L := by
  have a : l < L + 1 := (Nat.pow_lt_pow_iff_right (by omega : 1 < 2)).1 (by omega)
  have b : L < l + 1 := (Nat.pow_lt_pow_iff_right (by omega : 1 < 2)).1 (by omega)
  omega

theorem term_spec (L k : Nat) (h1 : 2 ^ L ≤ k) (h2 : k < 2 ^ (L + 1)) :
    term k = .ok (some ⟨L, k⟩) := by
  have hp : 0 < 2 ^ L := Nat.pos_of_ne_zero (by positivity)
  unfold term
  rw [if_neg (by omega)]
  obtain ⟨a, b, c⟩ := level_spec k k 0 (Nat.le_refl _) (by omega)
  rw [Nat.sub_zero] at b c
  rw [pow_between b c h1 h2]
  rfl

theorem frst_spec (L k : Nat) (h1 : 2 ^ L ≤ k) (h2 : k < 2 ^ (L + 1)) : Holds frst (fun d => Valid d ∧ Has L d k) := by
  simp only [frst, Holds_pure, Valid, Has]
  refine ⟨by simp, ?_⟩
  rw [Nat.sub_zero]
  have hp : 0 < 2 ^ L := Nat.pos_of_ne_zero (by positivity)
  rw [Nat.pow_succ] at h2
  rw [Nat.div_eq_iff hp]
  omega

theorem bipart_spec (numMax : Nat) (d : Dom) (hv : Valid d) (h : 2 * d.termnum + 1 ≤ numMax) :
    Holds (bipart numMax d) (fun r => ∃ d0 d1, r = some (d0, d1) ∧ Valid d0 ∧ Valid d1 ∧
      d0.termlvl = d.termlvl + 1 ∧ d1.termlvl = d.termlvl + 1 ∧
      ∀ L, d.termlvl < L → (∀ k, Has L d k ↔ Has L d0 k ∨ Has L d1 k) ∧ ∀ k, ¬ (Has L d0 k ∧ Has L d1 k)) := by
  unfold bipart
  obtain ⟨v1, v2⟩ := hv
  have e : d.termnum <<< 1 = 2 * d.termnum := by rw [Nat.shiftLeft_eq]; omega
  have p1 := Nat.pow_succ 2 d.termlvl
  have p2 := Nat.pow_succ 2 (d.termlvl + 1)
  rw [e, if_neg (by omega), if_neg (by omega)]
  simp only [Holds_pure]
  refine ⟨_, _, rfl, ⟨by dsimp only; omega, by dsimp only; omega⟩, ⟨by dsimp only; omega, by dsimp only; omega⟩,
    rfl, rfl, ?_⟩
  intro L hL
  simp only [Has]
  have key : ∀ k, k / 2 ^ (L - d.termlvl) = k / 2 ^ (L - (d.termlvl + 1)) / 2 := by
    intro k
    rw [Nat.div_div_eq_div_mul, ← Nat.pow_succ]
    congr 2
    omega
  constructor
  · intro k
    rw [key]
    generalize k / 2 ^ (L - (d.termlvl + 1)) = m
    omega
  · intro k
    generalize k / 2 ^ (L - (d.termlvl + 1)) = m
    omega

theorem bipart_ub (numMax : Nat) (d : Dom) : bipart numMax d = .error .overflow ↔ numMax < 2 * d.termnum + 1 := by
  unfold bipart
  have e : d.termnum <<< 1 = 2 * d.termnum := by rw [Nat.shiftLeft_eq]; omega
  rw [e]
  constructor
  · intro h
    by_contra hc
    rw [if_neg (by omega), if_neg (by omega)] at h
    cases h
  · intro h
    by_cases h1 : 2 * d.termnum > numMax
    · rw [if_pos h1]
    · rw [if_neg h1, if_pos (by omega)]

theorem incl_spec (d0 d1 : Dom) (h0 : Valid d0) (h1 : Valid d1) :
    Holds (incl d0 d1) (fun r => r = true ↔ ∀ L, d0.termlvl ≤ L → d1.termlvl ≤ L → ∀ k, Has L d1 k → Has L d0 k) := by
  simp only [incl, Holds_pure, decide_eq_true_iff, Has, Nat.shiftRight_eq_div_pow]
  constructor
  · rintro ⟨hl, he⟩ L l0 l1 k hk
    have : k / 2 ^ (L - d0.termlvl) = k / 2 ^ (L - d1.termlvl) / 2 ^ (d1.termlvl - d0.termlvl) := by
      rw [Nat.div_div_eq_div_mul, ← Nat.pow_add]
      congr 2
      omega
    rw [this, hk, he]
  · intro h
    have hl : d0.termlvl ≤ d1.termlvl := by
      by_contra hc
      have hp : 2 ≤ 2 ^ (d0.termlvl - d1.termlvl) := by
        rw [show d0.termlvl - d1.termlvl = (d0.termlvl - d1.termlvl - 1) + 1 by omega, Nat.pow_succ]
        have : 0 < 2 ^ (d0.termlvl - d1.termlvl - 1) := Nat.pos_of_ne_zero (by positivity)
        omega
      have q := h d0.termlvl (Nat.le_refl _) (by omega)
      rw [Nat.sub_self] at q
      simp only [Nat.pow_zero, Nat.div_one] at q
      have q0 := q (d1.termnum * 2 ^ (d0.termlvl - d1.termlvl)) (Nat.mul_div_cancel _ (by omega))
      have q1 := q (d1.termnum * 2 ^ (d0.termlvl - d1.termlvl) + 1) (by
        rw [Nat.div_eq_iff (by omega)]
        constructor
        · omega
        · generalize 2 ^ (d0.termlvl - d1.termlvl) = p at hp ⊢
          generalize d1.termnum * p = x
          omega)
      omega
    refine ⟨hl, ?_⟩
    have := h d1.termlvl hl (Nat.le_refl _) d1.termnum (by simp)
    exact this

theorem ones_spec (f n d : Nat) (hf : n ≤ f) (L : Nat) (hn : n < 2 ^ L) :
    ones f n d = d + ((List.range L).filter fun i => n.testBit i).length := by
  induction f generalizing n d L with
  | zero =>
    have : n = 0 := by omega
    subst this
    simp [ones]
  | succ f ih =>
    unfold ones
    split
    · rename_i h0
      cases L with
      | zero => simp at hn; omega
      | succ L =>
        rw [Nat.shiftRight_eq_div_pow, Nat.pow_one, ih (n / 2) _ (by omega) L (by rw [Nat.pow_succ] at hn; omega)]
        rw [List.range_succ_eq_map, List.filter_cons]
        have e1 : n &&& 1 = if n.testBit 0 = true then 1 else 0 := by
          rw [Nat.and_one_is_mod, Nat.testBit_zero]
          by_cases hm : n % 2 = 1
          · simp [hm]
          · simp [hm]; omega
        have e2 : ((List.map Nat.succ (List.range L)).filter fun i => n.testBit i).length
            = ((List.range L).filter fun i => (n / 2).testBit i).length := by
          rw [List.filter_map, List.length_map]
          congr 2
          funext i
          simp [Function.comp, Nat.testBit_succ]
        rw [e1]
        split
        · simp only [List.length_cons, e2]; omega
        · rw [e2]; omega
    · rename_i h0
      have : n = 0 := by omega
      subst this
      simp

theorem distH_spec (L : Nat) (d0 d1 : Dom) (h0 : Valid d0) (h1 : Valid d1) (e0 : d0.termlvl = L) (e1 : d1.termlvl = L) :
    distH d0 d1 = .ok (ArchSpec.hamming (L + 1) d0.termnum d1.termnum) := by
  unfold distH
  rw [e0, e1]
  simp only [gt_iff_lt, Nat.lt_irrefl, if_false, Nat.sub_self, Nat.shiftRight_zero, Nat.zero_shiftRight]
  obtain ⟨-, a⟩ := h0
  obtain ⟨-, b⟩ := h1
  rw [e0] at a
  rw [e1] at b
  show Except.ok _ = _
  rw [ones_spec _ _ 0 (Nat.le_refl _) (L + 1) (Nat.xor_lt_two_pow a b), Nat.zero_add]
  unfold ArchSpec.hamming
  congr 3
  apply List.filter_congr
  intro i _
  simp [Nat.testBit_xor]

end Scotch.Arch.Var
