import Verif.Rand.Model
import Verif.TextIO.Lemmas
import Verif.Sort.Lemmas
import Mathlib.Tactic.Linarith
import Mathlib.Tactic.Ring

/-! # Pseudo-random generator: helper lemmas -/

set_option autoImplicit false
set_option linter.unusedSimpArgs false

namespace Scotch.Rand
open Scotch.Text

/-! ## Bits of the state -/

/-- `x ^ (x << k)` determines `x`. -/
theorem xorShl_inj (k : Nat) (hk : 0 < k) (x y : U64) (h : x ^^^ (x <<< k) = y ^^^ (y <<< k)) :
    x = y := by
  have bits : ∀ i, i < 64 → x.getLsbD i = y.getLsbD i := by
    intro i
    induction i using Nat.strong_induction_on with
    | _ i ih =>
      intro hi
      have hb := congrArg (fun z => z.getLsbD i) h
      simp only [BitVec.getLsbD_xor, BitVec.getLsbD_shiftLeft, hi, decide_true, Bool.true_and] at hb
      by_cases hik : i < k
      · simpa [hik] using hb
      · have := ih (i - k) (by omega) (by omega)
        rw [this] at hb
        simpa using hb
  exact BitVec.eq_of_getLsbD_eq (fun i hi => bits i hi)

/-- `x ^ (x >> k)` determines `x`. -/
theorem xorShr_inj (k : Nat) (hk : 0 < k) (x y : U64) (h : x ^^^ (x >>> k) = y ^^^ (y >>> k)) :
    x = y := by
  have bits : ∀ d i, i + d = 64 → x.getLsbD i = y.getLsbD i := by
    intro d
    induction d using Nat.strong_induction_on with
    | _ d ih =>
      intro i hi
      have hb := congrArg (fun z => z.getLsbD i) h
      simp only [BitVec.getLsbD_xor, BitVec.getLsbD_ushiftRight] at hb
      by_cases hik : k + i < 64
      · rw [ih (64 - (k + i)) (by omega) (k + i) (by omega)] at hb
        simpa using hb
      · have e1 : x.getLsbD (k + i) = false := BitVec.getLsbD_of_ge _ _ (by omega)
        have e2 : y.getLsbD (k + i) = false := BitVec.getLsbD_of_ge _ _ (by omega)
        simpa [e1, e2] using hb
  exact BitVec.eq_of_getLsbD_eq (fun i hi => bits (64 - i) i (by omega))

theorem stepState_inj (s t : State) (h : stepState s = stepState t) : s = t := by
  obtain ⟨a, b⟩ := s
  obtain ⟨c, d⟩ := t
  simp only [stepState, State.mk.injEq] at h
  obtain ⟨rfl, h2⟩ := h
  have h3 : (a ^^^ (a <<< 23)) ^^^ ((a ^^^ (a <<< 23)) >>> 17)
      = (c ^^^ (c <<< 23)) ^^^ ((c ^^^ (c <<< 23)) >>> 17) := by
    apply BitVec.eq_of_getLsbD_eq
    intro i hi
    have hb := congrArg (fun z => z.getLsbD i) h2
    simp only [BitVec.getLsbD_xor] at hb ⊢
    revert hb
    generalize a.getLsbD i = p1
    generalize (a <<< 23).getLsbD i = p2
    generalize ((a ^^^ a <<< 23) >>> 17).getLsbD i = p3
    generalize c.getLsbD i = q1
    generalize (c <<< 23).getLsbD i = q2
    generalize ((c ^^^ c <<< 23) >>> 17).getLsbD i = q3
    generalize b.getLsbD i = p4
    generalize (b >>> 26).getLsbD i = p5
    cases p1 <;> cases p2 <;> cases p3 <;> cases p4 <;> cases p5 <;> cases q1 <;> cases q2 <;>
      cases q3 <;> simp
  have h4 := xorShr_inj 17 (by omega) _ _ h3
  have h5 := xorShl_inj 23 (by omega) _ _ h4
  rw [h5]

theorem stepState_zero : stepState ⟨0, 0⟩ = ⟨0, 0⟩ := by decide +kernel

theorem seed2_ne_zero (w : Nat) (r : U64) : seed2 w r ≠ ⟨0, 0⟩ := by
  intro h
  have h1 := congrArg (fun s => s.t0.getLsbD 0) h
  simp [seed2, BitVec.getLsbD_or, BitVec.getLsbD_shiftLeft, BitVec.getLsbD_xor] at h1

/-! ## Scanning -/

theorem skipSpace_spaces : ∀ {ws s : Stream}, AllSpaces ws → skipSpace (ws ++ s) = skipSpace s
  | [], _, _ => rfl
  | c :: r, s, h => by
    have hc : isspace (c : Int) = true := h c (by simp)
    have := skipSpace_spaces (ws := r) (s := s) (fun x hx => h x (by simp [hx]))
    simp only [List.cons_append, skipSpace, hc, if_true, this]

theorem skipSpace_digit {c : Nat} {r : Stream} (h : 45 ≤ c ∧ c ≤ 57) : skipSpace (c :: r) = c :: r := by
  have : isspace (c : Int) = false := by
    cases hc : isspace (c : Int) with
    | false => rfl
    | true => rw [isspace_iff] at hc; omega
  simp [skipSpace, this]

theorem scanDigits_ok : ∀ {ds rest : Stream} (v : Nat), AllDigits ds → NoDigit rest →
    ((scanDigits (ds ++ rest) v).1 : Int) = value v ds ∧ (scanDigits (ds ++ rest) v).2 = rest
  | [], rest, v, _, h => by
    cases rest with
    | nil => simp [scanDigits, value]
    | cons c r =>
      have hc : isdigit (c : Int) = false := by
        cases hc : isdigit (c : Int) with
        | false => rfl
        | true => rw [isdigit_iff] at hc; simp only [NoDigit] at h; omega
      simp [scanDigits, value, hc]
  | c :: r, rest, v, hd, h => by
    have h1 := hd c (by simp)
    have hc : isdigit (c : Int) = true := (isdigit_iff _).2 (by omega)
    obtain ⟨a, b⟩ := scanDigits_ok (ds := r) (rest := rest) (v * 10 + (c - 48))
      (fun x hx => hd x (by simp [hx])) h
    simp only [List.cons_append, scanDigits, hc, if_true, value]
    refine ⟨?_, b⟩
    rw [a]
    congr 1
    push_cast
    omega

theorem scanNum_digits {ws ds rest : Stream} (hws : AllSpaces ws) (hd : AllDigits ds) (hne : ds ≠ [])
    (hr : NoDigit rest) : scanNum (ws ++ (ds ++ rest)) = some (value 0 ds, rest) := by
  unfold scanNum
  rw [skipSpace_spaces hws]
  obtain ⟨a, b⟩ := scanDigits_ok (ds := ds) (rest := rest) 0 hd hr
  cases ds with
  | nil => exact absurd rfl hne
  | cons c r =>
    have h1 := hd c (by simp)
    have hc : isdigit (c : Int) = true := (isdigit_iff _).2 (by omega)
    rw [List.cons_append, skipSpace_digit (by omega)]
    rw [List.cons_append] at a b
    have n1 : c ≠ 45 := by omega
    have n2 : c ≠ 43 := by omega
    simp only [n1, n2, if_false, hc, if_true, Bool.false_eq_true]
    rw [a, b]; rfl

theorem scanNum_minus {ws ds rest : Stream} (hws : AllSpaces ws) (hd : AllDigits ds) (hne : ds ≠ [])
    (hr : NoDigit rest) : scanNum (ws ++ (45 :: (ds ++ rest))) = some (- value 0 ds, rest) := by
  unfold scanNum
  rw [skipSpace_spaces hws, skipSpace_digit (by omega)]
  obtain ⟨a, b⟩ := scanDigits_ok (ds := ds) (rest := rest) 0 hd hr
  cases ds with
  | nil => exact absurd rfl hne
  | cons c r =>
    have h1 := hd c (by simp)
    have hc : isdigit (c : Int) = true := (isdigit_iff _).2 (by omega)
    rw [List.cons_append] at a b ⊢
    simp only [if_true, hc]
    rw [a, b]; rfl

theorem scanNum_printNat {ws rest : Stream} (n : Nat) (hws : AllSpaces ws) (hr : NoDigit rest) :
    scanNum (ws ++ (printNat n ++ rest)) = some ((n : Int), rest) := by
  obtain ⟨a, b, c⟩ := printNat_spec n
  rw [scanNum_digits hws a c hr, b]

theorem scanNum_printInt {ws rest : Stream} (v : Int) (hws : AllSpaces ws) (hr : NoDigit rest) :
    scanNum (ws ++ (printInt v ++ rest)) = some (v, rest) := by
  unfold printInt
  obtain ⟨a, b, c⟩ := printNat_spec v.natAbs
  split
  · rw [List.cons_append, scanNum_minus hws a c hr, b]
    have : -((v.natAbs : Nat) : Int) = v := by omega
    rw [this]
  · rw [scanNum_digits hws a c hr, b]
    have : ((v.natAbs : Nat) : Int) = v := by omega
    rw [this]

theorem scanU64_print {ws rest : Stream} (x : U64) (hws : AllSpaces ws) (hr : NoDigit rest) :
    scanU64 (ws ++ (printNat x.toNat ++ rest)) = .ok (some (x, rest)) := by
  unfold scanU64
  rw [scanNum_printNat _ hws hr]
  have hx := x.isLt
  simp only [Int.natAbs_natCast]
  rw [if_pos hx]
  have : BitVec.ofInt 64 (x.toNat : Int) = x := by
    rw [BitVec.ofInt_natCast]; simp
  rw [this]

theorem scanD_print {ws rest : Stream} (v : Int) (hv : -2 ^ 31 ≤ v ∧ v < 2 ^ 31) (hws : AllSpaces ws)
    (hr : NoDigit rest) : scanD (ws ++ (printInt v ++ rest)) = .ok (some (v, rest)) := by
  unfold scanD
  rw [scanNum_printInt _ hws hr]
  simp only []
  rw [if_pos hv]

/-! ## Permutation -/

theorem val_holds (w : Nat) (c : Ctx) (n : Nat) (h : 0 < n) :
    Holds (val w c n) (fun r => r.1 < n ∧ r.2.flagval = c.flagval ∧ r.2.procval = c.procval ∧
      r.2.seedval = c.seedval ∧ r.2.stat = stepState c.stat) := by
  unfold val
  dsimp only
  rw [if_neg (by omega)]
  exact ⟨Nat.mod_lt _ h, rfl, rfl, rfl, rfl⟩

theorem intPermLoop_holds (w : Nat) : ∀ (n : Nat) (p : Int) (a : Arr Int) (c : Ctx),
    a.lo ≤ p → p + n ≤ a.hi →
    Holds (intPermLoop w n p a c) (fun r => PermOn a r.1 p (p + n)) := by
  intro n
  induction n with
  | zero => intro p a c _ _; exact PermOn.refl _ _ _
  | succ n ih =>
    intro p a c h1 h2
    simp only [intPermLoop, Holds_bind]
    refine (val_holds w c (n + 1) (by omega)).mono ?_
    rintro ⟨k, c'⟩ ⟨hk, -⟩
    dsimp only at hk ⊢
    refine (Sorting.swap_holds a (lo := p) (hi := p + (n + 1 : Nat)) (by omega) (by omega) (by omega)
      (by omega)).mono ?_
    rintro a' ⟨hp, -⟩
    refine (ih (p + 1) a' c' (by have := hp.1; omega) (by have := hp.2.1; omega)).mono ?_
    intro r hr
    exact hp.trans (hr.mono (by omega) (by omega))

end Scotch.Rand
