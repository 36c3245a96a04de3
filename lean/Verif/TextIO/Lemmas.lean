import Verif.TextIO.Model

/-! # Text input and output: helper lemmas -/

set_option linter.unusedSimpArgs false
set_option autoImplicit false

namespace Scotch.Text

theorem isspace_iff (c : Int) : isspace c = true ↔ c = 32 ∨ (9 ≤ c ∧ c ≤ 13) := by
  unfold isspace; exact decide_eq_true_iff
theorem isdigit_iff (c : Int) : isdigit c = true ↔ 48 ≤ c ∧ c ≤ 57 := by
  unfold isdigit; exact decide_eq_true_iff

/-- All bytes are decimal digits. -/
def AllDigits (s : Stream) : Prop := ∀ c ∈ s, 48 ≤ c ∧ c ≤ 57

/-- Value of a digit string, continuing from `v`. -/
def value (v : Int) : Stream → Int
  | [] => v
  | c :: r => value (v * 10 + ((c : Int) - 48)) r

theorem value_append (v : Int) (s t : Stream) : value v (s ++ t) = value (value v s) t := by
  induction s generalizing v with
  | nil => rfl
  | cons c r ih => simp only [List.cons_append, value, ih]

theorem value_mono {v : Int} (hv : 0 ≤ v) : ∀ {s : Stream}, AllDigits s → v ≤ value v s
  | [], _ => by simp [value]
  | c :: r, h => by
    have hc := h c (by simp)
    have := value_mono (v := v * 10 + ((c : Int) - 48)) (by omega) (s := r)
      (fun d hd => h d (by simp [hd]))
    simp only [value]; omega

theorem decF_spec (f n : Nat) (h : n ≤ f) : AllDigits (decF f n) ∧ value 0 (decF f n) = n ∧ decF f n ≠ [] := by
  induction f generalizing n with
  | zero =>
    have : n = 0 := by omega
    subst this
    refine ⟨?_, by simp [decF, value], by simp [decF]⟩
    intro c hc; simp [decF] at hc; omega
  | succ f ih =>
    unfold decF
    split
    · rename_i hn
      refine ⟨?_, by simp [value]; omega, by simp⟩
      intro c hc; simp at hc; omega
    · rename_i hn
      obtain ⟨h1, h2, h3⟩ := ih (n / 10) (by omega)
      refine ⟨?_, ?_, by simp⟩
      · intro c hc
        simp only [List.mem_append, List.mem_singleton] at hc
        rcases hc with hc | hc
        · exact h1 c hc
        · omega
      · rw [value_append, h2]; simp only [value]; omega

theorem printNat_spec (n : Nat) :
    AllDigits (printNat n) ∧ value 0 (printNat n) = n ∧ printNat n ≠ [] := decF_spec n n (Nat.le_refl _)

theorem chk_ok {intMax v : Int} (h : -intMax - 1 ≤ v ∧ v ≤ intMax) : chk intMax v = .ok v := by
  unfold chk; rw [if_pos h]

theorem chk_overflow {intMax v : Int} (h : intMax < v) : chk intMax v = .error .overflow := by
  unfold chk; rw [if_neg (by omega)]

/-- A stream that does not begin with a digit. -/
def NoDigit : Stream → Prop
  | [] => True
  | c :: _ => ¬ (48 ≤ c ∧ c ≤ 57)

theorem intLoadDigits_ok {intMax : Int} :
    ∀ {s rest : Stream} {v : Int}, AllDigits s → NoDigit rest → 0 ≤ v → value v s ≤ intMax →
      intLoadDigits intMax (s ++ rest) v = .ok (value v s, rest)
  | [], rest, v, _, hr, hv, hm => by
    simp only [List.nil_append, value]
    cases rest with
    | nil => rfl
    | cons c r =>
      have hc : isdigit (c : Int) = false := by
        rw [← Bool.not_eq_true, isdigit_iff]
        simp only [NoDigit] at hr
        omega
      simp only [intLoadDigits, hc]
      have : (c : Int) ≠ -1 := by omega
      simp [ungetc, this]
  | c :: s, rest, v, hs, hr, hv, hm => by
    have hc := hs c (by simp)
    have hs' : AllDigits s := fun d hd => hs d (by simp [hd])
    have hd : isdigit (c : Int) = true := by rw [isdigit_iff]; omega
    simp only [value] at hm ⊢
    have hle := value_mono (v := v * 10 + ((c : Int) - 48)) (by omega) hs'
    simp only [List.cons_append, intLoadDigits, hd]
    rw [chk_ok (by omega)]
    have := intLoadDigits_ok (intMax := intMax) (v := v * 10 + ((c : Int) - 48)) hs' hr (by omega) hm
    simp only [bind, Except.bind]
    rw [chk_ok (by omega)]
    simpa using this

theorem intLoadDigits_overflow {intMax : Int} (hmax : 0 ≤ intMax) :
    ∀ {s rest : Stream} {v : Int}, AllDigits s → 0 ≤ v → v ≤ intMax → intMax < value v s →
      intLoadDigits intMax (s ++ rest) v = .error .overflow
  | [], rest, v, _, hv, hv', hm => by simp only [value] at hm; omega
  | c :: s, rest, v, hs, hv, hv', hm => by
    have hc := hs c (by simp)
    have hs' : AllDigits s := fun d hd => hs d (by simp [hd])
    have hd : isdigit (c : Int) = true := by rw [isdigit_iff]; omega
    simp only [value] at hm
    simp only [List.cons_append, intLoadDigits, hd]
    by_cases h1 : v * 10 ≤ intMax
    · by_cases h2 : v * 10 + ((c : Int) - 48) ≤ intMax
      · rw [chk_ok (by omega)]
        have := intLoadDigits_overflow hmax (v := v * 10 + ((c : Int) - 48)) (rest := rest) hs'
          (by omega) h2 hm
        simp only [bind, Except.bind]
        rw [chk_ok (by omega)]
        simpa using this
      · rw [chk_ok (by omega)]
        simp only [bind, Except.bind]
        rw [chk_overflow (by omega)]
        rfl
    · rw [chk_overflow (by omega)]
      rfl

/-- All bytes are white space. -/
def AllSpaces (s : Stream) : Prop := ∀ c ∈ s, isspace (c : Int) = true

theorem intLoadStart_spaces : ∀ {ws s : Stream}, AllSpaces ws →
    intLoadStart (ws ++ s) = intLoadStart s
  | [], s, _ => rfl
  | c :: ws, s, h => by
    have hc := h c (by simp)
    simp only [List.cons_append, intLoadStart, hc, if_true]
    exact intLoadStart_spaces (fun d hd => h d (by simp [hd]))

theorem intLoad_spaces {intMax : Int} {ws s : Stream} (h : AllSpaces ws) :
    intLoad intMax (ws ++ s) = intLoad intMax s := by
  unfold intLoad; rw [intLoadStart_spaces h]

/-- Reading an unsigned digit string. -/
theorem intLoad_digits {intMax : Int} {s rest : Stream} (hs : AllDigits s) (hne : s ≠ [])
    (hr : NoDigit rest) (hm : value 0 s ≤ intMax) :
    intLoad intMax (s ++ rest) = .ok (some (value 0 s), rest) := by
  cases s with
  | nil => exact absurd rfl hne
  | cons c r =>
    have hc := hs c (by simp)
    have hd : isdigit (c : Int) = true := by rw [isdigit_iff]; omega
    have hsp : isspace (c : Int) = false := by rw [← Bool.not_eq_true, isspace_iff]; omega
    simp only [value, Int.zero_mul, Int.zero_add] at hm ⊢
    unfold intLoad
    simp only [List.cons_append, intLoadStart, hsp, hd, if_true]
    simp only [Bool.false_eq_true, if_false]
    rw [if_neg (by omega), intLoadDigits_ok (fun d hd' => hs d (by simp [hd'])) hr (by omega) hm]
    rfl

theorem intLoadStart_minus (c : Nat) (t : Stream) : intLoadStart (45 :: c :: t) = .ok true c t := rfl
theorem intLoadStart_plus (c : Nat) (t : Stream) : intLoadStart (43 :: c :: t) = .ok false c t := rfl

theorem intLoad_neg {intMax : Int} {s rest : Stream} (hs : AllDigits s) (hne : s ≠ [])
    (hr : NoDigit rest) (hm : value 0 s ≤ intMax) :
    intLoad intMax (45 :: s ++ rest) = .ok (some (- value 0 s), rest) := by
  cases s with
  | nil => exact absurd rfl hne
  | cons c r =>
    have hc := hs c (by simp)
    have hpos := value_mono (v := 0) (by omega) hs
    simp only [value, Int.zero_mul, Int.zero_add] at hm hpos ⊢
    unfold intLoad
    simp only [List.cons_append, intLoadStart_minus]
    rw [if_neg (by omega), intLoadDigits_ok (fun d hd' => hs d (by simp [hd'])) hr (by omega) hm]
    simp only [bind, Except.bind]
    rw [chk_ok (by omega)]
    rfl

theorem intLoad_plus {intMax : Int} {s rest : Stream} (hs : AllDigits s) (hne : s ≠ [])
    (hr : NoDigit rest) (hm : value 0 s ≤ intMax) :
    intLoad intMax (43 :: s ++ rest) = .ok (some (value 0 s), rest) := by
  cases s with
  | nil => exact absurd rfl hne
  | cons c r =>
    have hc := hs c (by simp)
    simp only [value, Int.zero_mul, Int.zero_add] at hm ⊢
    unfold intLoad
    simp only [List.cons_append, intLoadStart_plus]
    rw [if_neg (by omega), intLoadDigits_ok (fun d hd' => hs d (by simp [hd'])) hr (by omega) hm]
    rfl

/-- Every stream splits into its longest digit prefix and the rest. -/
theorem split_digits : ∀ s : Stream, ∃ ds rest, s = ds ++ rest ∧ AllDigits ds ∧ NoDigit rest
  | [] => ⟨[], [], rfl, by simp [AllDigits], trivial⟩
  | c :: r => by
    by_cases hc : 48 ≤ c ∧ c ≤ 57
    · obtain ⟨ds, rest, h1, h2, h3⟩ := split_digits r
      refine ⟨c :: ds, rest, by rw [h1]; rfl, ?_, h3⟩
      intro d hd
      simp only [List.mem_cons] at hd
      rcases hd with rfl | hd
      · exact hc
      · exact h2 d hd
    · exact ⟨[], c :: r, rfl, by simp [AllDigits], hc⟩

end Scotch.Text
