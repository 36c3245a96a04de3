import Verif.TextIO.Lemmas

/-!
# Text input and output of integers: property C01
-/

set_option autoImplicit false

namespace Scotch
open Text

/-- A stream that holds a number: optional white space, optional sign, at least one digit; `rest` is
what follows the longest digit string. -/
structure HasNumber (s : Stream) (neg : Bool) (ds rest : Stream) : Prop where
  digits : AllDigits ds
  nonempty : ds ≠ []
  stop : NoDigit rest
  shape : ∃ ws sg, AllSpaces ws ∧ (sg = [45] ∧ neg = true ∨ (sg = [43] ∨ sg = []) ∧ neg = false) ∧
    s = ws ++ sg ++ ds ++ rest

/-- Full statement of C01 on one integer: what is printed is read back, whatever follows it,
provided it is not a digit. It is not true of the most negative integer (see
`C01_most_negative_overflows`), hence the partial theorem below. -/
def C01_statement (intMax : Int) : Prop :=
  ∀ (v : Int) (ws rest : Stream), -intMax - 1 ≤ v → v ≤ intMax → AllSpaces ws → NoDigit rest →
    intLoad intMax (ws ++ printInt v ++ rest) = .ok (some v, rest)

/-- **C01** (partial: all integers but the most negative one). An integer written by the library,
preceded by any white space, is read back unchanged, and the reader stops exactly behind its last
digit. -/
theorem C01_save_load_partial (intMax v : Int) (ws rest : Stream)
    (h1 : -intMax ≤ v) (h2 : v ≤ intMax) (hws : AllSpaces ws) (hrest : NoDigit rest) :
    intLoad intMax (ws ++ printInt v ++ rest) = .ok (some v, rest) := by
  rw [List.append_assoc, intLoad_spaces hws]
  obtain ⟨a, b, c⟩ := printNat_spec v.natAbs
  unfold printInt
  split
  · rw [intLoad_neg a c hrest (by omega), b]
    have : -((v.natAbs : Nat) : Int) = v := by omega
    rw [this]
  · rw [intLoad_digits a c hrest (by omega), b]
    have : ((v.natAbs : Nat) : Int) = v := by omega
    rw [this]

example : intLoad 2147483647 ([32, 10] ++ printInt (-2050) ++ [9, 55]) = .ok (some (-2050), [9, 55]) := by
  decide +kernel

/-- Negation of the full statement: reading back the most negative integer performs a signed
overflow, since digits are accumulated as a positive value before the sign is applied. -/
theorem C01_most_negative_overflows (intMax : Int) (h : 9 ≤ intMax) (ws rest : Stream)
    (hws : AllSpaces ws) :
    intLoad intMax (ws ++ printInt (-intMax - 1) ++ rest) = .error .overflow := by
  rw [List.append_assoc, intLoad_spaces hws]
  obtain ⟨a, b, c⟩ := printNat_spec (-intMax - 1).natAbs
  unfold printInt
  rw [if_pos (by omega)]
  generalize hp : printNat (-intMax - 1).natAbs = p at a b c
  cases p with
  | nil => exact absurd rfl c
  | cons d r =>
    have hd := a d (by simp)
    have hr : AllDigits r := fun x hx => a x (by simp [hx])
    simp only [value, Int.zero_mul, Int.zero_add] at b
    unfold intLoad
    simp only [List.cons_append, intLoadStart_minus]
    rw [if_neg (by omega)]
    rw [intLoadDigits_overflow (by omega) hr (by omega) (by omega) (by omega)]; rfl

theorem C01_statement_false (intMax : Int) (h : 9 ≤ intMax) : ¬ C01_statement intMax := by
  intro hs
  have h1 := hs (-intMax - 1) [] [] (by omega) (by omega) (by simp [AllSpaces]) trivial
  rw [C01_most_negative_overflows intMax h [] [] (by simp [AllSpaces])] at h1
  cases h1

/-- Texts in which each integer is preceded by white space (at least one for all but the
first), as the library writes lists of integers. -/
def textOf : List (Stream × Int) → Stream
  | [] => []
  | (ws, v) :: l => ws ++ printInt v ++ textOf l

/-- Reading `k` integers one after another. -/
def loadMany (intMax : Int) : Nat → Stream → M (Option (List Int) × Stream)
  | 0, s => .ok (some [], s)
  | k + 1, s => do
    match ← intLoad intMax s with
    | (none, r) => return (none, r)
    | (some v, r) =>
      match ← loadMany intMax k r with
      | (none, r) => return (none, r)
      | (some l, r) => return (some (v :: l), r)

/-- **C01** on lists (same restriction): any list of integers written with white space
separators is read back, and the stream is left exactly behind the last one. -/
theorem C01_list_partial (intMax : Int) : ∀ (l : List (Stream × Int)) (rest : Stream),
    (∀ p ∈ l, AllSpaces p.1 ∧ -intMax ≤ p.2 ∧ p.2 ≤ intMax) →
    (∀ p ∈ l.tail, p.1 ≠ []) → NoDigit rest →
    loadMany intMax l.length (textOf l ++ rest) = .ok (some (l.map Prod.snd), rest) := by
  intro l
  induction l with
  | nil => intro rest _ _ _; rfl
  | cons p l ih =>
    intro rest h1 h2 h3
    obtain ⟨ws, v⟩ := p
    have hp := h1 (ws, v) (by simp)
    have hnd : NoDigit (textOf l ++ rest) := by
      cases l with
      | nil => exact h3
      | cons q l' =>
        obtain ⟨ws', v'⟩ := q
        have hq := h1 (ws', v') (by simp)
        have hne := h2 (ws', v') (by simp)
        cases ws' with
        | nil => exact absurd rfl hne
        | cons c w =>
          have hc := hq.1 c (by simp)
          rw [isspace_iff] at hc
          simp only [textOf, List.cons_append, NoDigit]
          omega
    simp only [textOf, List.length_cons, loadMany, List.append_assoc]
    have hload := C01_save_load_partial intMax v ws (textOf l ++ rest) hp.2.1 hp.2.2 hp.1 hnd
    rw [List.append_assoc] at hload
    rw [hload]
    have hih := ih rest (fun q hq => h1 q (by simp [hq])) (fun q hq => h2 q (by
      simp only [List.tail_cons]; exact List.mem_of_mem_tail hq)) h3
    simp only [bind, Except.bind, hih]
    rfl

/-- **C01**, rejection: a stream is rejected exactly when it does not hold a number (for numbers that
fit), and the value read from a stream that holds one is the value of its digits. -/
theorem C01_load_iff (intMax : Int) (s : Stream) :
    (∀ neg ds rest, HasNumber s neg ds rest → value 0 ds ≤ intMax →
      intLoad intMax s = .ok (some (if neg then - value 0 ds else value 0 ds), rest)) ∧
    ((¬ ∃ neg ds rest, HasNumber s neg ds rest) → ∃ r, intLoad intMax s = .ok (none, r)) := by
  constructor
  · rintro neg ds rest ⟨h1, h2, h3, ws, sg, h4, h5, rfl⟩ hm
    rw [List.append_assoc, List.append_assoc, intLoad_spaces h4]
    rcases h5 with ⟨rfl, rfl⟩ | ⟨rfl | rfl, rfl⟩
    · exact intLoad_neg h1 h2 h3 hm
    · exact intLoad_plus h1 h2 h3 hm
    · exact intLoad_digits h1 h2 h3 hm
  · induction s with
    | nil => intro _; exact ⟨_, rfl⟩
    | cons c r ih =>
      intro hno
      by_cases hsp : isspace (c : Int) = true
      · have := ih (fun ⟨neg, ds, rest, h1, h2, h3, ws, sg, h4, h5, h6⟩ => hno
          ⟨neg, ds, rest, h1, h2, h3, c :: ws, sg, by
            intro d hd
            simp only [List.mem_cons] at hd
            rcases hd with rfl | hd
            · exact hsp
            · exact h4 d hd, h5, by rw [h6]; rfl⟩)
        have e := intLoad_spaces (intMax := intMax) (ws := [c]) (s := r) (by
          intro d hd
          simp only [List.mem_singleton] at hd
          subst hd; exact hsp)
        simp only [List.singleton_append] at e
        rw [e]; exact this
      · have hsp' : isspace (c : Int) = false := by simpa using hsp
        by_cases hd : isdigit (c : Int) = true
        · obtain ⟨ds, rest, e, h1, h2⟩ := split_digits r
          exfalso
          refine hno ⟨false, c :: ds, rest, ?_, by simp, h2, [], [], by simp [AllSpaces], Or.inr ⟨Or.inr rfl, rfl⟩,
            by simp [e]⟩
          rw [isdigit_iff] at hd
          intro x hx
          simp only [List.mem_cons] at hx
          rcases hx with rfl | hx
          · omega
          · exact h1 x hx
        · have hd' : isdigit (c : Int) = false := by simpa using hd
          have hsign : ∀ (neg : Bool) (sg : Stream),
              (sg = [45] ∧ neg = true ∨ (sg = [43] ∨ sg = []) ∧ neg = false) → sg = [c] →
              (getc r).1 < 48 ∨ (getc r).1 > 57 := by
            intro neg sg h1 h2
            cases r with
            | nil => left; simp [getc]
            | cons x t =>
              simp only [getc]
              by_cases hx : 48 ≤ x ∧ x ≤ 57
              · exfalso
                obtain ⟨ds, rest, e, h3, h4⟩ := split_digits t
                refine hno ⟨neg, x :: ds, rest, ?_, by simp, h4, [], sg, by simp [AllSpaces], h1, by simp [e, h2]⟩
                intro y hy
                simp only [List.mem_cons] at hy
                rcases hy with rfl | hy
                · exact hx
                · exact h3 y hy
              · omega
          unfold intLoad
          simp only [intLoadStart, hsp', hd']
          simp only [Bool.false_eq_true, if_false]
          by_cases c1 : (c : Int) = 45
          · rw [if_pos c1]
            have := hsign true [45] (Or.inl ⟨rfl, rfl⟩) (by congr 1; omega)
            simp only [this, if_true]
            exact ⟨_, rfl⟩
          · rw [if_neg c1]
            by_cases c2 : (c : Int) = 43
            · rw [if_pos c2]
              have := hsign false [43] (Or.inr ⟨Or.inl rfl, rfl⟩) (by congr 1; omega)
              simp only [this, if_true]
              exact ⟨_, rfl⟩
            · rw [if_neg c2]
              exact ⟨_, rfl⟩

example : HasNumber [32, 43, 49, 50, 65] false [49, 50] [65] := by
  refine ⟨by unfold AllDigits; decide, by decide, by unfold NoDigit; decide, [32], [43],
    by unfold AllSpaces; decide, by decide, rfl⟩
example : (intLoad 100 [32, 45, 65, 49]).map Prod.fst = .ok none := by decide +kernel

end Scotch
