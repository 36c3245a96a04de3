import Verif.Context.LemmasParse

/-!
# Option values of contexts: properties (C36)
-/

set_option autoImplicit false

namespace Scotch.Ctx
open CtxSpec
variable {D : Type}

/-- Memory before any context is opened: only the default values, at address `p0`. -/
def start (p0 : Nat) (b0 : Block D) : World D := ⟨fun q => if q = p0 then some b0 else none, p0 + 1, fun _ => none⟩

/-- Table of the default values. -/
def Block.table (b : Block D) : Table D := ⟨b.vint.get, b.vdbl.get⟩

/-- **C36.** Whatever the history of openings, settings and closings of contexts, all routines return the codes of the
specification, every option that is read back has the value of the specification (an independent table per context,
initialised to the default values, in which settings replace one value only), and the shared block of default values is
never modified. -/
theorem C36_options (eqD : D → D → Bool) (p0 : Nat) (b0 : Block D) (hi : b0.vint.lo = 0) (hd : b0.vdbl.lo = 0)
    (os : List (Op D)) (rs : List Int) (s : State D)
    (hr : run eqD b0.vint.hi b0.vdbl.hi b0.table (fun _ => none) os = some (rs, s)) :
    ∃ w, execAll eqD b0.vint.hi b0.vdbl.hi p0 (start p0 b0) os = .ok (rs, w) ∧
      (∀ c t, s c = some t → ∀ k,
        getInt w c k = .ok (if 0 ≤ k ∧ k < b0.vint.hi then some (t.ints k) else none) ∧
        getDbl w c k = .ok (if 0 ≤ k ∧ k < b0.vdbl.hi then some (t.dbls k) else none)) ∧
      w.mem p0 = some b0 := by
  have h0 : BlkOk b0.vint.hi b0.vdbl.hi b0 b0.table :=
    ⟨by omega, Int.le_refl _, by omega, Int.le_refl _, fun _ _ _ => rfl, fun _ _ _ => rfl⟩
  have hInv : Inv b0.vint.hi b0.vdbl.hi p0 b0 (start p0 b0) (fun _ => none) :=
    ⟨by simp [start], by simp [start], by simp [start], fun c v t h _ => by simp [start] at h,
      fun c c' v v' h _ _ => by simp [start] at h⟩
  obtain ⟨⟨rs', w⟩, he, h1, h2⟩ := Holds_iff_exists.1 (execAll_ok eqD h0 os _ _ hInv rs s hr)
  simp only at h1 h2
  subst h1
  exact ⟨w, he, fun c t hc k => ⟨getInt_ok h2 hc k, getDbl_ok h2 hc k⟩, h2.dflt⟩

/-- A history with two contexts: they do not influence each other, and the closing of a context does not either. -/
def exHist : List (Op Int) :=
  [.init 0, .setInt 0 1 5, .init 1, .setInt 1 0 7, .setInt 0 1 6, .setInt 1 2 9, .setDbl 1 0 3, .exit 0, .init 2]

def exBlock : Block Int := ⟨Arr.ofList 0 [10, 20], Arr.ofList 0 [30]⟩

/-- The hypothesis of `C36_options` is met: returned codes of the history, and some options at the end. -/
example : ((run (fun a b => decide (a = b)) 2 1 exBlock.table (fun _ => none) exHist).map fun x => x.1)
    = some [0, 0, 0, 0, 0, 1, 0, 0, 0] := by decide +kernel

example : ((run (fun a b => decide (a = b)) 2 1 exBlock.table (fun _ => none) exHist).bind fun x =>
    (x.2 1).map fun t => [t.ints 0, t.ints 1, t.dbls 0]) = some [7, 20, 3] := by decide +kernel

example : (execAll (fun a b => decide (a = b)) 2 1 4 (start 4 exBlock) exHist).toOption.map
    (fun x => (x.1, getInt x.2 1 0, getInt x.2 2 1, getInt x.2 0 1))
    = some ([0, 0, 0, 0, 0, 1, 0, 0, 0], .ok (some 7), .ok (some 20), .error .null) := by decide +kernel

/-- **C36**, consequence: what is set is what is read, and other options keep their values. -/
theorem C36_set_get (eqD : D → D → Bool) (p0 : Nat) (b0 : Block D) (hi : b0.vint.lo = 0) (hd : b0.vdbl.lo = 0)
    (os : List (Op D)) (rs : List Int) (s : State D)
    (hr : run eqD b0.vint.hi b0.vdbl.hi b0.table (fun _ => none) os = some (rs, s))
    (c : Nat) (hc : s c ≠ none) (k v : Int) (hk : 0 ≤ k) (hk' : k < b0.vint.hi) :
    ∃ w w', execAll eqD b0.vint.hi b0.vdbl.hi p0 (start p0 b0) os = .ok (rs, w) ∧ setInt w c k v = .ok (0, w') ∧
      getInt w' c k = .ok (some v) ∧ (∀ c' k', s c' ≠ none → (c' ≠ c ∨ k' ≠ k) → getInt w' c' k' = getInt w c' k') ∧
      w'.mem p0 = some b0 := by
  have h0 : BlkOk b0.vint.hi b0.vdbl.hi b0 b0.table :=
    ⟨by omega, Int.le_refl _, by omega, Int.le_refl _, fun _ _ _ => rfl, fun _ _ _ => rfl⟩
  have hInv : Inv b0.vint.hi b0.vdbl.hi p0 b0 (start p0 b0) (fun _ => none) :=
    ⟨by simp [start], by simp [start], by simp [start], fun c v t h _ => by simp [start] at h,
      fun c c' v v' h _ _ => by simp [start] at h⟩
  obtain ⟨⟨rs', w⟩, he, h1, h2⟩ := Holds_iff_exists.1 (execAll_ok eqD h0 os _ _ hInv rs s hr)
  simp only at h1 h2
  subst h1
  cases hs : s c with
  | none => exact absurd hs hc
  | some t =>
    obtain ⟨⟨code, w'⟩, hw', hq⟩ := Holds_iff_exists.1 (setInt_ok h2 hs k v)
    simp only [hk, hk', and_self, if_true] at hq
    obtain ⟨rfl, hq⟩ := hq
    refine ⟨w, w', he, hw', ?_, ?_, hq.dflt⟩
    · rw [getInt_ok hq (put_at s c _) k]
      simp [hk, hk']
    · intro c' k' hc' hne
      cases hs' : s c' with
      | none => exact absurd hs' hc'
      | some t' =>
        rw [getInt_ok h2 hs' k']
        by_cases e : c' = c
        · subst e
          rw [getInt_ok hq (put_at s c' _) k']
          rw [hs] at hs'; cases hs'
          have : k' ≠ k := by rcases hne with h | h; exact absurd rfl h; exact h
          simp [this]
        · rw [getInt_ok hq (t := t') (by simp [State.put, e, hs']) k']

/-- **C36**, library routine: values 0 and 1 are set as such; any other value is rejected and changes nothing. -/
theorem C36_option_set_num (w : World D) (c : Nat) (optinum optival : Int) :
    optionSetNum w c optinum optival = if optival = 0 ∨ optival = 1 then setInt w c optinum optival else .ok (1, w) := by
  by_cases h : optival = 0 ∨ optival = 1
  · rw [if_pos h]; exact optionSetNum_01 w c optinum optival h
  · rw [if_neg h]; exact optionSetNum_bad w c optinum optival (fun e => h (Or.inl e)) (fun e => h (Or.inr e))

/-- What the code of `SCOTCH_contextOptionSetNum` intends (library_context.c:311–317): a context that is made
deterministic also has a fixed random seed. -/
def deterministicFixesSeed : Prop :=
  ∀ (w w' : World Int) (c : Nat), optionSetNum w c DETERMINISTIC 1 = .ok (0, w') →
    optionGetNum w' c RANDOMFIXEDSEED = .ok (some 1)

/-- It does not happen, because the `switch` is on the value of the option instead of its number. -/
theorem C36_deterministic_without_seed : ¬ deterministicFixesSeed := by
  intro h
  have hb : ∀ r : M (Int × World Int), (r.toOption.map fun x => (x.1, (optionGetNum x.2 0 RANDOMFIXEDSEED).toOption)) =
      some (0, some (some 0)) → ∃ w', r = .ok (0, w') ∧ (optionGetNum w' 0 RANDOMFIXEDSEED).toOption = some (some 0) := by
    intro r hr
    cases r with
    | error e => cases hr
    | ok x =>
      obtain ⟨a, w'⟩ := x
      simp only [Except.toOption, Option.map_some, Option.some.injEq, Prod.mk.injEq] at hr
      exact ⟨w', by rw [hr.1], hr.2⟩
  obtain ⟨w', h1, h2⟩ := hb (optionSetNum (init (start 0 ⟨Arr.ofList 0 [0, 0], Arr.ofList 0 []⟩) 0 0 2 0) 0 DETERMINISTIC 1)
    (by decide +kernel)
  have := h _ w' 0 h1
  rw [this] at h2
  simp [Except.toOption] at h2

/-- **C36**, option strings: for every null-terminated string and every history, parsing ends, never reads beyond the
terminator, and returns 0 or 1. It returns 0 only if all the characters which are neither white space nor commas are option
letters, and these options have then been set in order; when it returns 1, the letters of some prefix have been. Other
contexts and default values are not modified. -/
theorem C36_option_parse (eqD : D → D → Bool) (p0 : Nat) (b0 : Block D) (hi : b0.vint.lo = 0) (hd : b0.vdbl.lo = 0)
    (hn : b0.vint.hi = OPTIONNUMNBR) (os : List (Op D)) (rs : List Int) (s : State D)
    (hr : run eqD OPTIONNUMNBR b0.vdbl.hi b0.table (fun _ => none) os = some (rs, s))
    (c : Nat) (t : Table D) (hc : s c = some t)
    (str : Arr Int) (z : Int) (hlo : str.lo = 0) (hz0 : 0 ≤ z) (hz : z < str.hi) (h0 : str.get z = 0)
    (hnz : ∀ i, 0 ≤ i → i < z → str.get i ≠ 0) :
    ∃ w code w' q, execAll eqD OPTIONNUMNBR b0.vdbl.hi p0 (start p0 b0) os = .ok (rs, w) ∧
      optionParse w c str = .ok (code, w') ∧ 0 ≤ q ∧ q ≤ z ∧
      (code = 0 ∨ code = 1) ∧ (code = 0 → q = z ∧ ∀ ch ∈ sig (seg str.get 0 z), optionOf ch ≠ none) ∧
      (∀ k, 0 ≤ k → k < OPTIONNUMNBR →
        getInt w' c k = .ok (some (((sig (seg str.get 0 q)).foldl applyChar t).ints k))) ∧
      (∀ c' k, c' ≠ c → s c' ≠ none → getInt w' c' k = getInt w c' k) ∧ w'.mem p0 = some b0 := by
  have hb : BlkOk OPTIONNUMNBR b0.vdbl.hi b0 b0.table :=
    ⟨by omega, by omega, by omega, Int.le_refl _, fun _ _ _ => rfl, fun _ _ _ => rfl⟩
  have hInv : Inv OPTIONNUMNBR b0.vdbl.hi p0 b0 (start p0 b0) (fun _ => none) :=
    ⟨by simp [start], by simp [start], by simp [start], fun c v t h _ => by simp [start] at h,
      fun c c' v v' h _ _ => by simp [start] at h⟩
  obtain ⟨⟨rs', w⟩, he, h1, h2⟩ := Holds_iff_exists.1 (execAll_ok eqD hb os _ _ hInv rs s hr)
  simp only at h1 h2
  subst h1
  obtain ⟨⟨code, w'⟩, hw', hq⟩ := Holds_iff_exists.1 (optionParse_ok s c t hc w h2 str z (by omega) hz0 hz h0 hnz)
  have fin : ∀ q, Inv OPTIONNUMNBR b0.vdbl.hi p0 b0 w' (s.put c (some ((sig (seg str.get 0 q)).foldl applyChar t))) →
      (∀ k, 0 ≤ k → k < OPTIONNUMNBR →
        getInt w' c k = .ok (some (((sig (seg str.get 0 q)).foldl applyChar t).ints k))) ∧
      (∀ c' k, c' ≠ c → s c' ≠ none → getInt w' c' k = getInt w c' k) ∧ w'.mem p0 = some b0 := by
    intro q hI
    refine ⟨?_, ?_, hI.dflt⟩
    · intro k k1 k2
      rw [getInt_ok hI (put_at s c _) k]
      simp [k1, k2]
    · intro c' k hne hc'
      cases hs' : s c' with
      | none => exact absurd hs' hc'
      | some t' =>
        rw [getInt_ok h2 hs' k, getInt_ok hI (t := t') (by simp [State.put, hne, hs']) k]
  rcases hq with ⟨q1, q2, q3⟩ | ⟨q1, q, q2, q3, q4⟩
  · simp only at q1 q3
    exact ⟨w, code, w', z, he, hw', hz0, Int.le_refl _, Or.inl q1, fun _ => ⟨rfl, q2⟩, fin z q3⟩
  · simp only at q1 q4
    exact ⟨w, code, w', q, he, hw', q2, q3, Or.inr q1, fun e => absurd e (by omega), fin q q4⟩

/-- **C36**, option letters: a character is an option letter exactly when it is in the table of letters, and it then sets
the option of the table to the value of the table, and nothing else. -/
theorem C36_letters (ch : Int) :
    (optionOf ch ≠ none ↔ ∃ x ∈ CtxSpec.letters, ch = x.1.toNat) ∧
    (∀ x ∈ CtxSpec.letters, ch = x.1.toNat → ∀ (t : Table D) (k : Int),
      (applyChar t ch).ints k = (if k = x.2.1 then x.2.2 else t.ints k) ∧ (applyChar t ch).dbls = t.dbls) := by
  constructor
  · unfold optionOf CtxSpec.letters
    simp only [List.mem_cons, List.not_mem_nil, or_false, exists_eq_or_imp, exists_eq_left, ne_eq]
    have e1 : (('d' : Char).toNat : Int) = 100 := rfl
    have e2 : (('u' : Char).toNat : Int) = 117 := rfl
    have e3 : (('f' : Char).toNat : Int) = 102 := rfl
    have e4 : (('r' : Char).toNat : Int) = 114 := rfl
    rw [e1, e2, e3, e4]
    split
    · simp [*]
    · split
      · simp [*]
      · split
        · simp [*]
        · split <;> simp [*]
  · unfold CtxSpec.letters
    intro x hx hc t k
    simp only [List.mem_cons, List.not_mem_nil, or_false] at hx
    rcases hx with rfl | rfl | rfl | rfl <;> subst hc <;> exact ⟨rfl, rfl⟩

/-- The string `"d , r"`: deterministic, variable seed. -/
example : (optionParse (init (start 0 ⟨Arr.ofList 0 [0, 1], Arr.ofList 0 ([] : List Int)⟩) 0 0 2 0) 0
      (Arr.ofList 0 [100, 32, 44, 32, 114, 0])).toOption.map
    (fun x => (x.1, getInt x.2 0 0, getInt x.2 0 1)) = some (0, .ok (some 1), .ok (some 0)) := by decide +kernel

end Scotch.Ctx
