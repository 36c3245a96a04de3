/-!
# Execution model

Outcome monad, C arrays, loops, and the rules used to reason about them.
Nothing in this file is specific to a routine of Scotch: it fixes the meaning of
"reading an array", "a `for` loop", and "the call ends normally and satisfies `Q`".
-/

namespace Scotch

/-- Undefined behaviour of the C program (never confused with an error code
returned by a routine), or exhaustion of the fuel given to a `while` loop. -/
inductive Fault where
  /-- access outside of an allocated array -/
  | oob
  /-- signed integer overflow -/
  | overflow
  /-- integer division or remainder by zero -/
  | divZero
  /-- shift by a negative amount or by at least the width of the type -/
  | shift
  /-- fuel exhausted: the loop did not stop within the bound given in the model -/
  | fuel
  /-- use of a null pointer -/
  | null
  deriving DecidableEq, Repr

/-- Computations that may fault. -/
abbrev M (α : Type) := Except Fault α

instance instDecEqM {α : Type} [DecidableEq α] : DecidableEq (M α) := fun x y =>
  match x, y with
  | .ok a, .ok b => if h : a = b then .isTrue (by rw [h]) else .isFalse (fun e => h (by cases e; rfl))
  | .error a, .error b => if h : a = b then .isTrue (by rw [h]) else .isFalse (fun e => h (by cases e; rfl))
  | .ok _, .error _ => .isFalse (fun e => by cases e)
  | .error _, .ok _ => .isFalse (fun e => by cases e)

/-- `Holds x Q`: the computation `x` ends without fault and its result satisfies `Q`. -/
def Holds {α : Type} (x : M α) (Q : α → Prop) : Prop :=
  match x with
  | .ok a => Q a
  | .error _ => False

section rules
variable {α β σ ρ : Type}

@[simp] theorem Holds_ok (a : α) (Q : α → Prop) : Holds (.ok a : M α) Q ↔ Q a := Iff.rfl
@[simp] theorem Holds_pure (a : α) (Q : α → Prop) : Holds (pure a : M α) Q ↔ Q a := Iff.rfl
@[simp] theorem Holds_error (e : Fault) (Q : α → Prop) :
    Holds (.error e : M α) Q ↔ False := Iff.rfl
@[simp] theorem Holds_throw (e : Fault) (Q : α → Prop) :
    Holds (throw e : M α) Q ↔ False := Iff.rfl

@[simp] theorem Holds_bind (x : M α) (f : α → M β) (Q : β → Prop) :
    Holds (x >>= f) Q ↔ Holds x (fun a => Holds (f a) Q) := by
  cases x <;> exact Iff.rfl

@[simp] theorem Holds_map (x : M α) (f : α → β) (Q : β → Prop) :
    Holds (f <$> x) Q ↔ Holds x (fun a => Q (f a)) := by
  cases x <;> exact Iff.rfl

theorem Holds_ite (c : Prop) [Decidable c] (x y : M α) (Q : α → Prop) :
    Holds (if c then x else y) Q ↔ (c → Holds x Q) ∧ (¬ c → Holds y Q) := by
  by_cases h : c <;> simp [h]

theorem Holds.mono {x : M α} {Q R : α → Prop} (h : Holds x Q) (hqr : ∀ a, Q a → R a) :
    Holds x R := by
  cases x with
  | ok a => exact hqr a h
  | error e => exact h

theorem Holds.and {x : M α} {Q R : α → Prop} (h : Holds x Q) (h' : Holds x R) :
    Holds x (fun a => Q a ∧ R a) := by
  cases x with
  | ok a => exact ⟨h, h'⟩
  | error e => exact h

theorem Holds_iff_exists {x : M α} {Q : α → Prop} :
    Holds x Q ↔ ∃ a, x = .ok a ∧ Q a := by
  cases x with
  | ok a => exact ⟨fun h => ⟨a, rfl, h⟩, fun ⟨b, hb, h⟩ => by cases hb; exact h⟩
  | error e => exact ⟨fun h => h.elim, fun ⟨b, hb, _⟩ => by cases hb⟩

theorem Holds.of_eq {x : M α} {a : α} {Q : α → Prop} (h : x = .ok a) (hq : Q a) : Holds x Q := by
  subst h; exact hq

theorem Holds.elim {x : M α} {a : α} {Q : α → Prop} (h : Holds x Q) (he : x = .ok a) : Q a := by
  subst he; exact h

end rules

/-! ## Arrays -/

/-- A C array accessed through a based pointer: valid indices are `[lo, hi)`. -/
structure Arr (α : Type) where
  lo : Int
  hi : Int
  get : Int → α

namespace Arr
variable {α : Type}

/-- The index is inside the allocated array. -/
def In (a : Arr α) (i : Int) : Prop := a.lo ≤ i ∧ i < a.hi

instance (a : Arr α) (i : Int) : Decidable (a.In i) := inferInstanceAs (Decidable (_ ∧ _))

/-- Array content with one cell replaced. -/
def set (a : Arr α) (i : Int) (v : α) : Arr α :=
  { a with get := fun j => if j = i then v else a.get j }

/-- Read access `a[i]`. -/
def rd (a : Arr α) (i : Int) : M α := if a.In i then .ok (a.get i) else .error .oob

/-- Write access `a[i] = v`. -/
def wr (a : Arr α) (i : Int) (v : α) : M (Arr α) :=
  if a.In i then .ok (a.set i v) else .error .oob

@[simp] theorem set_lo (a : Arr α) (i v) : (a.set i v).lo = a.lo := rfl
@[simp] theorem set_hi (a : Arr α) (i v) : (a.set i v).hi = a.hi := rfl
theorem set_get (a : Arr α) (i v j) : (a.set i v).get j = if j = i then v else a.get j := rfl
@[simp] theorem set_get_same (a : Arr α) (i v) : (a.set i v).get i = v := by simp [set]
theorem set_get_ne (a : Arr α) {i j : Int} (v) (h : j ≠ i) : (a.set i v).get j = a.get j := by
  simp [set, h]

theorem In_def (a : Arr α) (i : Int) : a.In i ↔ a.lo ≤ i ∧ i < a.hi := Iff.rfl

@[simp] theorem _root_.Scotch.Holds_rd (a : Arr α) (i : Int) (Q : α → Prop) :
    Holds (a.rd i) Q ↔ (a.lo ≤ i ∧ i < a.hi) ∧ Q (a.get i) := by
  unfold rd
  by_cases h : a.In i
  · simp only [h, if_true, Holds_ok]
    exact ⟨fun q => ⟨h, q⟩, fun q => q.2⟩
  · simp only [h, if_false, Holds_error]
    exact ⟨fun q => q.elim, fun q => h q.1⟩

@[simp] theorem _root_.Scotch.Holds_wr (a : Arr α) (i : Int) (v : α) (Q : Arr α → Prop) :
    Holds (a.wr i v) Q ↔ (a.lo ≤ i ∧ i < a.hi) ∧ Q (a.set i v) := by
  unfold wr
  by_cases h : a.In i
  · simp only [h, if_true, Holds_ok]
    exact ⟨fun q => ⟨h, q⟩, fun q => q.2⟩
  · simp only [h, if_false, Holds_error]
    exact ⟨fun q => q.elim, fun q => h q.1⟩

theorem rd_ok (a : Arr α) {i : Int} (h1 : a.lo ≤ i) (h2 : i < a.hi) : a.rd i = .ok (a.get i) := by
  have h : a.In i := ⟨h1, h2⟩
  simp [rd, h]

theorem wr_ok (a : Arr α) {i : Int} (v : α) (h1 : a.lo ≤ i) (h2 : i < a.hi) :
    a.wr i v = .ok (a.set i v) := by
  have h : a.In i := ⟨h1, h2⟩
  simp [wr, h]

/-- Array of the given bounds whose cells all hold `v` (e.g. after `memSet`). -/
def const (lo hi : Int) (v : α) : Arr α := ⟨lo, hi, fun _ => v⟩

/-- Array holding a list of values from index `lo` on (used in examples). -/
def ofList [Inhabited α] (lo : Int) (l : List α) : Arr α :=
  ⟨lo, lo + l.length, fun i => if i < lo then default else l.getD (i - lo).toNat default⟩

/-- Content of the array, in index order. -/
def toList (a : Arr α) : List α :=
  (List.range (a.hi - a.lo).toNat).map (fun (k : Nat) => a.get (a.lo + (k : Int)))

@[simp] theorem length_toList (a : Arr α) : a.toList.length = (a.hi - a.lo).toNat := by
  simp [toList]

end Arr

/-! ## Loops -/

section loops
variable {σ ρ : Type}

/-- `n` iterations of a counted loop, starting with counter value `i`. -/
def forN (body : Int → σ → M σ) : Nat → Int → σ → M σ
  | 0, _, s => .ok s
  | n + 1, i, s => do
    let s ← body i s
    forN body n (i + 1) s

/-- `for (i = lo; i < hi; i ++) body`, without early exit. -/
def forUp (lo hi : Int) (s : σ) (body : Int → σ → M σ) : M σ :=
  forN body (hi - lo).toNat lo s

theorem Holds_forN {body : Int → σ → M σ} (I : Int → σ → Prop) :
    ∀ (n : Nat) (i : Int) (s : σ), I i s →
      (∀ j s, i ≤ j → j < i + n → I j s → Holds (body j s) (I (j + 1))) →
      Holds (forN body n i s) (I (i + n)) := by
  intro n
  induction n with
  | zero => intro i s h0 _; simpa [forN] using h0
  | succ n ih =>
    intro i s h0 hstep
    simp only [forN, Holds_bind]
    refine (hstep i s (by omega) (by omega) h0).mono ?_
    intro s' hs'
    have := ih (i + 1) s' hs' (fun j s hj1 hj2 hI => hstep j s (by omega) (by omega) hI)
    have e : i + 1 + (n : Int) = i + ((n + 1 : Nat) : Int) := by omega
    rw [e] at this
    exact this

/-- Invariant rule for counted loops. -/
theorem Holds_forUp {lo hi : Int} {s : σ} {body : Int → σ → M σ} {Q : σ → Prop}
    (I : Int → σ → Prop) (hle : lo ≤ hi) (h0 : I lo s)
    (hstep : ∀ i s, lo ≤ i → i < hi → I i s → Holds (body i s) (I (i + 1)))
    (hQ : ∀ s, I hi s → Q s) : Holds (forUp lo hi s body) Q := by
  unfold forUp
  have := Holds_forN (body := body) I (hi - lo).toNat lo s h0
    (fun j s h1 h2 hI => hstep j s h1 (by omega) hI)
  have e : lo + ((hi - lo).toNat : Int) = hi := by omega
  rw [e] at this
  exact this.mono hQ

/-- Invariant rule for counted loops whose range may be reversed (then the body is not run). -/
theorem Holds_forUp' {lo hi : Int} {s : σ} {body : Int → σ → M σ} {Q : σ → Prop}
    (I : Int → σ → Prop) (h0 : I lo s)
    (hstep : ∀ i s, lo ≤ i → i < hi → I i s → Holds (body i s) (I (i + 1)))
    (hQ : ∀ s, I (max lo hi) s → Q s) : Holds (forUp lo hi s body) Q := by
  by_cases hle : lo ≤ hi
  · refine Holds_forUp I hle h0 hstep ?_
    intro s hs; exact hQ s (by rwa [Int.max_eq_right hle])
  · unfold forUp
    have e : (hi - lo).toNat = 0 := by omega
    rw [e]
    simp only [forN, Holds_ok]
    exact hQ s (by rwa [Int.max_eq_left (by omega)])

theorem forUp_empty {lo hi : Int} (h : hi ≤ lo) (s : σ) (body : Int → σ → M σ) :
    forUp lo hi s body = .ok s := by
  unfold forUp
  have e : (hi - lo).toNat = 0 := by omega
  rw [e]; rfl

theorem forUp_step {lo hi : Int} (h : lo < hi) (s : σ) (body : Int → σ → M σ) :
    forUp lo hi s body = (body lo s >>= fun s => forUp (lo + 1) hi s body) := by
  unfold forUp
  have e : (hi - lo).toNat = (hi - (lo + 1)).toNat + 1 := by omega
  rw [e]; rfl

/-- Result of one step of a loop with early exit. -/
inductive Loop (σ ρ : Type) where
  /-- go on with the next iteration -/
  | next (s : σ)
  /-- leave the loop (`break`, `return`, or loop condition false) -/
  | brk (r : ρ)

/-- `n` iterations of a counted loop with early exit. -/
def forNB (body : Int → σ → M (Loop σ ρ)) : Nat → Int → σ → M (Loop σ ρ)
  | 0, _, s => .ok (.next s)
  | n + 1, i, s => do
    match ← body i s with
    | .next s => forNB body n (i + 1) s
    | .brk r => .ok (.brk r)

/-- `for (i = lo; i < hi; i ++) body`, where the body may leave the loop with a value. -/
def forUpB (lo hi : Int) (s : σ) (body : Int → σ → M (Loop σ ρ)) : M (Loop σ ρ) :=
  forNB body (hi - lo).toNat lo s

/-- Postcondition of a loop step: invariant if it goes on, `B` if it leaves. -/
def Loop.Sat (I : σ → Prop) (B : ρ → Prop) : Loop σ ρ → Prop
  | .next s => I s
  | .brk r => B r

@[simp] theorem Loop.Sat_next (I : σ → Prop) (B : ρ → Prop) (s : σ) :
    Loop.Sat I B (.next s) ↔ I s := Iff.rfl
@[simp] theorem Loop.Sat_brk (I : σ → Prop) (B : ρ → Prop) (r : ρ) :
    Loop.Sat I B (.brk r) ↔ B r := Iff.rfl

theorem Loop.Sat.mono {I I' : σ → Prop} {B B' : ρ → Prop} {l : Loop σ ρ} (h : Loop.Sat I B l)
    (hI : ∀ s, I s → I' s) (hB : ∀ r, B r → B' r) : Loop.Sat I' B' l := by
  cases l with
  | next s => exact hI s h
  | brk r => exact hB r h

theorem Holds_forNB {body : Int → σ → M (Loop σ ρ)} (I : Int → σ → Prop) (B : ρ → Prop) :
    ∀ (n : Nat) (i : Int) (s : σ), I i s →
      (∀ j s, i ≤ j → j < i + n → I j s → Holds (body j s) (Loop.Sat (I (j + 1)) B)) →
      Holds (forNB body n i s) (Loop.Sat (I (i + n)) B) := by
  intro n
  induction n with
  | zero => intro i s h0 _; simpa [forNB] using h0
  | succ n ih =>
    intro i s h0 hstep
    simp only [forNB, Holds_bind]
    refine (hstep i s (by omega) (by omega) h0).mono ?_
    intro l hl
    cases l with
    | brk r => exact hl
    | next s' =>
      have := ih (i + 1) s' hl (fun j s hj1 hj2 hI => hstep j s (by omega) (by omega) hI)
      have e : i + 1 + (n : Int) = i + ((n + 1 : Nat) : Int) := by omega
      rw [e] at this
      exact this

/-- Invariant rule for counted loops with early exit. -/
theorem Holds_forUpB {lo hi : Int} {s : σ} {body : Int → σ → M (Loop σ ρ)}
    {Q : Loop σ ρ → Prop} (I : Int → σ → Prop) (B : ρ → Prop) (hle : lo ≤ hi) (h0 : I lo s)
    (hstep : ∀ i s, lo ≤ i → i < hi → I i s → Holds (body i s) (Loop.Sat (I (i + 1)) B))
    (hQ : ∀ s, I hi s → Q (.next s)) (hB : ∀ r, B r → Q (.brk r)) :
    Holds (forUpB lo hi s body) Q := by
  unfold forUpB
  have := Holds_forNB (body := body) I B (hi - lo).toNat lo s h0
    (fun j s h1 h2 hI => hstep j s h1 (by omega) hI)
  have e : lo + ((hi - lo).toNat : Int) = hi := by omega
  rw [e] at this
  refine this.mono ?_
  intro l hl
  cases l with
  | next s => exact hQ s hl
  | brk r => exact hB r hl

theorem forUpB_empty {lo hi : Int} (h : hi ≤ lo) (s : σ) (body : Int → σ → M (Loop σ ρ)) :
    forUpB lo hi s body = .ok (.next s) := by
  unfold forUpB
  have e : (hi - lo).toNat = 0 := by omega
  rw [e]; rfl

theorem Holds_forUpB' {lo hi : Int} {s : σ} {body : Int → σ → M (Loop σ ρ)}
    {Q : Loop σ ρ → Prop} (I : Int → σ → Prop) (B : ρ → Prop) (h0 : I lo s)
    (hstep : ∀ i s, lo ≤ i → i < hi → I i s → Holds (body i s) (Loop.Sat (I (i + 1)) B))
    (hQ : ∀ s, I (max lo hi) s → Q (.next s)) (hB : ∀ r, B r → Q (.brk r)) :
    Holds (forUpB lo hi s body) Q := by
  by_cases hle : lo ≤ hi
  · refine Holds_forUpB I B hle h0 hstep ?_ hB
    intro s hs; exact hQ s (by rwa [Int.max_eq_right hle])
  · rw [forUpB_empty (by omega)]
    exact hQ s (by rwa [Int.max_eq_left (by omega)])

/-- General loop: iterate `step` until it leaves the loop; `fuel` bounds the number of steps. -/
def loopM (step : σ → M (Loop σ ρ)) : Nat → σ → M ρ
  | 0, _ => .error .fuel
  | n + 1, s => do
    match ← step s with
    | .next s => loopM step n s
    | .brk r => .ok r

/-- Invariant and variant rule for general loops. -/
theorem Holds_loopM {step : σ → M (Loop σ ρ)} {Q : ρ → Prop} (I : σ → Prop) (μ : σ → Nat)
    (hstep : ∀ s, I s → Holds (step s) (Loop.Sat (fun s' => I s' ∧ μ s' < μ s) Q)) :
    ∀ (fuel : Nat) (s : σ), I s → μ s < fuel → Holds (loopM step fuel s) Q := by
  intro fuel
  induction fuel with
  | zero => intro s _ h; omega
  | succ n ih =>
    intro s hI hμ
    simp only [loopM, Holds_bind]
    refine (hstep s hI).mono ?_
    intro l hl
    cases l with
    | brk r => exact hl
    | next s' => exact ih s' hl.1 (by have := hl.2; omega)

/-- Partial correctness rule: if the loop ends without fault, its result satisfies `Q`. -/
theorem loopM_partial {step : σ → M (Loop σ ρ)} {Q : ρ → Prop} (I : σ → Prop)
    (hstep : ∀ s l, I s → step s = .ok l → Loop.Sat I Q l) :
    ∀ (fuel : Nat) (s : σ) (r : ρ), I s → loopM step fuel s = .ok r → Q r := by
  intro fuel
  induction fuel with
  | zero => intro s r _ h; simp [loopM] at h
  | succ n ih =>
    intro s r hI h
    simp only [loopM] at h
    cases hs : step s with
    | error e => rw [hs] at h; simp [bind, Except.bind] at h
    | ok l =>
      have hl := hstep s l hI hs
      rw [hs] at h
      cases l with
      | next s' => exact ih s' r hl h
      | brk r' =>
        simp only [bind, Except.bind, Except.ok.injEq] at h
        subst h; exact hl

end loops

/-- Unfold one monadic layer of a goal about `Holds`. -/
macro "msimp" : tactic =>
  `(tactic| simp only [Holds_bind, Holds_rd, Holds_wr, Holds_pure, Holds_ok, Holds_error,
      Holds_throw, Holds_map, pure_bind, Loop.Sat_next, Loop.Sat_brk, Arr.set_lo, Arr.set_hi])

/-- Linear integer arithmetic, after reduction of structure projections if needed. -/
macro "omg" : tactic =>
  `(tactic| first | omega | (dsimp only; omega) | (dsimp only at *; omega))

end Scotch
