import Verif.Post

/-!
# Computations that may fail under a condition

`May p x Q`: if `x` ends without fault then its result satisfies `Q`; it can only fail if `p` is true.
-/

set_option autoImplicit false

namespace Scotch

/-- `x` ends with a result that satisfies `Q`, or fails and then `p` is true. -/
def May {α : Type} (p : Prop) (x : M α) (Q : α → Prop) : Prop :=
  match x with
  | .ok a => Q a
  | .error _ => p

section
variable {α β σ ρ : Type} {p : Prop}

theorem May_ok (a : α) (Q : α → Prop) : May p (.ok a : M α) Q ↔ Q a := Iff.rfl
theorem May_pure (a : α) (Q : α → Prop) : May p (pure a : M α) Q ↔ Q a := Iff.rfl

theorem May_bind (x : M α) (f : α → M β) (Q : β → Prop) : May p (x >>= f) Q ↔ May p x (fun a => May p (f a) Q) := by
  cases x <;> exact Iff.rfl

theorem May.mono {x : M α} {Q R : α → Prop} (h : May p x Q) (hqr : ∀ a, Q a → R a) : May p x R := by
  cases x with
  | ok a => exact hqr a h
  | error e => exact h

theorem Holds.may {x : M α} {Q : α → Prop} (h : Holds x Q) : May p x Q := by
  cases x with
  | ok a => exact h
  | error e => exact False.elim h

theorem May.holds {x : M α} {Q : α → Prop} (h : May p x Q) (hp : ¬ p) : Holds x Q := by
  cases x with
  | ok a => exact h
  | error e => exact hp h

theorem May.post {x : M α} {Q : α → Prop} (h : May p x Q) : Post x Q := by
  cases x with
  | ok a => exact h
  | error e => exact True.intro

theorem May_rd (a : Arr α) (i : Int) (Q : α → Prop) (h1 : ¬ (a.lo ≤ i ∧ i < a.hi) → p) (h2 : a.lo ≤ i → i < a.hi → Q (a.get i)) : May p (a.rd i) Q := by
  unfold Arr.rd
  by_cases h : a.In i
  · rw [if_pos h]; exact h2 h.1 h.2
  · rw [if_neg h]; exact h1 h

theorem May_wr (a : Arr α) (i : Int) (v : α) (Q : Arr α → Prop) (h1 : ¬ (a.lo ≤ i ∧ i < a.hi) → p) (h2 : a.lo ≤ i → i < a.hi → Q (a.set i v)) : May p (a.wr i v) Q := by
  unfold Arr.wr
  by_cases h : a.In i
  · rw [if_pos h]; exact h2 h.1 h.2
  · rw [if_neg h]; exact h1 h

theorem May_ite (c : Prop) [Decidable c] (x y : M α) (Q : α → Prop) (h1 : c → May p x Q) (h2 : ¬ c → May p y Q) : May p (if c then x else y) Q := by
  by_cases h : c
  · rw [if_pos h]; exact h1 h
  · rw [if_neg h]; exact h2 h

theorem May_forN (body : Int → σ → M σ) (I : Int → σ → Prop) :
    ∀ (n : Nat) (lo : Int) (s : σ), I lo s → (∀ i s, lo ≤ i → i < lo + n → I i s → May p (body i s) (I (i + 1))) → May p (forN body n lo s) (I (lo + n)) := by
  intro n
  induction n with
  | zero => intro lo s h _; unfold forN; rw [May_ok]; simpa using h
  | succ n ih =>
    intro lo s h hs
    unfold forN
    rw [May_bind]
    refine May.mono (hs lo s (Int.le_refl _) (by omega) h) ?_
    intro s' h'
    have := ih (lo + 1) s' h' (fun i s h1 h2 => hs i s (by omega) (by push_cast; omega))
    rw [show lo + 1 + (n : Int) = lo + ((n + 1 : Nat) : Int) by push_cast; omega] at this
    exact this

theorem May_forUp {lo hi : Int} {s : σ} {body : Int → σ → M σ} {Q : σ → Prop} (I : Int → σ → Prop) (hle : lo ≤ hi) (h0 : I lo s)
    (hstep : ∀ i s, lo ≤ i → i < hi → I i s → May p (body i s) (I (i + 1))) (hQ : ∀ s, I hi s → Q s) : May p (forUp lo hi s body) Q := by
  unfold forUp
  refine May.mono (May_forN body I (hi - lo).toNat lo s h0 (fun i s h1 h2 => hstep i s h1 (by omega))) ?_
  intro s' h'
  rw [show lo + ((hi - lo).toNat : Int) = hi by omega] at h'
  exact hQ s' h'

theorem May_loopM {body : σ → M (Loop σ ρ)} {Q : ρ → Prop} (I : σ → Prop) (μ : σ → Nat)
    (hstep : ∀ s, I s → May p (body s) (Loop.Sat (fun s' => I s' ∧ μ s' < μ s) Q)) :
    ∀ (fuel : Nat) (s : σ), I s → μ s < fuel → May p (loopM body fuel s) Q := by
  intro fuel
  induction fuel with
  | zero => intro s _ h; omega
  | succ n ih =>
    intro s hI hμ
    unfold loopM
    rw [May_bind]
    refine May.mono (hstep s hI) ?_
    intro r hr
    cases r with
    | next s' => exact ih s' hr.1 (by have := hr.2; omega)
    | brk r => exact hr

end

end Scotch
