import Verif.Ends

/-! # Computations that can only fail because they are not given enough fuel -/

set_option autoImplicit false

namespace Scotch

variable {α β σ ρ : Type}

/-- Whatever the time that is given to it, the computation `x` does not meet any fault; if it ends, its result satisfies `Q`. -/
def OrFuel (x : M α) (Q : α → Prop) : Prop :=
  match x with
  | .ok a => Q a
  | .error e => e = .fuel

theorem OrFuel_pure (a : α) (Q : α → Prop) : OrFuel (pure a : M α) Q ↔ Q a := Iff.rfl
theorem OrFuel_ok (a : α) (Q : α → Prop) : OrFuel (.ok a : M α) Q ↔ Q a := Iff.rfl

theorem OrFuel_bind (x : M α) (f : α → M β) (Q : β → Prop) : OrFuel (x >>= f) Q ↔ OrFuel x (fun a => OrFuel (f a) Q) := by
  cases x <;> exact Iff.rfl

theorem OrFuel.of_holds {x : M α} {Q : α → Prop} (h : Holds x Q) : OrFuel x Q := by
  cases x with
  | ok a => exact h
  | error e => exact False.elim h

theorem OrFuel.mono {x : M α} {P Q : α → Prop} (h : OrFuel x P) (k : ∀ a, P a → Q a) : OrFuel x Q := by
  cases x with
  | ok a => exact k a h
  | error e => exact h

theorem OrFuel_loopM {step : σ → M (Loop σ ρ)} {Q : ρ → Prop} (I : σ → Prop) (hstep : ∀ s, I s → OrFuel (step s) (Loop.Sat I Q)) : ∀ (fuel : Nat) (s : σ), I s → OrFuel (loopM step fuel s) Q := by
  intro fuel
  induction fuel with
  | zero => intro s _; exact rfl
  | succ n ih =>
    intro s hs
    rw [loopM, OrFuel_bind]
    refine (hstep s hs).mono ?_
    intro l hl
    cases l with
    | next s' => exact ih s' hl
    | brk r => exact hl

end Scotch
