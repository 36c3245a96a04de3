import Verif.OrFuel

/-! # Total and partial correctness at once -/

set_option autoImplicit false

namespace Scotch

variable {α β : Type}

/-- If `tot`, the computation ends without any fault, and its result satisfies `Q`. Else, it may run out of the time that is given to it, but it does not meet any other fault; if it ends, its result satisfies `Q`. -/
def Meets (tot : Bool) (x : M α) (Q : α → Prop) : Prop := if tot = true then Holds x Q else OrFuel x Q

variable {tot : Bool}

theorem Meets_pure (a : α) (Q : α → Prop) : Meets tot (pure a : M α) Q ↔ Q a := by
  cases tot <;> exact Iff.rfl

theorem Meets_bind (x : M α) (f : α → M β) (Q : β → Prop) : Meets tot (x >>= f) Q ↔ Meets tot x (fun a => Meets tot (f a) Q) := by
  cases tot
  · exact OrFuel_bind x f Q
  · exact Holds_bind x f Q

theorem Meets.of_holds {x : M α} {Q : α → Prop} (h : Holds x Q) : Meets tot x Q := by
  cases tot
  · exact OrFuel.of_holds h
  · exact h

theorem Meets.mono {x : M α} {P Q : α → Prop} (h : Meets tot x P) (k : ∀ a, P a → Q a) : Meets tot x Q := by
  cases tot
  · exact OrFuel.mono h k
  · exact Holds.mono (x := x) h k

theorem Meets.eqn {x : M α} {Q : α → Prop} (h : Meets tot x Q) : Meets tot x (fun a => x = .ok a ∧ Q a) := by
  cases tot
  · cases x with
    | ok a => exact ⟨rfl, h⟩
    | error e => exact h
  · cases x with
    | ok a => exact ⟨rfl, h⟩
    | error e => exact h

theorem Meets_ite {c : Prop} [Decidable c] {x y : M α} {Q : α → Prop} : Meets tot (if c then x else y) Q ↔ (c → Meets tot x Q) ∧ (¬ c → Meets tot y Q) := by
  by_cases h : c
  · rw [if_pos h]; exact ⟨fun k => ⟨fun _ => k, fun n => absurd h n⟩, fun k => k.1 h⟩
  · rw [if_neg h]; exact ⟨fun k => ⟨fun n => absurd n h, fun _ => k⟩, fun k => k.2 h⟩

end Scotch
