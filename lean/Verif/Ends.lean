import Verif.Base
import Verif.TextIO.Pairs

/-! # Computations that end when they are given enough fuel -/

set_option autoImplicit false

namespace Scotch

variable {α β σ ρ : Type}

/-- There is a result, which is the same whatever the fuel, provided that it is large enough; and this result satisfies `Q`. -/
def Ends (f : Nat → M α) (Q : α → Prop) : Prop := ∃ r, Q r ∧ ∃ n, ∀ fuel, n ≤ fuel → f fuel = .ok r

/-- More fuel does not change the result. -/
def FuelMono (f : Nat → M α) : Prop := ∀ n m r, n ≤ m → f n = .ok r → f m = .ok r

theorem Ends.of_mono {f : Nat → M α} {Q : α → Prop} (hm : FuelMono f) (h : ∃ n, ∀ fuel, n ≤ fuel → Holds (f fuel) Q) : Ends f Q := by
  obtain ⟨n, hn⟩ := h
  obtain ⟨r, e, q⟩ := Holds_iff_exists.1 (hn n (Nat.le_refl n))
  exact ⟨r, q, n, fun fuel hf => hm n fuel r hf e⟩

theorem Ends.of_holds {x : M α} {Q : α → Prop} (h : Holds x Q) : Ends (fun _ => x) Q := by
  obtain ⟨r, e, q⟩ := Holds_iff_exists.1 h
  exact ⟨r, q, 0, fun _ _ => e⟩

theorem Ends.pure {a : α} {Q : α → Prop} (h : Q a) : Ends (fun _ => (Pure.pure a : M α)) Q := ⟨a, h, 0, fun _ _ => rfl⟩

theorem Ends.bind {f : Nat → M α} {g : Nat → α → M β} {P : α → Prop} {Q : β → Prop} (h : Ends f P) (k : ∀ r, P r → Ends (fun n => g n r) Q) : Ends (fun n => f n >>= g n) Q := by
  obtain ⟨r, hr, n, hn⟩ := h
  obtain ⟨t, ht, m, hm⟩ := k r hr
  refine ⟨t, ht, n + m, fun fuel hf => ?_⟩
  show f fuel >>= g fuel = _
  rw [hn fuel (by omega), ok_bind]
  exact hm fuel (by omega)

theorem Ends.mono {f : Nat → M α} {P Q : α → Prop} (h : Ends f P) (k : ∀ r, P r → Q r) : Ends f Q := by
  obtain ⟨r, hr, n⟩ := h
  exact ⟨r, k r hr, n⟩

theorem Ends.ite {c : Prop} [Decidable c] {f g : Nat → M α} {Q : α → Prop} (h : c → Ends f Q) (k : ¬ c → Ends g Q) : Ends (fun n => if c then f n else g n) Q := by
  by_cases hc : c
  · obtain ⟨r, hr, n, hn⟩ := h hc
    exact ⟨r, hr, n, fun fuel hf => by dsimp only; rw [if_pos hc]; exact hn fuel hf⟩
  · obtain ⟨r, hr, n, hn⟩ := k hc
    exact ⟨r, hr, n, fun fuel hf => by dsimp only; rw [if_neg hc]; exact hn fuel hf⟩

theorem FuelMono.const (x : M α) : FuelMono (fun _ => x) := fun _ _ _ _ h => h

theorem FuelMono.bind {f : Nat → M α} {g : Nat → α → M β} (h : FuelMono f) (k : ∀ r, FuelMono (fun n => g n r)) : FuelMono (fun n => f n >>= g n) := by
  intro n m r hnm e
  dsimp only at e ⊢
  cases hf : f n with
  | error x => rw [hf] at e; cases e
  | ok a =>
    rw [hf, ok_bind] at e
    rw [h n m a hnm hf, ok_bind]
    exact k a n m r hnm e

theorem FuelMono.ite {c : Prop} [Decidable c] {f g : Nat → M α} (h : FuelMono f) (k : FuelMono g) : FuelMono (fun n => if c then f n else g n) := by
  by_cases hc : c
  · intro n m r hnm e
    dsimp only at e ⊢
    rw [if_pos hc] at e ⊢
    exact h n m r hnm e
  · intro n m r hnm e
    dsimp only at e ⊢
    rw [if_neg hc] at e ⊢
    exact k n m r hnm e

theorem FuelMono.loopM (step : σ → M (Loop σ ρ)) (s : σ) : FuelMono (fun n => loopM step n s) := by
  intro n
  induction n generalizing s with
  | zero => intro m r _ e; cases e
  | succ n ih =>
    intro m r hnm e
    obtain ⟨k, rfl⟩ : ∃ k, m = k + 1 := ⟨m - 1, by omega⟩
    dsimp only at e ⊢
    unfold Scotch.loopM at e ⊢
    cases hs : step s with
    | error x => rw [hs] at e; cases e
    | ok a =>
      rw [hs, ok_bind] at e
      rw [ok_bind]
      cases a with
      | next s' => exact ih s' k r (by omega) e
      | brk t => exact e

end Scotch
