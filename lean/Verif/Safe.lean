import Verif.Post

/-!
# Memory safety

`Safe x Q`: the only fault that the computation `x` can meet is an arithmetic overflow; if it ends without fault, its
result satisfies `Q`.
-/

set_option autoImplicit false

namespace Scotch

/-- `x` can only fail by overflow; if it does not fail, its result satisfies `Q`. -/
def Safe {α : Type} (x : M α) (Q : α → Prop) : Prop :=
  match x with
  | .ok a => Q a
  | .error e => e = .overflow

/-- Faults are decidable, whatever the type of results. -/
instance instDecFault {α : Type} (x : M α) (e : Fault) : Decidable (x = .error e) :=
  match x with
  | .ok _ => .isFalse (fun h => by cases h)
  | .error e' => if h : e' = e then .isTrue (by rw [h]) else .isFalse (fun h' => h (by cases h'; rfl))

section
variable {α β σ ρ : Type}

theorem Safe_pure (a : α) (Q : α → Prop) : Safe (pure a : M α) Q ↔ Q a := Iff.rfl
theorem Safe_ok (a : α) (Q : α → Prop) : Safe (.ok a : M α) Q ↔ Q a := Iff.rfl
theorem Safe_error (e : Fault) (Q : α → Prop) : Safe (.error e : M α) Q ↔ e = .overflow := Iff.rfl

theorem Safe_bind (x : M α) (f : α → M β) (Q : β → Prop) :
    Safe (x >>= f) Q ↔ Safe x (fun a => Safe (f a) Q) := by
  cases x <;> exact Iff.rfl

theorem Safe_rd (a : Arr α) (i : Int) (Q : α → Prop) :
    Safe (a.rd i) Q ↔ (a.lo ≤ i ∧ i < a.hi) ∧ Q (a.get i) := by
  unfold Arr.rd
  by_cases h : a.In i
  · rw [if_pos h]
    exact ⟨fun q => ⟨h, q⟩, fun q => q.2⟩
  · rw [if_neg h]
    exact ⟨fun q => (by cases q), fun q => absurd q.1 h⟩

theorem Safe_wr (a : Arr α) (i : Int) (v : α) (Q : Arr α → Prop) :
    Safe (a.wr i v) Q ↔ (a.lo ≤ i ∧ i < a.hi) ∧ Q (a.set i v) := by
  unfold Arr.wr
  by_cases h : a.In i
  · rw [if_pos h]
    exact ⟨fun q => ⟨h, q⟩, fun q => q.2⟩
  · rw [if_neg h]
    exact ⟨fun q => (by cases q), fun q => absurd q.1 h⟩

theorem Safe.mono {x : M α} {Q R : α → Prop} (h : Safe x Q) (hqr : ∀ a, Q a → R a) : Safe x R := by
  cases x with
  | ok a => exact hqr a h
  | error e => exact h

theorem Holds.safe {x : M α} {Q : α → Prop} (h : Holds x Q) : Safe x Q := by
  cases x with
  | ok a => exact h
  | error e => exact False.elim h

theorem Safe.and_post {x : M α} {Q R : α → Prop} (h : Safe x Q) (h' : Post x R) : Safe x (fun a => Q a ∧ R a) := by
  cases x with
  | ok a => exact ⟨h, h'⟩
  | error e => exact h

theorem Safe.no_oob {x : M α} {Q : α → Prop} (h : Safe x Q) : x ≠ .error .oob := by
  intro e
  rw [e] at h
  cases h

theorem Safe_ite (c : Prop) [Decidable c] (x y : M α) (Q : α → Prop) :
    Safe (if c then x else y) Q ↔ (c → Safe x Q) ∧ (¬ c → Safe y Q) := by
  by_cases h : c <;> simp [h]

theorem Safe_forNB {body : Int → σ → M (Loop σ ρ)} (I : Int → σ → Prop) (B : ρ → Prop) :
    ∀ (n : Nat) (i : Int) (s : σ), I i s →
      (∀ j s, i ≤ j → j < i + n → I j s → Safe (body j s) (Loop.Sat (I (j + 1)) B)) →
      Safe (forNB body n i s) (Loop.Sat (I (i + n)) B) := by
  intro n
  induction n with
  | zero => intro i s h0 _; simpa [forNB, Safe] using h0
  | succ n ih =>
    intro i s h0 hstep
    simp only [forNB, Safe_bind]
    refine (hstep i s (by omega) (by omega) h0).mono ?_
    intro l hl
    cases l with
    | brk r => exact hl
    | next s' =>
      have := ih (i + 1) s' hl (fun j s hj1 hj2 hI => hstep j s (by omega) (by omega) hI)
      have e : i + 1 + (n : Int) = i + ((n + 1 : Nat) : Int) := by omega
      rw [e] at this
      exact this

theorem Safe_forUpB {lo hi : Int} {s : σ} {body : Int → σ → M (Loop σ ρ)}
    {Q : Loop σ ρ → Prop} (I : Int → σ → Prop) (B : ρ → Prop) (hle : lo ≤ hi) (h0 : I lo s)
    (hstep : ∀ i s, lo ≤ i → i < hi → I i s → Safe (body i s) (Loop.Sat (I (i + 1)) B))
    (hQ : ∀ s, I hi s → Q (.next s)) (hB : ∀ r, B r → Q (.brk r)) :
    Safe (forUpB lo hi s body) Q := by
  unfold forUpB
  have := Safe_forNB (body := body) I B (hi - lo).toNat lo s h0
    (fun j s h1 h2 hI => hstep j s h1 (by omega) hI)
  have e : lo + ((hi - lo).toNat : Int) = hi := by omega
  rw [e] at this
  refine this.mono ?_
  intro l hl
  cases l with
  | next s => exact hQ s hl
  | brk r => exact hB r hl

theorem Safe_forUpB' {lo hi : Int} {s : σ} {body : Int → σ → M (Loop σ ρ)}
    {Q : Loop σ ρ → Prop} (I : Int → σ → Prop) (B : ρ → Prop) (h0 : I lo s)
    (hstep : ∀ i s, lo ≤ i → i < hi → I i s → Safe (body i s) (Loop.Sat (I (i + 1)) B))
    (hQ : ∀ s, I (max lo hi) s → Q (.next s)) (hB : ∀ r, B r → Q (.brk r)) :
    Safe (forUpB lo hi s body) Q := by
  by_cases hle : lo ≤ hi
  · refine Safe_forUpB I B hle h0 hstep ?_ hB
    intro s hs; exact hQ s (by rwa [Int.max_eq_right hle])
  · rw [forUpB_empty (by omega)]
    exact hQ s (by rwa [Int.max_eq_left (by omega)])

theorem Safe_forN {body : Int → σ → M σ} (I : Int → σ → Prop) :
    ∀ (n : Nat) (i : Int) (s : σ), I i s →
      (∀ j s, i ≤ j → j < i + n → I j s → Safe (body j s) (I (j + 1))) →
      Safe (forN body n i s) (I (i + n)) := by
  intro n
  induction n with
  | zero => intro i s h0 _; simpa [forN, Safe] using h0
  | succ n ih =>
    intro i s h0 hstep
    simp only [forN, Safe_bind]
    refine (hstep i s (by omega) (by omega) h0).mono ?_
    intro s' hs'
    have := ih (i + 1) s' hs' (fun j s hj1 hj2 hI => hstep j s (by omega) (by omega) hI)
    have e : i + 1 + (n : Int) = i + ((n + 1 : Nat) : Int) := by omega
    rw [e] at this
    exact this

theorem Safe_forUp {lo hi : Int} {s : σ} {body : Int → σ → M σ} {Q : σ → Prop}
    (I : Int → σ → Prop) (hle : lo ≤ hi) (h0 : I lo s)
    (hstep : ∀ i s, lo ≤ i → i < hi → I i s → Safe (body i s) (I (i + 1)))
    (hQ : ∀ s, I hi s → Q s) : Safe (forUp lo hi s body) Q := by
  unfold forUp
  have := Safe_forN (body := body) I (hi - lo).toNat lo s h0
    (fun j s h1 h2 hI => hstep j s h1 (by omega) hI)
  have e : lo + ((hi - lo).toNat : Int) = hi := by omega
  rw [e] at this
  exact this.mono hQ

end
end Scotch
