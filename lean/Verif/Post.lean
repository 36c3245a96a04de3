import Verif.Base

/-!
# Partial correctness

`Post x Q`: if the computation `x` ends without fault, its result satisfies `Q`.
-/

set_option autoImplicit false

namespace Scotch

/-- If `x` ends without fault, its result satisfies `Q`. -/
def Post {α : Type} (x : M α) (Q : α → Prop) : Prop :=
  match x with
  | .ok a => Q a
  | .error _ => True

section
variable {α β σ ρ : Type}

theorem Post_iff {x : M α} {Q : α → Prop} : Post x Q ↔ ∀ a, x = .ok a → Q a := by
  cases x with
  | ok a => exact ⟨fun h b e => (by cases e; exact h), fun h => h a rfl⟩
  | error e => exact ⟨fun _ b e => (by cases e), fun _ => trivial⟩

theorem Post_pure (a : α) (Q : α → Prop) : Post (pure a : M α) Q ↔ Q a := Iff.rfl
theorem Post_ok (a : α) (Q : α → Prop) : Post (.ok a : M α) Q ↔ Q a := Iff.rfl
theorem Post_error (e : Fault) (Q : α → Prop) : Post (.error e : M α) Q ↔ True := Iff.rfl

theorem Post_bind (x : M α) (f : α → M β) (Q : β → Prop) :
    Post (x >>= f) Q ↔ Post x (fun a => Post (f a) Q) := by
  cases x <;> exact Iff.rfl

theorem Post_rd (a : Arr α) (i : Int) (Q : α → Prop) :
    Post (a.rd i) Q ↔ (a.lo ≤ i → i < a.hi → Q (a.get i)) := by
  unfold Arr.rd
  by_cases h : a.In i
  · rw [if_pos h]
    exact ⟨fun q _ _ => q, fun q => q h.1 h.2⟩
  · rw [if_neg h]
    exact ⟨fun _ h1 h2 => absurd ⟨h1, h2⟩ h, fun _ => trivial⟩

theorem Post_wr (a : Arr α) (i : Int) (v : α) (Q : Arr α → Prop) :
    Post (a.wr i v) Q ↔ (a.lo ≤ i → i < a.hi → Q (a.set i v)) := by
  unfold Arr.wr
  by_cases h : a.In i
  · rw [if_pos h]
    exact ⟨fun q _ _ => q, fun q => q h.1 h.2⟩
  · rw [if_neg h]
    exact ⟨fun _ h1 h2 => absurd ⟨h1, h2⟩ h, fun _ => trivial⟩

theorem Post.mono {x : M α} {Q R : α → Prop} (h : Post x Q) (hqr : ∀ a, Q a → R a) : Post x R := by
  cases x with
  | ok a => exact hqr a h
  | error e => trivial

theorem Holds.post {x : M α} {Q : α → Prop} (h : Holds x Q) : Post x Q := by
  cases x with
  | ok a => exact h
  | error e => trivial

theorem Post_ite (c : Prop) [Decidable c] (x y : M α) (Q : α → Prop) :
    Post (if c then x else y) Q ↔ (c → Post x Q) ∧ (¬ c → Post y Q) := by
  by_cases h : c <;> simp [h]

theorem Post_forNB {body : Int → σ → M (Loop σ ρ)} (I : Int → σ → Prop) (B : ρ → Prop) :
    ∀ (n : Nat) (i : Int) (s : σ), I i s →
      (∀ j s, i ≤ j → j < i + n → I j s → Post (body j s) (Loop.Sat (I (j + 1)) B)) →
      Post (forNB body n i s) (Loop.Sat (I (i + n)) B) := by
  intro n
  induction n with
  | zero => intro i s h0 _; simpa [forNB, Post] using h0
  | succ n ih =>
    intro i s h0 hstep
    simp only [forNB, Post_bind]
    refine (hstep i s (by omega) (by omega) h0).mono ?_
    intro l hl
    cases l with
    | brk r => exact hl
    | next s' =>
      have := ih (i + 1) s' hl (fun j s hj1 hj2 hI => hstep j s (by omega) (by omega) hI)
      have e : i + 1 + (n : Int) = i + ((n + 1 : Nat) : Int) := by omega
      rw [e] at this
      exact this

theorem Post_forUpB {lo hi : Int} {s : σ} {body : Int → σ → M (Loop σ ρ)}
    {Q : Loop σ ρ → Prop} (I : Int → σ → Prop) (B : ρ → Prop) (hle : lo ≤ hi) (h0 : I lo s)
    (hstep : ∀ i s, lo ≤ i → i < hi → I i s → Post (body i s) (Loop.Sat (I (i + 1)) B))
    (hQ : ∀ s, I hi s → Q (.next s)) (hB : ∀ r, B r → Q (.brk r)) :
    Post (forUpB lo hi s body) Q := by
  unfold forUpB
  have := Post_forNB (body := body) I B (hi - lo).toNat lo s h0
    (fun j s h1 h2 hI => hstep j s h1 (by omega) hI)
  have e : lo + ((hi - lo).toNat : Int) = hi := by omega
  rw [e] at this
  refine this.mono ?_
  intro l hl
  cases l with
  | next s => exact hQ s hl
  | brk r => exact hB r hl

theorem Post_forUpB' {lo hi : Int} {s : σ} {body : Int → σ → M (Loop σ ρ)}
    {Q : Loop σ ρ → Prop} (I : Int → σ → Prop) (B : ρ → Prop) (h0 : I lo s)
    (hstep : ∀ i s, lo ≤ i → i < hi → I i s → Post (body i s) (Loop.Sat (I (i + 1)) B))
    (hQ : ∀ s, I (max lo hi) s → Q (.next s)) (hB : ∀ r, B r → Q (.brk r)) :
    Post (forUpB lo hi s body) Q := by
  by_cases hle : lo ≤ hi
  · refine Post_forUpB I B hle h0 hstep ?_ hB
    intro s hs; exact hQ s (by rwa [Int.max_eq_right hle])
  · rw [forUpB_empty (by omega)]
    exact hQ s (by rwa [Int.max_eq_left (by omega)])

theorem Post_forN {body : Int → σ → M σ} (I : Int → σ → Prop) :
    ∀ (n : Nat) (i : Int) (s : σ), I i s →
      (∀ j s, i ≤ j → j < i + n → I j s → Post (body j s) (I (j + 1))) →
      Post (forN body n i s) (I (i + n)) := by
  intro n
  induction n with
  | zero => intro i s h0 _; simpa [forN, Post] using h0
  | succ n ih =>
    intro i s h0 hstep
    simp only [forN, Post_bind]
    refine (hstep i s (by omega) (by omega) h0).mono ?_
    intro s' hs'
    have := ih (i + 1) s' hs' (fun j s hj1 hj2 hI => hstep j s (by omega) (by omega) hI)
    have e : i + 1 + (n : Int) = i + ((n + 1 : Nat) : Int) := by omega
    rw [e] at this
    exact this

theorem Post_forUp {lo hi : Int} {s : σ} {body : Int → σ → M σ} {Q : σ → Prop}
    (I : Int → σ → Prop) (hle : lo ≤ hi) (h0 : I lo s)
    (hstep : ∀ i s, lo ≤ i → i < hi → I i s → Post (body i s) (I (i + 1)))
    (hQ : ∀ s, I hi s → Q s) : Post (forUp lo hi s body) Q := by
  unfold forUp
  have := Post_forN (body := body) I (hi - lo).toNat lo s h0
    (fun j s h1 h2 hI => hstep j s h1 (by omega) hI)
  have e : lo + ((hi - lo).toNat : Int) = hi := by omega
  rw [e] at this
  exact this.mono hQ

theorem Post_loopM {step : σ → M (Loop σ ρ)} {Q : ρ → Prop} (I : σ → Prop)
    (hstep : ∀ s, I s → Post (step s) (Loop.Sat I Q)) :
    ∀ (fuel : Nat) (s : σ), I s → Post (loopM step fuel s) Q := by
  intro fuel
  induction fuel with
  | zero => intro s _; trivial
  | succ n ih =>
    intro s hI
    simp only [loopM, Post_bind]
    refine (hstep s hI).mono ?_
    intro l hl
    cases l with
    | brk r => exact hl
    | next s' => exact ih s' hl

end
end Scotch
