import Verif.Base
import Mathlib.Data.Int.Interval
import Mathlib.Data.Finset.Card

/-! # Arrays that list the elements of a set -/

set_option autoImplicit false
set_option linter.unusedSimpArgs false

namespace Scotch

/-- The first `n` cells of an array hold each element of a set once, and nothing else. -/
def Enum (a : Arr Int) (n : Int) (P : Int → Prop) : Prop :=
  0 ≤ n ∧ (∀ i j, 0 ≤ i → i < n → 0 ≤ j → j < n → a.get i = a.get j → i = j) ∧
  ∀ v, P v ↔ ∃ i, 0 ≤ i ∧ i < n ∧ a.get i = v

theorem Enum.empty (a : Arr Int) : Enum a 0 (fun _ => False) :=
  ⟨Int.le_refl 0, fun i j h1 h2 => by omega, fun v => ⟨False.elim, fun ⟨i, h1, h2, _⟩ => by omega⟩⟩

theorem Enum.congr {a : Arr Int} {n : Int} {P Q : Int → Prop} (h : Enum a n P) (hpq : ∀ v, P v ↔ Q v) : Enum a n Q :=
  ⟨h.1, h.2.1, fun v => by rw [← hpq, h.2.2]⟩

theorem Enum.mem {a : Arr Int} {n : Int} {P : Int → Prop} (h : Enum a n P) {i : Int} (h1 : 0 ≤ i) (h2 : i < n) : P (a.get i) :=
  (h.2.2 _).2 ⟨i, h1, h2, rfl⟩

theorem Enum.push {a : Arr Int} {n : Int} {P : Int → Prop} (h : Enum a n P) {x : Int} (hx : ¬ P x) :
    Enum (a.set n x) (n + 1) (fun v => P v ∨ v = x) := by
  obtain ⟨h0, hinj, hmem⟩ := h
  refine ⟨by omega, ?_, ?_⟩
  · intro i j i1 i2 j1 j2 he
    by_cases hi : i = n
    · by_cases hj : j = n
      · omega
      · rw [hi, Arr.set_get_same, Arr.set_get_ne _ _ hj] at he
        exact absurd ((hmem x).2 ⟨j, j1, by omega, he.symm⟩) hx
    · by_cases hj : j = n
      · rw [hj, Arr.set_get_same, Arr.set_get_ne _ _ hi] at he
        exact absurd ((hmem x).2 ⟨i, i1, by omega, he⟩) hx
      · rw [Arr.set_get_ne _ _ hi, Arr.set_get_ne _ _ hj] at he
        exact hinj i j i1 (by omega) j1 (by omega) he
  · intro v
    constructor
    · rintro (hv | rfl)
      · obtain ⟨i, i1, i2, rfl⟩ := (hmem v).1 hv
        exact ⟨i, i1, by omega, Arr.set_get_ne _ _ (by omega)⟩
      · exact ⟨n, h0, by omega, Arr.set_get_same _ _ _⟩
    · rintro ⟨i, i1, i2, rfl⟩
      by_cases hi : i = n
      · rw [hi, Arr.set_get_same]; exact Or.inr rfl
      · rw [Arr.set_get_ne _ _ hi]
        exact Or.inl ((hmem _).2 ⟨i, i1, by omega, rfl⟩)

/-- The content of other cells does not matter. -/
theorem Enum.agree {a a' : Arr Int} {n : Int} {P : Int → Prop} (h : Enum a n P)
    (he : ∀ i, 0 ≤ i → i < n → a'.get i = a.get i) : Enum a' n P := by
  obtain ⟨h0, hinj, hmem⟩ := h
  refine ⟨h0, ?_, ?_⟩
  · intro i j i1 i2 j1 j2 hh
    rw [he i i1 i2, he j j1 j2] at hh
    exact hinj i j i1 i2 j1 j2 hh
  · intro v
    rw [hmem]
    constructor
    · rintro ⟨i, i1, i2, h⟩; exact ⟨i, i1, i2, by rw [he i i1 i2, h]⟩
    · rintro ⟨i, i1, i2, h⟩; exact ⟨i, i1, i2, by rw [← he i i1 i2, h]⟩

/-- There are not more elements than the size of an interval that contains them. -/
theorem Enum.le {a : Arr Int} {n lo hi : Int} {P : Int → Prop} (h : Enum a n P) (hle : lo ≤ hi)
    (hp : ∀ v, P v → lo ≤ v ∧ v < hi) : n ≤ hi - lo := by
  obtain ⟨h0, hinj, hmem⟩ := h
  have := Finset.card_le_card_of_injOn (s := Finset.Ico 0 n) (t := Finset.Ico lo hi) a.get (by
    intro i hi'
    simp only [Finset.coe_Ico, Set.mem_Ico] at hi' ⊢
    exact hp _ ((hmem _).2 ⟨i, hi'.1, hi'.2, rfl⟩)) (by
    intro i hi' j hj he
    simp only [Finset.coe_Ico, Set.mem_Ico] at hi' hj
    exact hinj i j hi'.1 hi'.2 hj.1 hj.2 he)
  rw [Int.card_Ico, Int.card_Ico] at this
  omega

/-- There is room for one more element. -/
theorem Enum.lt {a : Arr Int} {n lo hi x : Int} {P : Int → Prop} (h : Enum a n P)
    (hp : ∀ v, P v → lo ≤ v ∧ v < hi) (hx : ¬ P x) (h1 : lo ≤ x) (h2 : x < hi) : n < hi - lo := by
  have := (h.push hx).le (lo := lo) (hi := hi) (by omega) (by
    rintro v (hv | rfl)
    · exact hp v hv
    · exact ⟨h1, h2⟩)
  omega

/-- Replacement of an element by another one. -/
theorem Enum.replace {a : Arr Int} {n i x : Int} {P : Int → Prop} (h : Enum a n P) (h1 : 0 ≤ i) (h2 : i < n) (hx : ¬ P x) :
    Enum (a.set i x) n (fun v => (P v ∧ v ≠ a.get i) ∨ v = x) := by
  obtain ⟨h0, hinj, hmem⟩ := h
  refine ⟨h0, ?_, ?_⟩
  · intro j k j1 j2 k1 k2 he
    by_cases hj : j = i
    · by_cases hk : k = i
      · omega
      · rw [hj, Arr.set_get_same, Arr.set_get_ne _ _ hk] at he
        exact absurd ((hmem x).2 ⟨k, k1, k2, he.symm⟩) hx
    · by_cases hk : k = i
      · rw [hk, Arr.set_get_same, Arr.set_get_ne _ _ hj] at he
        exact absurd ((hmem x).2 ⟨j, j1, j2, he⟩) hx
      · rw [Arr.set_get_ne _ _ hj, Arr.set_get_ne _ _ hk] at he
        exact hinj j k j1 j2 k1 k2 he
  · intro v
    constructor
    · rintro (⟨hv, hne⟩ | rfl)
      · obtain ⟨j, j1, j2, rfl⟩ := (hmem v).1 hv
        have hj : j ≠ i := fun e => hne (by rw [e])
        exact ⟨j, j1, j2, Arr.set_get_ne _ _ hj⟩
      · exact ⟨i, h1, h2, Arr.set_get_same _ _ _⟩
    · rintro ⟨j, j1, j2, rfl⟩
      by_cases hj : j = i
      · rw [hj, Arr.set_get_same]; exact Or.inr rfl
      · rw [Arr.set_get_ne _ _ hj]
        exact Or.inl ⟨(hmem _).2 ⟨j, j1, j2, rfl⟩, fun e => hj (hinj j i j1 j2 h1 h2 e)⟩

end Scotch
