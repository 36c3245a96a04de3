import Verif.Base
import Verif.Util
import Mathlib.Data.List.Nodup

/-! # Linked lists in arrays -/

set_option autoImplicit false

namespace Scotch.HOrder

/-- The chain that begins at `a` goes through the cells of `l`, and then reaches `b`. -/
def Link (f : Int → Int) : Int → List Int → Int → Prop
  | a, [], b => a = b
  | a, x :: l, b => a = x ∧ Link f (f x) l b

variable {f g : Int → Int} {a b c : Int} {l m : List Int}

theorem link_congr : ∀ {l : List Int} {a : Int}, (∀ x ∈ l, f x = g x) → Link f a l b → Link g a l b
  | [], _, _, hl => hl
  | x :: l, a, h, hl => ⟨hl.1, h x (List.mem_cons_self ..) ▸ link_congr (fun y hy => h y (List.mem_cons_of_mem _ hy)) hl.2⟩

theorem link_append : ∀ {l : List Int} {a : Int}, Link f a (l ++ m) c ↔ ∃ b, Link f a l b ∧ Link f b m c
  | [], a => by
    constructor
    · intro h; exact ⟨a, rfl, h⟩
    · rintro ⟨b, rfl, h⟩; exact h
  | x :: l, a => by
    constructor
    · rintro ⟨h1, h2⟩
      obtain ⟨b, h3, h4⟩ := link_append.1 h2
      exact ⟨b, ⟨h1, h3⟩, h4⟩
    · rintro ⟨b, ⟨h1, h3⟩, h4⟩
      exact ⟨h1, link_append.2 ⟨b, h3, h4⟩⟩

theorem link_snoc {x : Int} : Link f a (l ++ [x]) c ↔ Link f a l x ∧ f x = c := by
  rw [link_append]
  constructor
  · rintro ⟨b, h1, h2, h3⟩
    exact ⟨h2 ▸ h1, h3⟩
  · rintro ⟨h1, h2⟩
    exact ⟨x, h1, rfl, h2⟩

/-- Rule for loops on chains. -/
theorem link_loop {σ ρ : Type} {step : σ × Int → M (Loop (σ × Int) ρ)} {Q : ρ → Prop} (I : List Int → σ → Prop) (e : Int) (all : List Int)
    (hstep : ∀ done x rest s, all = done ++ x :: rest → I done s → Holds (step (s, x)) (Loop.Sat (fun t => t.2 = f x ∧ I (done ++ [x]) t.1) (fun r => rest = [] ∧ Q r)))
    (hend : ∀ s, I all s → Holds (step (s, e)) (Loop.Sat (fun _ => False) Q)) :
    ∀ (rest done : List Int) (s : σ) (x : Int) (fuel : Nat), all = done ++ rest → Link f x rest e → I done s → rest.length < fuel → Holds (loopM step fuel (s, x)) Q := by
  intro rest
  induction rest with
  | nil =>
    intro done s x fuel he hl hI hf
    obtain ⟨n, rfl⟩ : ∃ n, fuel = n + 1 := ⟨fuel - 1, by rw [List.length_nil] at hf; omega⟩
    simp only [loopM, Holds_bind]
    rw [show x = e from hl]
    rw [List.append_nil] at he
    refine (hend s (he ▸ hI)).mono ?_
    intro r hr
    cases r with
    | brk r => exact hr
    | next t => exact hr.elim
  | cons y rest ih =>
    intro done s x fuel he hl hI hf
    rw [List.length_cons] at hf
    obtain ⟨n, rfl⟩ : ∃ n, fuel = n + 1 := ⟨fuel - 1, by omega⟩
    simp only [loopM, Holds_bind]
    obtain ⟨rfl, hl⟩ := hl
    refine (hstep done x rest s he hI).mono ?_
    intro r hr
    cases r with
    | brk r => exact hr.2
    | next t =>
      obtain ⟨h1, h2⟩ := hr
      have := ih (done ++ [x]) t.1 t.2 n (by rw [he, List.append_assoc]; rfl) (by rw [h1]; exact hl) h2 (by omega)
      exact this

/-- A list of distinct vertices of a range is not longer than the range. -/
theorem nodup_length {l : List Int} {n : Int} (hn : 0 ≤ n) (hd : l.Nodup) (hl : ∀ x ∈ l, b ≤ x ∧ x < b + n) : (l.length : Int) ≤ n := by
  have hs : l.toFinset ⊆ Finset.Ico b (b + n) := by
    intro x hx
    rw [List.mem_toFinset] at hx
    rw [Finset.mem_Ico]
    exact hl x hx
  have := Finset.card_le_card hs
  rw [List.toFinset_card_of_nodup hd, Int.card_Ico] at this
  omega

end Scotch.HOrder
