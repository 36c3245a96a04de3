import Verif.Sort.Lemmas

/-!
# Sorting: property C02
-/

namespace Scotch
open Sorting

/-- **C02** (sorting). Let `lt` be any comparison whose negation is a total preorder, `a` any array
of records with at least `n` cells, and `bits + 1` the number of cells of the explicit
stack, with `n < 2 ^ bits` (for `INT` of `w` bits the stack has `w` cells and `n < 2 ^ (w-1)`).
The sort ends without fault (no access outside the array, no overflow of
the explicit stack, no endless loop); its result is a permutation of the first `n` cells, other cells
being unchanged, in ascending order. -/
theorem C02_sort {α : Type} (lt : α → α → Bool) (hlt : StrictWeak lt) (a : Arr α) (n : Int)
    (bits : Nat) (h0 : 0 ≤ n) (hn : n < 2 ^ bits) (h1 : a.lo ≤ 0) (h2 : n ≤ a.hi) :
    Holds (sort lt (bits + 1) a n) (fun r => PermOn a r 0 n ∧ SortedOn lt r 0 n) :=
  sort_holds hlt a n bits h0 hn h1 h2

theorem strictWeak_lt1 : StrictWeak lt1 := by
  refine ⟨fun a b h => ?_, fun a b c h1 h2 => ?_⟩ <;>
    simp only [lt1, decide_eq_true_eq, decide_eq_false_iff_not] at * <;> omega

theorem strictWeak_lt2asc1 : StrictWeak lt2asc1 := by
  refine ⟨fun a b h => ?_, fun a b c h1 h2 => ?_⟩ <;>
    simp only [lt2asc1, decide_eq_true_eq, decide_eq_false_iff_not] at * <;> omega

theorem strictWeak_lt3asc1 : StrictWeak lt3asc1 := by
  refine ⟨fun a b h => ?_, fun a b c h1 h2 => ?_⟩ <;>
    simp only [lt3asc1, decide_eq_true_eq, decide_eq_false_iff_not] at * <;> omega

theorem lt2asc2_iff (a b : Int × Int) : lt2asc2 a b = true ↔ a.1 < b.1 ∨ (a.1 = b.1 ∧ a.2 < b.2) := by
  simp [lt2asc2]

theorem lt3asc2_iff (a b : Int × Int × Int) :
    lt3asc2 a b = true ↔ a.1 < b.1 ∨ (a.1 = b.1 ∧ a.2.1 < b.2.1) := by
  simp [lt3asc2]

theorem strictWeak_lt2asc2 : StrictWeak lt2asc2 := by
  refine ⟨fun a b h => ?_, fun a b c h1 h2 => ?_⟩
  · rw [← Bool.not_eq_true, lt2asc2_iff] at *; omega
  · rw [← Bool.not_eq_true, lt2asc2_iff] at *; omega

theorem strictWeak_lt3asc2 : StrictWeak lt3asc2 := by
  refine ⟨fun a b h => ?_, fun a b c h1 h2 => ?_⟩
  · rw [← Bool.not_eq_true, lt3asc2_iff] at *; omega
  · rw [← Bool.not_eq_true, lt3asc2_iff] at *; omega

/-- `intSort1asc1` with 32-bit integers: the result is a permutation of the array, in
non-decreasing order. -/
theorem C02_intSort1asc1 (a : Arr Int) (n : Int) (h0 : 0 ≤ n) (hn : n < 2 ^ 31) (h1 : a.lo ≤ 0)
    (h2 : n ≤ a.hi) :
    Holds (sort lt1 32 a n) (fun r => PermOn a r 0 n ∧
      ∀ i j, 0 ≤ i → i < j → j < n → r.get i ≤ r.get j) := by
  refine (C02_sort lt1 strictWeak_lt1 a n 31 h0 hn h1 h2).mono ?_
  rintro r ⟨hp, hs⟩
  refine ⟨hp, fun i j i1 ij jn => ?_⟩
  have := hs i j i1 ij jn
  simp only [lt1, decide_eq_false_iff_not] at this
  omega

/-- `intSort2asc1` with 32-bit integers: pairs are permuted as a whole, in non-decreasing
order of their first component. -/
theorem C02_intSort2asc1 (a : Arr (Int × Int)) (n : Int) (h0 : 0 ≤ n) (hn : n < 2 ^ 31) (h1 : a.lo ≤ 0)
    (h2 : n ≤ a.hi) :
    Holds (sort lt2asc1 32 a n) (fun r => PermOn a r 0 n ∧
      ∀ i j, 0 ≤ i → i < j → j < n → (r.get i).1 ≤ (r.get j).1) := by
  refine (C02_sort lt2asc1 strictWeak_lt2asc1 a n 31 h0 hn h1 h2).mono ?_
  rintro r ⟨hp, hs⟩
  refine ⟨hp, fun i j i1 ij jn => ?_⟩
  have := hs i j i1 ij jn
  simp only [lt2asc1, decide_eq_false_iff_not] at this
  omega

/-- `intSort2asc2` with 32-bit integers: pairs in lexicographic order. -/
theorem C02_intSort2asc2 (a : Arr (Int × Int)) (n : Int) (h0 : 0 ≤ n) (hn : n < 2 ^ 31) (h1 : a.lo ≤ 0)
    (h2 : n ≤ a.hi) :
    Holds (sort lt2asc2 32 a n) (fun r => PermOn a r 0 n ∧
      ∀ i j, 0 ≤ i → i < j → j < n →
        (r.get i).1 < (r.get j).1 ∨ ((r.get i).1 = (r.get j).1 ∧ (r.get i).2 ≤ (r.get j).2)) := by
  refine (C02_sort lt2asc2 strictWeak_lt2asc2 a n 31 h0 hn h1 h2).mono ?_
  rintro r ⟨hp, hs⟩
  refine ⟨hp, fun i j i1 ij jn => ?_⟩
  have := hs i j i1 ij jn
  rw [← Bool.not_eq_true, lt2asc2_iff] at this
  omega

-- The comparison hypothesis is met by all comparisons of the library (above); a computed case:
example : (sort lt1 32 (Arr.ofList 0 [5, 3, 9, 1, 7, 7, 2, 8, 0, 4, 6]) 11).map Arr.toList
    = .ok [0, 1, 2, 3, 4, 5, 6, 7, 7, 8, 9] := by decide +kernel
example : (sort lt2asc1 32 (Arr.ofList 0 [(5, 0), (3, 1), (9, 2), (1, 3), (1, 4), (0, 5), (3, 6), (2, 7)]) 8).map
    Arr.toList = .ok [(0, 5), (1, 3), (1, 4), (2, 7), (3, 1), (3, 6), (5, 0), (9, 2)] := by decide +kernel

end Scotch
