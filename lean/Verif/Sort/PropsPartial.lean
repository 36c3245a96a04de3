import Verif.Sort.LemmasPartial
import Verif.Sort.Props

/-!
# Partial sorting: property C44
-/

set_option autoImplicit false

namespace Scotch
open Sorting

/-- **C44** (partial sorting). Whatever the records, their number and the maximum number of levels, the partial sort ends without fault (no access outside of the
array, no overflow of the explicit stack, no endless loop) and its result is a permutation of the first `n` cells, other cells being unchanged. When there are more
than six records, it is at least partitioned: at some inner place, no record before is greater than a record after. -/
theorem C44_psort {α : Type} (lt : α → α → Bool) (hlt : StrictWeak lt) (a : Arr α) (n : Int) (bits : Nat) (maxLevels : Int) (hn : n < 2 ^ bits)
    (h1 : a.lo ≤ 0) (h2 : n ≤ a.hi) :
    Holds (psort lt (bits + 1) maxLevels a n) (fun r => PermOn a r 0 n ∧
      (n > 6 → ∃ k, 0 < k ∧ k < n ∧ ∀ i j, 0 ≤ i → i < k → k ≤ j → j < n → lt (r.get j) (r.get i) = false)) :=
  psort_holds hlt a n bits maxLevels hn h1 h2

/-- The instance used to order vertices by degree before matching: pairs (degree, vertex), three levels. -/
theorem C44_intPsort2asc1 (a : Arr (Int × Int)) (n : Int) (hn : n < 2 ^ 31) (h1 : a.lo ≤ 0) (h2 : n ≤ a.hi) :
    Holds (psort lt2asc1 32 3 a n) (fun r => PermOn a r 0 n ∧
      (n > 6 → ∃ k, 0 < k ∧ k < n ∧ ∀ i j, 0 ≤ i → i < k → k ≤ j → j < n → (r.get i).1 ≤ (r.get j).1)) := by
  refine (C44_psort lt2asc1 strictWeak_lt2asc1 a n 31 3 hn h1 h2).mono ?_
  rintro r ⟨hp, hs⟩
  refine ⟨hp, fun h6 => ?_⟩
  obtain ⟨k, k1, k2, k3⟩ := hs h6
  refine ⟨k, k1, k2, fun i j h1 h2 h3 h4 => ?_⟩
  have := k3 i j h1 h2 h3 h4
  simp only [lt2asc1, decide_eq_false_iff_not] at this
  omega

-- A computed case, in which records are not completely sorted.
example : (psort lt2asc1 32 1 (Arr.ofList 0 [(5, 0), (3, 1), (9, 2), (1, 3), (1, 4), (0, 5), (3, 6), (2, 7)]) 8).map Arr.toList =
    .ok [(1, 3), (0, 5), (1, 4), (2, 7), (9, 2), (3, 1), (3, 6), (5, 0)] := by decide +kernel

end Scotch
