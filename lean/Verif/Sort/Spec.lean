import Verif.Base
import Mathlib.Logic.Equiv.Basic

/-! # Sorting: specification -/

namespace Scotch

/-- `r` is obtained from `a` by permuting the cells of indices `[lo, hi)`; all other cells and the
bounds are unchanged. -/
def PermOn {α : Type} (a r : Arr α) (lo hi : Int) : Prop :=
  r.lo = a.lo ∧ r.hi = a.hi ∧
  ∃ f : Equiv.Perm Int, (∀ i, ¬ (lo ≤ i ∧ i < hi) → f i = i) ∧ ∀ i, r.get i = a.get (f i)

/-- A boolean strict comparison whose negation is a total preorder. -/
structure StrictWeak {α : Type} (lt : α → α → Bool) : Prop where
  asymm : ∀ a b, lt a b = true → lt b a = false
  trans : ∀ a b c, lt b a = false → lt c b = false → lt c a = false

/-- The cells `[lo, hi)` are in ascending order: no cell is smaller than an earlier one. -/
def SortedOn {α : Type} (lt : α → α → Bool) (a : Arr α) (lo hi : Int) : Prop :=
  ∀ i j, lo ≤ i → i < j → j < hi → lt (a.get j) (a.get i) = false

end Scotch
