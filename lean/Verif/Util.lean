import Mathlib.Data.Fintype.Card
import Mathlib.Data.Int.Interval
import Mathlib.Algebra.BigOperators.Intervals
import Mathlib.Algebra.Order.BigOperators.Group.Finset

/-!
# General facts about integer intervals

Pigeonhole on integer intervals and sums over integer intervals.  No definition of the
model appears here.
-/

namespace Scotch

/-- `f` maps `[lo, lo+n)` injectively into `[base, base+n)`. -/
structure IsInj (lo base n : Int) (f : Int → Int) : Prop where
  range : ∀ i, lo ≤ i → i < lo + n → base ≤ f i ∧ f i < base + n
  inj : ∀ i j, lo ≤ i → i < lo + n → lo ≤ j → j < lo + n → f i = f j → i = j

/-- Pigeonhole: an injective map between integer intervals of the same length is onto. -/
theorem IsInj.surj {lo base n : Int} {f : Int → Int} (h : IsInj lo base n f) :
    ∀ y, base ≤ y → y < base + n → ∃ i, lo ≤ i ∧ i < lo + n ∧ f i = y := by
  intro y hy1 hy2
  obtain ⟨m, rfl⟩ : ∃ m : Nat, n = m := ⟨n.toNat, by omega⟩
  let g : Fin m → Fin m := fun i =>
    ⟨(f (lo + (i : Nat)) - base).toNat, by
      have := h.range (lo + (i : Nat)) (by omega) (by omega)
      omega⟩
  have ginj : Function.Injective g := by
    intro a b hab
    have ha := h.range (lo + (a : Nat)) (by omega) (by omega)
    have hb := h.range (lo + (b : Nat)) (by omega) (by omega)
    have hv : (f (lo + (a : Nat)) - base).toNat = (f (lo + (b : Nat)) - base).toNat := by
      simpa [g] using congrArg Fin.val hab
    have := h.inj (lo + (a : Nat)) (lo + (b : Nat)) (by omega) (by omega) (by omega) (by omega)
      (by omega)
    exact Fin.ext (by omega)
  have gsurj : Function.Surjective g := Finite.injective_iff_surjective.mp ginj
  obtain ⟨i, hi⟩ := gsurj ⟨(y - base).toNat, by omega⟩
  have hr := h.range (lo + (i : Nat)) (by omega) (by omega)
  have hv : (f (lo + (i : Nat)) - base).toNat = (y - base).toNat := by
    simpa [g] using congrArg Fin.val hi
  exact ⟨lo + (i : Nat), by omega, by omega, by omega⟩

/-- Sum of `f` over the integer interval `[lo, hi)`. -/
def sumI (lo hi : Int) (f : Int → Int) : Int := ∑ i ∈ Finset.Ico lo hi, f i

theorem Ico_succ (lo i : Int) (h : lo ≤ i) :
    Finset.Ico lo (i + 1) = insert i (Finset.Ico lo i) := by
  ext x; simp only [Finset.mem_Ico, Finset.mem_insert]; omega

theorem sumI_empty {lo hi : Int} (h : hi ≤ lo) (f : Int → Int) : sumI lo hi f = 0 := by
  unfold sumI; rw [Finset.Ico_eq_empty (by omega)]; rfl

theorem sumI_succ {lo i : Int} (h : lo ≤ i) (f : Int → Int) :
    sumI lo (i + 1) f = sumI lo i f + f i := by
  unfold sumI
  rw [Ico_succ lo i h, Finset.sum_insert (by simp), add_comm]

theorem sumI_congr {lo hi : Int} {f g : Int → Int} (h : ∀ i, lo ≤ i → i < hi → f i = g i) :
    sumI lo hi f = sumI lo hi g := by
  unfold sumI
  refine Finset.sum_congr rfl ?_
  intro x hx
  rw [Finset.mem_Ico] at hx
  exact h x hx.1 hx.2

theorem sumI_add_dist (lo hi : Int) (f g : Int → Int) :
    sumI lo hi (fun i => f i + g i) = sumI lo hi f + sumI lo hi g := by
  unfold sumI; exact Finset.sum_add_distrib

theorem sumI_split {lo mid hi : Int} (h1 : lo ≤ mid) (h2 : mid ≤ hi) (f : Int → Int) :
    sumI lo hi f = sumI lo mid f + sumI mid hi f := by
  unfold sumI
  rw [← Finset.sum_union]
  · congr 1; ext x; simp only [Finset.mem_Ico, Finset.mem_union]; omega
  · rw [Finset.disjoint_left]; intro x; simp only [Finset.mem_Ico]; omega

theorem sumI_nonneg {lo hi : Int} {f : Int → Int} (h : ∀ i, lo ≤ i → i < hi → 0 ≤ f i) :
    0 ≤ sumI lo hi f := by
  unfold sumI
  refine Finset.sum_nonneg ?_
  intro x hx
  rw [Finset.mem_Ico] at hx
  exact h x hx.1 hx.2

theorem sumI_const {lo hi : Int} (h : lo ≤ hi) (c : Int) :
    sumI lo hi (fun _ => c) = (hi - lo) * c := by
  unfold sumI
  rw [Finset.sum_const, Int.card_Ico]
  simp only [nsmul_eq_mul]
  congr 1
  omega

theorem sumI_mono {lo hi : Int} {f g : Int → Int} (h : ∀ i, lo ≤ i → i < hi → f i ≤ g i) :
    sumI lo hi f ≤ sumI lo hi g := by
  unfold sumI
  refine Finset.sum_le_sum ?_
  intro x hx
  rw [Finset.mem_Ico] at hx
  exact h x hx.1 hx.2

theorem sumI_comm (a b c d : Int) (f : Int → Int → Int) :
    sumI a b (fun i => sumI c d (fun j => f i j)) = sumI c d (fun j => sumI a b (fun i => f i j)) := by
  unfold sumI; exact Finset.sum_comm

/-- Replacing one term of a sum. -/
theorem sumI_update {lo hi i : Int} (h1 : lo ≤ i) (h2 : i < hi) (f : Int → Int) (v : Int) :
    sumI lo hi (fun j => if j = i then v else f j) = sumI lo hi f - f i + v := by
  rw [sumI_split h1 (by omega : i ≤ hi), sumI_split h1 (by omega : i ≤ hi) f]
  rw [sumI_split (by omega : i ≤ i + 1) (by omega : i + 1 ≤ hi),
    sumI_split (by omega : i ≤ i + 1) (by omega : i + 1 ≤ hi) f]
  rw [sumI_succ (le_refl i), sumI_succ (le_refl i), sumI_empty (le_refl i), sumI_empty (le_refl i)]
  rw [sumI_congr (lo := lo) (hi := i) (g := f) (by intro j _ hj; simp [show j ≠ i by omega])]
  rw [sumI_congr (lo := i + 1) (hi := hi) (g := f) (by intro j hj _; simp [show j ≠ i by omega])]
  simp only [if_true]
  omega

theorem sumI_single {lo hi a : Int} (h1 : lo ≤ a) (h2 : a < hi) (f : Int → Int) : sumI lo hi (fun v => if v = a then f v else 0) = f a := by
  have := sumI_update h1 h2 (fun _ => 0) (f a)
  rw [sumI_const (by omega)] at this
  rw [sumI_congr (g := fun j => if j = a then f a else 0) (fun i _ _ => by
    by_cases e : i = a
    · rw [if_pos e, if_pos e, e]
    · rw [if_neg e, if_neg e])]
  simpa using this

end Scotch
