import Verif.Util
import Mathlib.Algebra.BigOperators.Group.List.Basic

/-! # Contents of the cells of a range, as a list -/

set_option autoImplicit false

namespace Scotch
variable {α β : Type}

/-- Values of `f` on `[lo, hi)`. -/
def seg (f : Int → α) (lo hi : Int) : List α := (List.range (hi - lo).toNat).map fun k => f (lo + (k : Nat))

theorem seg_empty (f : Int → α) {lo hi : Int} (h : hi ≤ lo) : seg f lo hi = [] := by
  unfold seg
  rw [show (hi - lo).toNat = 0 by omega]
  rfl

theorem seg_succ (f : Int → α) {lo i : Int} (h : lo ≤ i) : seg f lo (i + 1) = seg f lo i ++ [f i] := by
  unfold seg
  rw [show (i + 1 - lo).toNat = (i - lo).toNat + 1 by omega, List.range_succ, List.map_append]
  simp only [List.map_cons, List.map_nil]
  rw [show lo + ((i - lo).toNat : Int) = i by omega]

theorem seg_length (f : Int → α) {lo hi : Int} (h : lo ≤ hi) : ((seg f lo hi).length : Int) = hi - lo := by
  unfold seg
  simp
  omega

theorem mem_seg (f : Int → α) (lo hi : Int) (x : α) : x ∈ seg f lo hi ↔ ∃ i, lo ≤ i ∧ i < hi ∧ f i = x := by
  unfold seg
  simp only [List.mem_map, List.mem_range]
  constructor
  · rintro ⟨k, hk, rfl⟩
    exact ⟨lo + k, by omega, by omega, rfl⟩
  · rintro ⟨i, h1, h2, rfl⟩
    exact ⟨(i - lo).toNat, by omega, by rw [show lo + ((i - lo).toNat : Int) = i by omega]⟩

theorem seg_congr {f g : Int → α} {lo hi : Int} (h : ∀ i, lo ≤ i → i < hi → f i = g i) : seg f lo hi = seg g lo hi := by
  unfold seg
  apply List.map_congr_left
  intro k hk
  rw [List.mem_range] at hk
  exact h _ (by omega) (by omega)

theorem seg_map (f : Int → α) (g : α → β) (lo hi : Int) : (seg f lo hi).map g = seg (fun i => g (f i)) lo hi := by
  unfold seg
  rw [List.map_map]
  rfl

theorem seg_append (f : Int → α) {lo mid hi : Int} (h1 : lo ≤ mid) (h2 : mid ≤ hi) :
    seg f lo hi = seg f lo mid ++ seg f mid hi := by
  obtain ⟨n, rfl⟩ : ∃ n : Nat, hi = mid + n := ⟨(hi - mid).toNat, by omega⟩
  clear h2
  induction n with
  | zero => rw [seg_empty f (lo := mid) (by omega)]; simp
  | succ n ih =>
    rw [show mid + ((n + 1 : Nat) : Int) = mid + n + 1 by omega, seg_succ f (by omega), seg_succ f (by omega), ih,
      List.append_assoc]

theorem seg_shift (f : Int → α) (lo hi d : Int) : seg f (lo + d) (hi + d) = seg (fun i => f (i + d)) lo hi := by
  unfold seg
  rw [show hi + d - (lo + d) = hi - lo by omega]
  apply List.map_congr_left
  intro k _
  congr 1
  omega

theorem seg_cons (f : Int → α) {lo hi : Int} (h : lo < hi) : seg f lo hi = f lo :: seg f (lo + 1) hi := by
  rw [seg_append f (lo := lo) (mid := lo + 1) (by omega) (by omega), seg_succ f (Int.le_refl lo), seg_empty f (Int.le_refl lo)]
  rfl

theorem sum_seg (f : Int → Int) (lo hi : Int) : (seg f lo hi).sum = sumI lo hi f := by
  by_cases h : lo ≤ hi
  · obtain ⟨n, rfl⟩ : ∃ n : Nat, hi = lo + n := ⟨(hi - lo).toNat, by omega⟩
    clear h
    induction n with
    | zero => rw [seg_empty _ (by omega), sumI_empty (by omega)]; rfl
    | succ n ih =>
      rw [show lo + ((n + 1 : Nat) : Int) = lo + n + 1 by omega, seg_succ f (by omega), List.sum_append, ih,
        sumI_succ (by omega)]
      simp
  · rw [seg_empty _ (by omega), sumI_empty (by omega)]; rfl

theorem seg_getElem (f : Int → α) (lo hi : Int) (k : Nat) (h : k < (seg f lo hi).length) :
    (seg f lo hi)[k] = f (lo + k) := by
  simp only [seg, List.getElem_map, List.getElem_range]

/-- Segments are determined by their length and cells. -/
theorem seg_of_list (l : List α) (f : Int → α) (lo : Int) (h : ∀ k (hk : k < l.length), f (lo + k) = l[k]) :
    seg f lo (lo + l.length) = l := by
  apply List.ext_getElem
  · have := seg_length f (lo := lo) (hi := lo + l.length) (by omega)
    omega
  · intro k h1 h2
    rw [seg_getElem]
    exact h k h2

end Scotch
