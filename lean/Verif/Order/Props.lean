import Verif.Order.LemmasTree

/-!
# Orderings: properties C22–C25
-/

namespace Scotch
open Cblk

/-- **C22** (inverse permutation). For every permutation `permtab` of
`permbas … permbas+n-1` and every destination array with at least `n` cells (whatever its
content), the call does not fault, modifies no cell beyond the first `n`, and its
result is the inverse permutation, based on `peribas`: a permutation such that each of the two
tables undoes the other. -/
theorem C22_inverse_permutation (permtab peritab : Arr Int) (permbas n peribas : Int)
    (hn : 0 ≤ n) (hperm : IsPerm permbas n permtab.get)
    (h1 : permtab.lo ≤ 0 ∧ n ≤ permtab.hi) (h2 : peritab.lo ≤ 0 ∧ n ≤ peritab.hi) :
    Holds (orderPeri permtab permbas n peritab peribas) (fun r =>
      IsPerm peribas n r.get ∧
      (∀ i, 0 ≤ i → i < n → r.get (permtab.get i - permbas) = i + peribas) ∧
      (∀ j, 0 ≤ j → j < n → permtab.get (r.get j - peribas) = j + permbas) ∧
      (∀ k, (k < 0 ∨ n ≤ k) → r.get k = peritab.get k)) := by
  refine (orderPeri_holds hn hperm.isInj h1 h2).mono ?_
  rintro r ⟨_, _, hr, hf⟩
  have hsurj : ∀ j, 0 ≤ j → j < n → ∃ i, 0 ≤ i ∧ i < n ∧ permtab.get i = j + permbas := by
    intro j hj1 hj2
    obtain ⟨i, a, b, c, _⟩ := hperm.2 (j + permbas) (by omega) (by omega)
    exact ⟨i, a, b, c⟩
  have hj : ∀ j, 0 ≤ j → j < n → ∃ i, 0 ≤ i ∧ i < n ∧ permtab.get i = j + permbas ∧
      r.get j = i + peribas := by
    intro j hj1 hj2
    obtain ⟨i, a, b, c⟩ := hsurj j hj1 hj2
    refine ⟨i, a, b, c, ?_⟩
    have := hr i a b
    rw [c] at this
    rw [← this]; congr 1; omega
  refine ⟨IsInj.isPerm ⟨?_, ?_⟩, hr, ?_, hf⟩
  · intro j hj1 hj2
    obtain ⟨i, a, b, c, d⟩ := hj j hj1 (by omega)
    omega
  · intro j j' hj1 hj2 hj1' hj2' e
    obtain ⟨i, a, b, c, d⟩ := hj j hj1 (by omega)
    obtain ⟨i', a', b', c', d'⟩ := hj j' hj1' (by omega)
    have : i = i' := by omega
    subst this; omega
  · intro j hj1 hj2
    obtain ⟨i, a, b, c, d⟩ := hj j hj1 hj2
    have : r.get j - peribas = i := by omega
    rw [this, c]

/-- Inverting twice gives back the original permutation (C22, corollary). -/
theorem C22_double_inverse (permtab peritab buf : Arr Int) (permbas n peribas : Int)
    (hn : 0 ≤ n) (hperm : IsPerm permbas n permtab.get)
    (h1 : permtab.lo ≤ 0 ∧ n ≤ permtab.hi) (h2 : peritab.lo ≤ 0 ∧ n ≤ peritab.hi)
    (h3 : buf.lo ≤ 0 ∧ n ≤ buf.hi) :
    Holds (do
        let r ← orderPeri permtab permbas n peritab peribas
        orderPeri r peribas n buf permbas)
      (fun r => ∀ i, 0 ≤ i → i < n → r.get i = permtab.get i) := by
  msimp
  refine ((C22_inverse_permutation permtab peritab permbas n peribas hn hperm h1 h2).and
    (orderPeri_holds (peribas := peribas) hn hperm.isInj h1 h2)).mono ?_
  rintro r ⟨⟨hp, hr, hr', _⟩, hlo, hhi, _, _⟩
  refine (C22_inverse_permutation r buf peribas n permbas hn hp (by omega) h3).mono ?_
  rintro q ⟨_, hq, _, _⟩
  intro i hi1 hi2
  have hin := hperm.1 i hi1 hi2
  have e1 := hr i hi1 hi2
  have e2 := hq (permtab.get i - permbas) (by omega) (by omega)
  rw [e1] at e2
  have : i + peribas - peribas = i := by omega
  rw [this] at e2
  omega

-- Hypotheses are satisfiable, and the call computes what is expected.
example : IsPerm 1 4 (Arr.ofList 0 [3, 1, 4, 2] : Arr Int).get := by
  refine IsInj.isPerm ⟨?_, ?_⟩ <;> intro i
  · intro h1 h2
    have : i = 0 ∨ i = 1 ∨ i = 2 ∨ i = 3 := by omega
    rcases this with rfl | rfl | rfl | rfl <;> decide
  · intro j h1 h2 h3 h4
    have hi : i = 0 ∨ i = 1 ∨ i = 2 ∨ i = 3 := by omega
    have hj : j = 0 ∨ j = 1 ∨ j = 2 ∨ j = 3 := by omega
    rcases hi with rfl | rfl | rfl | rfl <;> rcases hj with rfl | rfl | rfl | rfl <;> decide
example : (orderPeri (Arr.ofList 0 [3, 1, 4, 2]) 1 4 (Arr.const 0 4 99) 0).map Arr.toList
    = .ok [1, 3, 0, 2] := by decide

/-- **C23** (ordering checker). On any ordering structure laid out in memory, the checker does
not fault and returns 0 exactly when the ordering is valid: `peritab` is a permutation and the
block tree is coherent, covers all vertices, and has the recorded numbers of column blocks
and nodes. -/
theorem C23_orderCheck_iff_valid (o : Order) (hm : OrderMem o) :
    Holds (orderCheck o) (fun r => r = 0 ↔ ValidOrder o) :=
  orderCheck_holds o hm

/-- A small ordering used as a witness: a nested dissection node with two leaf parts, and a
separator that is a sequence of two leaves. -/
def orderExample : Order where
  baseval := 1
  vnodnbr := 6
  treenbr := 6
  cblknbr := 4
  cblktre := .node ORDERCBLKNEDI 6 3
    [.leaf ORDERCBLKLEAF 2 0, .leaf ORDERCBLKLEAF 1 0,
     .node ORDERCBLKSEQU 3 2 [.leaf ORDERCBLKLEAF 2 0, .leaf ORDERCBLKLEAF 1 0]]
  peritab := Arr.ofList 0 [3, 1, 4, 2, 6, 5]

theorem orderExample_mem : OrderMem orderExample := by
  refine ⟨by decide, ?_⟩
  simp [orderExample, Alloc, AllocL]

example : orderCheck orderExample = .ok 0 := by decide
example : orderCheck { orderExample with peritab := Arr.ofList 0 [3, 1, 4, 2, 6, 6] } = .ok 1 := by
  decide
example : orderCheck { orderExample with cblknbr := 3 } = .ok 1 := by decide

/-- The witness is a valid ordering. -/
theorem orderExample_valid : ValidOrder orderExample :=
  ((C23_orderCheck_iff_valid orderExample orderExample_mem).elim (a := 0) (by decide)).mp rfl

/-- **C24** (column block ranges). For every valid ordering and every array of at least
`cblknbr+1` cells, the range array is written without fault; it starts at the base value, each
entry is the previous one plus the (positive) size of the corresponding block of the
tree, and it ends at base value plus number of vertices. Cells beyond are left untouched. -/
theorem C24_orderRang (o : Order) (rangtab : Arr Int) (hm : OrderMem o) (hv : ValidOrder o)
    (h1 : rangtab.lo ≤ 0) (h2 : o.cblknbr + 1 ≤ rangtab.hi) :
    Holds (orderRang o rangtab) (fun r =>
      r.get 0 = o.baseval ∧ r.get o.cblknbr = o.baseval + o.vnodnbr ∧
      (∀ k : Nat, (h : k < o.cblktre.leaves.length) →
        r.get (k + 1) = r.get k + o.cblktre.leaves[k] ∧ 1 ≤ o.cblktre.leaves[k]) ∧
      (o.cblktre.leaves.length : Int) = o.cblknbr ∧
      ∀ i, (i < 0 ∨ o.cblknbr < i) → r.get i = rangtab.get i) := by
  have hc := hv.cblk
  have hw := width_pos _ hm.tree hv.tree
  simp only [width] at hc hw
  unfold orderRang
  msimp
  refine (orderRang2_holds o.cblktre _ hm.tree h1 (by simp only; omega)).mono ?_
  rintro s ⟨a1, a2, a3, a4, a5, a6⟩
  simp only at a1 a2 a3 a4 a5 a6
  have hsum := leaves_sum _ hv.tree
  rw [← hv.size] at hsum
  have hlast : s.rangidx = o.cblknbr := by omega
  have hget : ∀ k : Nat, k ≤ o.cblktre.leaves.length →
      (s.rangtab.set s.rangidx s.ordenum).get k =
        o.baseval + (o.cblktre.leaves.take k).sum := by
    intro k hk
    by_cases hk' : k = o.cblktre.leaves.length
    · subst hk'
      have : ((o.cblktre.leaves.length : Nat) : Int) = s.rangidx := by omega
      rw [this, Arr.set_get_same, List.take_length]; omega
    · rw [Arr.set_get_ne _ _ (by omega)]
      have := a5 k (by omega)
      rw [zero_add] at this
      exact this
  refine ⟨⟨by omega, by omega⟩, ?_, ?_, ?_, by omega, ?_⟩
  · have := hget 0 (by omega)
    simpa using this
  · have := hget o.cblktre.leaves.length (le_refl _)
    rw [List.take_length, hsum] at this
    rw [← this, hc]
  · intro k hk
    have e1 := hget k (by omega)
    have e2 := hget (k + 1) (by omega)
    have e3 : ((k + 1 : Nat) : Int) = (k : Int) + 1 := by push_cast; rfl
    rw [e3] at e2
    refine ⟨?_, leaves_pos _ hv.tree _ (List.getElem_mem hk)⟩
    rw [e2, e1, List.take_succ_eq_append_getElem hk, List.sum_append]
    simp [add_assoc]
  · intro i hi
    rw [Arr.set_get_ne _ _ (by omega), a6 i (by omega)]

/-- C24, consequence: ranges are strictly increasing. -/
theorem C24_ranges_increasing (o : Order) (rangtab : Arr Int) (hm : OrderMem o) (hv : ValidOrder o)
    (h1 : rangtab.lo ≤ 0) (h2 : o.cblknbr + 1 ≤ rangtab.hi) :
    Holds (orderRang o rangtab) (fun r =>
      ∀ k, 0 ≤ k → k < o.cblknbr → r.get k < r.get (k + 1)) := by
  refine (C24_orderRang o rangtab hm hv h1 h2).mono ?_
  rintro r ⟨_, _, h, hl, _⟩ k hk1 hk2
  obtain ⟨n, rfl⟩ : ∃ n : Nat, k = n := ⟨k.toNat, by omega⟩
  have := h n (by omega)
  omega

example : (orderRang orderExample (Arr.const 0 5 99)).map Arr.toList = .ok [1, 3, 4, 6, 7] := by
  decide

/-- **C25** (elimination tree). For every valid ordering and every array holding `cblknbr`
cells from the base value on, the father table is written without fault; every father
is −1 or a block of higher number; and the table reflects the block tree: blocks of disconnected
parts are not related, blocks of the parts of a nested dissection node descend
from the last block of its separator, and blocks of a sequence descend from the last block of every
later element. Cells beyond are left untouched. -/
theorem C25_orderTree (o : Order) (treetax : Arr Int) (hm : OrderMem o) (hv : ValidOrder o)
    (hb : 0 ≤ o.baseval) (h1 : treetax.lo ≤ o.baseval)
    (h2 : o.baseval + o.cblknbr ≤ treetax.hi) :
    Holds (orderTree o treetax) (fun r =>
      (∀ k, o.baseval ≤ k → k < o.baseval + o.cblknbr →
        r.get k = -1 ∨ (k < r.get k ∧ r.get k < o.baseval + o.cblknbr)) ∧
      o.cblktre.Reflects r.get o.baseval ∧
      r.get (o.baseval + o.cblknbr - 1) = -1 ∧
      (∀ k, (k < o.baseval ∨ o.baseval + o.cblknbr ≤ k) → r.get k = treetax.get k)) := by
  have hc := hv.cblk
  unfold orderTree
  msimp
  refine (orderTree2_holds o.cblktre _ (-1) o.baseval hm.tree hv.tree (by simp only; omega) h1
    (by simp only; omega)).mono ?_
  rintro s ⟨⟨a1, a2, a3, a4⟩, g⟩
  rw [← hc] at a4 g
  simp only at a4
  obtain ⟨hs, hr⟩ := g s.treetax.get (fun _ _ _ => rfl)
  have hs1 := hs.step
  refine ⟨hs1, hr (o.baseval + o.cblknbr) ⟨hb, hs1, le_refl _, Or.inl rfl⟩, hs.last, a4⟩

example : (orderTree orderExample (Arr.const 1 5 99)).map Arr.toList = .ok [4, 4, 4, -1] := by
  decide

end Scotch
