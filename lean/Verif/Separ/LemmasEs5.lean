import Verif.Separ.LemmasEs4
import Verif.Bipart.LemmasCut
import Verif.Bipart.Lemmas
import Verif.Bipart.LemmasGpGrow

/-! # Bipartite graph of the cut edges: counts -/

set_option autoImplicit false
set_option linter.unusedSimpArgs false

namespace Scotch.Separ
open Graph Bipart

/-- Number of cut arcs of a vertex. -/
def cutDeg (g : Graph) (p : Int → Int) (v : Int) : Int := sumI (g.vert v) (g.vend v) (fun e => if p (g.dest e) = p v then 0 else 1)

/-- Number of vertices of a part among the first ones of a list. -/
def cnt (p F : Int → Int) (k i : Int) : Int := sumI 0 i (fun j => if p (F j) = k then 1 else 0)

/-- Number of cut arcs of the vertices of a part among the first ones of a list. -/
def eds (g : Graph) (p F : Int → Int) (k i : Int) : Int := sumI 0 i (fun j => if p (F j) = k then cutDeg g p (F j) else 0)

variable {g : Graph} {p F : Int → Int} {k : Int}

theorem cutDeg_nonneg (v : Int) : 0 ≤ cutDeg g p v := sumI_nonneg fun e _ _ => by split <;> decide

theorem cnt_zero : cnt p F k 0 = 0 := sumI_empty (Int.le_refl 0) _
theorem eds_zero : eds g p F k 0 = 0 := sumI_empty (Int.le_refl 0) _

theorem cnt_succ {i : Int} (h : 0 ≤ i) : cnt p F k (i + 1) = cnt p F k i + if p (F i) = k then 1 else 0 := sumI_succ h _
theorem eds_succ {i : Int} (h : 0 ≤ i) : eds g p F k (i + 1) = eds g p F k i + if p (F i) = k then cutDeg g p (F i) else 0 := sumI_succ h _

theorem cnt_mono {i j : Int} (h0 : 0 ≤ i) (h : i ≤ j) : cnt p F k i ≤ cnt p F k j := by
  unfold cnt
  rw [sumI_split (mid := i) h0 h]
  have := sumI_nonneg (lo := i) (hi := j) (f := fun j => if p (F j) = k then 1 else 0) (fun e _ _ => by split <;> decide)
  omega

theorem eds_mono {i j : Int} (h0 : 0 ≤ i) (h : i ≤ j) : eds g p F k i ≤ eds g p F k j := by
  unfold eds
  rw [sumI_split (mid := i) h0 h]
  have := sumI_nonneg (lo := i) (hi := j) (f := fun j => if p (F j) = k then cutDeg g p (F j) else 0)
    (fun e _ _ => by split; exact cutDeg_nonneg _; exact Int.le_refl 0)
  omega

theorem cnt_nonneg {i : Int} (h0 : 0 ≤ i) : 0 ≤ cnt p F k i := by
  have := cnt_mono (p := p) (F := F) (k := k) (Int.le_refl 0) h0
  rwa [cnt_zero] at this

theorem eds_nonneg {i : Int} (h0 : 0 ≤ i) : 0 ≤ eds g p F k i := by
  have := eds_mono (g := g) (p := p) (F := F) (k := k) (Int.le_refl 0) h0
  rwa [eds_zero] at this

theorem cnt_lt {i j : Int} (h0 : 0 ≤ i) (h : i < j) (hk : p (F i) = k) : cnt p F k i < cnt p F k j := by
  have := cnt_mono (p := p) (F := F) (k := k) (i := i + 1) (j := j) (by omega) (by omega)
  rw [cnt_succ h0, if_pos hk] at this
  omega

theorem cnt_add {n : Int} (h0 : 0 ≤ n) (hp : ∀ j, 0 ≤ j → j < n → p (F j) = 0 ∨ p (F j) = 1) : cnt p F 0 n + cnt p F 1 n = n := by
  unfold cnt
  rw [← sumI_add_dist, sumI_congr (g := fun _ => 1), sumI_const h0]
  · omega
  · intro j h1 h2
    rcases hp j h1 h2 with h | h <;> rw [h] <;> decide

/-- The same graph, where edges have load 1. -/
def unit (g : Graph) : Graph := { g with edlotax := none, edlosum := g.edgenbr }

theorem unit_cons (hc : ConsE g) : ConsE (unit g) := by
  refine ⟨hc.vertnbr, hc.vertnnd, hc.range, hc.inside, ?_, hc.simple, hc.edgenbr, hc.velo, hc.velosum, fun v e _ _ _ => by show (0 : Int) ≤ 1; decide, ?_, hc.degrmax⟩
  · intro v e hv h1 h2
    obtain ⟨e', a, b, c, -⟩ := hc.symm v e hv h1 h2
    exact ⟨e', a, b, c, rfl⟩
  · show g.edgenbr = _
    rw [hc.edgenbr]
    apply sumI_congr
    intro v h1 h2
    show _ = sumI (g.vert v) (g.vend v) (fun _ => 1)
    have := hc.range v ⟨h1, h2⟩
    rw [sumI_const (by omega)]
    omega

theorem cutDeg_sum (hc : ConsE g) (hp : Parts g p) {v : Int} (hv : g.Vertex v) :
    cutDeg g p v = sumI g.baseval g.vertnnd (fun w => (unit g).wgt v w * (if p w = p v then 0 else 1)) := by
  have := arc_sum (unit_cons hc) (v := v) hv (fun w => if p w = p v then 0 else 1)
  unfold cutDeg
  refine Eq.trans ?_ this
  apply sumI_congr
  intro e _ _
  show _ = 1 * _
  rw [Int.one_mul]
  rfl

/-- Each cut edge has an end in each part. -/
theorem cutDeg_both (hc : ConsE g) (hp : Parts g p) :
    over g p 0 (cutDeg g p) = over g p 1 (cutDeg g p) := by
  have h0 : over g p 0 (cutDeg g p) = cut (unit g) p := by
    rw [cut_sum (unit_cons hc) hp, over_zero hp]
    apply sumI_congr
    intro v h1 h2
    rw [cutDeg_sum hc hp ⟨h1, h2⟩, ← sumI_mul_left]
    apply sumI_congr
    intro w w1 w2
    rcases hp v ⟨h1, h2⟩ with a | a <;> rcases hp w ⟨w1, w2⟩ with b | b <;> rw [a, b] <;> simp
  have h1 : over g p 1 (cutDeg g p) = cut (unit g) p := by
    rw [cut_sum' (unit_cons hc) hp, over_one hp]
    apply sumI_congr
    intro v h1 h2
    rw [cutDeg_sum hc hp ⟨h1, h2⟩, ← sumI_mul_left]
    apply sumI_congr
    intro w w1 w2
    rcases hp v ⟨h1, h2⟩ with a | a <;> rcases hp w ⟨w1, w2⟩ with b | b <;> rw [a, b] <;> simp
  rw [h0, h1]

/-- Sum over a list of vertices. -/
theorem sumI_Enum {a : Arr Int} {n lo hi : Int} {P : Int → Prop} (h : Enum a n P) (hle : lo ≤ hi) (hP : ∀ v, P v → lo ≤ v ∧ v < hi) (f : Int → Int)
    (h0 : ∀ v, lo ≤ v → v < hi → ¬ P v → f v = 0) : sumI 0 n (fun j => f (a.get j)) = sumI lo hi f := by
  classical
  obtain ⟨hn, hinj, hmem⟩ := h
  unfold sumI
  symm
  apply Finset.sum_bij_ne_zero (i := fun v hv hne => (((hmem v).1 (Classical.byContradiction fun hP' =>
    hne (h0 v (Finset.mem_Ico.1 hv).1 (Finset.mem_Ico.1 hv).2 hP'))).choose))
  · intro v hv hne
    have := ((hmem v).1 (Classical.byContradiction fun hP' => hne (h0 v (Finset.mem_Ico.1 hv).1 (Finset.mem_Ico.1 hv).2 hP'))).choose_spec
    exact Finset.mem_Ico.2 ⟨this.1, this.2.1⟩
  · intro v hv hne w hw hnw he
    have h1 := ((hmem v).1 (Classical.byContradiction fun hP' => hne (h0 v (Finset.mem_Ico.1 hv).1 (Finset.mem_Ico.1 hv).2 hP'))).choose_spec
    have h2 := ((hmem w).1 (Classical.byContradiction fun hP' => hnw (h0 w (Finset.mem_Ico.1 hw).1 (Finset.mem_Ico.1 hw).2 hP'))).choose_spec
    rw [← h1.2.2, ← h2.2.2, he]
  · intro j hj hne
    have hPj : P (a.get j) := (hmem _).2 ⟨j, (Finset.mem_Ico.1 hj).1, (Finset.mem_Ico.1 hj).2, rfl⟩
    refine ⟨a.get j, Finset.mem_Ico.2 (hP _ hPj), hne, ?_⟩
    have h1 := ((hmem (a.get j)).1 hPj).choose_spec
    exact hinj _ _ h1.1 h1.2.1 (Finset.mem_Ico.1 hj).1 (Finset.mem_Ico.1 hj).2 h1.2.2
  · intro v hv hne
    have h1 := ((hmem v).1 (Classical.byContradiction fun hP' => hne (h0 v (Finset.mem_Ico.1 hv).1 (Finset.mem_Ico.1 hv).2 hP'))).choose_spec
    rw [h1.2.2]

theorem eds_total (hc : ConsE g) (hp : Parts g p) {fron : Arr Int} {n : Int} (hf : Enum fron n (Frontier g p)) : eds g p fron.get 0 n = eds g p fron.get 1 n := by
  have hle : g.baseval ≤ g.vertnnd := by have := hc.vertnnd; have := hc.vertnbr; omega
  have key : ∀ k, eds g p fron.get k n = over g p k (cutDeg g p) := by
    intro k
    unfold eds over
    refine sumI_Enum hf hle (fun v hv => hv.1) (fun v => if p v = k then cutDeg g p v else 0) ?_
    intro v v1 v2 hn
    have : cutDeg g p v = 0 := by
      unfold cutDeg
      apply sumI_eq_zero
      intro e e1 e2
      rw [if_pos]
      exact Classical.byContradiction fun h => hn (frontier_adj.2 ⟨⟨v1, v2⟩, g.dest e, ⟨e, e1, e2, rfl⟩, h⟩)
    rw [this]; split <;> rfl
  rw [key, key, cutDeg_both hc hp]

end Scotch.Separ
