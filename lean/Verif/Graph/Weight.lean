import Verif.Graph.LemmasEven
import Mathlib.Algebra.BigOperators.Ring.Finset

/-! # Graphs: adjacency matrix -/

set_option autoImplicit false
set_option linter.unusedSimpArgs false

namespace Scotch

theorem sumI_mul_right (lo hi : Int) (f : Int → Int) (c : Int) : sumI lo hi (fun i => f i * c) = sumI lo hi f * c := by
  unfold sumI; rw [Finset.sum_mul]

theorem sumI_mul_left (lo hi : Int) (f : Int → Int) (c : Int) : sumI lo hi (fun i => c * f i) = c * sumI lo hi f := by
  unfold sumI; rw [Finset.mul_sum]

theorem sumI_neg (lo hi : Int) (f : Int → Int) : sumI lo hi (fun i => - f i) = - sumI lo hi f := by
  unfold sumI; rw [Finset.sum_neg_distrib]

theorem sumI_sub_dist (lo hi : Int) (f g : Int → Int) :
    sumI lo hi (fun i => f i - g i) = sumI lo hi f - sumI lo hi g := by
  unfold sumI; rw [Finset.sum_sub_distrib]

theorem sumI_zero (lo hi : Int) : sumI lo hi (fun _ => 0) = 0 := by
  unfold sumI; simp

theorem sumI_eq_zero {lo hi : Int} {f : Int → Int} (h : ∀ i, lo ≤ i → i < hi → f i = 0) : sumI lo hi f = 0 := by
  rw [sumI_congr (g := fun _ => 0) h, sumI_zero]

namespace Graph
variable {g : Graph}

/-- Two vertices are linked by an arc. -/
def Adj (g : Graph) (v w : Int) : Prop := ∃ e, g.vert v ≤ e ∧ e < g.vend v ∧ g.dest e = w

theorem adj_iff (v w : Int) : g.Adj v w ↔ ∃ p ∈ g.nbrs v, p.1 = w := by
  constructor
  · rintro ⟨e, h1, h2, h3⟩
    exact ⟨_, nbrs_mk g v h1 h2, h3⟩
  · rintro ⟨p, hp, rfl⟩
    obtain ⟨e, h1, h2, h3, -⟩ := (mem_nbrs g v p).1 hp
    exact ⟨e, h1, h2, h3⟩

theorem ConsE.adj_symm (h : ConsE g) {v w : Int} (hv : g.Vertex v) (ha : g.Adj v w) : g.Adj w v := by
  obtain ⟨e, h1, h2, rfl⟩ := ha
  obtain ⟨e', a1, a2, a3, -⟩ := h.symm v e hv h1 h2
  exact ⟨e', a1, a2, a3⟩

theorem ConsE.adj_vertex (h : ConsE g) {v w : Int} (hv : g.Vertex v) (ha : g.Adj v w) : g.Vertex w ∧ w ≠ v := by
  obtain ⟨e, h1, h2, rfl⟩ := ha
  exact h.inside v e hv h1 h2

/-- Load of the arcs between two vertices. -/
def wgt (g : Graph) (v w : Int) : Int := sumI (g.vert v) (g.vend v) (fun e => if g.dest e = w then g.edlo e else 0)

theorem wgt_arc (h : ConsE g) {v e : Int} (hv : g.Vertex v) (h1 : g.vert v ≤ e) (h2 : e < g.vend v) : g.wgt v (g.dest e) = g.edlo e := by
  unfold wgt
  rw [← sumI_single h1 h2 g.edlo]
  apply sumI_congr
  intro i i1 i2
  by_cases hi : i = e
  · rw [if_pos hi, if_pos (by rw [hi])]
  · rw [if_neg hi, if_neg]
    intro hd
    exact hi (h.simple v hv i e i1 i2 h1 h2 hd)

theorem wgt_none {v w : Int} (h : ¬ g.Adj v w) : g.wgt v w = 0 := by
  unfold wgt
  apply sumI_eq_zero
  intro i i1 i2
  rw [if_neg]
  intro hd
  exact h ⟨i, i1, i2, hd⟩

theorem wgt_symm (h : ConsE g) {v w : Int} (hv : g.Vertex v) (hw : g.Vertex w) : g.wgt v w = g.wgt w v := by
  by_cases ha : g.Adj v w
  · obtain ⟨e, h1, h2, rfl⟩ := ha
    obtain ⟨e', a1, a2, a3, a4⟩ := h.symm v e hv h1 h2
    rw [wgt_arc h hv h1 h2]
    have := wgt_arc h hw a1 a2
    rw [a3] at this
    rw [this, a4]
  · rw [wgt_none ha, wgt_none]
    intro hb
    exact ha (h.adj_symm hw hb)

theorem wgt_self (h : ConsE g) {v : Int} (hv : g.Vertex v) : g.wgt v v = 0 :=
  wgt_none (fun ha => (h.adj_vertex hv ha).2 rfl)

theorem wgt_nonneg (h : ConsE g) {v w : Int} (hv : g.Vertex v) : 0 ≤ g.wgt v w := by
  unfold wgt
  apply sumI_nonneg
  intro i i1 i2
  by_cases hd : g.dest i = w
  · rw [if_pos hd]; exact h.edlo v i hv i1 i2
  · rw [if_neg hd]

/-- A sum over the arcs of a vertex is a sum over all vertices. -/
theorem arc_sum (h : ConsE g) {v : Int} (hv : g.Vertex v) (F : Int → Int) :
    sumI (g.vert v) (g.vend v) (fun e => g.edlo e * F (g.dest e)) = sumI g.baseval g.vertnnd (fun w => g.wgt v w * F w) := by
  have e1 : sumI g.baseval g.vertnnd (fun w => g.wgt v w * F w)
      = sumI g.baseval g.vertnnd (fun w => sumI (g.vert v) (g.vend v) (fun e => (if g.dest e = w then g.edlo e else 0) * F w)) := by
    apply sumI_congr
    intro w _ _
    rw [sumI_mul_right]; rfl
  rw [e1, sumI_comm]
  apply sumI_congr
  intro e h1 h2
  have hd := (h.inside v e hv h1 h2).1
  have hs := sumI_single hd.1 hd.2 (fun w => g.edlo e * F w)
  rw [← hs]
  apply sumI_congr
  intro w _ _
  by_cases hw : w = g.dest e
  · rw [if_pos hw, if_pos hw.symm]
  · rw [if_neg hw, if_neg (fun hx => hw hx.symm), Int.zero_mul]

theorem nbrs_sum (h : ConsE g) {v : Int} (hv : g.Vertex v) (F : Int → Int) :
    ((g.nbrs v).map (fun p => p.2 * F p.1)).sum = sumI g.baseval g.vertnnd (fun w => g.wgt v w * F w) := by
  rw [← arc_sum h hv]
  unfold nbrs arcs
  rw [List.map_map]
  have : ((fun p : Int × Int => p.2 * F p.1) ∘ fun e => (g.dest e, g.edlo e)) = fun e => g.edlo e * F (g.dest e) := rfl
  rw [this, sum_map_range]
  have := (h.range v hv).2
  congr 1
  omega

end Graph
end Scotch
