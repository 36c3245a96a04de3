import Verif.Coarsen.Spec
import Verif.Graph.Weight

/-!
# Graphs whose vertices are merged

Sums over the vertices of the graph that is obtained are sums over the vertices of the graph: see also `Verif.Coarsen.Use`, for the graphs that are obtained by coarsening.
-/

set_option autoImplicit false
set_option linter.unusedSimpArgs false

namespace Scotch.Coarsen
open Graph

/-- `g'` is a graph obtained from `g` by merging vertices. -/
structure Quot (g : Graph) (coar : Int → Int) (g' : Graph) : Prop where
  inside : ∀ v, g.Vertex v → g'.Vertex (coar v)
  merged : Merged g coar g'
  consistent : g'.Consistent

variable {g g' : Graph} {coar : Int → Int}

/-- A sum over coarse vertices of sums over their vertices. -/
theorem push_in (hin : ∀ v, g.Vertex v → g'.Vertex (coar v)) (f q : Int → Int) :
    sumI g'.baseval g'.vertnnd (fun c => sumI g.baseval g.vertnnd (fun v => if coar v = c then f v else 0) * q c) = sumI g.baseval g.vertnnd (fun v => f v * q (coar v)) := by
  have e1 : ∀ c, sumI g.baseval g.vertnnd (fun v => if coar v = c then f v else 0) * q c = sumI g.baseval g.vertnnd (fun v => if coar v = c then f v * q (coar v) else 0) := by
    intro c
    rw [← sumI_mul_right]
    apply sumI_congr
    intro v _ _
    by_cases h : coar v = c
    · rw [if_pos h, if_pos h, h]
    · rw [if_neg h, if_neg h, Int.zero_mul]
  rw [sumI_congr (fun c _ _ => e1 c), sumI_comm]
  apply sumI_congr
  intro v v1 v2
  have hc := hin v ⟨v1, v2⟩
  have := sumI_single hc.1 hc.2 (fun _ => f v * q (coar v))
  refine Eq.trans ?_ this
  apply sumI_congr
  intro c _ _
  by_cases h : coar v = c
  · rw [if_pos h, if_pos h.symm]
  · rw [if_neg h, if_neg (fun h' => h h'.symm)]

theorem Quot.push_sum (K : Quot g coar g') (f q : Int → Int) :
    sumI g'.baseval g'.vertnnd (fun c => sumI g.baseval g.vertnnd (fun v => if coar v = c then f v else 0) * q c) = sumI g.baseval g.vertnnd (fun v => f v * q (coar v)) := push_in K.inside f q

theorem Quot.push_sum1 (K : Quot g coar g') (f : Int → Int) :
    sumI g'.baseval g'.vertnnd (fun c => sumI g.baseval g.vertnnd (fun v => if coar v = c then f v else 0)) = sumI g.baseval g.vertnnd f := by
  have := K.push_sum f (fun _ => 1)
  simpa using this

/-- Load of the merged arcs. -/
theorem arcLoad_wgt (C : g.Consistent) (c d : Int) : arcLoad g coar c d
      = sumI g.baseval g.vertnnd (fun v => if coar v = c then sumI g.baseval g.vertnnd (fun w => if coar w = d then g.wgt v w else 0) else 0) := by
    have hE := consE_iff.2 C
    unfold arcLoad
    apply sumI_congr
    intro v v1 v2
    by_cases h : coar v = c
    · rw [if_pos h, if_pos h]
      have := nbrs_sum hE ⟨v1, v2⟩ (fun w => if coar w = d then 1 else 0)
      have e2 : sumI g.baseval g.vertnnd (fun w => g.wgt v w * (fun w => if coar w = d then (1 : Int) else 0) w) = sumI g.baseval g.vertnnd (fun w => if coar w = d then g.wgt v w else 0) := by
        apply sumI_congr
        intro w _ _
        dsimp only
        by_cases h : coar w = d
        · rw [if_pos h, if_pos h, Int.mul_one]
        · rw [if_neg h, if_neg h, Int.mul_zero]
      rw [← e2, ← this]
      generalize g.nbrs v = l
      induction l with
      | nil => rfl
      | cons x l ih =>
        rw [List.filter_cons, List.map_cons, List.sum_cons, ← ih]
        by_cases h : coar x.1 = d
        · simp [h]
        · simp [h]
    · rw [if_neg h, if_neg h]

/-- Weight between two distinct coarse vertices. -/
theorem Quot.wgt_coarse (C : g.Consistent) (K : Quot g coar g') {c d : Int} (hc : g'.Vertex c) (hd : g'.Vertex d) (hne : d ≠ c) :
    g'.wgt c d = sumI g.baseval g.vertnnd (fun v => if coar v = c then sumI g.baseval g.vertnnd (fun w => if coar w = d then g.wgt v w else 0) else 0) := by
  have hE := consE_iff.2 C
  have hE' := consE_iff.2 K.consistent
  have ea := arcLoad_wgt (coar := coar) C c d
  rw [← ea]
  by_cases ha : g'.Adj c d
  · obtain ⟨e, e1, e2, e3⟩ := ha
    have hm := nbrs_mk g' c e1 e2
    rw [e3] at hm
    have := ((K.merged.nbrs c d _ hc).1 hm).2.2
    rw [← this, ← e3]
    exact wgt_arc hE' hc e1 e2
  · rw [wgt_none ha, ea, eq_comm]
    apply sumI_eq_zero
    intro v v1 v2
    by_cases h : coar v = c
    · rw [if_pos h]
      apply sumI_eq_zero
      intro w w1 w2
      by_cases h' : coar w = d
      · rw [if_pos h']
        apply wgt_none
        intro haw
        apply ha
        rw [adj_iff] at haw ⊢
        obtain ⟨p, p1, p2⟩ := haw
        refine ⟨(d, arcLoad g coar c d), ?_, rfl⟩
        exact (K.merged.nbrs c d _ hc).2 ⟨hne, ⟨v, p, ⟨v1, v2⟩, h, p1, by rw [p2]; exact h'⟩, rfl⟩
      · rw [if_neg h']
    · rw [if_neg h]

/-- Sums over the arcs of the coarse graph. -/
theorem Quot.push_wgt (C : g.Consistent) (K : Quot g coar g') (F : Int → Int → Int) (h0 : ∀ c, F c c = 0) :
    sumI g'.baseval g'.vertnnd (fun c => sumI g'.baseval g'.vertnnd (fun d => g'.wgt c d * F c d)) =
      sumI g.baseval g.vertnnd (fun v => sumI g.baseval g.vertnnd (fun w => g.wgt v w * F (coar v) (coar w))) := by
  have e1 : ∀ c, g'.Vertex c → sumI g'.baseval g'.vertnnd (fun d => g'.wgt c d * F c d) =
      sumI g.baseval g.vertnnd (fun v => if coar v = c then sumI g.baseval g.vertnnd (fun w => g.wgt v w * F (coar v) (coar w)) else 0) := by
    intro c hc
    have e2 : ∀ d, g'.baseval ≤ d → d < g'.vertnnd → g'.wgt c d * F c d =
        sumI g.baseval g.vertnnd (fun v => if coar v = c then sumI g.baseval g.vertnnd (fun w => if coar w = d then g.wgt v w else 0) * F c d else 0) := by
      intro d d1 d2
      by_cases hd : d = c
      · rw [hd, h0, Int.mul_zero, eq_comm]
        apply sumI_eq_zero
        intro v _ _
        split
        · exact Int.mul_zero _
        · rfl
      · rw [K.wgt_coarse C hc ⟨d1, d2⟩ hd, ← sumI_mul_right]
        apply sumI_congr
        intro v _ _
        split
        · rfl
        · exact Int.zero_mul _
    rw [sumI_congr e2, sumI_comm]
    apply sumI_congr
    intro v v1 v2
    by_cases h : coar v = c
    · rw [if_pos h]
      have := K.push_sum (fun w => g.wgt v w) (fun d => F c d)
      rw [h, ← this]
      apply sumI_congr
      intro d _ _
      rw [if_pos rfl]
    · rw [if_neg h]
      apply sumI_eq_zero
      intro d _ _
      rw [if_neg h]
  rw [sumI_congr (fun c c1 c2 => e1 c ⟨c1, c2⟩)]
  exact K.push_sum1 (fun v => sumI g.baseval g.vertnnd (fun w => g.wgt v w * F (coar v) (coar w)))

theorem Quot.adj_coarse (K : Quot g coar g') {c d : Int} (hc : g'.Vertex c) : g'.Adj c d ↔ d ≠ c ∧ ∃ v w, g.Vertex v ∧ coar v = c ∧ g.Adj v w ∧ coar w = d := by
  rw [adj_iff]
  constructor
  · rintro ⟨⟨d', l⟩, h1, h2⟩
    dsimp only at h2
    subst h2
    obtain ⟨k1, ⟨v, p, k2, k3, k4, k5⟩, -⟩ := (K.merged.nbrs c d' l hc).1 h1
    exact ⟨k1, v, p.1, k2, k3, (adj_iff v p.1).2 ⟨p, k4, rfl⟩, k5⟩
  · rintro ⟨k1, v, w, k2, k3, k4, k5⟩
    obtain ⟨p, p1, p2⟩ := (adj_iff v w).1 k4
    exact ⟨(d, arcLoad g coar c d), (K.merged.nbrs c d _ hc).2 ⟨k1, ⟨v, p, k2, k3, p1, by rw [p2]; exact k5⟩, rfl⟩, rfl⟩

end Scotch.Coarsen
