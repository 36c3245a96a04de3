import Verif.Coarsen.ModelTop
import Verif.Coarsen.Props
import Verif.Graph.Weight

/-!
# Coarsening: consequences

What multilevel methods use: sums over coarse vertices are sums over fine vertices.
-/

set_option autoImplicit false
set_option linter.unusedSimpArgs false

namespace Scotch.Coarsen
open Graph

/-- What a multilevel method expects of a coarsening: either there is none, or it is a contraction, with fewer vertices. -/
def Shrinks (g : Graph) (o : Option Result) : Prop :=
  ∀ r, o = some r → ∃ mate, Pairing g mate ∧ Contracted g mate r ∧ r.graph.vertnbr < g.vertnbr

theorem coarsen_holds (numMax : Int) (bits : Nat) (junk : Int → Int × Int) (J : Junk) (E : Match.Env) (V : Match.Valid E) (hbits : E.g.vertnbr < 2 ^ bits) (hov : (E.g.vertnnd - 1) * 1049 ≤ numMax)
    (coarvertnbr coarmax : Int) (hm : coarmax ≤ E.g.vertnbr) : Holds (coarsen numMax bits junk J E coarvertnbr coarmax) (Shrinks E.g) := by
  unfold coarsen
  rw [Holds_ite]
  refine ⟨fun _ => ?_, fun _ => ?_⟩
  · rw [Holds_pure]; intro r h; cases h
  rw [Holds_bind]
  refine (Match.matchSeq_holds V bits junk hbits).mono ?_
  rintro ⟨m, n⟩ ⟨h0, h1, h2⟩
  dsimp only at h1 h2 ⊢
  rw [Holds_ite]
  refine ⟨fun _ => ?_, fun hlt => ?_⟩
  · rw [Holds_pure]; intro r h; cases h
  rw [Holds_bind]
  have h2' : n = pairs E.g m.get := h2
  rw [h2']
  refine (C19_sequential numMax E.g m J V.cons V.alloc V.base hov ⟨h1.inside, h1.recip⟩ h0.1 h0.2).mono ?_
  intro r hr
  rw [Holds_pure]
  intro r' e
  cases e
  refine ⟨m.get, ⟨h1.inside, h1.recip⟩, hr, ?_⟩
  rw [hr.vertnbr, ← h2']
  omega

variable {g : Graph} {mate : Int → Int} {r : Result}

namespace Contracted

theorem vertex_iff (K : Contracted g mate r) (c : Int) : r.graph.Vertex c ↔ g.baseval ≤ c ∧ c < g.baseval + pairs g mate := by
  unfold Graph.Vertex
  have h1 := K.consistent.vertnnd
  have h2 := K.vertnbr
  rw [h1, h2, K.merged.baseval]

theorem fib (P : Pairing g mate) (K : Contracted g mate r) : Fib g r.coar r.mult (pairs g mate) := by
  refine ⟨?_, ?_, ?_⟩
  · intro v hv; exact (K.vertex_iff _).1 (K.inside v hv)
  · intro c h1 h2
    obtain ⟨a1, a2, a3, a4⟩ := K.mult c ((K.vertex_iff c).2 ⟨h1, h2⟩)
    exact ⟨a1, by rw [a3]; exact P.inside _ a1⟩
  · intro c v h1 h2 hv
    obtain ⟨a1, a2, a3, a4⟩ := K.mult c ((K.vertex_iff c).2 ⟨h1, h2⟩)
    have := K.same _ v a1 hv
    rw [a2] at this
    rw [eq_comm, this, ← a3]

/-- Sum over the vertices of a coarse vertex. -/
theorem pair_sum (P : Pairing g mate) (K : Contracted g mate r) {c : Int} (hc : r.graph.Vertex c) (f : Int → Int) :
    sumI g.baseval g.vertnnd (fun v => if r.coar.get v = c then f v else 0) = f (r.mult.get c).1 + if (r.mult.get c).1 ≠ (r.mult.get c).2 then f (r.mult.get c).2 else 0 :=
  fiber_sum (K.fib P) ((K.vertex_iff c).1 hc).1 ((K.vertex_iff c).1 hc).2 f

/-- A sum over coarse vertices of sums over their vertices. -/
theorem push_sum (K : Contracted g mate r) (f q : Int → Int) :
    sumI r.graph.baseval r.graph.vertnnd (fun c => sumI g.baseval g.vertnnd (fun v => if r.coar.get v = c then f v else 0) * q c) = sumI g.baseval g.vertnnd (fun v => f v * q (r.coar.get v)) := by
  have e1 : ∀ c, sumI g.baseval g.vertnnd (fun v => if r.coar.get v = c then f v else 0) * q c = sumI g.baseval g.vertnnd (fun v => if r.coar.get v = c then f v * q (r.coar.get v) else 0) := by
    intro c
    rw [← sumI_mul_right]
    apply sumI_congr
    intro v _ _
    by_cases h : r.coar.get v = c
    · rw [if_pos h, if_pos h, h]
    · rw [if_neg h, if_neg h, Int.zero_mul]
  rw [sumI_congr (fun c _ _ => e1 c), sumI_comm]
  apply sumI_congr
  intro v v1 v2
  have hc := K.inside v ⟨v1, v2⟩
  have := sumI_single hc.1 hc.2 (fun _ => f v * q (r.coar.get v))
  refine Eq.trans ?_ this
  apply sumI_congr
  intro c _ _
  by_cases h : r.coar.get v = c
  · rw [if_pos h, if_pos h.symm]
  · rw [if_neg h, if_neg (fun h' => h h'.symm)]

theorem push_sum1 (K : Contracted g mate r) (f : Int → Int) :
    sumI r.graph.baseval r.graph.vertnnd (fun c => sumI g.baseval g.vertnnd (fun v => if r.coar.get v = c then f v else 0)) = sumI g.baseval g.vertnnd f := by
  have := K.push_sum f (fun _ => 1)
  simpa using this

/-- Weight between two distinct coarse vertices. -/
theorem wgt_coarse (C : g.Consistent) (K : Contracted g mate r) {c d : Int} (hc : r.graph.Vertex c) (hd : r.graph.Vertex d) (hne : d ≠ c) :
    r.graph.wgt c d = sumI g.baseval g.vertnnd (fun v => if r.coar.get v = c then sumI g.baseval g.vertnnd (fun w => if r.coar.get w = d then g.wgt v w else 0) else 0) := by
  have hE := consE_iff.2 C
  have hE' := consE_iff.2 K.consistent
  have ea : arcLoad g r.coar.get c d
      = sumI g.baseval g.vertnnd (fun v => if r.coar.get v = c then sumI g.baseval g.vertnnd (fun w => if r.coar.get w = d then g.wgt v w else 0) else 0) := by
    unfold arcLoad
    apply sumI_congr
    intro v v1 v2
    by_cases h : r.coar.get v = c
    · rw [if_pos h, if_pos h]
      have := nbrs_sum hE ⟨v1, v2⟩ (fun w => if r.coar.get w = d then 1 else 0)
      have e2 : sumI g.baseval g.vertnnd (fun w => g.wgt v w * (fun w => if r.coar.get w = d then (1 : Int) else 0) w) = sumI g.baseval g.vertnnd (fun w => if r.coar.get w = d then g.wgt v w else 0) := by
        apply sumI_congr
        intro w _ _
        dsimp only
        by_cases h : r.coar.get w = d
        · rw [if_pos h, if_pos h, Int.mul_one]
        · rw [if_neg h, if_neg h, Int.mul_zero]
      rw [← e2, ← this]
      generalize g.nbrs v = l
      induction l with
      | nil => rfl
      | cons x l ih =>
        rw [List.filter_cons, List.map_cons, List.sum_cons, ← ih]
        by_cases h : r.coar.get x.1 = d
        · simp [h]
        · simp [h]
    · rw [if_neg h, if_neg h]
  rw [← ea]
  by_cases ha : r.graph.Adj c d
  · obtain ⟨e, e1, e2, e3⟩ := ha
    have hm := nbrs_mk r.graph c e1 e2
    rw [e3] at hm
    have := ((K.merged.nbrs c d _ hc).1 hm).2.2
    rw [← this, ← e3]
    exact wgt_arc hE' hc e1 e2
  · rw [wgt_none ha, ea, eq_comm]
    apply sumI_eq_zero
    intro v v1 v2
    by_cases h : r.coar.get v = c
    · rw [if_pos h]
      apply sumI_eq_zero
      intro w w1 w2
      by_cases h' : r.coar.get w = d
      · rw [if_pos h']
        apply wgt_none
        intro haw
        apply ha
        rw [adj_iff] at haw ⊢
        obtain ⟨p, p1, p2⟩ := haw
        refine ⟨(d, arcLoad g r.coar.get c d), ?_, rfl⟩
        exact (K.merged.nbrs c d _ hc).2 ⟨hne, ⟨v, p, ⟨v1, v2⟩, h, p1, by rw [p2]; exact h'⟩, rfl⟩
      · rw [if_neg h']
    · rw [if_neg h]

/-- Sums over the arcs of the coarse graph. -/
theorem push_wgt (C : g.Consistent) (K : Contracted g mate r) (F : Int → Int → Int) (h0 : ∀ c, F c c = 0) :
    sumI r.graph.baseval r.graph.vertnnd (fun c => sumI r.graph.baseval r.graph.vertnnd (fun d => r.graph.wgt c d * F c d)) =
      sumI g.baseval g.vertnnd (fun v => sumI g.baseval g.vertnnd (fun w => g.wgt v w * F (r.coar.get v) (r.coar.get w))) := by
  have e1 : ∀ c, r.graph.Vertex c → sumI r.graph.baseval r.graph.vertnnd (fun d => r.graph.wgt c d * F c d) =
      sumI g.baseval g.vertnnd (fun v => if r.coar.get v = c then sumI g.baseval g.vertnnd (fun w => g.wgt v w * F (r.coar.get v) (r.coar.get w)) else 0) := by
    intro c hc
    have e2 : ∀ d, r.graph.baseval ≤ d → d < r.graph.vertnnd → r.graph.wgt c d * F c d =
        sumI g.baseval g.vertnnd (fun v => if r.coar.get v = c then sumI g.baseval g.vertnnd (fun w => if r.coar.get w = d then g.wgt v w else 0) * F c d else 0) := by
      intro d d1 d2
      by_cases hd : d = c
      · rw [hd, h0, Int.mul_zero, eq_comm]
        apply sumI_eq_zero
        intro v _ _
        split
        · exact Int.mul_zero _
        · rfl
      · rw [K.wgt_coarse C hc ⟨d1, d2⟩ hd, ← sumI_mul_right]
        apply sumI_congr
        intro v _ _
        split
        · rfl
        · exact Int.zero_mul _
    rw [sumI_congr e2, sumI_comm]
    apply sumI_congr
    intro v v1 v2
    by_cases h : r.coar.get v = c
    · rw [if_pos h]
      have := K.push_sum (fun w => g.wgt v w) (fun d => F c d)
      rw [h, ← this]
      apply sumI_congr
      intro d _ _
      rw [if_pos rfl]
    · rw [if_neg h]
      apply sumI_eq_zero
      intro d _ _
      rw [if_neg h]
  rw [sumI_congr (fun c c1 c2 => e1 c ⟨c1, c2⟩)]
  exact K.push_sum1 (fun v => sumI g.baseval g.vertnnd (fun w => g.wgt v w * F (r.coar.get v) (r.coar.get w)))

theorem adj_coarse (K : Contracted g mate r) {c d : Int} (hc : r.graph.Vertex c) : r.graph.Adj c d ↔ d ≠ c ∧ ∃ v w, g.Vertex v ∧ r.coar.get v = c ∧ g.Adj v w ∧ r.coar.get w = d := by
  rw [adj_iff]
  constructor
  · rintro ⟨⟨d', l⟩, h1, h2⟩
    dsimp only at h2
    subst h2
    obtain ⟨k1, ⟨v, p, k2, k3, k4, k5⟩, -⟩ := (K.merged.nbrs c d' l hc).1 h1
    exact ⟨k1, v, p.1, k2, k3, (adj_iff v p.1).2 ⟨p, k4, rfl⟩, k5⟩
  · rintro ⟨k1, v, w, k2, k3, k4, k5⟩
    obtain ⟨p, p1, p2⟩ := (adj_iff v w).1 k4
    exact ⟨(d, arcLoad g r.coar.get c d), (K.merged.nbrs c d _ hc).2 ⟨k1, ⟨v, p, k2, k3, p1, by rw [p2]; exact k5⟩, rfl⟩, rfl⟩

theorem size_pos (C : g.Consistent) (K : Contracted g mate r) (h : 0 < g.vertnbr) : 0 < r.graph.vertnbr := by
  have h1 := C.vertnnd
  have h2 := K.inside g.baseval ⟨Int.le_refl _, by omega⟩
  have h3 := K.consistent.vertnnd
  have := h2.1
  have := h2.2
  omega

end Contracted

end Scotch.Coarsen
