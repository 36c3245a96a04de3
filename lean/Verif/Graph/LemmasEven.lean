import Verif.Graph.Lemmas

/-! # The number of arcs is even -/

set_option autoImplicit false
set_option linter.unusedSimpArgs false

namespace Scotch
open Classical

/-- The sum of the entries of a symmetric matrix with zero diagonal is even. -/
theorem even_symm_sum (lo : Int) (n : Nat) (a : Int → Int → Int)
    (hs : ∀ v w, lo ≤ v → v < lo + n → lo ≤ w → w < lo + n → a v w = a w v)
    (hd : ∀ v, lo ≤ v → v < lo + n → a v v = 0) :
    sumI lo (lo + n) (fun v => sumI lo (lo + n) (a v)) % 2 = 0 := by
  induction n with
  | zero => rw [sumI_empty (by omega)]; rfl
  | succ n ih =>
    rw [show lo + ((n + 1 : Nat) : Int) = lo + n + 1 by omega, sumI_succ (by omega), sumI_succ (by omega)]
    rw [sumI_congr (g := fun v => sumI lo (lo + n) (a v) + a v (lo + n)) (fun v _ _ => sumI_succ (by omega) _)]
    rw [sumI_add_dist, hd (lo + n) (by omega) (by omega)]
    rw [sumI_congr (f := fun v => a v (lo + n)) (g := a (lo + n))
      (fun v h1 h2 => hs v _ h1 (by omega) (by omega) (by omega))]
    have := ih (fun v w h1 h2 h3 h4 => hs v w h1 (by omega) h3 (by omega)) (fun v h1 h2 => hd v h1 (by omega))
    omega

/-- Sum of an indicator that is non-zero at most once. -/
theorem sumI_indicator (lo hi : Int) (p : Int → Prop) [DecidablePred p]
    [Decidable (∃ i, lo ≤ i ∧ i < hi ∧ p i)]
    (hu : ∀ i j, lo ≤ i → i < hi → lo ≤ j → j < hi → p i → p j → i = j) :
    sumI lo hi (fun i => if p i then 1 else 0) = if ∃ i, lo ≤ i ∧ i < hi ∧ p i then 1 else 0 := by
  by_cases he : ∃ i, lo ≤ i ∧ i < hi ∧ p i
  · rw [if_pos he]
    obtain ⟨i, h1, h2, h3⟩ := he
    rw [sumI_split (mid := i) h1 (by omega), sumI_split (lo := i) (mid := i + 1) (by omega) (by omega),
      sumI_succ (Int.le_refl i), sumI_empty (Int.le_refl i)]
    have e1 : sumI lo i (fun i => if p i then 1 else 0) = sumI lo i (fun _ => 0) := by
      apply sumI_congr
      intro j j1 j2
      rw [if_neg]
      intro hj
      have := hu i j h1 h2 j1 (by omega) h3 hj
      omega
    have e2 : sumI (i + 1) hi (fun i => if p i then 1 else 0) = sumI (i + 1) hi (fun _ => 0) := by
      apply sumI_congr
      intro j j1 j2
      rw [if_neg]
      intro hj
      have := hu i j h1 h2 (by omega) j2 h3 hj
      omega
    rw [e1, e2, sumI_const h1, sumI_const (by omega), if_pos h3]
    simp
  · rw [if_neg he]
    rw [sumI_congr (g := fun _ => 0)]
    · by_cases hc : lo ≤ hi
      · rw [sumI_const hc]; simp
      · rw [sumI_empty (by omega)]
    · intro i h1 h2
      rw [if_neg]
      intro h3
      exact he ⟨i, h1, h2, h3⟩

namespace Graph
variable {g : Graph}

theorem ConsE.even (h : ConsE g) : g.edgenbr % 2 = 0 := by
  have hn := h.vertnbr
  have hnn := h.vertnnd
  have e1 : g.edgenbr = sumI g.baseval g.vertnnd (fun v => sumI g.baseval g.vertnnd
      (fun w => if ∃ e, g.vert v ≤ e ∧ e < g.vend v ∧ g.dest e = w then 1 else 0)) := by
    rw [h.edgenbr]
    apply sumI_congr
    intro v v1 v2
    have hv : g.Vertex v := ⟨v1, v2⟩
    have : sumI g.baseval g.vertnnd (fun w => if ∃ e, g.vert v ≤ e ∧ e < g.vend v ∧ g.dest e = w then 1 else 0)
        = sumI g.baseval g.vertnnd (fun w => sumI (g.vert v) (g.vend v) (fun e => if g.dest e = w then 1 else 0)) := by
      apply sumI_congr
      intro w _ _
      rw [sumI_indicator _ _ (fun e => g.dest e = w)]
      intro i j i1 i2 j1 j2 hi hj
      exact h.simple v hv i j i1 i2 j1 j2 (by rw [hi, hj])
    rw [this, sumI_comm]
    rw [sumI_congr (g := fun _ => 1)]
    · rw [sumI_const (h.range v hv).2]; omega
    · intro e h1 h2
      rw [sumI_indicator _ _ (fun w => g.dest e = w)]
      · rw [if_pos]
        have := (h.inside v e hv h1 h2).1
        exact ⟨g.dest e, this.1, this.2, rfl⟩
      · intro i j _ _ _ _ hi hj
        rw [← hi, hj]
  rw [e1, show g.vertnnd = g.baseval + ((g.vertnbr.toNat : Nat) : Int) by omega]
  apply even_symm_sum
  · intro v w v1 v2 w1 w2
    congr 1
    apply propext
    constructor
    · rintro ⟨e, h1, h2, rfl⟩
      obtain ⟨e', a1, a2, a3, -⟩ := h.symm v e ⟨v1, by omega⟩ h1 h2
      exact ⟨e', a1, a2, a3⟩
    · rintro ⟨e, h1, h2, rfl⟩
      obtain ⟨e', a1, a2, a3, -⟩ := h.symm w e ⟨w1, by omega⟩ h1 h2
      exact ⟨e', a1, a2, a3⟩
  · intro v v1 v2
    rw [if_neg]
    rintro ⟨e, h1, h2, h3⟩
    exact (h.inside v e ⟨v1, by omega⟩ h1 h2).2 h3

end Graph
end Scotch
