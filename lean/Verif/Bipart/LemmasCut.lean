import Verif.Bipart.Spec

/-! # Cuts and loads, as sums -/

set_option autoImplicit false
set_option linter.unusedSimpArgs false

namespace Scotch.Bipart
open Graph
variable {g : Graph}

/-- Parts are 0 or 1. -/
def Parts (g : Graph) (p : Int → Int) : Prop := ∀ v, g.Vertex v → p v = 0 ∨ p v = 1

theorem over_zero {p : Int → Int} (hp : Parts g p) (f : Int → Int) :
    over g p 0 f = sumI g.baseval g.vertnnd (fun v => (1 - p v) * f v) := by
  apply sumI_congr
  intro v h1 h2
  rcases hp v ⟨h1, h2⟩ with h | h <;> rw [h] <;> simp

theorem over_one {p : Int → Int} (hp : Parts g p) (f : Int → Int) :
    over g p 1 f = sumI g.baseval g.vertnnd (fun v => p v * f v) := by
  apply sumI_congr
  intro v h1 h2
  rcases hp v ⟨h1, h2⟩ with h | h <;> rw [h] <;> simp

theorem over_add {p : Int → Int} (hp : Parts g p) (f : Int → Int) :
    over g p 0 f + over g p 1 f = sumI g.baseval g.vertnnd f := by
  rw [over_zero hp, over_one hp, ← sumI_add_dist]
  apply sumI_congr
  intro v h1 h2
  rcases hp v ⟨h1, h2⟩ with h | h <;> rw [h] <;> simp

theorem over_congr {p q : Int → Int} (k : Int) {f f' : Int → Int} (h : ∀ v, g.Vertex v → p v = q v) (hf : ∀ v, g.Vertex v → f v = f' v) :
    over g p k f = over g q k f' := by
  apply sumI_congr
  intro v h1 h2
  rw [h v ⟨h1, h2⟩, hf v ⟨h1, h2⟩]

theorem linkTo_congr (hc : ConsE g) {p q : Int → Int} (k : Int) {v : Int} (hv : g.Vertex v) (h : ∀ v, g.Vertex v → p v = q v) :
    linkTo g p k v = linkTo g q k v := by
  unfold linkTo
  congr 1
  apply List.map_congr_left
  intro x hx
  have := (consE_iff.1 hc).inside v x hv hx
  rw [h _ this.1]

theorem cut_congr (hc : ConsE g) {p q : Int → Int} (h : ∀ v, g.Vertex v → p v = q v) : cut g p = cut g q :=
  over_congr 0 h (fun _ hv => linkTo_congr hc 1 hv h)

theorem Frontier_congr (hc : ConsE g) {p q : Int → Int} (h : ∀ v, g.Vertex v → p v = q v) (v : Int) : Frontier g p v ↔ Frontier g q v := by
  unfold Frontier
  constructor
  · rintro ⟨hv, x, hx, hn⟩
    exact ⟨hv, x, hx, by rw [← h _ hv, ← h _ ((consE_iff.1 hc).inside v x hv hx).1]; exact hn⟩
  · rintro ⟨hv, x, hx, hn⟩
    exact ⟨hv, x, hx, by rw [h _ hv, h _ ((consE_iff.1 hc).inside v x hv hx).1]; exact hn⟩

theorem frontier_adj {p : Int → Int} {v : Int} : Frontier g p v ↔ g.Vertex v ∧ ∃ w, g.Adj v w ∧ p w ≠ p v := by
  unfold Frontier
  constructor
  · rintro ⟨hv, x, hx, hn⟩
    exact ⟨hv, x.1, (adj_iff v x.1).2 ⟨x, hx, rfl⟩, hn⟩
  · rintro ⟨hv, w, ha, hn⟩
    obtain ⟨x, hx, rfl⟩ := (adj_iff v w).1 ha
    exact ⟨hv, x, hx, hn⟩

theorem linkTo_one (hc : ConsE g) {p : Int → Int} (hp : Parts g p) {v : Int} (hv : g.Vertex v) :
    linkTo g p 1 v = sumI g.baseval g.vertnnd (fun w => g.wgt v w * p w) := by
  rw [← nbrs_sum hc hv]
  unfold linkTo
  congr 1
  apply List.map_congr_left
  intro x hx
  have := (consE_iff.1 hc).inside v x hv hx
  rcases hp _ this.1 with h | h <;> rw [h] <;> simp

theorem cut_sum (hc : ConsE g) {p : Int → Int} (hp : Parts g p) :
    cut g p = sumI g.baseval g.vertnnd (fun v => sumI g.baseval g.vertnnd (fun w => g.wgt v w * ((1 - p v) * p w))) := by
  unfold cut
  rw [over_zero hp]
  apply sumI_congr
  intro v h1 h2
  rw [linkTo_one hc hp ⟨h1, h2⟩, ← sumI_mul_left]
  apply sumI_congr
  intro w _ _
  rw [← Int.mul_assoc, ← Int.mul_assoc, Int.mul_comm (1 - p v)]

/-- Swapping the two sides does not change the cut. -/
theorem cut_sum' (hc : ConsE g) {p : Int → Int} (hp : Parts g p) :
    cut g p = sumI g.baseval g.vertnnd (fun v => sumI g.baseval g.vertnnd (fun w => g.wgt v w * (p v * (1 - p w)))) := by
  rw [cut_sum hc hp, sumI_comm]
  apply sumI_congr
  intro v h1 h2
  apply sumI_congr
  intro w w1 w2
  rw [wgt_symm hc ⟨w1, w2⟩ ⟨h1, h2⟩, Int.mul_comm (1 - p w)]

/-- Arcs between parts, counted from both ends. -/
theorem cut_twice (hc : ConsE g) {p : Int → Int} (hp : Parts g p) :
    sumI g.baseval g.vertnnd (fun v => sumI (g.vert v) (g.vend v) (fun e => if p (g.dest e) = p v then 0 else g.edlo e)) = 2 * cut g p := by
  have h2 : 2 * cut g p = cut g p + cut g p := by omega
  rw [h2]
  rw (occs := .pos [1]) [cut_sum hc hp]
  rw [cut_sum' hc hp, ← sumI_add_dist]
  apply sumI_congr
  intro v h1 h2
  rw [← sumI_add_dist]
  have hv : g.Vertex v := ⟨h1, h2⟩
  rw [sumI_congr (g := fun e => g.edlo e * (fun w => if p w = p v then 0 else 1) (g.dest e)), arc_sum hc hv (fun w => if p w = p v then 0 else 1)]
  · apply sumI_congr
    intro w w1 w2
    rcases hp v hv with a | a <;> rcases hp w ⟨w1, w2⟩ with b | b <;> rw [a, b] <;> simp
  · intro e _ _
    dsimp only
    split <;> simp

/-- Changing the part of one vertex. -/
def flip (p : Int → Int) (u : Int) : Int → Int := fun v => if v = u then 1 - p u else p v

theorem flip_parts {p : Int → Int} (hp : Parts g p) (u : Int) (hu : g.Vertex u) : Parts g (flip p u) := by
  intro v hv
  unfold flip
  by_cases h : v = u
  · rw [if_pos h]; rcases hp u hu with a | a <;> rw [a] <;> decide
  · rw [if_neg h]; exact hp v hv

theorem over0_flip {p : Int → Int} (hp : Parts g p) {u : Int} (hu : g.Vertex u) (f : Int → Int) :
    over g (flip p u) 0 f = over g p 0 f - (1 - 2 * p u) * f u := by
  rw [over_zero (flip_parts hp u hu), over_zero hp]
  have := sumI_update hu.1 hu.2 (fun v => (1 - p v) * f v) (p u * f u)
  rw [sumI_congr (g := fun j => if j = u then p u * f u else (1 - p j) * f j)]
  · rw [this]
    rcases hp u hu with a | a <;> rw [a] <;> simp <;> omega
  · intro i _ _
    unfold flip
    by_cases h : i = u
    · rw [if_pos h, if_pos h, h]; rcases hp u hu with a | a <;> rw [a] <;> simp
    · rw [if_neg h, if_neg h]

theorem over1_flip {p : Int → Int} (hp : Parts g p) {u : Int} (hu : g.Vertex u) (f : Int → Int) :
    over g (flip p u) 1 f = over g p 1 f + (1 - 2 * p u) * f u := by
  have h1 := over_add hp f
  have h2 := over_add (flip_parts hp u hu) f
  have h3 := over0_flip hp hu f
  omega

/-- Change of the cut when a vertex changes part. -/
def cutGain (g : Graph) (p : Int → Int) (u : Int) : Int :=
  sumI g.baseval g.vertnnd (fun w => g.wgt u w * (if p w = p u then 1 else -1))

theorem cut_flip (hc : ConsE g) {p : Int → Int} (hp : Parts g p) {u : Int} (hu : g.Vertex u) :
    cut g (flip p u) = cut g p + cutGain g p u := by
  have hd : ∀ {q : Int → Int}, Parts g q → 2 * cut g q =
      sumI g.baseval g.vertnnd (fun v => sumI g.baseval g.vertnnd (fun w => g.wgt v w * (if q w = q v then 0 else 1))) := by
    intro q hq
    rw [← cut_twice hc hq]
    apply sumI_congr
    intro v h1 h2
    rw [← arc_sum hc ⟨h1, h2⟩ (fun w => if q w = q v then 0 else 1)]
    apply sumI_congr
    intro e _ _
    split <;> simp
  have e1 := hd hp
  have e2 := hd (flip_parts hp u hu)
  have e3 : sumI g.baseval g.vertnnd (fun v => sumI g.baseval g.vertnnd (fun w => g.wgt v w * (if flip p u w = flip p u v then 0 else 1)))
      - sumI g.baseval g.vertnnd (fun v => sumI g.baseval g.vertnnd (fun w => g.wgt v w * (if p w = p v then 0 else 1)))
      = cutGain g p u + cutGain g p u := by
    rw [← sumI_sub_dist]
    have er : ∀ v, g.Vertex v → (sumI g.baseval g.vertnnd (fun w => g.wgt v w * (if flip p u w = flip p u v then 0 else 1))
        - sumI g.baseval g.vertnnd (fun w => g.wgt v w * (if p w = p v then 0 else 1)))
        = (if v = u then cutGain g p u else 0) + g.wgt u v * (if p v = p u then 1 else -1) := by
      intro v hv
      rw [← sumI_sub_dist]
      by_cases hvu : v = u
      · subst hvu
        rw [if_pos rfl, wgt_self hc hv, Int.zero_mul, Int.add_zero]
        apply sumI_congr
        intro w w1 w2
        by_cases hw : w = v
        · subst hw
          rw [wgt_self hc hv]; simp
        · unfold flip
          rw [if_neg hw, if_pos rfl]
          rcases hp v hv with a | a <;> rcases hp w ⟨w1, w2⟩ with b | b <;> rw [a, b] <;> simp
      · rw [if_neg hvu, Int.zero_add, wgt_symm hc hu hv]
        have hs := sumI_single hu.1 hu.2 (fun w => g.wgt v w * (if p v = p w then 1 else -1))
        rw [← hs]
        apply sumI_congr
        intro w w1 w2
        by_cases hw : w = u
        · subst hw
          rw [if_pos rfl]
          unfold flip
          rw [if_pos rfl, if_neg hvu]
          rcases hp v hv with a | a <;> rcases hp w ⟨w1, w2⟩ with b | b <;> rw [a, b] <;> simp
        · rw [if_neg hw]
          unfold flip
          rw [if_neg hw, if_neg hvu]; simp
    rw [sumI_congr (g := fun v => (if v = u then cutGain g p u else 0) + g.wgt u v * (if p v = p u then 1 else -1)) (fun v h1 h2 => er v ⟨h1, h2⟩)]
    rw [sumI_add_dist, sumI_single hu.1 hu.2 (fun _ => cutGain g p u)]
    rfl
  omega

end Scotch.Bipart
