import Verif.Graph.Lemmas

/-! # Graph checking -/

set_option autoImplicit false
set_option linter.unusedSimpArgs false

namespace Scotch.Graph
variable {g : Graph} {numMax : Int}

/-- First index of `[start, vnd)` that holds `target`, or the end of the range. -/
def IsFirst (edgetax : Arr Int) (target start vnd r : Int) : Prop :=
  start ≤ r ∧ r ≤ max start vnd ∧ (∀ e, start ≤ e → e < r → e < vnd → edgetax.get e ≠ target) ∧
    (r < vnd → edgetax.get r = target)

theorem findArc_post (t : Arr Int) (target start vnd : Int) :
    Post (findArc t target start vnd) (IsFirst t target start vnd) := by
  unfold findArc
  rw [Post_bind]
  apply Post_forUpB' (fun i _ => ∀ e, start ≤ e → e < i → t.get e ≠ target)
    (fun r => start ≤ r ∧ r < vnd ∧ t.get r = target ∧ ∀ e, start ≤ e → e < r → t.get e ≠ target)
  · intro e _ _; omega
  · intro i s h1 h2 hI
    rw [Post_bind, Post_rd]
    intro _ _
    split
    · rename_i hne
      rw [Post_pure]
      intro e he1 he2
      by_cases hc : e = i
      · rw [hc]; exact hne
      · exact hI e he1 (by omega)
    · rename_i he
      rw [Post_pure]
      exact ⟨h1, h2, by simpa using he, hI⟩
  · intro _ hI
    show Post (pure _) _
    rw [Post_pure]
    exact ⟨by omega, by omega, fun e h1 h2 _ => hI e h1 h2, fun h => by omega⟩
  · rintro r ⟨h1, h2, h3, h4⟩
    show Post (pure _) _
    rw [Post_pure]
    exact ⟨h1, by omega, fun e a b _ => h4 e a b, fun _ => h3⟩

theorem findArc_holds (t : Arr Int) (target start vnd : Int) (h : start < vnd → t.lo ≤ start ∧ vnd ≤ t.hi) :
    Holds (findArc t target start vnd) (IsFirst t target start vnd) := by
  have hp := findArc_post t target start vnd
  have : Holds (findArc t target start vnd) (fun _ => True) := by
    unfold findArc
    rw [Holds_bind]
    apply Holds_forUpB' (fun _ _ => True) (fun _ => True) trivial
    · intro i s h1 h2 _
      rw [Holds_bind, Holds_rd]
      refine ⟨⟨by omega, by omega⟩, ?_⟩
      split <;> simp
    · intro _ _; exact trivial
    · intro _ _; exact trivial
  obtain ⟨r, e, -⟩ := Holds_iff_exists.1 this
  rw [e] at hp ⊢
  exact hp

/-- Entry of a load array, zero when there is no such array. -/
def lo0 (lotax : Option (Arr Int)) (i : Int) : Int := match lotax with | none => 0 | some a => a.get i
/-- Load of an arc, zero when there are no arc loads. -/
def elo0 (g : Graph) (e : Int) : Int := lo0 g.edlotax e
/-- Load of a vertex, zero when there are no vertex loads. -/
def vlo0 (g : Graph) (v : Int) : Int := lo0 g.velotax v

theorem elo0_eq (g : Graph) (e : Int) : g.elo0 e = if g.edlotax = none then 0 else g.edlo e := by
  unfold elo0 lo0 edlo
  cases g.edlotax <;> simp

theorem vlo0_eq (g : Graph) (e : Int) : g.vlo0 e = if g.velotax = none then 0 else g.velo e := by
  unfold vlo0 lo0 velo
  cases g.velotax <;> simp

/-- The only arc of `w` that leads to `v` is `e'`. -/
def OnlyArc (g : Graph) (w v e' : Int) : Prop :=
  g.vert w ≤ e' ∧ e' < g.vend w ∧ g.dest e' = v ∧
    ∀ e'', g.vert w ≤ e'' → e'' < g.vend w → g.dest e'' = v → e'' = e'

theorem checkReverse_post (v e w : Int) :
    Post (g.checkReverse v e w) (fun r => r = true → ∃ e', OnlyArc g w v e' ∧ g.edlo e' = g.edlo e) := by
  unfold checkReverse
  rw [Post_bind]
  apply rdVend_post
  rw [Post_bind, Post_rd]
  intro _ _
  rw [Post_bind]
  refine (findArc_post _ _ _ _).mono ?_
  rintro r ⟨h1, h2, h3, h4⟩
  split
  · rw [Post_pure]; simp
  · rename_i hlt
    have hlt : r < g.vend w := by omega
    rw [Post_bind]
    have hed : Post (edloDiffer g.edlotax e r) (fun b => b = false → g.edlo r = g.edlo e) := by
      unfold edloDiffer edlo
      cases g.edlotax with
      | none => dsimp only; rw [Post_pure]; intro _; rfl
      | some a =>
        dsimp only
        rw [Post_bind, Post_rd]
        intro _ _
        rw [Post_bind, Post_rd]
        intro _ _
        rw [Post_pure]
        intro h
        simp at h
        exact h.symm
    refine hed.mono ?_
    intro b hb
    cases b with
    | true =>
      simp only [if_true]
      rw [Post_pure]; simp
    | false =>
      simp only [Bool.false_eq_true, if_false]
      rw [Post_bind]
      refine (findArc_post _ _ _ _).mono ?_
      rintro r' ⟨k1, k2, k3, k4⟩
      rw [Post_pure]
      intro hd
      have hd : ¬ r' < g.vend w := of_decide_eq_true hd
      refine ⟨r, ⟨h1, hlt, h4 hlt, ?_⟩, hb rfl⟩
      intro e'' a1 a2 a3
      by_contra hne
      by_cases hc : e'' < r
      · exact h3 e'' a1 hc a2 a3
      · exact k3 e'' (by omega) (by omega) a2 a3

theorem checkLoad_post (lotax : Option (Arr Int)) (i s : Int) :
    Post (checkLoad numMax lotax i s) (fun r => ∀ t, r = some t →
      t = s + lo0 lotax i ∧
      0 ≤ lo0 lotax i) := by
  unfold checkLoad lo0
  cases lotax with
  | none =>
    dsimp only
    rw [Post_pure]
    rintro t ⟨⟩
    simp
  | some a =>
    dsimp only
    rw [Post_bind, Post_rd]
    intro _ _
    rw [Post_bind]
    unfold addChk
    split
    · rw [Post_ok]
      split
      · rw [Post_pure]; simp
      · rw [Post_pure]
        rintro t ⟨⟩
        exact ⟨rfl, by omega⟩
    · trivial

theorem checkArc_post (v e s : Int) :
    Post (g.checkArc numMax v e s) (fun r => ∀ t, r = some t → t = s + g.elo0 e ∧ 0 ≤ g.elo0 e ∧
      g.Vertex (g.dest e) ∧ g.dest e ≠ v ∧ ∃ e', OnlyArc g (g.dest e) v e' ∧ g.edlo e' = g.edlo e) := by
  unfold checkArc
  rw [Post_bind, Post_rd]
  intro _ _
  rw [Post_bind]
  refine (checkLoad_post g.edlotax e s).mono ?_
  intro r hr
  cases r with
  | none => dsimp only; rw [Post_pure]; simp
  | some u =>
    obtain ⟨hu1, hu2⟩ := hr u rfl
    dsimp only
    split
    · rw [Post_pure]; simp
    · rename_i hin
      split
      · rw [Post_pure]; simp
      · rename_i hne
        rw [Post_bind]
        refine (checkReverse_post v e _).mono ?_
        intro b hb
        cases b with
        | false => simp only [Bool.false_eq_true, if_false]; rw [Post_pure]; simp
        | true =>
          simp only [if_true]
          rw [Post_pure]
          rintro t ⟨⟩
          refine ⟨hu1, hu2, ⟨?_, ?_⟩, hne, hb rfl⟩
          · unfold dest; omega
          · unfold dest; omega

/-- What `graphCheck` has checked on a vertex. -/
def VertOk (g : Graph) (v : Int) : Prop :=
  g.baseval ≤ g.vert v ∧ g.vert v ≤ g.vend v ∧ 0 ≤ g.vlo0 v ∧
  ∀ e, g.vert v ≤ e → e < g.vend v → 0 ≤ g.elo0 e ∧ g.Vertex (g.dest e) ∧ g.dest e ≠ v ∧
    ∃ e', OnlyArc g (g.dest e) v e' ∧ g.edlo e' = g.edlo e

theorem checkVelo_post (v s : Int) :
    Post (g.checkVelo numMax v s) (fun r => ∀ t, r = some t → t = s + g.vlo0 v ∧ 0 ≤ g.vlo0 v) := by
  unfold checkVelo vlo0 lo0
  cases hv : g.velotax with
  | none =>
    dsimp only
    rw [Post_pure]
    rintro t ⟨⟩
    simp
  | some a =>
    dsimp only
    rw [Post_bind, Post_rd]
    intro _ _
    split
    · rw [Post_pure]; simp
    · exact checkLoad_post (some a) v s

theorem checkVert_post (v : Int) (s : Sums) :
    Post (g.checkVert numMax v s) (fun r => ∀ t, r = some t → VertOk g v ∧
      t.degrmax = max s.degrmax (g.vend v - g.vert v) ∧ t.edgenbr = s.edgenbr + (g.vend v - g.vert v) ∧
      t.velosum = s.velosum + g.vlo0 v ∧ t.edlosum = s.edlosum + sumI (g.vert v) (g.vend v) g.elo0) := by
  unfold checkVert
  rw [Post_bind, Post_rd]
  intro _ _
  split
  · rw [Post_pure]; simp
  · rename_i h1
    rw [Post_bind]
    apply rdVend_post
    split
    · rw [Post_pure]; simp
    · rename_i h2
      have h2 : g.vert v ≤ g.vend v := by unfold vert; omega
      rw [Post_bind]
      apply Post_forUpB (fun i t => t = s.edlosum + sumI (g.vert v) i g.elo0 ∧
        ∀ e, g.vert v ≤ e → e < i → 0 ≤ g.elo0 e ∧ g.Vertex (g.dest e) ∧ g.dest e ≠ v ∧
          ∃ e', OnlyArc g (g.dest e) v e' ∧ g.edlo e' = g.edlo e) (fun _ => True) h2
      · refine ⟨?_, fun e _ _ => ?_⟩
        · rw [show g.vert v = g.verttax.get v from rfl, sumI_empty (Int.le_refl _)]; omega
        · simp only [vert] at *; omega
      · intro i t i1 i2 hI
        rw [Post_bind]
        refine (checkArc_post v i t).mono ?_
        intro r hr
        cases r with
        | none => trivial
        | some u =>
          show Post (pure _) _
          rw [Post_pure]
          obtain ⟨q1, q2⟩ := hr u rfl
          refine ⟨?_, ?_⟩
          · rw [q1, hI.1, sumI_succ i1]; omega
          · intro e e1 e2
            by_cases hc : e = i
            · rw [hc]; exact q2
            · exact hI.2 e e1 (by omega)
      · rintro t ⟨ht, hall⟩
        dsimp only
        rw [Post_bind]
        refine (checkVelo_post v _).mono ?_
        intro r hr
        cases r with
        | none => dsimp only; rw [Post_pure]; simp
        | some u =>
          obtain ⟨q1, q2⟩ := hr u rfl
          dsimp only
          rw [Post_pure]
          rintro t' ⟨⟩
          refine ⟨⟨by simp only [vert]; omega, h2, q2, hall⟩, ?_, rfl, q1, ht⟩
          simp only [vert]
          split <;> omega
      · intro _ _
        dsimp only
        rw [Post_pure]
        simp

/-- Soundness of `graphCheck`. -/
theorem check_sound : Post (g.check numMax) (fun r => r = true → ConsE g) := by
  unfold check
  split
  · rw [Post_pure]; simp
  · rename_i h1
    split
    · rw [Post_pure]; simp
    · rename_i h2
      rw [Post_bind]
      apply Post_forUpB (fun i (s : Sums) => (∀ v, g.baseval ≤ v → v < i → VertOk g v ∧ g.vend v - g.vert v ≤ s.degrmax) ∧
        0 ≤ s.degrmax ∧ s.edgenbr = sumI g.baseval i (fun v => g.vend v - g.vert v) ∧
        s.velosum = (if g.velotax.isNone then g.vertnbr else 0) + sumI g.baseval i g.vlo0 ∧
        s.edlosum = (if g.edlotax.isNone then g.edgenbr else 0) +
          sumI g.baseval i (fun v => sumI (g.vert v) (g.vend v) g.elo0)) (fun _ => True) (by omega)
      · refine ⟨fun v _ _ => by omega, Int.le_refl _, ?_, ?_, ?_⟩ <;> dsimp only <;>
          rw [sumI_empty (Int.le_refl _)] <;> omega
      · intro i s i1 i2 hI
        obtain ⟨c1, c2, c3, c4, c5⟩ := hI
        rw [Post_bind]
        refine (checkVert_post i s).mono ?_
        intro r hr
        cases r with
        | none => trivial
        | some t =>
          show Post (pure _) _
          rw [Post_pure]
          obtain ⟨q1, q2, q3, q4, q5⟩ := hr t rfl
          refine ⟨?_, by omega, by rw [sumI_succ i1]; omega, by rw [sumI_succ i1]; omega,
            by rw [sumI_succ i1]; omega⟩
          intro v v1 v2
          by_cases hc : v = i
          · subst hc; exact ⟨q1, by omega⟩
          · have := c1 v v1 (by omega)
            exact ⟨this.1, by omega⟩
      · rintro s ⟨c1, c2, c3, c4, c5⟩
        dsimp only
        rw [Post_pure]
        intro hd
        obtain ⟨d1, d2, d3, d4⟩ := of_decide_eq_true hd
        have hok : ∀ v, g.Vertex v → VertOk g v := fun v hv => (c1 v hv.1 hv.2).1
        refine ⟨by omega, by omega, fun v hv => ⟨(hok v hv).1, (hok v hv).2.1⟩, ?_, ?_, ?_, by omega, ?_, ?_, ?_, ?_,
          by omega, fun v hv => ?_⟩
        · intro v e hv e1 e2
          have := (hok v hv).2.2.2 e e1 e2
          exact ⟨this.2.1, this.2.2.1⟩
        · intro v e hv e1 e2
          obtain ⟨-, -, -, e', ⟨a1, a2, a3, -⟩, a4⟩ := (hok v hv).2.2.2 e e1 e2
          exact ⟨e', a1, a2, a3, a4⟩
        · intro v hv e e' e1 e2 k1 k2 heq
          obtain ⟨-, hw, -, e'', ⟨a1, a2, a3, -⟩, -⟩ := (hok v hv).2.2.2 e e1 e2
          obtain ⟨-, -, -, e3, ⟨b1, b2, b3, b4⟩, -⟩ := (hok _ hw).2.2.2 e'' a1 a2
          rw [a3] at b1 b2 b4
          rw [b4 e e1 e2 rfl, b4 e' k1 k2 heq.symm]
        · intro v hv
          have := (hok v hv).2.2.1
          rw [vlo0_eq] at this
          split at this
          · rename_i hn
            unfold velo; rw [hn]; simp
          · exact this
        · rw [d2, c4]
          cases hn : g.velotax with
          | none =>
            have e1 : g.vlo0 = fun _ => 0 := by funext v; unfold vlo0 lo0; rw [hn]
            have e2 : g.velo = fun _ => 1 := by funext v; unfold velo; rw [hn]
            rw [e1, e2, sumI_const (by omega), sumI_const (by omega)]
            simp
            omega
          | some a =>
            have e1 : g.vlo0 = g.velo := by funext v; unfold vlo0 lo0 velo; rw [hn]
            rw [e1]
            simp
        · intro v e hv e1 e2
          have := ((hok v hv).2.2.2 e e1 e2).1
          rw [elo0_eq] at this
          split at this
          · rename_i hn
            unfold edlo; rw [hn]; simp
          · exact this
        · rw [d3, c5]
          cases hn : g.edlotax with
          | none =>
            have e1 : g.elo0 = fun _ => 0 := by funext v; unfold elo0 lo0; rw [hn]
            have e2 : g.edlo = fun _ => 1 := by funext v; unfold edlo; rw [hn]
            rw [e1, e2]
            have z : sumI g.baseval g.vertnnd (fun v => sumI (g.vert v) (g.vend v) (fun _ => (0 : Int))) = 0 := by
              rw [sumI_congr (g := fun _ => 0)]
              · rw [sumI_const (by omega)]; simp
              · intro v v1 v2
                rw [sumI_const ((hok v ⟨v1, v2⟩).2.1)]; simp
            have o : sumI g.baseval g.vertnnd (fun v => sumI (g.vert v) (g.vend v) (fun _ => (1 : Int)))
                = sumI g.baseval g.vertnnd (fun v => g.vend v - g.vert v) := by
              apply sumI_congr
              intro v v1 v2
              rw [sumI_const ((hok v ⟨v1, v2⟩).2.1)]; simp
            rw [z, o]
            simp
            omega
          | some a =>
            have e1 : g.elo0 = g.edlo := by funext v; unfold elo0 lo0 edlo; rw [hn]
            rw [e1]
            simp
        · have := (c1 v hv.1 hv.2).2
          omega
      · intro _ _
        dsimp only
        rw [Post_pure]
        simp

/-! ### Completeness -/

theorem sumI_le_total {lo i hi : Int} {f : Int → Int} (h1 : lo ≤ i) (h2 : i ≤ hi)
    (hf : ∀ j, lo ≤ j → j < hi → 0 ≤ f j) : sumI lo i f ≤ sumI lo hi f := by
  rw [sumI_split h1 h2]
  have := sumI_nonneg (lo := i) (hi := hi) (f := f) (fun j a b => hf j (by omega) b)
  omega

theorem onlyArc_of (h : ConsE g) {v e : Int} (hv : g.Vertex v) (h1 : g.vert v ≤ e) (h2 : e < g.vend v) :
    ∃ e', OnlyArc g (g.dest e) v e' ∧ g.edlo e' = g.edlo e := by
  obtain ⟨e', a1, a2, a3, a4⟩ := h.symm v e hv h1 h2
  refine ⟨e', ⟨a1, a2, a3, ?_⟩, a4⟩
  intro e'' b1 b2 b3
  exact h.simple _ (h.inside v e hv h1 h2).1 e'' e' b1 b2 a1 a2 (by rw [a3, b3])

theorem checkReverse_holds (h : ConsE g) (ha : Allocated g) {v e : Int} (hv : g.Vertex v) (h1 : g.vert v ≤ e)
    (h2 : e < g.vend v) : g.checkReverse v e (g.dest e) = .ok true := by
  obtain ⟨e', ⟨a1, a2, a3, a5⟩, a4⟩ := onlyArc_of h hv h1 h2
  have hw := (h.inside v e hv h1 h2).1
  have hr := h.range _ hw
  have hae := ha.edge _ hw (by omega)
  suffices Holds (g.checkReverse v e (g.dest e)) (fun r => r = true) by
    obtain ⟨r, he, rfl⟩ := Holds_iff_exists.1 this
    exact he
  unfold checkReverse
  rw [Holds_bind, rdVend_holds ha hw, Holds_bind, rdVert_holds ha hw, Holds_bind]
  refine (findArc_holds _ _ _ _ (fun _ => hae)).mono ?_
  rintro r ⟨r1, r2, r3, r4⟩
  have hre : r = e' := by
    by_cases hc : r < g.vend (g.dest e)
    · exact a5 r r1 hc (r4 hc)
    · exact absurd a3 (r3 e' a1 (by omega) a2)
  subst hre
  rw [if_neg (by omega), Holds_bind]
  have hed : Holds (edloDiffer g.edlotax e r) (fun b => b = false) := by
    unfold edloDiffer
    cases hn : g.edlotax with
    | none => simp
    | some a =>
      have b1 := ha.edlo a hn v hv (by omega)
      have b2 := ha.edlo a hn _ hw (by omega)
      dsimp only
      rw [Holds_bind, Holds_rd]
      refine ⟨⟨by omega, by omega⟩, ?_⟩
      rw [Holds_bind, Holds_rd]
      refine ⟨⟨by omega, by omega⟩, ?_⟩
      rw [Holds_pure]
      unfold edlo at a4
      rw [hn] at a4
      simp at a4 ⊢
      exact a4.symm
  refine hed.mono ?_
  rintro b rfl
  simp only [Bool.false_eq_true, if_false]
  rw [Holds_bind]
  refine (findArc_holds _ _ _ _ (fun _ => ⟨by omega, by omega⟩)).mono ?_
  rintro r' ⟨k1, k2, k3, k4⟩
  rw [Holds_pure]
  apply decide_eq_true
  intro hlt
  have := a5 r' (by omega) hlt (k4 hlt)
  omega

theorem checkLoad_holds (lotax : Option (Arr Int)) (i s : Int)
    (hb : ∀ a, lotax = some a → (a.lo ≤ i ∧ i < a.hi) ∧ 0 ≤ a.get i ∧ 0 ≤ s ∧ s + a.get i ≤ numMax) :
    checkLoad numMax lotax i s = .ok (some (s + lo0 lotax i)) := by
  unfold checkLoad lo0
  cases lotax with
  | none => dsimp only; rw [Int.add_zero]; rfl
  | some a =>
    obtain ⟨b1, b2, b3, b4⟩ := hb a rfl
    dsimp only
    rw [Arr.rd_ok a b1.1 b1.2]
    simp only [bind, Except.bind, addChk]
    rw [if_pos (by omega)]
    simp only []
    rw [if_neg (by omega)]
    rfl

/-- Completeness of `graphCheck`: consistent graphs, the loads of which can be summed, are accepted. -/
theorem check_complete (h : ConsE g) (heven : g.edgenbr % 2 = 0) (ha : Allocated g) (hv : g.velosum ≤ numMax)
    (he : g.edlosum ≤ numMax) : g.check numMax = .ok true := by
  suffices Holds (g.check numMax) (fun r => r = true) by
    obtain ⟨r, e, rfl⟩ := Holds_iff_exists.1 this
    exact e
  have hnn := h.vertnnd
  have hn0 := h.vertnbr
  have hed0 : 0 ≤ g.edgenbr := by
    rw [h.edgenbr]
    apply sumI_nonneg
    intro v v1 v2
    have := (h.range v ⟨v1, v2⟩).2
    omega
  have elo_nn : ∀ v e, g.Vertex v → g.vert v ≤ e → e < g.vend v → 0 ≤ g.elo0 e := by
    intro v e hv e1 e2
    rw [elo0_eq]
    split
    · omega
    · exact h.edlo v e hv e1 e2
  have elo_tot : g.edlotax ≠ none →
      sumI g.baseval g.vertnnd (fun v => sumI (g.vert v) (g.vend v) g.elo0) = g.edlosum := by
    intro hne
    rw [h.edlosum]
    apply sumI_congr
    intro v _ _
    apply sumI_congr
    intro e _ _
    rw [elo0_eq, if_neg hne]
  have vlo_nn : ∀ v, g.Vertex v → 0 ≤ g.vlo0 v := by
    intro v hv
    rw [vlo0_eq]
    split
    · omega
    · exact h.velo v hv
  have vlo_tot : g.velotax ≠ none → sumI g.baseval g.vertnnd g.vlo0 = g.velosum := by
    intro hne
    rw [h.velosum]
    apply sumI_congr
    intro v _ _
    rw [vlo0_eq, if_neg hne]
  unfold check
  rw [if_neg (by omega), if_neg (by omega), Holds_bind]
  apply Holds_forUpB (fun i (s : Sums) => s.degrmax ≤ g.degrmax ∧
    s.edgenbr = sumI g.baseval i (fun v => g.vend v - g.vert v) ∧
    s.velosum = (if g.velotax.isNone then g.vertnbr else 0) + sumI g.baseval i g.vlo0 ∧
    s.edlosum = (if g.edlotax.isNone then g.edgenbr else 0) +
      sumI g.baseval i (fun v => sumI (g.vert v) (g.vend v) g.elo0)) (fun _ => False) (by omega)
  · refine ⟨h.degrmax.1, ?_, ?_, ?_⟩ <;> dsimp only <;>
      rw [sumI_empty (Int.le_refl _)] <;> omega
  · intro i s i1 i2 ⟨c2, c3, c4, c5⟩
    have hi : g.Vertex i := ⟨i1, i2⟩
    have hri := h.range i hi
    rw [Holds_bind]
    unfold checkVert
    rw [Holds_bind, rdVert_holds ha hi, if_neg (by omega), Holds_bind, rdVend_holds ha hi, if_neg (by omega), Holds_bind]
    apply Holds_forUpB (fun j t => t = s.edlosum + sumI (g.vert i) j g.elo0) (fun _ => False) hri.2
    · rw [sumI_empty (Int.le_refl _)]; omega
    · intro e t e1 e2 hI
      have hin := h.inside i e hi e1 e2
      rw [Holds_bind]
      have key : g.checkArc numMax i e t = .ok (some (t + g.elo0 e)) := by
        unfold checkArc
        rw [Arr.rd_ok _ (by have := ha.edge i hi (by omega); omega) (by have := ha.edge i hi (by omega); omega)]
        simp only [bind, Except.bind]
        rw [checkLoad_holds]
        · simp only []
          obtain ⟨⟨d1, d2⟩, d3⟩ := hin
          have := checkReverse_holds h ha hi e1 e2
          unfold dest at d1 d2 d3 this
          rw [if_neg (by omega), if_neg d3, this]
          rfl
        · intro a hae
          have hne : g.edlotax ≠ none := by rw [hae]; simp
          have hb := ha.edlo a hae i hi (by omega)
          have q1 := elo_nn i e hi e1 e2
          have q0 : g.elo0 e = a.get e := by unfold elo0 lo0; rw [hae]
          have q2 := elo_tot hne
          have hsome : g.edlotax.isNone = false := by rw [hae]; rfl
          rw [hsome] at c5
          simp only [Bool.false_eq_true, if_false] at c5
          have s1 : sumI g.baseval (i + 1) (fun v => sumI (g.vert v) (g.vend v) g.elo0) ≤
              sumI g.baseval g.vertnnd (fun v => sumI (g.vert v) (g.vend v) g.elo0) := by
            apply sumI_le_total (by omega) (by omega)
            intro j j1 j2
            apply sumI_nonneg
            intro e e1 e2
            exact elo_nn j e ⟨j1, j2⟩ e1 e2
          rw [sumI_succ i1] at s1
          have s2 : sumI (g.vert i) (e + 1) g.elo0 ≤ sumI (g.vert i) (g.vend i) g.elo0 :=
            sumI_le_total (by omega) (by omega) (fun j j1 j2 => elo_nn i j hi j1 j2)
          rw [sumI_succ e1] at s2
          have s3 : 0 ≤ sumI g.baseval i (fun v => sumI (g.vert v) (g.vend v) g.elo0) := by
            apply sumI_nonneg
            intro j j1 j2
            apply sumI_nonneg
            intro e e1 e2
            exact elo_nn j e ⟨j1, by omega⟩ e1 e2
          have s4 : 0 ≤ sumI (g.vert i) e g.elo0 := by
            apply sumI_nonneg
            intro j j1 j2
            exact elo_nn i j hi j1 (by omega)
          refine ⟨⟨by omega, by omega⟩, by omega, by omega, by omega⟩
      rw [key]
      show Holds (pure _) _
      rw [Holds_pure]
      show _ = _
      rw [hI, sumI_succ e1]
      omega
    · rintro t rfl
      dsimp only
      have key : g.checkVelo numMax i s.velosum = .ok (some (s.velosum + g.vlo0 i)) := by
        unfold checkVelo
        cases hn : g.velotax with
        | none =>
          dsimp only
          unfold vlo0 lo0
          rw [hn]
          simp
          rfl
        | some a =>
          have hb := ha.velo a hn
          have q1 := vlo_nn i hi
          have q0 : g.vlo0 i = a.get i := by unfold vlo0 lo0; rw [hn]
          have q2 := vlo_tot (by rw [hn]; simp)
          rw [hn] at c4
          simp at c4
          have s1 := sumI_le_total (f := g.vlo0) (lo := g.baseval) (i := i + 1) (hi := g.vertnnd) (by omega) (by omega)
            (fun j j1 j2 => vlo_nn j ⟨j1, j2⟩)
          rw [sumI_succ i1] at s1
          have s2 : 0 ≤ sumI g.baseval i g.vlo0 := sumI_nonneg (fun j j1 j2 => vlo_nn j ⟨j1, by omega⟩)
          dsimp only
          rw [Arr.rd_ok a (by omega) (by omega)]
          simp only [bind, Except.bind]
          rw [if_neg (by omega), checkLoad_holds]
          · rw [q0]; rfl
          · rintro a' ⟨⟩
            refine ⟨⟨by omega, by omega⟩, by omega, by omega, by omega⟩
      rw [Holds_bind, key]
      show Holds (pure _) _
      rw [Holds_pure]
      show Holds (pure _) _
      rw [Holds_pure]
      show _ ∧ _
      refine ⟨?_, ?_, ?_, ?_⟩
      · have := h.degrmax.2 i hi
        dsimp only
        split <;> omega
      · dsimp only
        rw [sumI_succ i1]; omega
      · dsimp only
        rw [sumI_succ i1]; omega
      · dsimp only
        rw [sumI_succ i1]; omega
    · intro _ hf; exact hf.elim
  · rintro s ⟨c2, c3, c4, c5⟩
    dsimp only
    rw [Holds_pure]
    apply decide_eq_true
    refine ⟨by rw [c3, h.edgenbr], ?_, ?_, by omega⟩
    · cases hn : g.velotax with
      | none =>
        rw [hn] at c4
        have e1 : g.vlo0 = fun _ => 0 := by funext v; unfold vlo0 lo0; rw [hn]
        have e2 : g.velo = fun _ => 1 := by funext v; unfold velo; rw [hn]
        rw [c4, h.velosum, e1, e2, sumI_const (by omega), sumI_const (by omega)]
        simp
        omega
      | some a =>
        rw [c4, vlo_tot (by rw [hn]; simp), hn]
        simp
    · cases hn : g.edlotax with
      | none =>
        rw [hn] at c5
        have e1 : g.elo0 = fun _ => 0 := by funext v; unfold elo0 lo0; rw [hn]
        have e2 : g.edlo = fun _ => 1 := by funext v; unfold edlo; rw [hn]
        have z : sumI g.baseval g.vertnnd (fun v => sumI (g.vert v) (g.vend v) (fun _ => (0 : Int))) = 0 := by
          rw [sumI_congr (g := fun _ => 0)]
          · rw [sumI_const (by omega)]; simp
          · intro v v1 v2
            rw [sumI_const ((h.range v ⟨v1, v2⟩).2)]; simp
        have o : sumI g.baseval g.vertnnd (fun v => sumI (g.vert v) (g.vend v) (fun _ => (1 : Int)))
            = sumI g.baseval g.vertnnd (fun v => g.vend v - g.vert v) := by
          apply sumI_congr
          intro v v1 v2
          rw [sumI_const ((h.range v ⟨v1, v2⟩).2)]; simp
        rw [c5, h.edlosum, e1, e2, z, o, h.edgenbr]
        simp
      | some a =>
        rw [c5, elo_tot (by rw [hn]; simp), hn]
        simp
  · intro _ hf; exact hf.elim

end Scotch.Graph
