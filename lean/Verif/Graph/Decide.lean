import Verif.Graph.Spec

/-!
# Decision of the consistency of concrete graphs

Used by the examples only: they show that the hypotheses of theorems are met.
-/

set_option autoImplicit false

namespace Scotch.Graph

/-- All vertices satisfy a test. -/
def allV (g : Graph) (p : Int → Bool) : Bool := (List.range (g.vertnnd - g.baseval).toNat).all fun k => p (g.baseval + (k : Nat))

theorem allV_iff {g : Graph} {p : Int → Bool} : g.allV p = true ↔ ∀ v, g.Vertex v → p v = true := by
  unfold allV
  rw [List.all_eq_true]
  constructor
  · intro h v hv
    have h1 := hv.1
    have h2 := hv.2
    have := h (v - g.baseval).toNat (List.mem_range.2 (by omega))
    rwa [show g.baseval + ((v - g.baseval).toNat : Int) = v by omega] at this
  · intro h k hk
    have := List.mem_range.1 hk
    exact h _ ⟨by omega, by omega⟩

def consB (g : Graph) : Bool :=
  decide (0 ≤ g.vertnbr) && decide (g.vertnnd = g.baseval + g.vertnbr) &&
  g.allV (fun v => decide (g.baseval ≤ g.vert v ∧ g.vert v ≤ g.vend v)) &&
  g.allV (fun v => (g.nbrs v).all fun p => decide ((g.Vertex p.1 ∧ p.1 ≠ v) ∧ (v, p.2) ∈ g.nbrs p.1 ∧ 0 ≤ p.2)) &&
  g.allV (fun v => decide ((g.nbrs v).map Prod.fst).Nodup) &&
  decide (g.edgenbr = sumI g.baseval g.vertnnd (fun v => (g.nbrs v).length)) &&
  g.allV (fun v => decide (0 ≤ g.velo v)) &&
  decide (g.velosum = sumI g.baseval g.vertnnd g.velo) &&
  decide (g.edlosum = sumI g.baseval g.vertnnd (fun v => ((g.nbrs v).map Prod.snd).sum)) &&
  decide (0 ≤ g.degrmax) && g.allV (fun v => decide (((g.nbrs v).length : Int) ≤ g.degrmax))

theorem consB_sound {g : Graph} (h : g.consB = true) : g.Consistent := by
  unfold consB at h
  simp only [Bool.and_eq_true, decide_eq_true_eq, allV_iff, List.all_eq_true] at h
  obtain ⟨⟨⟨⟨⟨⟨⟨⟨⟨⟨h1, h2⟩, h3⟩, h4⟩, h5⟩, h6⟩, h7⟩, h8⟩, h9⟩, h10⟩, h11⟩ := h
  exact ⟨h1, h2, h3, fun v p hv hp => (h4 v hv p hp).1, fun v p hv hp => (h4 v hv p hp).2.1, h5, h6, h7, h8, fun v p hv hp => (h4 v hv p hp).2.2, h9, h10, h11⟩

def covB (g : Graph) (a : Option (Arr Int)) : Bool := match a with | none => true | some a => decide (a.lo ≤ g.baseval ∧ g.vertnnd ≤ a.hi)

theorem covB_iff {g : Graph} {o : Option (Arr Int)} (h : g.covB o = true) : ∀ a, o = some a → a.lo ≤ g.baseval ∧ g.vertnnd ≤ a.hi := by
  intro a ha
  subst ha
  simpa [covB] using h

def allocB (g : Graph) : Bool :=
  decide (g.verttax.lo ≤ g.baseval) && decide (g.vertnnd ≤ g.verttax.hi) && decide (g.vendtax.isNone = true → g.vertnnd + 1 ≤ g.verttax.hi) &&
  g.covB g.vendtax && g.covB g.velotax && g.covB g.vnumtax && g.covB g.vlbltax &&
  g.allV (fun v => decide (g.vert v < g.vend v → g.edgetax.lo ≤ g.vert v ∧ g.vend v ≤ g.edgetax.hi)) &&
  (match g.edlotax with | none => true | some a => g.allV (fun v => decide (g.vert v < g.vend v → a.lo ≤ g.vert v ∧ g.vend v ≤ a.hi)))

theorem allocB_sound {g : Graph} (h : g.allocB = true) : g.Allocated := by
  unfold allocB at h
  simp only [Bool.and_eq_true, decide_eq_true_eq, allV_iff] at h
  obtain ⟨⟨⟨⟨⟨⟨⟨⟨h1, h2⟩, h3⟩, h4⟩, h5⟩, h6⟩, h7⟩, h8⟩, h9⟩ := h
  refine ⟨h1, h2, fun e => h3 (by rw [e]; rfl), covB_iff h4, covB_iff h5, covB_iff h6, covB_iff h7, h8, ?_⟩
  intro a ha
  rw [ha] at h9
  dsimp only at h9
  rw [allV_iff] at h9
  exact fun v hv => of_decide_eq_true (h9 v hv)

end Scotch.Graph
