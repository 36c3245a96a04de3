import Verif.Mesh.Spec
import Verif.Util

/-!
# Decision of the consistency of concrete meshes

Used by the examples only: they show that the hypotheses of theorems are met.
-/

set_option autoImplicit false

namespace Scotch.Mesh

/-- All integers of a range satisfy a test. -/
def allI (lo hi : Int) (p : Int → Bool) : Bool := (List.range (hi - lo).toNat).all fun k => p (lo + (k : Nat))

theorem allI_iff {lo hi : Int} {p : Int → Bool} : allI lo hi p = true ↔ ∀ v, lo ≤ v → v < hi → p v = true := by
  unfold allI
  rw [List.all_eq_true]
  constructor
  · intro h v h1 h2
    have := h (v - lo).toNat (List.mem_range.2 (by omega))
    rwa [show lo + ((v - lo).toNat : Int) = v by omega] at this
  · intro h k hk
    have := List.mem_range.1 hk
    exact h _ (by omega) (by omega)

instance (m : Mesh) (v : Int) : Decidable (m.Elem v) := inferInstanceAs (Decidable (_ ∧ _))
instance (m : Mesh) (v : Int) : Decidable (m.Node v) := inferInstanceAs (Decidable (_ ∧ _))

/-- All vertices satisfy a test. -/
def allV (m : Mesh) (p : Int → Bool) : Bool := allI m.velmbas m.velmnnd p && allI m.vnodbas m.vnodnnd p

theorem allV_iff {m : Mesh} {p : Int → Bool} : m.allV p = true ↔ ∀ v, m.Elem v ∨ m.Node v → p v = true := by
  unfold allV
  rw [Bool.and_eq_true, allI_iff, allI_iff]
  constructor
  · rintro ⟨h1, h2⟩ v (hv | hv)
    · exact h1 v hv.1 hv.2
    · exact h2 v hv.1 hv.2
  · intro h
    exact ⟨fun v v1 v2 => h v (Or.inl ⟨v1, v2⟩), fun v v1 v2 => h v (Or.inr ⟨v1, v2⟩)⟩

def consB (m : Mesh) : Bool :=
  decide (0 ≤ m.velmnbr) && decide (0 ≤ m.vnodnbr) && decide (m.velmnnd = m.velmbas + m.velmnbr) && decide (m.vnodnnd = m.vnodbas + m.vnodnbr) &&
  decide ((m.velmbas = m.baseval ∧ m.vnodbas = m.velmnnd) ∨ (m.vnodbas = m.baseval ∧ m.velmbas = m.vnodnnd)) &&
  m.allV (fun v => decide (m.baseval ≤ m.vert v ∧ m.vert v ≤ m.vend v)) &&
  allI m.velmbas m.velmnnd (fun v => (m.nbr v).all fun w => decide (m.Node w ∧ v ∈ m.nbr w)) &&
  allI m.vnodbas m.vnodnnd (fun w => (m.nbr w).all fun v => decide (m.Elem v ∧ w ∈ m.nbr v)) &&
  m.allV (fun v => decide (m.nbr v).Nodup) &&
  decide (m.edgenbr = sumI m.velmbas m.velmnnd (fun v => (m.nbr v).length) + sumI m.vnodbas m.vnodnnd (fun v => (m.nbr v).length)) &&
  allI m.velmbas m.velmnnd (fun v => decide (1 ≤ m.velo v)) && decide (m.velosum = sumI m.velmbas m.velmnnd m.velo) &&
  allI m.vnodbas m.vnodnnd (fun v => decide (1 ≤ m.vnlo v)) && decide (m.vnlosum = sumI m.vnodbas m.vnodnnd m.vnlo) &&
  decide (0 ≤ m.degrmax) && m.allV (fun v => decide (((m.nbr v).length : Int) ≤ m.degrmax))

theorem consB_sound {m : Mesh} (h : m.consB = true) : m.Consistent := by
  unfold consB at h
  simp only [Bool.and_eq_true, decide_eq_true_eq, allV_iff, allI_iff, List.all_eq_true] at h
  obtain ⟨⟨⟨⟨⟨⟨⟨⟨⟨⟨⟨⟨⟨⟨⟨h1, h2⟩, h3⟩, h4⟩, h5⟩, h6⟩, h7⟩, h8⟩, h9⟩, h10⟩, h11⟩, h12⟩, h13⟩, h14⟩, h15⟩, h16⟩ := h
  exact ⟨h1, h2, h3, h4, h5, h6, fun v hv => h7 v hv.1 hv.2, fun v hv => h8 v hv.1 hv.2, h9, h10, fun v hv => h11 v hv.1 hv.2, h12, fun v hv => h13 v hv.1 hv.2, h14, h15, h16⟩

def covB (lo hi : Int) (a : Option (Arr Int)) : Bool := match a with | none => true | some a => decide (a.lo ≤ lo ∧ hi ≤ a.hi)

theorem covB_iff {lo hi : Int} {o : Option (Arr Int)} (h : covB lo hi o = true) : ∀ a, o = some a → a.lo ≤ lo ∧ hi ≤ a.hi := by
  intro a ha
  subst ha
  simpa [covB] using h

def allocB (m : Mesh) : Bool :=
  decide (m.verttax.lo ≤ m.baseval) && decide (m.baseval + m.velmnbr + m.vnodnbr ≤ m.verttax.hi) && decide (m.vendtax.isNone = true → m.baseval + m.velmnbr + m.vnodnbr + 1 ≤ m.verttax.hi) &&
  covB m.baseval (m.baseval + m.velmnbr + m.vnodnbr) m.vendtax && covB m.velmbas m.velmnnd m.velotax && covB m.vnodbas m.vnodnnd m.vnlotax &&
  m.allV (fun v => decide (m.vert v < m.vend v → m.edgetax.lo ≤ m.vert v ∧ m.vend v ≤ m.edgetax.hi))

theorem allocB_sound {m : Mesh} (h : m.allocB = true) : m.Allocated := by
  unfold allocB at h
  simp only [Bool.and_eq_true, decide_eq_true_eq, allV_iff] at h
  obtain ⟨⟨⟨⟨⟨⟨h1, h2⟩, h3⟩, h4⟩, h5⟩, h6⟩, h7⟩ := h
  exact ⟨h1, h2, fun e => h3 (by rw [e]; rfl), covB_iff h4, covB_iff h5, covB_iff h6, h7⟩

end Scotch.Mesh
