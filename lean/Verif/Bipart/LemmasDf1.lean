import Verif.Bipart.ModelDf
import Verif.Bipart.LemmasBasic
import Verif.Rand.Props

/-! # Bipartition by diffusion: lemmas on diffusion -/

set_option autoImplicit false
set_option linter.unusedSimpArgs false

namespace Scotch.Bipart
open Graph

variable {env : DfEnv} {b : Bgraph}

/-! ## Ranges of threads -/

/-- `S t` is the first vertex of thread `t`. -/
structure DfRun (env : DfEnv) (b : Bgraph) (S : Int → Int) : Prop where
  nbr : 1 ≤ env.thrdnbr
  start : ∀ t, 0 ≤ t → t < env.thrdnbr → dfStart env b t = .ok (S t)
  fin : ∀ t, 0 ≤ t → t < env.thrdnbr → dfEnd env b t = .ok (S (t + 1))
  anc : ∀ t, 0 ≤ t → t < env.thrdnbr - 1 → dfAnc env b t = .ok (S (t + 1))
  anc' : dfAnc env b (env.thrdnbr - 1) = .ok (b.s.vertnnd - 2)
  first : S 0 = b.s.baseval
  last : S env.thrdnbr = b.s.vertnnd
  le : ∀ t, 0 ≤ t → t < env.thrdnbr → S t ≤ S (t + 1)
  room : S (env.thrdnbr - 1) ≤ b.s.vertnnd - 2

theorem dfRun (hc : ConsE b.s) (h2 : 2 ≤ b.s.vertnbr) (hn : 1 ≤ env.thrdnbr) : ∃ S, DfRun env b S := by
  obtain ⟨size, start, -, s2, s3, s4, s5, s6, -, -⟩ := C05_distribution (b.s.vertnbr - 2) env.thrdnbr (by omega) (by omega)
  have hnn := hc.vertnnd
  have e : ∀ t, 0 ≤ t → t < env.thrdnbr → dfStart env b t = .ok (b.s.baseval + start t) := by
    intro t h1 h2
    unfold dfStart
    rw [s2 t h1 (by omega), ok_bind]; rfl
  refine ⟨fun t => if t = env.thrdnbr then b.s.vertnnd else b.s.baseval + start t, hn, ?_, ?_, ?_, ?_, ?_, ?_, ?_, ?_⟩
  · intro t h1 h2
    rw [if_neg (by omega)]; exact e t h1 h2
  · intro t h1 h2
    unfold dfEnd
    by_cases ht : t = env.thrdnbr - 1
    · rw [if_pos ht, if_pos (by omega)]; rfl
    · rw [if_neg ht, if_neg (by omega)]; exact e _ (by omega) (by omega)
  · intro t h1 h2
    unfold dfAnc
    rw [if_neg (by omega), if_neg (by omega)]; exact e _ (by omega) (by omega)
  · unfold dfAnc
    rw [if_pos rfl]; rfl
  · rw [if_neg (by omega), s3]; omega
  · rw [if_pos rfl]
  · intro t h1 h2
    rw [if_neg (by omega)]
    have a1 := s5 t h1 h2
    have a2 := s6 t h1 h2
    by_cases ht : t + 1 = env.thrdnbr
    · rw [if_pos ht]
      rw [ht, s4] at a1
      omega
    · rw [if_neg ht]; omega
  · rw [if_neg (by omega)]
    have a1 := s5 (env.thrdnbr - 1) (by omega) (by omega)
    have a2 := s6 (env.thrdnbr - 1) (by omega) (by omega)
    rw [show env.thrdnbr - 1 + 1 = env.thrdnbr by omega, s4] at a1
    omega

namespace DfRun
variable {S : Int → Int}

theorem mono (R : DfRun env b S) {t u : Int} (h0 : 0 ≤ t) (h : t ≤ u) (hu : u ≤ env.thrdnbr) : S t ≤ S u := by
  obtain ⟨k, rfl⟩ : ∃ k : Nat, u = t + k := ⟨(u - t).toNat, by omega⟩
  induction k with
  | zero => simp
  | succ k ih =>
    have := ih (by omega) (by push_cast at hu; omega)
    have h2 := R.le (t + k) (by omega) (by push_cast at hu; omega)
    rw [show t + ((k + 1 : Nat) : Int) = t + k + 1 by push_cast; omega]
    omega

theorem bnd (R : DfRun env b S) {t : Int} (h0 : 0 ≤ t) (h : t ≤ env.thrdnbr) : b.s.baseval ≤ S t ∧ S t ≤ b.s.vertnnd := by
  have h1 := R.mono (Int.le_refl 0) h0 h
  have h2 := R.mono h0 h (Int.le_refl _)
  rw [R.first] at h1
  rw [R.last] at h2
  exact ⟨h1, h2⟩

/-- Sums over the ranges of threads. -/
theorem sum (R : DfRun env b S) (f : Int → Int) {t : Int} (h0 : 0 ≤ t) (h : t ≤ env.thrdnbr) : sumI 0 t (fun u => sumI (S u) (S (u + 1)) f) = sumI b.s.baseval (S t) f := by
  obtain ⟨k, rfl⟩ : ∃ k : Nat, t = k := ⟨t.toNat, by omega⟩
  induction k with
  | zero => rw [Int.natCast_zero, R.first, sumI_empty (Int.le_refl _), sumI_empty (Int.le_refl _)]
  | succ k ih =>
    push_cast at h ⊢
    rw [sumI_succ (by omega), ih (by omega) (by omega), sumI_split (R.bnd (t := (k : Int)) (by omega) (by omega)).1 (R.le _ (by omega) (by omega))]

end DfRun

/-! ## First phase -/

/-- Bounds of the arrays of differences. -/
def DfArr {α : Type} (b : Bgraph) (a : Arr α) : Prop := a.lo = b.s.baseval ∧ a.hi = b.s.baseval + b.s.vertnbr

theorem dfIels_holds (hc : ConsE b.s) (ha : Alloc b) {v : Int} (hv : b.s.Vertex v) : Holds (dfIels env b v) (fun _ => True) := by
  unfold dfIels
  rw [Holds_bind]
  refine Holds_forArcs ha.graph hv (hc.range v hv).2 (fun _ _ => True) trivial ?_ ?_
  · intro e s e1 e2 _
    rw [rdEdlo_eq ha.graph hv e1 e2, ok_bind, Holds_pure]; trivial
  · intro s _
    rw [rdVeex_eq ha hv, ok_bind, Holds_pure]; trivial

/-- Arrays of the threads. -/
def DfLoc (env : DfEnv) (S : Int → Int) (iels : Int → Arr env.flo.F) (t : Int) : Prop := ∀ u, 0 ≤ u → u < t → (iels u).lo = S u ∧ (iels u).hi = S (u + 1)

theorem dfInit_holds (hc : ConsE b.s) (ha : Alloc b) (h2 : 2 ≤ b.s.vertnbr) {S : Int → Int} (R : DfRun env b S) (vanc : env.flo.F × env.flo.F) :
    Holds (dfInit env b vanc) (fun r => DfArr b r.1 ∧ DfLoc env S r.2 env.thrdnbr) := by
  have hnn := hc.vertnnd
  have hn := R.nbr
  unfold dfInit
  rw [Holds_bind]
  refine Holds_forUp (fun t (s : DfInit env) => DfArr b s.difo ∧ DfLoc env S s.iels t) (by omega) ⟨⟨rfl, rfl⟩, fun u h1 h2 => by omega⟩ ?_ ?_
  · rintro t s t1 t2 ⟨⟨i1, i2⟩, i3⟩
    have B1 := R.bnd t1 (by omega)
    have B2 := R.bnd (t := t + 1) (by omega) (by omega)
    unfold dfInitThread
    rw [R.start t t1 t2, ok_bind, R.fin t t1 t2, ok_bind, Holds_bind]
    refine Holds_forUp (fun _ (s : Arr env.flo.F × Arr env.flo.F × Int × Int) => DfArr b s.1 ∧ s.2.1.lo = S t ∧ s.2.1.hi = S (t + 1)) (R.le t t1 t2) ⟨⟨i1, i2⟩, rfl, rfl⟩ ?_ ?_
    · rintro v ⟨d, i, x, x1⟩ v1 v2 ⟨⟨j1, j2⟩, j3, j4⟩
      dsimp only at j1 j2 j3 j4 ⊢
      rw [Holds_bind]
      refine (dfIels_holds hc ha ⟨by omega, by omega⟩).mono ?_
      rintro ⟨f, y⟩ -
      dsimp only
      rw [Arr.wr_ok _ _ (by omega) (by omega), ok_bind, Arr.wr_ok _ _ (by omega) (by omega), ok_bind, Holds_pure]
      exact ⟨⟨j1, j2⟩, j3, j4⟩
    · rintro ⟨d, i, x, x1⟩ ⟨j1, j3, j4⟩
      rw [Holds_pure]
      refine ⟨j1, ?_⟩
      intro u u1 u2
      dsimp only
      by_cases hu : u = t
      · rw [if_pos hu, hu]; exact ⟨j3, j4⟩
      · rw [if_neg hu]; exact i3 u u1 (by omega)
  · rintro s ⟨⟨i1, i2⟩, i3⟩
    have hr := R.room
    obtain ⟨l1, l2⟩ := i3 (env.thrdnbr - 1) (by omega) (by omega)
    rw [show env.thrdnbr - 1 + 1 = env.thrdnbr by omega, R.last] at l2
    have hA : ∀ a : Arr env.flo.F, a.lo = S (env.thrdnbr - 1) → a.hi = b.s.vertnnd → ∀ x x1, Holds (dfAncIels env b x x1 a) (fun a' => a'.lo = a.lo ∧ a'.hi = a.hi) := by
      intro a a1 a2 x x1
      unfold dfAncIels
      cases b.veextax with
      | none => rw [Holds_pure]; exact ⟨rfl, rfl⟩
      | some y =>
        dsimp only
        rw [Arr.rd_ok _ (by omega) (by omega), ok_bind, Arr.wr_ok _ _ (by omega) (by omega), ok_bind, Arr.rd_ok _ (by dsimp only [Arr.set]; omega) (by dsimp only [Arr.set]; omega), ok_bind,
          Arr.wr_ok _ _ (by dsimp only [Arr.set]; omega) (by dsimp only [Arr.set]; omega), Holds_ok]
        exact ⟨rfl, rfl⟩
    dsimp only
    rw [Holds_bind]
    refine (hA _ l1 l2 _ _).mono ?_
    rintro a ⟨a1, a2⟩
    rw [Arr.rd_ok _ (by omega) (by omega), ok_bind, Arr.wr_ok _ _ (by omega) (by omega), ok_bind, Arr.rd_ok _ (by omega) (by omega), ok_bind,
      Arr.wr_ok _ _ (by dsimp only [Arr.set]; omega) (by dsimp only [Arr.set]; omega), ok_bind, Holds_pure]
    refine ⟨⟨i1, i2⟩, ?_⟩
    intro u u1 u2
    dsimp only
    by_cases hu : u = env.thrdnbr - 1
    · rw [if_pos hu, hu, show env.thrdnbr - 1 + 1 = env.thrdnbr by omega, R.last]; exact ⟨by omega, by omega⟩
    · rw [if_neg hu]; exact i3 u u1 u2

/-! ## Passes -/

theorem dfVeex_holds (hc : ConsE b.s) (ha : Alloc b) {v : Int} (hv : b.s.Vertex v) {difo : Arr env.flo.F} (D : DfArr b difo) (old : env.flo.F × env.flo.F) (d : env.flo.F) :
    Holds (dfVeex env b difo v old d) (fun _ => True) := by
  unfold dfVeex
  obtain ⟨v1, v2⟩ := hv
  obtain ⟨d1, d2⟩ := D
  have hnn := hc.vertnnd
  cases hx : b.veextax with
  | none => trivial
  | some a =>
    have := ha.veex a hx
    dsimp only
    rw [Arr.rd_ok _ (by omega) (by omega), ok_bind]
    split
    · rw [Arr.rd_ok _ (by omega) (by omega), ok_bind]
      split <;> trivial
    · trivial

theorem dfDiff_holds (hc : ConsE b.s) (ha : Alloc b) {v : Int} (hv : b.s.Vertex v) {difo : Arr env.flo.F} (D : DfArr b difo) (old : env.flo.F × env.flo.F) (x : env.flo.F) :
    Holds (dfDiff env b difo old x v) (fun _ => True) := by
  have hnn := hc.vertnnd
  unfold dfDiff
  dsimp only
  rw [Holds_bind]
  refine Holds_forArcs ha.graph hv (hc.range v hv).2 (fun _ _ => True) trivial ?_ ?_
  · intro e s e1 e2 _
    obtain ⟨w1, w2⟩ := (hc.inside v e hv e1 e2).1
    obtain ⟨d1, d2⟩ := D
    rw [Arr.rd_ok _ (by omega) (by omega), ok_bind]
    cases hx : b.s.edlotax with
    | none => trivial
    | some a =>
      have h := rdEdlo_eq ha.graph hv e1 e2
      unfold Graph.rdEdlo at h
      rw [hx] at h
      dsimp only at h ⊢
      rw [h, ok_bind, Holds_pure]; trivial
  · intro s _
    rw [Holds_bind]
    refine (dfVeex_holds hc ha hv D old _).mono ?_
    intro d _
    rw [rdVelo_eq ha.graph hv, ok_bind, Holds_pure]; trivial

theorem dfRange_holds (hc : ConsE b.s) (ha : Alloc b) (hnan : ∀ x, env.flo.isnan x = false) {iels difo difn : Arr env.flo.F} (D : DfArr b difo) (D' : DfArr b difn) (old : env.flo.F × env.flo.F) (x : env.flo.F) {lo hi : Int}
    (h0 : b.s.baseval ≤ lo) (h1 : lo ≤ hi) (h2 : hi ≤ b.s.vertnnd) (i1 : iels.lo ≤ lo) (i2 : hi ≤ iels.hi) :
    Holds (dfRange env b iels difo old x lo hi difn) (fun r => DfArr b r.1 ∧ r.2.1 = hi ∧ r.2.2 = false) := by
  have hnn := hc.vertnnd
  unfold dfRange
  rw [Holds_bind]
  refine Holds_forUpB (fun _ d => DfArr b d) (fun _ => False) h1 D' ?_ ?_ (fun _ h => h.elim)
  · rintro v d v1 v2 ⟨d1, d2⟩
    rw [Holds_bind]
    refine (dfDiff_holds hc ha ⟨by omega, by omega⟩ D old x).mono ?_
    intro y _
    rw [hnan, if_neg (by decide), Arr.rd_ok _ (by omega) (by omega), ok_bind, Arr.wr_ok _ _ (by omega) (by omega), ok_bind, Holds_pure]
    exact ⟨d1, d2⟩
  · intro d hd
    dsimp only
    rw [Holds_pure]
    exact ⟨hd, by dsimp only; omega, rfl⟩

theorem dfPassThread_holds (hc : ConsE b.s) (ha : Alloc b) (h2 : 2 ≤ b.s.vertnbr) (hnan : ∀ x, env.flo.isnan x = false) {S : Int → Int} (R : DfRun env b S) {iels : Int → Arr env.flo.F} (L : DfLoc env S iels env.thrdnbr)
    {difo difn : Arr env.flo.F} (D : DfArr b difo) (D' : DfArr b difn) (vanc : env.flo.F × env.flo.F) {t : Int} (t1 : 0 ≤ t) (t2 : t < env.thrdnbr) :
    Holds (dfPassThread env b iels difo vanc t (difn, false)) (fun r => DfArr b r.1 ∧ r.2 = false) := by
  have hnn := hc.vertnnd
  have hr := R.room
  have hbn := R.bnd t1 (by omega)
  obtain ⟨l1, l2⟩ := L t t1 t2
  obtain ⟨d1, d2⟩ := D
  unfold dfPassThread
  rw [R.start t t1 t2, ok_bind]
  by_cases ht : t = env.thrdnbr - 1
  · subst ht
    rw [show env.thrdnbr - 1 + 1 = env.thrdnbr by omega, R.last] at l2
    rw [R.anc', ok_bind, Arr.rd_ok _ (by omega) (by omega), ok_bind, Arr.rd_ok _ (by omega) (by omega), ok_bind]
    dsimp only
    rw [Holds_bind]
    refine (dfRange_holds hc ha hnan ⟨d1, d2⟩ D' _ _ hbn.1 (by omega) (by omega) (by omega) (by omega)).mono ?_
    rintro ⟨dn, v, a⟩ ⟨q1, q2, q3⟩
    dsimp only at q1 q2 q3 ⊢
    subst q2 q3
    rw [if_neg (fun h => h.1 rfl), if_pos rfl, Holds_bind]
    refine Holds.mono (Q := fun r => DfArr b r.1 ∧ r.2 = false) ?_ ?_
    · unfold dfAnchors
      dsimp only
      rw [show dfVanc env vanc (b.s.vertnnd - 2 - (b.s.vertnnd - 2)) = .ok (env.flo.add vanc.1 vanc.1) by unfold dfVanc; rw [if_pos (by omega)]; rfl, ok_bind, Holds_bind]
      refine (dfRange_holds hc ha hnan ⟨d1, d2⟩ q1 _ _ (by omega) (by omega) (by omega) (by omega) (by omega)).mono ?_
      rintro ⟨dn1, v, a⟩ ⟨r1, r2, r3⟩
      dsimp only at r1 r2 r3 ⊢
      subst r2 r3
      rw [if_neg (by omega), show dfVanc env vanc (b.s.vertnnd - 2 + 1 - (b.s.vertnnd - 2)) = .ok (env.flo.add vanc.2 vanc.2) by unfold dfVanc; rw [if_neg (by omega), if_pos (by omega)]; rfl, ok_bind, Holds_bind]
      refine (dfRange_holds hc ha hnan ⟨d1, d2⟩ r1 _ _ (by omega) (by omega) (by omega) (by omega) (by omega)).mono ?_
      rintro ⟨dn2, v, a⟩ ⟨s1, s2, s3⟩
      dsimp only at s1 s2 s3 ⊢
      subst s3
      rw [Holds_pure]
      exact ⟨s1, rfl⟩
    · rintro ⟨dn', a⟩ ⟨s1, s2⟩
      dsimp only at s1 s2 ⊢
      subst s2
      rw [Holds_pure]
      exact ⟨s1, rfl⟩
  · have hle := R.le t t1 t2
    have hb2 := R.bnd (t := t + 1) (by omega) (by omega)
    rw [R.anc t t1 (by omega), ok_bind, Arr.rd_ok _ (by omega) (by omega), ok_bind, Arr.rd_ok _ (by omega) (by omega), ok_bind]
    dsimp only
    rw [Holds_bind]
    refine (dfRange_holds hc ha hnan ⟨d1, d2⟩ D' _ _ hbn.1 hle hb2.2 (by omega) (by omega)).mono ?_
    rintro ⟨dn, v, a⟩ ⟨q1, q2, q3⟩
    dsimp only at q1 q2 q3 ⊢
    subst q2 q3
    rw [if_neg (fun h => h.1 rfl), if_neg ht, Holds_pure]
    exact ⟨q1, rfl⟩

theorem dfPasses_holds (hc : ConsE b.s) (ha : Alloc b) (h2 : 2 ≤ b.s.vertnbr) (hnan : ∀ x, env.flo.isnan x = false) {S : Int → Int} (R : DfRun env b S) {iels : Int → Arr env.flo.F} (L : DfLoc env S iels env.thrdnbr)
    {difo : Arr env.flo.F} (D : DfArr b difo) (vanc : env.flo.F × env.flo.F) (passnbr : Int) : Holds (dfPasses env b iels vanc passnbr difo) (DfArr b) := by
  have hn := R.nbr
  unfold dfPasses
  rw [Holds_bind]
  refine Holds_forUpB' (fun _ (s : Arr env.flo.F × Arr env.flo.F) => DfArr b s.1 ∧ DfArr b s.2) (DfArr b) ⟨D, ⟨rfl, rfl⟩⟩ ?_ ?_ ?_
  · rintro k ⟨d, d'⟩ - - ⟨e1, e2⟩
    dsimp only at e1 e2 ⊢
    rw [Holds_bind]
    refine Holds_forUp (fun _ (s : Arr env.flo.F × Bool) => DfArr b s.1 ∧ s.2 = false) (by omega) ⟨e2, rfl⟩ ?_ ?_
    · rintro t ⟨x, a⟩ t1 t2 ⟨f1, f2⟩
      dsimp only at f1 f2
      subst f2
      exact dfPassThread_holds hc ha h2 hnan R L e1 f1 vanc t1 t2
    · rintro ⟨x, a⟩ ⟨f1, f2⟩
      dsimp only at f1 f2 ⊢
      subst f2
      rw [if_neg (by decide), Holds_pure]
      exact ⟨f1, e1⟩
  · rintro ⟨d, d'⟩ ⟨e1, -⟩
    exact e1
  · intro d hd
    exact hd

end Scotch.Bipart
