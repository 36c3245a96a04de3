import Verif.Mesh.Check
import Verif.Mesh.Spec
import Verif.Graph.LemmasCheck
import Verif.TextIO.Pairs

set_option autoImplicit false
set_option linter.unusedSimpArgs false

namespace Scotch.Mesh
open Graph (findArc IsFirst findArc_holds)
variable {m : Mesh} {numMax : Int}

/-- What is known once the first test has been passed. -/
structure Frame (m : Mesh) : Prop where
  velmnbr : 0 ≤ m.velmnbr
  vnodnbr : 0 ≤ m.vnodnbr
  velmnnd : m.velmnnd = m.velmbas + m.velmnbr
  vnodnnd : m.vnodnnd = m.vnodbas + m.vnodnbr
  order : (m.velmbas = m.baseval ∧ m.vnodbas = m.velmnnd) ∨ (m.vnodbas = m.baseval ∧ m.velmbas = m.vnodnnd)
  alloc : m.Allocated

theorem Frame.vertex (F : Frame m) {w : Int} (h1 : m.baseval ≤ w) (h2 : w < m.velmnbr + m.vnodnbr + m.baseval) : m.Elem w ∨ m.Node w := by
  obtain ⟨f1, f2, f3, f4, f5, _⟩ := F
  unfold Elem Node
  omega

theorem Frame.range (F : Frame m) {w : Int} (h : m.Elem w ∨ m.Node w) : m.baseval ≤ w ∧ w < m.velmnbr + m.vnodnbr + m.baseval := by
  obtain ⟨f1, f2, f3, f4, f5, _⟩ := F
  unfold Elem Node at h
  omega

theorem Frame.disjoint (F : Frame m) {w : Int} (h : m.Elem w) (h' : m.Node w) : False := by
  obtain ⟨f1, f2, f3, f4, f5, _⟩ := F
  unfold Elem at h
  unfold Node at h'
  omega

theorem Frame.vert_ok (F : Frame m) {v : Int} (hv : m.Elem v ∨ m.Node v) : m.verttax.rd v = .ok (m.vert v) := by
  have := F.range hv
  have h := F.alloc
  exact Arr.rd_ok _ (by have := h.vlo; omega) (by have := h.vhi; omega)

theorem Frame.vend_ok (F : Frame m) {v : Int} (hv : m.Elem v ∨ m.Node v) : m.rdVend v = .ok (m.vend v) := by
  have := F.range hv
  have h := F.alloc
  unfold rdVend vend
  cases he : m.vendtax with
  | none => exact Arr.rd_ok _ (by have := h.vlo; omega) (by have := h.vhi' he; omega)
  | some a => exact Arr.rd_ok _ (by have := h.ends a he; omega) (by have := h.ends a he; omega)

/-- The arc from `w` to `v` exists, and is unique. -/
def Once (m : Mesh) (w v : Int) : Prop := ∃ e, (m.vert w ≤ e ∧ e < m.vend w ∧ m.edgetax.get e = v) ∧ ∀ e', m.vert w ≤ e' → e' < m.vend w → m.edgetax.get e' = v → e' = e

theorem checkReverse_holds (F : Frame m) (v : Int) {w : Int} (hw : m.Elem w ∨ m.Node w) : Holds (m.checkReverse v w) (fun b => b = true ↔ m.Once w v) := by
  unfold checkReverse
  rw [F.vend_ok hw, ok_bind, F.vert_ok hw, ok_bind, Holds_bind]
  refine (findArc_holds _ _ _ _ (fun h => F.alloc.edge w hw h)).mono ?_
  rintro r ⟨h1, h2, h3, h4⟩
  split
  · rw [Holds_pure]
    refine ⟨fun h => (by cases h), ?_⟩
    rintro ⟨e, ⟨e1, e2, e3⟩, _⟩
    exact absurd e3 (h3 e e1 (by omega) e2)
  · have hr : r < m.vend w := by omega
    rw [Holds_bind]
    refine (findArc_holds _ _ _ _ (fun h => ?_)).mono ?_
    · have := F.alloc.edge w hw (by omega)
      omega
    rintro r' ⟨k1, k2, k3, k4⟩
    rw [Holds_pure]
    constructor
    · intro h
      have h := of_decide_eq_true h
      refine ⟨r, ⟨h1, hr, h4 hr⟩, ?_⟩
      intro e' e1 e2 e3
      apply Classical.byContradiction
      intro hne
      by_cases c : e' < r
      · exact h3 e' e1 c e2 e3
      · exact k3 e' (by omega) (by omega) e2 e3
    · rintro ⟨e, ⟨e1, e2, e3⟩, hu⟩
      apply decide_eq_true
      intro hlt
      have a := hu r h1 hr (h4 hr)
      have b := hu r' (by omega) hlt (k4 hlt)
      omega

/-- What is checked on a vertex; `[lo, hi)` is the range of vertices of the same kind. -/
def VOk (m : Mesh) (lo hi v : Int) : Prop :=
  m.baseval ≤ m.vert v ∧ m.vert v ≤ m.vend v ∧
  ∀ e, m.vert v ≤ e → e < m.vend v → (m.baseval ≤ m.edgetax.get e ∧ m.edgetax.get e < m.velmnbr + m.vnodnbr + m.baseval) ∧ ¬ (lo ≤ m.edgetax.get e ∧ m.edgetax.get e < hi) ∧ m.Once (m.edgetax.get e) v

theorem checkArc_holds (F : Frame m) (lo hi v : Int) {e : Int} (he : m.edgetax.lo ≤ e ∧ e < m.edgetax.hi) : Holds (m.checkArc lo hi v e) (fun b => b = true ↔
    (m.baseval ≤ m.edgetax.get e ∧ m.edgetax.get e < m.velmnbr + m.vnodnbr + m.baseval) ∧ ¬ (lo ≤ m.edgetax.get e ∧ m.edgetax.get e < hi) ∧ m.Once (m.edgetax.get e) v) := by
  unfold checkArc
  rw [Arr.rd_ok _ he.1 he.2, ok_bind]
  split
  · rw [Holds_pure]
    exact ⟨fun h => (by cases h), fun h => absurd h.1 (by omega)⟩
  · rename_i h1
    split
    · rename_i h2
      rw [Holds_pure]
      exact ⟨fun h => (by cases h), fun h => absurd (show _ ∧ _ from ⟨h2.1, h2.2⟩) h.2.1⟩
    · rename_i h2
      refine (checkReverse_holds F v (F.vertex (by omega) (by omega))).mono ?_
      intro b hb
      rw [hb]
      exact ⟨fun h => ⟨⟨by omega, by omega⟩, h2, h⟩, fun h => h.2.2⟩

theorem checkVert_holds (F : Frame m) (lo hi : Int) {v : Int} (hv : m.Elem v ∨ m.Node v) : Holds (m.checkVert lo hi v) (fun r =>
    match r with
    | none => ¬ m.VOk lo hi v
    | some d => m.VOk lo hi v ∧ d = m.vend v - m.vert v) := by
  unfold checkVert
  rw [F.vert_ok hv, ok_bind]
  split
  · rw [Holds_pure]
    intro h
    have := h.1
    omega
  · rename_i h1
    rw [F.vend_ok hv, ok_bind]
    split
    · rw [Holds_pure]
      intro h
      have := h.2.1
      omega
    · rename_i h2
      rw [Holds_bind]
      apply Holds_forUpB (fun i _ => ∀ e, m.vert v ≤ e → e < i → (m.baseval ≤ m.edgetax.get e ∧ m.edgetax.get e < m.velmnbr + m.vnodnbr + m.baseval) ∧ ¬ (lo ≤ m.edgetax.get e ∧ m.edgetax.get e < hi) ∧ m.Once (m.edgetax.get e) v)
        (fun _ => ¬ m.VOk lo hi v) (by omega)
      · intro e a b
        omega
      · intro i s a b hI
        have hal := F.alloc.edge v hv (by omega)
        rw [Holds_bind]
        refine (checkArc_holds F lo hi v ⟨by omega, by omega⟩).mono ?_
        intro b hb
        cases b with
        | true =>
          rw [if_pos rfl, Holds_pure, Loop.Sat_next]
          intro e e1 e2
          by_cases c : e = i
          · rw [c]
            exact hb.1 rfl
          · exact hI e e1 (by omega)
        | false =>
          rw [if_neg (by decide), Holds_pure, Loop.Sat_brk]
          intro h
          have := hb.2 (h.2.2 i a b)
          cases this
      · intro s hI
        rw [Holds_pure]
        exact ⟨⟨by omega, by omega, hI⟩, rfl⟩
      · intro r hr
        rw [Holds_pure]
        exact hr

/-- Number of arcs of a vertex. -/
def deg (m : Mesh) (v : Int) : Int := m.vend v - m.vert v

theorem checkElems_holds (F : Frame m) : Holds m.checkElems (Loop.Sat (fun s => (∀ v, m.Elem v → m.VOk m.velmbas m.velmnnd v) ∧ (∀ D, s.1 ≤ D ↔ 0 ≤ D ∧ ∀ v, m.Elem v → m.deg v ≤ D) ∧
    s.2 = sumI m.velmbas m.velmnnd (fun v => if m.deg v = 0 then 1 else 0)) (fun _ => ¬ ∀ v, m.Elem v → m.VOk m.velmbas m.velmnnd v)) := by
  unfold checkElems
  have hle : m.velmbas ≤ m.velmnnd := by have := F.velmnbr; have := F.velmnnd; omega
  apply Holds_forUpB (fun i s => (∀ v, m.velmbas ≤ v → v < i → m.VOk m.velmbas m.velmnnd v) ∧ (∀ D, s.1 ≤ D ↔ 0 ≤ D ∧ ∀ v, m.velmbas ≤ v → v < i → m.deg v ≤ D) ∧ 0 ≤ s.1 ∧
    s.2 = sumI m.velmbas i (fun v => if m.deg v = 0 then 1 else 0)) (fun _ => ¬ ∀ v, m.Elem v → m.VOk m.velmbas m.velmnnd v) hle
  · refine ⟨fun v a b => by omega, fun D => ⟨fun h => ⟨h, fun v a b => by omega⟩, fun h => h.1⟩, Int.le_refl _, ?_⟩
    rw [sumI_empty (by omega)]
  · rintro i ⟨d, n⟩ a b ⟨h1, h2, h3, h4⟩
    rw [Holds_bind]
    refine (checkVert_holds F m.velmbas m.velmnnd (Or.inl ⟨a, b⟩)).mono ?_
    intro r hr
    cases r with
    | none =>
      rw [Holds_pure, Loop.Sat_brk]
      exact fun h => hr (h i ⟨a, b⟩)
    | some x =>
      obtain ⟨hr1, hr2⟩ := hr
      have hr2 : x = m.deg i := hr2
      rw [Holds_pure, Loop.Sat_next]
      dsimp only at h2 h3 h4 ⊢
      have hx : 0 ≤ x := by have := hr1.2.1; rw [hr2]; unfold deg; omega
      have hall : ∀ v, m.velmbas ≤ v → v < i + 1 → m.VOk m.velmbas m.velmnnd v := by
        intro v v1 v2
        by_cases c : v = i
        · rw [c]; exact hr1
        · exact h1 v v1 (by omega)
      have hdeg : ∀ D, (∀ v, m.velmbas ≤ v → v < i + 1 → m.deg v ≤ D) ↔ (∀ v, m.velmbas ≤ v → v < i → m.deg v ≤ D) ∧ m.deg i ≤ D := by
        intro D
        constructor
        · intro h
          exact ⟨fun v v1 v2 => h v v1 (by omega), h i a (by omega)⟩
        · rintro ⟨h, h'⟩ v v1 v2
          by_cases c : v = i
          · rw [c]; exact h'
          · exact h v v1 (by omega)
      refine ⟨hall, ?_, ?_, ?_⟩
      · intro D
        rw [hdeg D, ← hr2]
        have := h2 D
        split
        · dsimp only
          constructor
          · intro h
            have := this.1 (by omega)
            exact ⟨by omega, this.2, h⟩
          · exact fun h => h.2.2
        · split
          · dsimp only
            constructor
            · intro h
              have := this.1 h
              exact ⟨this.1, this.2, by omega⟩
            · intro h
              exact this.2 ⟨h.1, h.2.1⟩
          · constructor
            · intro h
              have := this.1 h
              exact ⟨this.1, this.2, by omega⟩
            · intro h
              exact this.2 ⟨h.1, h.2.1⟩
      · split
        · exact hx
        · split
          · exact h3
          · exact h3
      · rw [sumI_succ a, ← hr2, ← h4]
        split
        · rw [if_neg (by omega)]
          dsimp only
          omega
        · split
          · rfl
          · dsimp only
            omega
  · rintro s ⟨h1, h2, _, h4⟩
    exact ⟨fun v hv => h1 v hv.1 hv.2, fun D => (h2 D).trans ⟨fun h => ⟨h.1, fun v hv => h.2 v hv.1 hv.2⟩, fun h => ⟨h.1, fun v a b => h.2 v ⟨a, b⟩⟩⟩, h4⟩
  · exact fun _ h => h

theorem checkNodes_holds (F : Frame m) (d0 : Int) : Holds (m.checkNodes d0) (Loop.Sat (fun s => (∀ v, m.Node v → m.VOk m.vnodbas m.vnodnnd v) ∧ (∀ D, s ≤ D ↔ d0 ≤ D ∧ ∀ v, m.Node v → m.deg v ≤ D))
    (fun _ => ¬ ∀ v, m.Node v → m.VOk m.vnodbas m.vnodnnd v)) := by
  unfold checkNodes
  have hle : m.vnodbas ≤ m.vnodnnd := by have := F.vnodnbr; have := F.vnodnnd; omega
  apply Holds_forUpB (fun i s => (∀ v, m.vnodbas ≤ v → v < i → m.VOk m.vnodbas m.vnodnnd v) ∧ (∀ D, s ≤ D ↔ d0 ≤ D ∧ ∀ v, m.vnodbas ≤ v → v < i → m.deg v ≤ D))
    (fun _ => ¬ ∀ v, m.Node v → m.VOk m.vnodbas m.vnodnnd v) hle
  · exact ⟨fun v a b => by omega, fun D => ⟨fun h => ⟨h, fun v a b => by omega⟩, fun h => h.1⟩⟩
  · rintro i d a b ⟨h1, h2⟩
    rw [Holds_bind]
    refine (checkVert_holds F m.vnodbas m.vnodnnd (Or.inr ⟨a, b⟩)).mono ?_
    intro r hr
    cases r with
    | none =>
      rw [Holds_pure, Loop.Sat_brk]
      exact fun h => hr (h i ⟨a, b⟩)
    | some x =>
      obtain ⟨hr1, hr2⟩ := hr
      have hr2 : x = m.deg i := hr2
      rw [Holds_pure, Loop.Sat_next]

      have hdeg : ∀ D, (∀ v, m.vnodbas ≤ v → v < i + 1 → m.deg v ≤ D) ↔ (∀ v, m.vnodbas ≤ v → v < i → m.deg v ≤ D) ∧ m.deg i ≤ D := by
        intro D
        constructor
        · intro h
          exact ⟨fun v v1 v2 => h v v1 (by omega), h i a (by omega)⟩
        · rintro ⟨h, h'⟩ v v1 v2
          by_cases c : v = i
          · rw [c]; exact h'
          · exact h v v1 (by omega)
      refine ⟨?_, ?_⟩
      · intro v v1 v2
        by_cases c : v = i
        · rw [c]; exact hr1
        · exact h1 v v1 (by omega)
      · intro D
        rw [hdeg D, ← hr2]
        have := h2 D
        split
        · constructor
          · intro h
            have := this.1 (by omega)
            exact ⟨by omega, this.2, h⟩
          · exact fun h => h.2.2
        · constructor
          · intro h
            have := this.1 h
            exact ⟨this.1, this.2, by omega⟩
          · intro h
            exact this.2 ⟨h.1, h.2.1⟩
  · rintro s ⟨h1, h2⟩
    exact ⟨fun v hv => h1 v hv.1 hv.2, fun D => (h2 D).trans ⟨fun h => ⟨h.1, fun v hv => h.2 v hv.1 hv.2⟩, fun h => ⟨h.1, fun v a b => h.2 v ⟨a, b⟩⟩⟩⟩
  · exact fun _ h => h

/-- Load, 1 by default. -/
def load (lotax : Option (Arr Int)) (v : Int) : Int := match lotax with | none => 1 | some a => a.get v

theorem checkLoads_holds (hM : 0 ≤ numMax) {lotax : Option (Arr Int)} {lo hi : Int} (hle : lo ≤ hi) (ha : ∀ a, lotax = some a → a.lo ≤ lo ∧ hi ≤ a.hi)
    (hs : ∀ v, lo ≤ v → v < hi → sumI lo (v + 1) (load lotax) ≤ numMax) : Holds (checkLoads numMax lotax lo hi) (Loop.Sat
      (fun s => (∀ v, lo ≤ v → v < hi → 1 ≤ load lotax v) ∧ s = sumI lo hi (load lotax)) (fun _ => ¬ ∀ v, lo ≤ v → v < hi → 1 ≤ load lotax v)) := by
  unfold checkLoads
  cases lotax with
  | none =>
    dsimp only
    rw [Holds_pure, Loop.Sat_next]
    refine ⟨fun v _ _ => Int.le_refl _, ?_⟩
    show hi - lo = sumI lo hi (fun _ => 1)
    rw [sumI_const hle]
    omega
  | some a =>
    dsimp only
    have hal := ha a rfl
    apply Holds_forUpB (fun i s => (∀ v, lo ≤ v → v < i → 1 ≤ load (some a) v) ∧ s = sumI lo i (load (some a)) ∧ 0 ≤ s) (fun _ => ¬ ∀ v, lo ≤ v → v < hi → 1 ≤ load (some a) v) hle
    · exact ⟨fun v _ _ => by omega, (sumI_empty (by omega) _).symm, Int.le_refl _⟩
    · rintro i s h1 h2 ⟨k1, k2, k3⟩
      rw [Arr.rd_ok _ (by omega) (by omega), ok_bind]
      split
      · rename_i c
        rw [Holds_pure, Loop.Sat_brk]
        intro h
        have h := h i h1 h2
        unfold load at h
        dsimp only at h
        omega
      · rename_i c
        have hs' := hs i h1 h2
        rw [sumI_succ h1, ← k2] at hs'
        have hl : load (some a) i = a.get i := rfl
        rw [hl] at hs'
        rw [show Graph.addChk numMax s (a.get i) = .ok (s + a.get i) by unfold Graph.addChk; rw [if_pos (by omega)], ok_bind, Holds_pure, Loop.Sat_next]
        refine ⟨?_, ?_, by omega⟩
        · intro v v1 v2
          by_cases e : v = i
          · rw [e, hl]; omega
          · exact k1 v v1 (by omega)
        · rw [sumI_succ h1, ← k2, hl]
    · rintro s ⟨k1, k2, _⟩
      exact ⟨k1, k2⟩
    · exact fun _ h => h

theorem checkEnd_holds (F : Frame m) (hM : 0 ≤ numMax) (h1 : ∀ v, m.Elem v → sumI m.velmbas (v + 1) m.velo ≤ numMax) (h2 : ∀ v, m.Node v → sumI m.vnodbas (v + 1) m.vnlo ≤ numMax) (d : Int) :
    Holds (checkEnd numMax m d) (fun b => b = true ↔ ((∀ v, m.Elem v → 1 ≤ m.velo v) ∧ m.velosum = sumI m.velmbas m.velmnnd m.velo) ∧ ((∀ v, m.Node v → 1 ≤ m.vnlo v) ∧ m.vnlosum = sumI m.vnodbas m.vnodnnd m.vnlo) ∧ d ≤ m.degrmax) := by
  unfold checkEnd
  have e1 : load m.velotax = m.velo := rfl
  have e2 : load m.vnlotax = m.vnlo := rfl
  rw [Holds_bind]
  refine (checkLoads_holds hM (by have := F.velmnbr; have := F.velmnnd; omega) F.alloc.velo (fun v a b => h1 v ⟨a, b⟩)).mono ?_
  intro r hr
  rw [e1] at hr
  cases r with
  | brk _ =>
    rw [Loop.Sat_brk] at hr
    rw [Holds_pure]
    exact ⟨fun h => (by cases h), fun h => absurd (fun v a b => h.1.1 v ⟨a, b⟩) hr⟩
  | next s =>
    rw [Loop.Sat_next] at hr
    dsimp only
    split
    · rename_i c
      rw [Holds_pure]
      exact ⟨fun h => (by cases h), fun h => absurd (hr.2.trans h.1.2.symm) c⟩
    · rename_i c
      rw [Holds_bind]
      refine (checkLoads_holds hM (by have := F.vnodnbr; have := F.vnodnnd; omega) F.alloc.vnlo (fun v a b => h2 v ⟨a, b⟩)).mono ?_
      intro r' hr'
      rw [e2] at hr'
      cases r' with
      | brk _ =>
        rw [Loop.Sat_brk] at hr'
        rw [Holds_pure]
        exact ⟨fun h => (by cases h), fun h => absurd (fun v a b => h.2.1.1 v ⟨a, b⟩) hr'⟩
      | next s' =>
        rw [Loop.Sat_next] at hr'
        dsimp only
        split
        · rename_i c'
          rw [Holds_pure]
          exact ⟨fun h => (by cases h), fun h => absurd (hr'.2.trans h.2.1.2.symm) c'⟩
        · rename_i c'
          rw [Holds_pure]
          have c : s = m.velosum := Classical.byContradiction c
          have c' : s' = m.vnlosum := Classical.byContradiction c'
          rw [decide_eq_true_iff]
          exact ⟨fun h => ⟨⟨fun v hv => hr.1 v hv.1 hv.2, c.symm.trans hr.2⟩, ⟨fun v hv => hr'.1 v hv.1 hv.2, c'.symm.trans hr'.2⟩, by omega⟩, fun h => by omega⟩

/-- All conditions, except the number of arcs. -/
structure Checked (m : Mesh) : Prop where
  frame : Frame m
  elems : ∀ v, m.Elem v → m.VOk m.velmbas m.velmnnd v
  nodes : ∀ v, m.Node v → m.VOk m.vnodbas m.vnodnnd v
  isol : m.veisnbr = sumI m.velmbas m.velmnnd (fun v => if m.deg v = 0 then 1 else 0)
  velo : ∀ v, m.Elem v → 1 ≤ m.velo v
  velosum : m.velosum = sumI m.velmbas m.velmnnd m.velo
  vnlo : ∀ v, m.Node v → 1 ≤ m.vnlo v
  vnlosum : m.vnlosum = sumI m.vnodbas m.vnodnnd m.vnlo
  degr : 0 ≤ m.degrmax ∧ (∀ v, m.Elem v → m.deg v ≤ m.degrmax) ∧ ∀ v, m.Node v → m.deg v ≤ m.degrmax

theorem check_holds (hM : 0 ≤ numMax) (hb : m.baseval = min m.velmbas m.vnodbas) (ha : m.Allocated) (h1 : ∀ v, m.Elem v → sumI m.velmbas (v + 1) m.velo ≤ numMax) (h2 : ∀ v, m.Node v → sumI m.vnodbas (v + 1) m.vnlo ≤ numMax) :
    Holds (check numMax m) (fun b => b = true ↔ Checked m) := by
  unfold check
  split
  · rename_i c
    rw [Holds_pure]
    refine ⟨fun h => (by cases h), fun h => ?_⟩
    obtain ⟨f1, f2, f3, f4, f5, _⟩ := h.frame
    omega
  · rename_i c
    have F : Frame m := ⟨by omega, by omega, by omega, by omega, by omega, ha⟩
    rw [Holds_bind]
    refine (checkElems_holds F).mono ?_
    intro r hr
    cases r with
    | brk _ =>
      rw [Loop.Sat_brk] at hr
      rw [Holds_pure]
      exact ⟨fun h => (by cases h), fun h => absurd h.elems hr⟩
    | next s =>
      rw [Loop.Sat_next] at hr
      obtain ⟨r1, r2, r3⟩ := hr
      dsimp only
      split
      · rename_i c
        rw [Holds_pure]
        exact ⟨fun h => (by cases h), fun h => absurd (r3.trans h.isol.symm) c⟩
      · rename_i c
        have c : s.2 = m.veisnbr := Classical.byContradiction c
        rw [Holds_bind]
        refine (checkNodes_holds F s.1).mono ?_
        intro r' hr'
        cases r' with
        | brk _ =>
          rw [Loop.Sat_brk] at hr'
          rw [Holds_pure]
          exact ⟨fun h => (by cases h), fun h => absurd h.nodes hr'⟩
        | next d =>
          rw [Loop.Sat_next] at hr'
          obtain ⟨q1, q2⟩ := hr'
          dsimp only
          refine (checkEnd_holds F hM h1 h2 d).mono ?_
          intro b hb
          rw [hb, q2, r2]
          constructor
          · rintro ⟨⟨a1, a2⟩, ⟨a3, a4⟩, ⟨a5, a6⟩, a7⟩
            exact ⟨F, r1, q1, c.symm.trans r3, a1, a2, a3, a4, a5, a6, a7⟩
          · intro h
            exact ⟨⟨h.velo, h.velosum⟩, ⟨h.vnlo, h.vnlosum⟩, ⟨h.degr.1, h.degr.2.1⟩, h.degr.2.2⟩

/-! ## Meaning -/

theorem seg_nodup {f : Int → Int} {lo hi : Int} : (seg f lo hi).Nodup ↔ ∀ i j, lo ≤ i → i < hi → lo ≤ j → j < hi → f i = f j → i = j := by
  unfold seg
  rw [List.nodup_iff_getElem?_ne_getElem?]
  constructor
  · intro h i j i1 i2 j1 j2 e
    apply Classical.byContradiction
    intro hne
    have key : ∀ i j : Int, lo ≤ i → i < hi → lo ≤ j → j < hi → f i = f j → i < j → False := by
      intro i j i1 i2 j1 j2 e hlt
      have := h (i - lo).toNat (j - lo).toNat (by omega) (by simp; omega)
      apply this
      rw [List.getElem?_map, List.getElem?_map, List.getElem?_range (by omega), List.getElem?_range (by omega)]
      simp only [Option.map_some]
      rw [show lo + ((i - lo).toNat : Int) = i by omega, show lo + ((j - lo).toNat : Int) = j by omega, e]
    rcases Int.lt_or_gt_of_ne hne with c | c
    · exact key i j i1 i2 j1 j2 e c
    · exact key j i j1 j2 i1 i2 e.symm c
  · intro h i j hij hj e
    simp at hj
    rw [List.getElem?_map, List.getElem?_map, List.getElem?_range (by omega), List.getElem?_range (by omega)] at e
    simp only [Option.map_some, Option.some.injEq] at e
    have := h _ _ (by omega) (by omega) (by omega) (by omega) e
    omega

theorem once_iff {w v : Int} (hn : (m.nbr w).Nodup) : m.Once w v ↔ v ∈ m.nbr w := by
  unfold Once nbr at *
  rw [mem_seg]
  constructor
  · rintro ⟨e, ⟨e1, e2, e3⟩, _⟩
    exact ⟨e, e1, e2, e3⟩
  · rintro ⟨e, e1, e2, e3⟩
    exact ⟨e, ⟨e1, e2, e3⟩, fun e' a b c => seg_nodup.1 hn e' e a b e1 e2 (c.trans e3.symm)⟩

theorem Once.mem {w v : Int} (h : m.Once w v) : v ∈ m.nbr w := by
  obtain ⟨e, ⟨e1, e2, e3⟩, _⟩ := h
  unfold nbr
  rw [mem_seg]
  exact ⟨e, e1, e2, e3⟩

theorem VOk.mem {lo hi v w : Int} (h : m.VOk lo hi v) (hw : w ∈ m.nbr v) : (m.baseval ≤ w ∧ w < m.velmnbr + m.vnodnbr + m.baseval) ∧ ¬ (lo ≤ w ∧ w < hi) ∧ m.Once w v := by
  unfold nbr at hw
  rw [mem_seg] at hw
  obtain ⟨e, e1, e2, rfl⟩ := hw
  exact h.2.2 e e1 e2

/-- The true number of arcs. -/
def arcs (m : Mesh) : Int := sumI m.velmbas m.velmnnd (fun v => (m.nbr v).length) + sumI m.vnodbas m.vnodnnd (fun v => (m.nbr v).length)

/-- The true number of elements without nodes. -/
def isolated (m : Mesh) : Int := sumI m.velmbas m.velmnnd (fun v => if m.nbr v = [] then 1 else 0)

theorem Checked.consistent (h : Checked m) : Consistent { m with edgenbr := m.arcs } ∧ m.veisnbr = m.isolated := by
  have F := h.frame
  have rg : ∀ v, m.Elem v ∨ m.Node v → m.baseval ≤ m.vert v ∧ m.vert v ≤ m.vend v := by
    rintro v (hv | hv)
    · exact ⟨(h.elems v hv).1, (h.elems v hv).2.1⟩
    · exact ⟨(h.nodes v hv).1, (h.nodes v hv).2.1⟩
  have len : ∀ v, m.Elem v ∨ m.Node v → ((m.nbr v).length : Int) = m.deg v := fun v hv => seg_length _ (rg v hv).2
  have n1 : ∀ v, m.Elem v → ∀ w ∈ m.nbr v, m.Node w ∧ m.Once w v := by
    intro v hv w hw
    obtain ⟨⟨a, b⟩, c, d⟩ := (h.elems v hv).mem hw
    rcases F.vertex a b with x | x
    · exact absurd x c
    · exact ⟨x, d⟩
  have n2 : ∀ v, m.Node v → ∀ w ∈ m.nbr v, m.Elem w ∧ m.Once w v := by
    intro v hv w hw
    obtain ⟨⟨a, b⟩, c, d⟩ := (h.nodes v hv).mem hw
    rcases F.vertex a b with x | x
    · exact ⟨x, d⟩
    · exact absurd x c
  have sim : ∀ v, m.Elem v ∨ m.Node v → (m.nbr v).Nodup := by
    intro v hv
    have key : ∀ w, w ∈ m.nbr v → m.Once v w := by
      intro w hw
      rcases hv with hv | hv
      · obtain ⟨x, y⟩ := n1 v hv w hw
        exact (n2 w x v y.mem).2
      · obtain ⟨x, y⟩ := n2 v hv w hw
        exact (n1 w x v y.mem).2
    unfold nbr
    rw [seg_nodup]
    intro i j i1 i2 j1 j2 e
    obtain ⟨k, _, hk⟩ := key (m.edgetax.get i) (by unfold nbr; rw [mem_seg]; exact ⟨i, i1, i2, rfl⟩)
    rw [hk i i1 i2 rfl, hk j j1 j2 e.symm]
  refine ⟨⟨F.velmnbr, F.vnodnbr, F.velmnnd, F.vnodnnd, F.order, rg, fun v hv w hw => ⟨(n1 v hv w hw).1, (n1 v hv w hw).2.mem⟩, fun v hv w hw => ⟨(n2 v hv w hw).1, (n2 v hv w hw).2.mem⟩,
    sim, rfl, h.velo, h.velosum, h.vnlo, h.vnlosum, h.degr.1, ?_⟩, ?_⟩
  · intro v hv
    refine Int.le_trans (Int.le_of_eq (len v hv)) ?_
    rcases hv with hv | hv
    · exact h.degr.2.1 v hv
    · exact h.degr.2.2 v hv
  · rw [h.isol]
    unfold isolated
    apply sumI_congr
    intro v v1 v2
    have := len v (Or.inl ⟨v1, v2⟩)
    by_cases c : m.nbr v = []
    · rw [if_pos c, if_pos]
      rw [c] at this
      exact this.symm
    · rw [if_neg c, if_neg]
      intro e
      rw [e] at this
      exact c (List.length_eq_zero_iff.1 (by omega))

theorem Checked.of_consistent (ha : m.Allocated) (h : Consistent { m with edgenbr := m.arcs }) (hi : m.veisnbr = m.isolated) : Checked m := by
  have F : Frame m := ⟨h.velmnbr, h.vnodnbr, h.velmnnd, h.vnodnnd, h.order, ha⟩
  have len : ∀ v, m.Elem v ∨ m.Node v → ((m.nbr v).length : Int) = m.deg v := fun v hv => seg_length _ (h.range v hv).2
  have sim : ∀ v, m.Elem v ∨ m.Node v → (m.nbr v).Nodup := h.simple
  have hn : ∀ v, m.Elem v → ∀ w ∈ m.nbr v, m.Node w ∧ v ∈ m.nbr w := h.nodes
  have he : ∀ v, m.Node v → ∀ w ∈ m.nbr v, m.Elem w ∧ v ∈ m.nbr w := h.elems
  have arc : ∀ v e, m.vert v ≤ e → e < m.vend v → m.edgetax.get e ∈ m.nbr v := by
    intro v e e1 e2
    unfold nbr
    rw [mem_seg]
    exact ⟨e, e1, e2, rfl⟩
  refine ⟨F, ?_, ?_, ?_, h.velo, h.velosum, h.vnlo, h.vnlosum, h.degrmax.1, ?_, ?_⟩
  · intro v hv
    refine ⟨(h.range v (Or.inl hv)).1, (h.range v (Or.inl hv)).2, ?_⟩
    intro e e1 e2
    obtain ⟨x, y⟩ := hn v hv _ (arc v e e1 e2)
    exact ⟨F.range (Or.inr x), fun c => F.disjoint c x, (once_iff (sim _ (Or.inr x))).2 y⟩
  · intro v hv
    refine ⟨(h.range v (Or.inr hv)).1, (h.range v (Or.inr hv)).2, ?_⟩
    intro e e1 e2
    obtain ⟨x, y⟩ := he v hv _ (arc v e e1 e2)
    exact ⟨F.range (Or.inl x), fun c => F.disjoint x c, (once_iff (sim _ (Or.inl x))).2 y⟩
  · rw [hi]
    unfold isolated
    apply sumI_congr
    intro v v1 v2
    have := len v (Or.inl ⟨v1, v2⟩)
    by_cases c : m.nbr v = []
    · rw [if_pos c, if_pos]
      rw [c] at this
      exact this.symm
    · rw [if_neg c, if_neg]
      intro e
      rw [e] at this
      exact c (List.length_eq_zero_iff.1 (by omega))
  · intro v hv
    rw [← len v (Or.inl hv)]
    exact h.degrmax.2 v (Or.inl hv)
  · intro v hv
    rw [← len v (Or.inr hv)]
    exact h.degrmax.2 v (Or.inr hv)

end Scotch.Mesh
