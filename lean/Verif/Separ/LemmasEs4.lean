import Verif.Separ.LemmasEs3
import Verif.Enum

/-! # Vertex covers: choice -/

set_option autoImplicit false
set_option linter.unusedSimpArgs false

namespace Scotch.Separ
open Graph

variable {g : Graph} {P : Int} {mate typ : Arr Int}

theorem esList_holds (hb : Bip g P) (hn : 0 ≤ g.vertnbr) (ht : typ.lo ≤ g.baseval ∧ g.vertnnd ≤ typ.hi) {bit : Int → Int}
    (hbit : ∀ v, g.Vertex v → bit (typ.get v) = 0 ∨ bit (typ.get v) = 1) {sep : Arr Int} (h1 : sep.lo ≤ 0) (h2 : g.vertnbr ≤ sep.hi) :
    Holds (esList g typ bit sep) (fun r => r.1.lo = sep.lo ∧ r.1.hi = sep.hi ∧ r.2 = sumI g.baseval g.vertnnd (fun v => bit (typ.get v)) ∧
      Enum r.1 r.2 (fun v => g.Vertex v ∧ bit (typ.get v) = 1)) := by
  obtain ⟨t1, t2⟩ := ht
  have hnd := hb.vertnnd
  unfold esList
  refine Holds_forUp (fun i r => r.1.lo = sep.lo ∧ r.1.hi = sep.hi ∧ r.2 = sumI g.baseval i (fun v => bit (typ.get v)) ∧
      Enum r.1 r.2 (fun v => (g.baseval ≤ v ∧ v < i) ∧ bit (typ.get v) = 1)) (by omega) ?_ ?_ (fun r h => h)
  · refine ⟨rfl, rfl, by rw [sumI_empty (Int.le_refl _)], (Enum.empty sep).congr fun v => ⟨False.elim, fun h => by omega⟩⟩
  · rintro i ⟨a, n⟩ i1 i2 ⟨a1, a2, a3, a4⟩
    dsimp only at a1 a2 a3 a4 ⊢
    rw [Arr.rd_ok typ (by omega) (by omega), ok_bind, Holds_ite, sumI_succ i1]
    have hle := a4.le (lo := g.baseval) (hi := i) i1 (fun v hv => hv.1)
    have h0 := a4.1
    constructor
    · intro hne
      have hb1 := (hbit i ⟨i1, i2⟩).resolve_left hne
      rw [Arr.wr_ok a i (by omega) (by omega), ok_bind, Holds_pure]
      refine ⟨a1, a2, by dsimp only; omega, (a4.push (x := i) (fun h => by omega)).congr fun v => ?_⟩
      constructor
      · rintro (⟨h, k⟩ | h)
        · exact ⟨⟨h.1, by omega⟩, k⟩
        · rw [h]; exact ⟨⟨i1, by omega⟩, hb1⟩
      · rintro ⟨h, k⟩
        by_cases hv : v = i
        · exact Or.inr hv
        · exact Or.inl ⟨⟨h.1, by omega⟩, k⟩
    · intro hne
      have hb0 := Classical.byContradiction hne
      rw [Holds_pure]
      refine ⟨a1, a2, by dsimp only; omega, a4.congr fun v => ?_⟩
      constructor
      · rintro ⟨h, k⟩; exact ⟨⟨h.1, by omega⟩, k⟩
      · rintro ⟨h, k⟩
        by_cases hv : v = i
        · rw [hv] at k; omega
        · exact ⟨⟨h.1, by omega⟩, k⟩

theorem esLoads_holds (hb : Bip g P) (hn : 0 ≤ g.vertnbr) (hl : g.velotax = none ∨ g.baseval = 0) (ht : typ.lo ≤ g.baseval ∧ g.vertnnd ≤ typ.hi) :
    Holds (esLoads g typ) (fun r => r.2.1 = sumI g.baseval g.vertnnd (fun v => esBitC (typ.get v)) ∧
      r.2.2 = sumI g.baseval g.vertnnd (fun v => esBitR (typ.get v))) := by
  obtain ⟨t1, t2⟩ := ht
  have hnd := hb.vertnnd
  unfold esLoads
  cases hv : g.velotax with
  | none =>
    dsimp only
    rw [Holds_bind]
    refine Holds_forUp (fun i s => s.1 = sumI g.baseval i (fun v => esBitC (typ.get v)) ∧ s.2 = sumI g.baseval i (fun v => esBitR (typ.get v))) (by omega) ?_ ?_ ?_
    · rw [sumI_empty (Int.le_refl _), sumI_empty (Int.le_refl _)]; exact ⟨rfl, rfl⟩
    · rintro i ⟨a, b⟩ i1 i2 ⟨h1, h2⟩
      dsimp only at h1 h2 ⊢
      rw [Arr.rd_ok typ (by omega) (by omega), ok_bind, Holds_pure, sumI_succ i1, sumI_succ i1]
      dsimp only
      exact ⟨by omega, by omega⟩
    · intro s hs
      rw [Holds_pure]; exact hs
  | some velo =>
    have hb0 : g.baseval = 0 := by
      rcases hl with h | h
      · rw [hv] at h; cases h
      · exact h
    obtain ⟨v1, v2⟩ := hb.alloc.velo velo hv
    dsimp only
    rw [show g.vertnnd = g.vertnbr by omega, hb0]
    refine Holds_forUp (fun i s => s.2.1 = sumI 0 i (fun v => esBitC (typ.get v)) ∧ s.2.2 = sumI 0 i (fun v => esBitR (typ.get v))) (by omega) ?_ ?_ (fun s hs => hs)
    · rw [sumI_empty (Int.le_refl _), sumI_empty (Int.le_refl _)]; exact ⟨rfl, rfl⟩
    · rintro i ⟨l, a, b⟩ i1 i2 ⟨h1, h2⟩
      dsimp only at h1 h2 ⊢
      rw [Arr.rd_ok typ (by omega) (by omega), ok_bind, Arr.rd_ok velo (by omega) (by omega), ok_bind, Holds_pure, sumI_succ i1, sumI_succ i1]
      dsimp only
      exact ⟨by omega, by omega⟩

/-- Result of a cover: a set of vertices, and the array that lists it. -/
structure CoverOf (g : Graph) (P : Int) (mate sep : Arr Int) (r : Arr Int × Int) (S : Int → Prop) : Prop where
  bounds : r.1.lo = sep.lo ∧ r.1.hi = sep.hi
  enum : Enum r.1 r.2 (fun v => g.Vertex v ∧ S v)
  cover : ∀ v w, g.Vertex v → g.Adj v w → S v ∨ S w
  tight : NoAugment g P mate.get → ∀ v, g.Vertex v → S v → mate.get v ≠ -1 ∧ ¬ S (mate.get v)

theorem esChoose_holds (hb : Bip g P) (hn : 0 ≤ g.vertnbr) (hl : g.velotax = none ∨ g.baseval = 0) (ht : Typed g P mate typ) {sep : Arr Int}
    (h1 : sep.lo ≤ 0) (h2 : g.vertnbr ≤ sep.hi) : Holds (esChoose g typ sep) (fun r => ∃ S, CoverOf g P mate sep r S) := by
  unfold esChoose
  rw [Holds_bind]
  refine (esLoads_holds hb hn hl ht.bounds).mono ?_
  rintro ⟨⟨loadc, loadr⟩, sizec, sizer⟩ ⟨s1, s2⟩
  dsimp only at s1 s2 ⊢
  rw [Holds_ite]
  constructor
  · intro _
    rw [Holds_bind]
    refine (esList_holds (bit := esBitC) hb hn ht.bounds (fun v hv => (ht.bit v hv).1) h1 h2).mono ?_
    rintro r ⟨a, b, c, d⟩
    rw [Holds_pure]
    refine ⟨fun v => esBitC (typ.get v) = 1, ⟨a, b⟩, by dsimp only; rw [s1, ← c]; exact d, ht.coverC, ?_⟩
    intro hna v hv hS
    obtain ⟨p, q⟩ := ht.tightC hna v hv hS
    exact ⟨p, by rw [q]; decide⟩
  · intro _
    rw [Holds_bind]
    refine (esList_holds (bit := esBitR) hb hn ht.bounds (fun v hv => (ht.bit v hv).2) h1 h2).mono ?_
    rintro r ⟨a, b, c, d⟩
    rw [Holds_pure]
    refine ⟨fun v => esBitR (typ.get v) = 1, ⟨a, b⟩, by dsimp only; rw [s2, ← c]; exact d, ht.coverR, ?_⟩
    intro hna v hv hS
    obtain ⟨p, q⟩ := ht.tightR hna v hv hS
    exact ⟨p, by rw [q]; decide⟩

/-- The cover, and the initial matching. -/
theorem esCover_holds (hb : Bip g P) (hn : 0 ≤ g.vertnbr) (hl : g.velotax = none ∨ g.baseval = 0) (junk : Nat → Int → Int) {sep : Arr Int}
    (h1 : sep.lo ≤ 0) (h2 : g.vertnbr ≤ sep.hi) :
    ∃ mate, esMatch g (P - g.baseval) ⟨g.baseval, g.vertnnd, junk 0⟩ = .ok mate ∧ Mates g mate ∧
      Holds (esCover junk g (P - g.baseval) sep) (fun r => ∃ S, CoverOf g P mate sep r S) := by
  obtain ⟨mate, e, hm⟩ := Holds_iff_exists.1 (esMatch_holds hb (junk 0))
  refine ⟨mate, e, hm, ?_⟩
  unfold esCover
  rw [e, ok_bind]
  obtain ⟨l, e2, hl2⟩ := Holds_iff_exists.1 (esPass_holds hb (s := (⟨mate, ⟨g.baseval, g.vertnnd, junk 1⟩, ⟨g.baseval, g.vertnnd, junk 2⟩, ⟨0, P - g.baseval, junk 3⟩, 0, 0, ⟨0, g.vertnbr, junk 4⟩, 0, 0⟩ : EsSearch)) hm
      ⟨Int.le_refl _, Int.le_refl _⟩ ⟨Int.le_refl _, Int.le_refl _⟩ ⟨Int.le_refl _, Int.le_refl _⟩)
  rw [loopM, e2, ok_bind, hl2]
  dsimp only
  rw [ok_bind, Holds_bind]
  refine (esTypes_holds hb hm (junk 5)).mono ?_
  intro typ ht
  exact esChoose_holds hb hn hl ht h1 h2

/-- A tight cover has the least number of vertices. -/
theorem cover_min (hb : Bip g P) (hm : Mates g mate) {sep : Arr Int} {r : Arr Int × Int} {S : Int → Prop} (h : CoverOf g P mate sep r S)
    (hna : NoAugment g P mate.get) (l : List Int) (hl : ∀ v w, g.Vertex v → g.Adj v w → v ∈ l ∨ w ∈ l) : r.2 ≤ l.length := by
  classical
  obtain ⟨h0, hinj, hmem⟩ := h.enum
  have hS : ∀ i, 0 ≤ i → i < r.2 → g.Vertex (r.1.get i) ∧ S (r.1.get i) := fun i i1 i2 => (hmem _).2 ⟨i, i1, i2, rfl⟩
  have hbase := hb.base
  -- an end of the arc of the matching
  let f : Int → Int := fun i => if r.1.get i ∈ l then r.1.get i else mate.get (r.1.get i)
  have := Finset.card_le_card_of_injOn (s := Finset.Ico 0 r.2) (t := l.toFinset) f (by
    intro i hi
    simp only [Finset.coe_Ico, Set.mem_Ico] at hi
    obtain ⟨hv, hs⟩ := hS i hi.1 hi.2
    obtain ⟨hne, -⟩ := h.tight hna _ hv hs
    simp only [List.coe_toFinset, Set.mem_setOf_eq, f]
    by_cases hin : r.1.get i ∈ l
    · rw [if_pos hin]; exact hin
    · rw [if_neg hin]
      exact (hl _ _ hv (hm.adj _ hv hne)).resolve_left hin) (by
    intro i hi j hj he
    simp only [Finset.coe_Ico, Set.mem_Ico] at hi hj
    obtain ⟨hvi, hsi⟩ := hS i hi.1 hi.2
    obtain ⟨hvj, hsj⟩ := hS j hj.1 hj.2
    obtain ⟨ni, ti⟩ := h.tight hna _ hvi hsi
    obtain ⟨nj, tj⟩ := h.tight hna _ hvj hsj
    have ii := hm.inv _ hvi ni
    have ij := hm.inv _ hvj nj
    apply hinj i j hi.1 hi.2 hj.1 hj.2
    simp only [f] at he
    by_cases hx : r.1.get i ∈ l <;> by_cases hy : r.1.get j ∈ l
    · rwa [if_pos hx, if_pos hy] at he
    · rw [if_pos hx, if_neg hy] at he
      rw [he] at hsi; exact absurd hsi tj
    · rw [if_neg hx, if_pos hy] at he
      rw [← he] at hsj; exact absurd hsj ti
    · rw [if_neg hx, if_neg hy] at he
      rw [← ii, he, ij])
  rw [Int.card_Ico] at this
  have h2 := List.toFinset_card_le l
  omega

end Scotch.Separ
