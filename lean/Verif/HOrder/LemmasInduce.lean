import Verif.HOrder.Spec
import Verif.Band.Lemmas

/-! # Induced halo graphs: arcs -/

set_option autoImplicit false
set_option linter.unusedSimpArgs false

namespace Scotch.HOrder
open Graph
open Band (total)
variable {g : Graph} {N : Int} {l : List Int}

/-- Vertices that the halo is made of. -/
def Ext (g : Graph) (l : List Int) (x : Int) : Prop := x ∉ l ∧ ∃ y ∈ l, Adj g y x

/-- Numbers of vertices in the induced graph, below `nnd`. -/
structure Num (g : Graph) (nnd : Int) (vnum indx : Int → Int) : Prop where
  fwd : ∀ i, g.baseval ≤ i → i < nnd → g.Vertex (vnum i) ∧ indx (vnum i) = i
  bwd : ∀ w, g.Vertex w → indx w ≠ -1 → g.baseval ≤ indx w ∧ indx w < nnd ∧ vnum (indx w) = w

theorem Num.inj {nnd : Int} {vnum indx : Int → Int} (h : Num g nnd vnum indx) {i j : Int} (i1 : g.baseval ≤ i) (i2 : i < nnd) (j1 : g.baseval ≤ j) (j2 : j < nnd) (he : vnum i = vnum j) : i = j := by
  rw [← (h.fwd i i1 i2).2, he, (h.fwd j j1 j2).2]

theorem sumI_one (g : Graph) (x : Int) (hx : g.Vertex x) : sumI g.baseval g.vertnnd (fun v => if v = x then 1 else 0) = 1 := by
  have := sumI_single (lo := g.baseval) (hi := g.vertnnd) (a := x) (h1 := hx.1) (h2 := hx.2) (f := fun _ => (1 : Int))
  exact this

/-- Room for a new halo vertex. -/
theorem room {nnd halonbr : Int} {vnum indx : Int → Int} (hN : g.baseval ≤ N) (hle : N ≤ nnd) (h : Num g nnd vnum indx) (hext : ∀ i, N ≤ i → i < nnd → Ext g l (vnum i)) {w : Int} (hv : g.Vertex w)
    (hw : Ext g l w) (hx : ∀ i, N ≤ i → i < nnd → vnum i ≠ w) (hcap : total g (Ext g l) (fun _ => 1) ≤ halonbr) : nnd < N + halonbr := by
  classical
  have h1 : sumI N nnd (fun i => (fun _ => (1 : Int)) (vnum i)) = sumI g.baseval g.vertnnd (fun v => if ∃ i, N ≤ i ∧ i < nnd ∧ vnum i = v then (fun _ => (1 : Int)) v else 0) :=
    sumI_enum vnum (fun _ => 1) g.baseval g.vertnnd N nnd hle (fun i j i1 i2 j1 j2 he => h.inj (by omega) i2 (by omega) j2 he) (fun i i1 i2 => (h.fwd i (by omega) i2).1)
  rw [sumI_const hle] at h1
  have h2 := sumI_one g w hv
  have h3 : sumI g.baseval g.vertnnd (fun v => (if ∃ i, N ≤ i ∧ i < nnd ∧ vnum i = v then (1 : Int) else 0) + if v = w then 1 else 0) ≤ total g (Ext g l) (fun _ => 1) := by
    apply sumI_mono
    intro v _ _
    by_cases hvw : v = w
    · rw [if_neg (by rintro ⟨i, i1, i2, i3⟩; exact hx i i1 i2 (i3.trans hvw)), if_pos hvw, hvw, if_pos hw]; dsimp only; omega
    · rw [if_neg hvw]
      by_cases hex : ∃ i, N ≤ i ∧ i < nnd ∧ vnum i = v
      · rw [if_pos hex]
        obtain ⟨i, i1, i2, rfl⟩ := hex
        rw [if_pos (hext i i1 i2)]; dsimp only; omega
      · rw [if_neg hex]
        dsimp only
        split <;> omega
  rw [sumI_add_dist] at h3
  dsimp only at h1
  omega

/-- Arcs of vertices of the induced graph, before `i`. -/
theorem degrees (hc : ConsE g) {nnd i : Int} {vnum indx : Int → Int} (h : Num g nnd vnum indx) (h1 : g.baseval ≤ i) (h2 : i ≤ nnd) :
    sumI g.baseval i (fun j => g.vend (vnum j) - g.vert (vnum j)) ≤ g.edgenbr ∧ sumI g.baseval i (fun j => g.vend (vnum j) - g.vert (vnum j)) ≤ (i - g.baseval) * g.degrmax := by
  classical
  constructor
  · have := sumI_enum vnum (fun v => g.vend v - g.vert v) g.baseval g.vertnnd g.baseval i h1 (fun i' j i1 i2 j1 j2 he => h.inj (by omega) (by omega) (by omega) (by omega) he)
      (fun j i1 i2 => (h.fwd j (by omega) (by omega)).1)
    rw [this, hc.edgenbr]
    apply sumI_mono
    intro v k1 k2
    have := (hc.range v ⟨k1, k2⟩).2
    split <;> omega
  · rw [show (i - g.baseval) * g.degrmax = sumI g.baseval i (fun _ => g.degrmax) from (sumI_const h1 _).symm]
    apply sumI_mono
    intro j k1 k2
    exact hc.degrmax.2 _ (h.fwd j k1 (by omega)).1

/-- State of the loop on the arcs of vertex `org`, whose arcs go from `st` to `en`. -/
structure AInv (g : Graph) (N : Int) (l : List Int) (org st en : Int) (a0 : ASt) (e : Int) (s : ASt) : Prop where
  bnd : s.edge.lo = a0.edge.lo ∧ s.edge.hi = a0.edge.hi ∧ s.indx.lo = a0.indx.lo ∧ s.indx.hi = a0.indx.hi ∧ s.vnum.lo = a0.vnum.lo ∧ s.vnum.hi = a0.vnum.hi
  num : Num g s.vertnnd s.vnum.get s.indx.get
  nnd : a0.vertnnd ≤ s.vertnnd
  vold : ∀ i, g.baseval ≤ i → i < a0.vertnnd → s.vnum.get i = a0.vnum.get i
  iold : ∀ w, g.Vertex w → a0.indx.get w ≠ -1 → s.indx.get w = a0.indx.get w
  ext : ∀ i, N ≤ i → i < s.vertnnd → Ext g l (s.vnum.get i)
  cnt : s.edgenum - st + (en - s.edhdnum) = e - g.vert org ∧ st ≤ s.edgenum ∧ s.edhdnum ≤ en
  fill : ∀ e', g.vert org ≤ e' → e' < e → s.indx.get (g.dest e') ≠ -1 ∧
    ∃ k, (st ≤ k ∧ k < s.edgenum ∧ s.indx.get (g.dest e') < N ∨ s.edhdnum ≤ k ∧ k < en ∧ N ≤ s.indx.get (g.dest e')) ∧ s.edge.get k = s.indx.get (g.dest e')
  src : ∀ k, (st ≤ k ∧ k < s.edgenum ∨ s.edhdnum ≤ k ∧ k < en) → ∃ e', g.vert org ≤ e' ∧ e' < e ∧ s.edge.get k = s.indx.get (g.dest e') ∧ (k < s.edgenum ↔ s.indx.get (g.dest e') < N)
  inj : ∀ k k', (st ≤ k ∧ k < s.edgenum ∨ s.edhdnum ≤ k ∧ k < en) → (st ≤ k' ∧ k' < s.edgenum ∨ s.edhdnum ≤ k' ∧ k' < en) → s.edge.get k = s.edge.get k' → k = k'
  frame : ∀ k, k < st → s.edge.get k = a0.edge.get k

/-- Numbering a neighbour. -/
theorem haloNum_holds {org st en e halonbr : Int} {a0 s : ASt} {w : Int} (hN : g.baseval ≤ N) (hN2 : N ≤ a0.vertnnd) (hcap : total g (Ext g l) (fun _ => 1) ≤ halonbr)
    (hl : ∀ y ∈ l, a0.indx.get y ≠ -1 ∧ g.Vertex y) (hb0 : 0 ≤ g.baseval)
    (hb : a0.indx.lo ≤ g.baseval ∧ g.vertnnd ≤ a0.indx.hi ∧ a0.vnum.lo ≤ g.baseval ∧ N + halonbr ≤ a0.vnum.hi) (hw : g.Vertex w) (horg : ∃ y ∈ l, Adj g y w) (h : AInv g N l org st en a0 e s) :
    Holds (haloNum w s) (fun r => AInv g N l org st en a0 e r.2 ∧ r.2.indx.get w = r.1 ∧ r.1 ≠ -1 ∧ r.2.edgenum = s.edgenum ∧ r.2.edhdnum = s.edhdnum ∧ r.2.edge = s.edge ∧
      ∀ u, g.Vertex u → s.indx.get u ≠ -1 → r.2.indx.get u = s.indx.get u) := by
  obtain ⟨bnd, num, nnd, vold, iold, ext, cnt, fill, src, inj, frame⟩ := h
  have w1 := hw.1
  have w2 := hw.2
  unfold haloNum
  rw [Arr.rd_ok _ (by omega) (by omega), ok_bind]
  by_cases hx : s.indx.get w = -1
  · rw [if_pos hx]
    have hwl : w ∉ l := fun hm => by
      have := iold w hw (hl w hm).1
      have := (hl w hm).1
      omega
    have hwe : Ext g l w := ⟨hwl, horg⟩
    have hne : ∀ i, g.baseval ≤ i → i < s.vertnnd → s.vnum.get i ≠ w := by
      intro i i1 i2 he
      have := (num.fwd i i1 i2).2
      rw [he] at this
      omega
    have hroom := room (l := l) hN (by omega) num ext hw hwe (fun i i1 i2 => hne i (by omega) i2) hcap
    rw [Arr.wr_ok _ _ (by omega) (by omega), ok_bind, Arr.wr_ok _ _ (by omega) (by omega), ok_bind, Holds_pure]
    have hind : ∀ u, (s.indx.set w s.vertnnd).get u = if u = w then s.vertnnd else s.indx.get u := fun u => Arr.set_get ..
    have hvn : ∀ i, (s.vnum.set s.vertnnd w).get i = if i = s.vertnnd then w else s.vnum.get i := fun u => Arr.set_get ..
    have hkeep : ∀ u, s.indx.get u ≠ -1 → (s.indx.set w s.vertnnd).get u = s.indx.get u := by
      intro u hu
      rw [hind, if_neg (by rintro rfl; exact hu hx)]
    refine ⟨⟨bnd, ?_, ?_, ?_, ?_, ?_, cnt, ?_, ?_, inj, frame⟩, ?_, ?_, rfl, rfl, rfl, fun u _ hu => hkeep u hu⟩
    · constructor
      · intro i i1 i2
        dsimp only at i2 ⊢
        rw [hvn]
        by_cases hi : i = s.vertnnd
        · rw [if_pos hi, hind, if_pos rfl]; exact ⟨hw, hi.symm⟩
        · rw [if_neg hi]
          have := num.fwd i i1 (by omega)
          rw [hkeep _ (by omega)]
          exact this
      · intro u hu h1
        dsimp only at h1 ⊢
        rw [hind] at h1 ⊢
        by_cases huw : u = w
        · rw [if_pos huw, hvn, if_pos rfl]; exact ⟨by omega, by omega, huw.symm⟩
        · rw [if_neg huw] at h1 ⊢
          have := num.bwd u hu h1
          rw [hvn, if_neg (by omega)]
          exact ⟨this.1, by omega, this.2.2⟩
    · dsimp only; omega
    · intro i i1 i2
      dsimp only
      rw [hvn, if_neg (by omega)]
      exact vold i i1 i2
    · intro u hu h1
      have := iold u hu h1
      dsimp only
      rw [hkeep u (by omega)]
      exact this
    · intro i i1 i2
      dsimp only at i2 ⊢
      rw [hvn]
      split
      · exact hwe
      · exact ext i i1 (by omega)
    · intro e' k1 k2
      dsimp only
      have := fill e' k1 k2
      rw [hkeep _ this.1]
      exact this
    · intro k hk
      obtain ⟨e', k1, k2, k3, k4⟩ := src k hk
      dsimp only
      refine ⟨e', k1, k2, ?_, ?_⟩
      · rw [hkeep _ (fill e' k1 k2).1]; exact k3
      · rw [hkeep _ (fill e' k1 k2).1]; exact k4
    · dsimp only; rw [hind, if_pos rfl]
    · dsimp only; omega
  · rw [if_neg hx, Holds_pure]
    exact ⟨⟨bnd, num, nnd, vold, iold, ext, cnt, fill, src, inj, frame⟩, rfl, hx, rfl, rfl, rfl, fun _ _ _ => rfl⟩

theorem arc1_holds (hc : ConsE g) {org st en e halonbr : Int} {a0 s : ASt} (hN : g.baseval ≤ N) (hN2 : N ≤ a0.vertnnd) (hcap : total g (Ext g l) (fun _ => 1) ≤ halonbr)
    (hl : ∀ y ∈ l, a0.indx.get y ≠ -1 ∧ g.Vertex y) (hb0 : 0 ≤ g.baseval)
    (hb : a0.indx.lo ≤ g.baseval ∧ g.vertnnd ≤ a0.indx.hi ∧ a0.vnum.lo ≤ g.baseval ∧ N + halonbr ≤ a0.vnum.hi) (hbe : a0.edge.lo ≤ st ∧ en ≤ a0.edge.hi) (hen : en = st + (g.vend org - g.vert org))
    (horg : org ∈ l) (hv : g.Vertex org) (h1 : g.vert org ≤ e) (h2 : e < g.vend org) (h : AInv g N l org st en a0 e s) :
    Holds (arc1 N e (g.dest e) s) (AInv g N l org st en a0 (e + 1)) := by
  have hin := hc.inside org e hv h1 h2
  unfold arc1
  rw [Holds_bind]
  refine (haloNum_holds hN hN2 hcap hl hb0 hb hin.1 ⟨org, horg, e, h1, h2, rfl⟩ h).mono ?_
  rintro ⟨x, s'⟩ ⟨I, hx, hx1, -, -, -, -⟩
  dsimp only at I hx hx1 ⊢
  obtain ⟨bnd, num, nnd, vold, iold, ext, cnt, fill, src, inj, frame⟩ := I
  have hnew : ∀ e', g.vert org ≤ e' → e' < e → s'.indx.get (g.dest e') ≠ x := by
    intro e' k1 k2 he
    have hv' := (hc.inside org e' hv k1 (by omega)).1
    have hd : g.dest e' = g.dest e := by
      rw [← (num.bwd _ hv' (fill e' k1 k2).1).2.2, ← (num.bwd _ hin.1 (by omega)).2.2, he, hx]
    have := hc.simple org hv e' e k1 (by omega) h1 h2 hd
    omega
  by_cases hxN : x ≥ N
  · rw [if_pos hxN, Arr.wr_ok _ _ (by omega) (by omega), ok_bind, Holds_pure]
    have hg : ∀ k, (s'.edge.set (s'.edhdnum - 1) x).get k = if k = s'.edhdnum - 1 then x else s'.edge.get k := fun k => Arr.set_get ..
    refine ⟨bnd, num, nnd, vold, iold, ext, ?_, ?_, ?_, ?_, ?_⟩
    · dsimp only; omega
    · intro e' k1 k2
      dsimp only
      by_cases he : e' = e
      · rw [he, hx]
        exact ⟨hx1, s'.edhdnum - 1, Or.inr ⟨by omega, by omega, hxN⟩, by rw [hg, if_pos rfl]⟩
      · obtain ⟨f1, k, f2, f3⟩ := fill e' k1 (by omega)
        refine ⟨f1, k, ?_, ?_⟩
        · rcases f2 with f2 | f2
          · exact Or.inl f2
          · exact Or.inr ⟨by omega, f2.2⟩
        · rw [hg, if_neg (by omega)]; exact f3
    · intro k hk
      dsimp only at hk ⊢
      rw [hg]
      by_cases hke : k = s'.edhdnum - 1
      · rw [if_pos hke]
        exact ⟨e, h1, by omega, hx.symm, by rw [hx]; omega⟩
      · rw [if_neg hke]
        obtain ⟨e', k1, k2, k3⟩ := src k (by omega)
        exact ⟨e', k1, by omega, k3⟩
    · intro k k' hk hk' he
      dsimp only at hk hk' he
      rw [hg, hg] at he
      by_cases h3 : k = s'.edhdnum - 1
      · by_cases h4 : k' = s'.edhdnum - 1
        · omega
        · rw [if_pos h3, if_neg h4] at he
          obtain ⟨e', k1, k2, k3, _⟩ := src k' (by omega)
          exact absurd (k3.symm.trans he.symm) (hnew e' k1 k2)
      · by_cases h4 : k' = s'.edhdnum - 1
        · rw [if_neg h3, if_pos h4] at he
          obtain ⟨e', k1, k2, k3, _⟩ := src k (by omega)
          exact absurd (k3.symm.trans he) (hnew e' k1 k2)
        · rw [if_neg h3, if_neg h4] at he
          exact inj k k' (by omega) (by omega) he
    · intro k hk
      dsimp only
      rw [hg, if_neg (by omega)]
      exact frame k hk
  · rw [if_neg hxN, Arr.wr_ok _ _ (by omega) (by omega), ok_bind, Holds_pure]
    have hg : ∀ k, (s'.edge.set s'.edgenum x).get k = if k = s'.edgenum then x else s'.edge.get k := fun k => Arr.set_get ..
    refine ⟨bnd, num, nnd, vold, iold, ext, ?_, ?_, ?_, ?_, ?_⟩
    · dsimp only; omega
    · intro e' k1 k2
      dsimp only
      by_cases he : e' = e
      · rw [he, hx]
        exact ⟨hx1, s'.edgenum, Or.inl ⟨by omega, by omega, by omega⟩, by rw [hg, if_pos rfl]⟩
      · obtain ⟨f1, k, f2, f3⟩ := fill e' k1 (by omega)
        refine ⟨f1, k, ?_, ?_⟩
        · rcases f2 with f2 | f2
          · exact Or.inl ⟨f2.1, by omega, f2.2.2⟩
          · exact Or.inr f2
        · rw [hg, if_neg (by omega)]; exact f3
    · intro k hk
      dsimp only at hk ⊢
      rw [hg]
      by_cases hke : k = s'.edgenum
      · rw [if_pos hke]
        exact ⟨e, h1, by omega, hx.symm, by rw [hx]; omega⟩
      · rw [if_neg hke]
        obtain ⟨e', k1, k2, k3, k4⟩ := src k (by omega)
        exact ⟨e', k1, by omega, k3, by rw [← k4]; omega⟩
    · intro k k' hk hk' he
      dsimp only at hk hk' he
      rw [hg, hg] at he
      by_cases h3 : k = s'.edgenum
      · by_cases h4 : k' = s'.edgenum
        · omega
        · rw [if_pos h3, if_neg h4] at he
          obtain ⟨e', k1, k2, k3, _⟩ := src k' (by omega)
          exact absurd (k3.symm.trans he.symm) (hnew e' k1 k2)
      · by_cases h4 : k' = s'.edgenum
        · rw [if_neg h3, if_pos h4] at he
          obtain ⟨e', k1, k2, k3, _⟩ := src k (by omega)
          exact absurd (k3.symm.trans he) (hnew e' k1 k2)
        · rw [if_neg h3, if_neg h4] at he
          exact inj k k' (by omega) (by omega) he
    · intro k hk
      dsimp only
      rw [hg, if_neg (by omega)]
      exact frame k hk

/-- Arcs of a vertex that is not in the halo: those of the halo come after `m`. -/
structure Row1 (g : Graph) (N v a m b : Int) (edge indx : Int → Int) : Prop where
  le : a ≤ m ∧ m ≤ b
  all : ∀ w, Adj g v w → indx w ≠ -1
  lo : ∀ x, (∃ e, a ≤ e ∧ e < m ∧ edge e = x) ↔ ∃ w, Adj g v w ∧ indx w = x ∧ x < N
  hi : ∀ x, (∃ e, m ≤ e ∧ e < b ∧ edge e = x) ↔ ∃ w, Adj g v w ∧ indx w = x ∧ N ≤ x
  inj : ∀ e e', a ≤ e → e < b → a ≤ e' → e' < b → edge e = edge e' → e = e'

/-- Arcs of a halo vertex. -/
structure Row2 (g : Graph) (N v a b : Int) (edge indx : Int → Int) : Prop where
  le : a ≤ b
  lo : ∀ x, (∃ e, a ≤ e ∧ e < b ∧ edge e = x) ↔ ∃ w, Adj g v w ∧ indx w = x ∧ x ≠ -1 ∧ x < N
  inj : ∀ e e', a ≤ e → e < b → a ≤ e' → e' < b → edge e = edge e' → e = e'

theorem Row1.congr {v a m b : Int} {edge indx edge' indx' : Int → Int} (h : Row1 g N v a m b edge indx) (he : ∀ e, a ≤ e → e < b → edge' e = edge e)
    (hi : ∀ w, Adj g v w → indx w ≠ -1 → indx' w = indx w) : Row1 g N v a m b edge' indx' := by
  obtain ⟨h1, h2, h3, h4, h5⟩ := h
  refine ⟨h1, ?_, ?_, ?_, ?_⟩
  · intro w hw; rw [hi w hw (h2 w hw)]; exact h2 w hw
  · intro x
    constructor
    · rintro ⟨e, k1, k2, k3⟩
      obtain ⟨w, j1, j2⟩ := (h3 x).1 ⟨e, k1, k2, by rw [← he e k1 (by omega)]; exact k3⟩
      exact ⟨w, j1, by rw [hi w j1 (h2 w j1)]; exact j2⟩
    · rintro ⟨w, j1, j2⟩
      rw [hi w j1 (h2 w j1)] at j2
      obtain ⟨e, k1, k2, k3⟩ := (h3 x).2 ⟨w, j1, j2⟩
      exact ⟨e, k1, k2, by rw [he e k1 (by omega)]; exact k3⟩
  · intro x
    constructor
    · rintro ⟨e, k1, k2, k3⟩
      obtain ⟨w, j1, j2⟩ := (h4 x).1 ⟨e, k1, k2, by rw [← he e (by omega) k2]; exact k3⟩
      exact ⟨w, j1, by rw [hi w j1 (h2 w j1)]; exact j2⟩
    · rintro ⟨w, j1, j2⟩
      rw [hi w j1 (h2 w j1)] at j2
      obtain ⟨e, k1, k2, k3⟩ := (h4 x).2 ⟨w, j1, j2⟩
      exact ⟨e, k1, k2, by rw [he e (by omega) k2]; exact k3⟩
  · intro e e' k1 k2 k3 k4 k5
    rw [he e k1 k2, he e' k3 k4] at k5
    exact h5 e e' k1 k2 k3 k4 k5

theorem Row2.congr {v a b : Int} {edge indx edge' : Int → Int} (h : Row2 g N v a b edge indx) (he : ∀ e, a ≤ e → e < b → edge' e = edge e) : Row2 g N v a b edge' indx := by
  obtain ⟨h1, h3, h5⟩ := h
  refine ⟨h1, ?_, ?_⟩
  · intro x
    rw [← h3 x]
    constructor
    · rintro ⟨e, k1, k2, k3⟩; exact ⟨e, k1, k2, by rw [← he e k1 k2]; exact k3⟩
    · rintro ⟨e, k1, k2, k3⟩; exact ⟨e, k1, k2, by rw [he e k1 k2]; exact k3⟩
  · intro e e' k1 k2 k3 k4 k5
    rw [he e k1 k2, he e' k3 k4] at k5
    exact h5 e e' k1 k2 k3 k4 k5

/-- When all arcs have been processed. -/
theorem AInv.row {org st en : Int} {a0 s : ASt} (hen : en = st + (g.vend org - g.vert org)) (h : AInv g N l org st en a0 (g.vend org) s) :
    s.edgenum = s.edhdnum ∧ Row1 g N org st s.edhdnum en s.edge.get s.indx.get := by
  obtain ⟨bnd, num, nnd, vold, iold, ext, cnt, fill, src, inj, frame⟩ := h
  have he : s.edgenum = s.edhdnum := by omega
  refine ⟨he, ⟨by omega, by omega⟩, ?_, ?_, ?_, ?_⟩
  · rintro w ⟨e, k1, k2, rfl⟩; exact (fill e k1 k2).1
  · intro x
    constructor
    · rintro ⟨e, k1, k2, rfl⟩
      obtain ⟨e', j1, j2, j3, j4⟩ := src e (Or.inl ⟨k1, by omega⟩)
      exact ⟨g.dest e', ⟨e', j1, j2, rfl⟩, j3.symm, by rw [j3]; exact j4.1 (by omega)⟩
    · rintro ⟨w, ⟨e, k1, k2, rfl⟩, rfl, hx⟩
      obtain ⟨_, k, j1, j2⟩ := fill e k1 k2
      rcases j1 with j1 | j1
      · exact ⟨k, j1.1, by omega, j2⟩
      · omega
  · intro x
    constructor
    · rintro ⟨e, k1, k2, rfl⟩
      obtain ⟨e', j1, j2, j3, j4⟩ := src e (Or.inr ⟨k1, by omega⟩)
      exact ⟨g.dest e', ⟨e', j1, j2, rfl⟩, j3.symm, by
        rw [j3]
        have : ¬ s.indx.get (g.dest e') < N := fun h => by have := j4.2 h; omega
        omega⟩
    · rintro ⟨w, ⟨e, k1, k2, rfl⟩, rfl, hx⟩
      obtain ⟨_, k, j1, j2⟩ := fill e k1 k2
      rcases j1 with j1 | j1
      · omega
      · exact ⟨k, j1.1, by omega, j2⟩
  · intro k k' k1 k2 k3 k4
    exact inj k k' (by omega) (by omega)

/-- Arcs of a halo vertex. -/
theorem arcs2_holds (hc : ConsE g) (ha : Allocated g) {v nnd : Int} {s : ASt} (hv : g.Vertex v) (num : Num g nnd s.vnum.get s.indx.get) (hb : s.indx.lo ≤ g.baseval ∧ g.vertnnd ≤ s.indx.hi)
    (hbe : s.edge.lo ≤ s.edgenum ∧ s.edgenum + (g.vend v - g.vert v) ≤ s.edge.hi) :
    Holds (g.forArcs v s (arc2 N)) (fun t => Row2 g N v s.edgenum t.edgenum t.edge.get s.indx.get ∧ t.edgenum ≤ s.edgenum + (g.vend v - g.vert v) ∧
      (∀ k, k < s.edgenum → t.edge.get k = s.edge.get k) ∧ t.edge.lo = s.edge.lo ∧ t.edge.hi = s.edge.hi) := by
  refine Holds_forArcs ha hv (hc.range v hv).2 (fun e (t : ASt) => t.indx = s.indx ∧ s.edgenum ≤ t.edgenum ∧ t.edgenum ≤ s.edgenum + (e - g.vert v) ∧
    (∀ k, k < s.edgenum → t.edge.get k = s.edge.get k) ∧ t.edge.lo = s.edge.lo ∧ t.edge.hi = s.edge.hi ∧
    (∀ k, s.edgenum ≤ k → k < t.edgenum → ∃ e', g.vert v ≤ e' ∧ e' < e ∧ t.edge.get k = s.indx.get (g.dest e') ∧ s.indx.get (g.dest e') ≠ -1 ∧ s.indx.get (g.dest e') < N) ∧
    (∀ e', g.vert v ≤ e' → e' < e → s.indx.get (g.dest e') ≠ -1 → s.indx.get (g.dest e') < N → ∃ k, s.edgenum ≤ k ∧ k < t.edgenum ∧ t.edge.get k = s.indx.get (g.dest e')) ∧
    (∀ k k', s.edgenum ≤ k → k < t.edgenum → s.edgenum ≤ k' → k' < t.edgenum → t.edge.get k = t.edge.get k' → k = k')) ?_ ?_ ?_
  · refine ⟨rfl, Int.le_refl _, by omega, fun _ _ => rfl, rfl, rfl, ?_, ?_, ?_⟩
    · intro k h1 h2; omega
    · intro k h1 h2; omega
    · intro k k' h1 h2; omega
  · rintro e t h1 h2 ⟨i1, i2, i3, i4, i5, i6, i7, i8, i9⟩
    have hin := (hc.inside v e hv h1 h2).1
    have x1 := hin.1
    have x2 := hin.2
    unfold arc2
    rw [i1, Arr.rd_ok _ (by omega) (by omega), ok_bind]
    by_cases hx : s.indx.get (g.dest e) ≠ -1 ∧ s.indx.get (g.dest e) < N
    · rw [if_pos hx, Arr.wr_ok _ _ (by omega) (by omega), ok_bind, Holds_pure]
      have hg : ∀ k, (t.edge.set t.edgenum (s.indx.get (g.dest e))).get k = if k = t.edgenum then s.indx.get (g.dest e) else t.edge.get k := fun k => Arr.set_get ..
      have hnew : ∀ e', g.vert v ≤ e' → e' < e → s.indx.get (g.dest e') ≠ -1 → s.indx.get (g.dest e') ≠ s.indx.get (g.dest e) := by
        intro e' k1 k2 k3 he
        have hv' := (hc.inside v e' hv k1 (by omega)).1
        have hd : g.dest e' = g.dest e := by
          rw [← (num.bwd _ hv' k3).2.2, ← (num.bwd _ hin hx.1).2.2, he]
        have := hc.simple v hv e' e k1 (by omega) h1 h2 hd
        omega
      refine ⟨rfl, by dsimp only; omega, by dsimp only; omega, ?_, i5, i6, ?_, ?_, ?_⟩
      · intro k hk
        dsimp only
        rw [hg, if_neg (by omega)]
        exact i4 k hk
      · intro k k1 k2
        dsimp only at k2 ⊢
        rw [hg]
        by_cases hk : k = t.edgenum
        · rw [if_pos hk]; exact ⟨e, h1, by omega, rfl, hx.1, hx.2⟩
        · rw [if_neg hk]
          obtain ⟨e', j1, j2, j3⟩ := i7 k k1 (by omega)
          exact ⟨e', j1, by omega, j3⟩
      · intro e' k1 k2 k3 k4
        dsimp only
        by_cases he : e' = e
        · exact ⟨t.edgenum, i2, by omega, by rw [hg, if_pos rfl, he]⟩
        · obtain ⟨k, j1, j2, j3⟩ := i8 e' k1 (by omega) k3 k4
          exact ⟨k, j1, by omega, by rw [hg, if_neg (by omega)]; exact j3⟩
      · intro k k' k1 k2 k3 k4 he
        dsimp only at k2 k4 he
        rw [hg, hg] at he
        by_cases hk : k = t.edgenum
        · by_cases hk' : k' = t.edgenum
          · omega
          · rw [if_pos hk, if_neg hk'] at he
            obtain ⟨e', j1, j2, j3, j4, _⟩ := i7 k' k3 (by omega)
            exact absurd (j3.symm.trans he.symm) (hnew e' j1 j2 j4)
        · by_cases hk' : k' = t.edgenum
          · rw [if_neg hk, if_pos hk'] at he
            obtain ⟨e', j1, j2, j3, j4, _⟩ := i7 k k1 (by omega)
            exact absurd (j3.symm.trans he) (hnew e' j1 j2 j4)
          · rw [if_neg hk, if_neg hk'] at he
            exact i9 k k' k1 (by omega) k3 (by omega) he
    · rw [if_neg hx, Holds_pure]
      refine ⟨i1, i2, by omega, i4, i5, i6, ?_, ?_, i9⟩
      · intro k k1 k2
        obtain ⟨e', j1, j2, j3⟩ := i7 k k1 k2
        exact ⟨e', j1, by omega, j3⟩
      · intro e' k1 k2 k3 k4
        by_cases he : e' = e
        · rw [he] at k3 k4; exact absurd ⟨k3, k4⟩ hx
        · exact i8 e' k1 (by omega) k3 k4
  · rintro t ⟨i1, i2, i3, i4, i5, i6, i7, i8, i9⟩
    refine ⟨⟨i2, ?_, i9⟩, i3, i4, i5, i6⟩
    intro x
    constructor
    · rintro ⟨k, k1, k2, rfl⟩
      obtain ⟨e', j1, j2, j3, j4, j5⟩ := i7 k k1 k2
      exact ⟨_, ⟨e', j1, j2, rfl⟩, j3.symm, by rw [j3]; exact j4, by rw [j3]; exact j5⟩
    · rintro ⟨w, ⟨e', j1, j2, rfl⟩, rfl, j4, j5⟩
      exact i8 e' j1 j2 j4 j5

end Scotch.HOrder
