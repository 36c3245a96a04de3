import Verif.Separ.ModelBd
import Verif.Separ.LemmasBasic
import Verif.Separ.Spec

/-! # Separation of band graphs: search -/

set_option autoImplicit false
set_option linter.unusedSimpArgs false

namespace Scotch.Separ
open Graph
open Bipart (over)

/-- Load of a vertex, or 0 if there are no loads. -/
def velo0 (g : Graph) (v : Int) : Int := match g.velotax with | none => 0 | some a => a.get v

theorem rdVelo0_eq {g : Graph} (ha : g.Allocated) {v : Int} (hv : g.Vertex v) : rdVelo0 g v = .ok (velo0 g v) := by
  unfold rdVelo0 velo0
  cases h : g.velotax with
  | none => rfl
  | some a =>
    have := ha.velo a h
    exact Arr.rd_ok _ (by have := hv.1; omega) (by have := hv.2; omega)

/-- Queue of the search. -/
structure BdQ (b : Vgraph) (s : BdSt) : Prop where
  bnd : s.dist.lo = b.s.baseval ∧ s.dist.hi = b.s.baseval + b.s.vertnbr ∧ s.queu.lo = 0 ∧ s.queu.hi = b.s.vertnbr
  enum : Enum s.queu s.head (fun v => b.s.Vertex v ∧ s.dist.get v ≠ -1)
  nneg : ∀ v, b.s.Vertex v → -1 ≤ s.dist.get v
  velo : s.velosum = sumI 0 s.head (fun i => velo0 b.s (s.queu.get i))
  size : s.size1 = sumI 0 s.head (fun i => b.part (s.queu.get i) % 2)
  load : s.load1 = sumI 0 s.head (fun i => velo0 b.s (s.queu.get i) * (b.part (s.queu.get i) % 2))

/-- The queue gets longer. -/
structure BdExt (s s' : BdSt) : Prop where
  head : s.head ≤ s'.head
  queu : ∀ i, 0 ≤ i → i < s.head → s'.queu.get i = s.queu.get i
  dist : ∀ v, s.dist.get v ≠ -1 → s'.dist.get v = s.dist.get v

theorem BdExt.refl (s : BdSt) : BdExt s s := ⟨Int.le_refl _, fun _ _ _ => rfl, fun _ _ => rfl⟩

theorem BdExt.trans {s t u : BdSt} (h : BdExt s t) (k : BdExt t u) : BdExt s u :=
  ⟨Int.le_trans h.head k.head, fun i h1 h2 => by rw [k.queu i h1 (by have := h.head; omega), h.queu i h1 h2],
    fun v hv => by rw [k.dist v (by rw [h.dist v hv]; exact hv), h.dist v hv]⟩

variable {b : Vgraph} {s : BdSt} {D : Int}

/-- A vertex is put in the queue. -/
theorem BdQ.put (hc : ConsE b.s) (h : BdQ b s) {w d x p : Int} (hw : b.s.Vertex w) (hd : 0 ≤ d) (hn : s.dist.get w = -1) (hx : x = velo0 b.s w) (hp : p = b.part w % 2) :
    s.head < b.s.vertnbr ∧ 0 ≤ s.head ∧
    BdQ b { s with dist := s.dist.set w d, queu := s.queu.set s.head w, head := s.head + 1, size1 := s.size1 + p, velosum := s.velosum + x, load1 := s.load1 + x * p } ∧
    BdExt s { s with dist := s.dist.set w d, queu := s.queu.set s.head w, head := s.head + 1, size1 := s.size1 + p, velosum := s.velosum + x, load1 := s.load1 + x * p } := by
  have hnn := hc.vertnnd
  have h0 := h.enum.1
  have hx0 : ¬ (b.s.Vertex w ∧ s.dist.get w ≠ -1) := fun k => k.2 hn
  have hlt := h.enum.lt (lo := b.s.baseval) (hi := b.s.vertnnd) (fun v hv => hv.1) hx0 hw.1 hw.2
  have hsum : ∀ f : Int → Int, sumI 0 (s.head + 1) (fun i => f ((s.queu.set s.head w).get i)) = sumI 0 s.head (fun i => f (s.queu.get i)) + f w := by
    intro f
    rw [sumI_succ h0, Arr.set_get_same]
    congr 1
    refine sumI_congr ?_
    intro i i1 i2
    rw [Arr.set_get_ne _ _ (by omega)]
  refine ⟨by omega, h0, ⟨h.bnd, ?_, ?_, ?_, ?_, ?_⟩, ⟨by dsimp only; omega, ?_, ?_⟩⟩
  · refine (h.enum.push hx0).congr ?_
    intro v
    dsimp only
    by_cases e : v = w
    · rw [e, Arr.set_get_same]
      exact ⟨fun _ => ⟨hw, by omega⟩, fun _ => Or.inr rfl⟩
    · rw [Arr.set_get_ne _ _ e]
      exact ⟨fun k => k.resolve_right e, Or.inl⟩
  · intro v hv
    dsimp only
    by_cases e : v = w
    · rw [e, Arr.set_get_same]; omega
    · rw [Arr.set_get_ne _ _ e]; exact h.nneg v hv
  · dsimp only; rw [hsum (fun v => velo0 b.s v), h.velo, hx]
  · dsimp only; rw [hsum (fun v => b.part v % 2), h.size, hp]
  · dsimp only; rw [hsum (fun v => velo0 b.s v * (b.part v % 2)), h.load, hx, hp]
  · intro i i1 i2; dsimp only; rw [Arr.set_get_ne _ _ (by omega)]
  · intro v hv
    dsimp only
    rw [Arr.set_get_ne _ _ (by rintro rfl; exact hv hn)]

theorem bdFirst_holds (hc : ConsE b.s) (ha : Alloc b) (hv : Valid b) (junk : Int → Int) :
    Holds (forUp 0 b.fronnbr ⟨Arr.const b.s.baseval (b.s.baseval + b.s.vertnbr) (-1), ⟨0, b.s.vertnbr, junk⟩, 0, 0, 0, 0, 0⟩ (bdFirst b)) (fun s => BdQ b s ∧ s.head = b.fronnbr ∧ s.edgenbr = 0 ∧
      ∀ i, 0 ≤ i → i < b.fronnbr → s.queu.get i = b.frontab.get i ∧ s.dist.get (b.frontab.get i) = 0) := by
  have hnn := hc.vertnnd
  have hn := hc.vertnbr
  have hf := ha.fron
  have f0 := hv.fron.1
  have fle := hv.fron.le (lo := b.s.baseval) (hi := b.s.vertnnd) (by omega) (fun v hv => hv.1)
  refine Holds_forUp (fun i (s : BdSt) => BdQ b s ∧ s.head = i ∧ s.edgenbr = 0 ∧ (∀ j, 0 ≤ j → j < i → s.queu.get j = b.frontab.get j ∧ s.dist.get (b.frontab.get j) = 0) ∧
    ∀ v, s.dist.get v ≠ -1 → ∃ j, 0 ≤ j ∧ j < i ∧ b.frontab.get j = v) f0 ?_ ?_ ?_
  · refine ⟨⟨⟨rfl, rfl, rfl, rfl⟩, ?_, fun v hv => ?_, ?_, ?_, ?_⟩, rfl, rfl, fun j h1 h2 => by omega, fun v h => absurd rfl h⟩
    · exact (Enum.empty _).congr fun v => ⟨False.elim, fun h => h.2 rfl⟩
    · show -1 ≤ -1; omega
    · dsimp only; rw [sumI_empty (Int.le_refl _)]
    · dsimp only; rw [sumI_empty (Int.le_refl _)]
    · dsimp only; rw [sumI_empty (Int.le_refl _)]
  · rintro i s h1 h2 ⟨hq, hh, he, hj, hd⟩
    obtain ⟨hx, hx2⟩ := hv.fron.mem h1 h2
    have v1 := hx.1
    have v2 := hx.2
    have hb := hq.bnd
    have hno : s.dist.get (b.frontab.get i) = -1 := by
      refine Classical.byContradiction fun k => ?_
      obtain ⟨j, j1, j2, j3⟩ := hd _ k
      have := hv.fron.2.1 j i j1 (by omega) h1 h2 j3
      omega
    obtain ⟨q1, q2, q3, q4⟩ := hq.put hc (d := 0) (x := velo0 b.s (b.frontab.get i)) (p := b.part (b.frontab.get i) % 2) hx (Int.le_refl 0) hno rfl rfl
    have hp0 : b.part (b.frontab.get i) % 2 = 0 := by rw [hx2]; rfl
    unfold bdFirst
    rw [Arr.rd_ok _ (by omega) (by omega), ok_bind, Arr.wr_ok _ _ (by omega) (by omega), ok_bind, Arr.wr_ok _ _ (by omega) (by omega), ok_bind,
      rdVelo0_eq ha.graph hx, ok_bind, Holds_pure]
    rw [hp0, Int.mul_zero, Int.add_zero, Int.add_zero] at q3
    refine ⟨q3, by dsimp only; omega, he, ?_, ?_⟩
    · intro j j1 j2
      dsimp only
      by_cases e : j = i
      · rw [e, ← hh, Arr.set_get_same]
        exact ⟨rfl, Arr.set_get_same _ _ _⟩
      · obtain ⟨k1, k2⟩ := hj j j1 (by omega)
        rw [Arr.set_get_ne _ _ (by omega), k1]
        refine ⟨rfl, ?_⟩
        rw [Arr.set_get_ne _ _ (fun e' => e (hv.fron.2.1 j i j1 (by omega) h1 h2 e')), k2]
    · intro v hv'
      dsimp only at hv'
      by_cases e : v = b.frontab.get i
      · exact ⟨i, h1, by omega, e.symm⟩
      · rw [Arr.set_get_ne _ _ e] at hv'
        obtain ⟨j, j1, j2, j3⟩ := hd v hv'
        exact ⟨j, j1, by omega, j3⟩
  · rintro s ⟨hq, hh, he, hj, -⟩
    exact ⟨hq, hh, he, hj⟩

theorem bdArc_holds (hc : ConsE b.s) (ha : Alloc b) (h : BdQ b s) {d e w : Int} (hd : 0 ≤ d) (hw : b.s.Vertex w) :
    Holds (bdArc b d e w s) (fun s' => BdQ b s' ∧ BdExt s s' ∧ s'.edgenbr = s.edgenbr ∧ s'.dist.get w ≠ -1) := by
  have hnn := hc.vertnnd
  have hb := h.bnd
  have hp := ha.part
  have w1 := hw.1
  have w2 := hw.2
  unfold bdArc
  rw [Arr.rd_ok _ (by omega) (by omega), ok_bind]
  by_cases hn : s.dist.get w = -1
  · obtain ⟨q1, q2, q3, q4⟩ := h.put hc (x := velo0 b.s w) (p := b.part w % 2) hw hd hn rfl rfl
    rw [if_pos hn, Arr.rd_ok _ (by omega) (by omega), ok_bind, Arr.wr_ok _ _ (by omega) (by omega), ok_bind, Arr.wr_ok _ _ (by omega) (by omega), ok_bind,
      rdVelo0_eq ha.graph hw, ok_bind, Holds_pure]
    exact ⟨q3, q4, rfl, by dsimp only; rw [Arr.set_get_same]; omega⟩
  · rw [if_neg hn, Holds_pure]
    exact ⟨h, BdExt.refl s, rfl, hn⟩

/-- Arcs that a vertex of the queue counts for. -/
def bdCount (b : Vgraph) (D : Int) (dist : Int → Int) (v : Int) : Int := b.s.vend v - b.s.vert v + (if dist v ≥ D then 1 else 0)

theorem bdVert_holds (hc : ConsE b.s) (ha : Alloc b) (h : BdQ b s) {v : Int} (hv : b.s.Vertex v) (_hd : s.dist.get v ≠ -1) :
    Holds (bdVert b D v s) (fun s' => BdQ b s' ∧ BdExt s s' ∧ s'.edgenbr = s.edgenbr + bdCount b D s.dist.get v ∧ (s.dist.get v < D → ∀ w, b.s.Adj v w → s'.dist.get w ≠ -1)) := by
  have hnn := hc.vertnnd
  have hb := h.bnd
  have v1 := hv.1
  have v2 := hv.2
  have hr := hc.range v hv
  have hge := h.nneg v hv
  have hput : ∀ k, BdQ b { s with edgenbr := k } := fun k => ⟨h.bnd, h.enum, h.nneg, h.velo, h.size, h.load⟩
  unfold bdVert
  rw [rdVert_eq ha.graph hv, ok_bind, rdVend_eq ha.graph hv, ok_bind, Arr.rd_ok _ (by omega) (by omega), ok_bind]
  unfold bdCount
  by_cases hD : s.dist.get v ≥ D
  · rw [if_pos hD, if_pos hD, Holds_pure]
    exact ⟨hput _, ⟨Int.le_refl _, fun _ _ _ => rfl, fun _ _ => rfl⟩, by dsimp only; omega, fun k => by omega⟩
  · rw [if_neg hD, if_neg hD]
    refine Holds_forArcs ha.graph hv hr.2 (fun e s' => BdQ b s' ∧ BdExt s s' ∧ s'.edgenbr = s.edgenbr + (b.s.vend v - b.s.vert v) ∧ ∀ e', b.s.vert v ≤ e' → e' < e → s'.dist.get (b.s.dest e') ≠ -1) ?_ ?_ ?_
    · exact ⟨hput _, ⟨Int.le_refl _, fun _ _ _ => rfl, fun _ _ => rfl⟩, rfl, fun e' h1 h2 => by omega⟩
    · rintro e s' h1 h2 ⟨i1, i2, i3, i4⟩
      refine (bdArc_holds hc ha i1 (by omega) (hc.inside v e hv h1 h2).1).mono ?_
      rintro t ⟨j1, j2, j3, j4⟩
      refine ⟨j1, i2.trans j2, by omega, ?_⟩
      intro e' e1 e2
      by_cases ee : e' = e
      · rw [ee]; exact j4
      · have := i4 e' e1 (by omega)
        rw [j2.dist _ this]; exact this
    · rintro s' ⟨i1, i2, i3, i4⟩
      refine ⟨i1, i2, by omega, fun _ w hw => ?_⟩
      obtain ⟨e, e1, e2, e3⟩ := hw
      rw [← e3]; exact i4 e e1 e2

/-- Result of the search. -/
structure BdFound (b : Vgraph) (D : Int) (s : BdSt) : Prop where
  bnd : s.dist.lo = b.s.baseval ∧ s.dist.hi = b.s.baseval + b.s.vertnbr ∧ s.queu.lo = 0 ∧ s.queu.hi = b.s.vertnbr
  enum : Enum s.queu s.head (fun v => b.s.Vertex v ∧ s.dist.get v ≠ -1)
  nneg : ∀ v, b.s.Vertex v → -1 ≤ s.dist.get v
  velo : s.velosum = sumI 0 s.head (fun i => b.s.velo (s.queu.get i))
  size : s.size1 = sumI 0 s.head (fun i => b.part (s.queu.get i) % 2)
  load : s.load1 = sumI 0 s.head (fun i => b.s.velo (s.queu.get i) * (b.part (s.queu.get i) % 2))
  fron : b.fronnbr ≤ s.head ∧ ∀ i, 0 ≤ i → i < b.fronnbr → s.queu.get i = b.frontab.get i ∧ s.dist.get (b.frontab.get i) = 0
  done : ∀ v, b.s.Vertex v → s.dist.get v ≠ -1 → s.dist.get v < D → ∀ w, b.s.Adj v w → s.dist.get w ≠ -1
  edge : s.edgenbr = sumI 0 s.head (fun i => bdCount b D s.dist.get (s.queu.get i))

theorem bdSearch_holds (hc : ConsE b.s) (ha : Alloc b) (hv : Valid b) (hf : b.fronnbr ≠ 0) (junk : Int → Int) (distmax : Int) :
    Holds (bdSearch junk distmax b) (BdFound b (if distmax < 1 then 1 else distmax)) := by
  have hnn := hc.vertnnd
  have f0 := hv.fron.1
  unfold bdSearch
  generalize (if distmax < 1 then 1 else distmax) = D
  dsimp only
  rw [Holds_bind]
  refine (bdFirst_holds hc ha hv junk).mono ?_
  rintro s0 ⟨q0, h0, e0, j0⟩
  rw [Holds_bind]
  refine Holds_loopM (Q := fun s => BdQ b s ∧ BdExt s0 s ∧ s.edgenbr = sumI 0 s.head (fun i => bdCount b D s.dist.get (s.queu.get i)) ∧
      ∀ i, 0 ≤ i → i < s.head → s.dist.get (s.queu.get i) < D → ∀ w, b.s.Adj (s.queu.get i) w → s.dist.get w ≠ -1)
    (fun t : Int × BdSt => 0 ≤ t.1 ∧ t.1 < t.2.head ∧ BdQ b t.2 ∧ BdExt s0 t.2 ∧ t.2.edgenbr = sumI 0 t.1 (fun i => bdCount b D t.2.dist.get (t.2.queu.get i)) ∧
      ∀ i, 0 ≤ i → i < t.1 → t.2.dist.get (t.2.queu.get i) < D → ∀ w, b.s.Adj (t.2.queu.get i) w → t.2.dist.get w ≠ -1)
    (fun t => (b.s.vertnbr - t.1).toNat) ?_ _ _ ?_ ?_ |>.mono ?_
  · rintro ⟨k, s⟩ ⟨k0, k1, hq, hx, he, hd⟩
    dsimp only at k0 k1 hq hx he hd
    have hle := hq.enum.le (lo := b.s.baseval) (hi := b.s.vertnnd) (by have := hc.vertnbr; omega) (fun v hv => hv.1)
    obtain ⟨m1, m2⟩ := hq.enum.mem k0 k1
    have hb := hq.bnd
    unfold bdStep
    dsimp only
    rw [Arr.rd_ok _ (by omega) (by omega), ok_bind, Holds_bind]
    refine (bdVert_holds hc ha hq m1 m2).mono ?_
    rintro s' ⟨i1, i2, i3, i4⟩
    have hh := i2.head
    have hin : ∀ i, 0 ≤ i → i < s.head → s.dist.get (s.queu.get i) ≠ -1 := fun i a1 a2 => (hq.enum.mem a1 a2).2
    have hsum : s'.edgenbr = sumI 0 (k + 1) (fun i => bdCount b D s'.dist.get (s'.queu.get i)) := by
      rw [i3, sumI_succ k0, he]
      have e : ∀ i, 0 ≤ i → i < s.head → bdCount b D s'.dist.get (s'.queu.get i) = bdCount b D s.dist.get (s.queu.get i) := by
        intro i a1 a2
        rw [i2.queu i a1 a2]
        unfold bdCount
        rw [i2.dist _ (hin i a1 a2)]
      rw [e k k0 k1]
      congr 1
      exact sumI_congr fun i a1 a2 => (e i a1 (by omega)).symm
    have hdone : ∀ i, 0 ≤ i → i < k + 1 → s'.dist.get (s'.queu.get i) < D → ∀ w, b.s.Adj (s'.queu.get i) w → s'.dist.get w ≠ -1 := by
      intro i a1 a2 a3 w aw
      rw [i2.queu i a1 (by omega)] at a3 aw
      rw [i2.dist _ (hin i a1 (by omega))] at a3
      by_cases e : i = k
      · rw [e] at a3 aw; exact i4 a3 w aw
      · have := hd i a1 (by omega) a3 w aw
        rw [i2.dist w this]; exact this
    by_cases hend : k + 1 ≠ s'.head
    · rw [if_pos hend, Holds_pure, Loop.Sat_next]
      exact ⟨⟨by dsimp only; omega, by dsimp only; omega, i1, hx.trans i2, hsum, hdone⟩, by dsimp only; omega⟩
    · rw [if_neg hend, Holds_pure, Loop.Sat_brk]
      have : k + 1 = s'.head := Classical.byContradiction hend
      rw [this] at hsum hdone
      exact ⟨i1, hx.trans i2, hsum, hdone⟩
  · exact ⟨by dsimp only; omega, by dsimp only; omega, q0, BdExt.refl _, by dsimp only; rw [e0, sumI_empty (Int.le_refl _)], fun i a1 a2 => by dsimp only at a2; omega⟩
  · dsimp only; omega
  · rintro s ⟨hq, hx, he, hd⟩
    rw [Holds_pure]
    have hh := hx.head
    have hfr : b.fronnbr ≤ s.head ∧ ∀ i, 0 ≤ i → i < b.fronnbr → s.queu.get i = b.frontab.get i ∧ s.dist.get (b.frontab.get i) = 0 := by
      refine ⟨by omega, fun i i1 i2 => ?_⟩
      obtain ⟨k1, k2⟩ := j0 i i1 i2
      exact ⟨by rw [hx.queu i i1 (by omega), k1], by rw [hx.dist _ (by omega), k2]⟩
    have hdn : ∀ v, b.s.Vertex v → s.dist.get v ≠ -1 → s.dist.get v < D → ∀ w, b.s.Adj v w → s.dist.get w ≠ -1 := by
      intro v h1 h2
      obtain ⟨i, i1, i2, i3⟩ := (hq.enum.2.2 v).1 ⟨h1, h2⟩
      rw [← i3]
      exact hd i i1 i2
    unfold bdLoads
    cases hvt : b.s.velotax with
    | none =>
      rw [if_pos (by rfl)]
      have e1 : ∀ v, b.s.velo v = 1 := fun v => by unfold Graph.velo; rw [hvt]
      refine ⟨hq.bnd, hq.enum, hq.nneg, ?_, hq.size, ?_, hfr, hdn, he⟩
      · dsimp only
        rw [sumI_congr (g := fun _ => 1) (fun i _ _ => e1 _), sumI_const hq.enum.1]; omega
      · dsimp only
        rw [hq.size]
        exact sumI_congr fun i _ _ => by rw [e1, Int.one_mul]
    | some a =>
      rw [if_neg (by simp)]
      have e1 : ∀ v, b.s.velo v = velo0 b.s v := fun v => by unfold Graph.velo velo0; rw [hvt]
      refine ⟨hq.bnd, hq.enum, hq.nneg, ?_, hq.size, ?_, hfr, hdn, he⟩
      · rw [hq.velo]; exact sumI_congr fun i _ _ => (e1 _).symm
      · rw [hq.load]; exact sumI_congr fun i _ _ => by rw [e1]

end Scotch.Separ
