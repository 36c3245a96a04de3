import Verif.Separ.LemmasBd1
import Verif.Graph.OfLists

/-! # Separation of band graphs: numbers of vertices, and arcs -/

set_option autoImplicit false
set_option linter.unusedSimpArgs false

namespace Scotch.Separ
open Graph
open Bipart (over)

/-- Vertex of the graph that a vertex of the band graph stands for. -/
def bq (b : Vgraph) (s : BdSt) (u : Int) : Int := s.queu.get (u - b.s.baseval)

/-- Numbers of vertices in the band graph. -/
structure BdNum (b : Vgraph) (s : BdSt) (distmax vlvl : Int) (idx : Arr Int) : Prop where
  lvl : b.s.baseval ≤ vlvl ∧ vlvl ≤ s.head + b.s.baseval
  bnd : idx.lo = b.s.baseval ∧ idx.hi = b.s.baseval + b.s.vertnbr
  num : ∀ u, b.s.baseval ≤ u → u < s.head + b.s.baseval → idx.get (bq b s u) = u
  out : ∀ v, b.s.Vertex v → s.dist.get v = -1 → idx.get v = -1
  low : ∀ u, b.s.baseval ≤ u → u < vlvl → s.dist.get (bq b s u) < distmax

variable {b : Vgraph} {s : BdSt} {D distmax : Int}

/-- Vertices of the band graph stand for distinct vertices. -/
theorem BdFound.bq_inj (F : BdFound b D s) {u w : Int} (u1 : b.s.baseval ≤ u) (u2 : u < s.head + b.s.baseval) (w1 : b.s.baseval ≤ w) (w2 : w < s.head + b.s.baseval) (h : bq b s u = bq b s w) : u = w := by
  have := F.enum.2.1 (u - b.s.baseval) (w - b.s.baseval) (by omega) (by omega) (by omega) (by omega) h
  omega

theorem BdFound.bq_mem (F : BdFound b D s) {u : Int} (u1 : b.s.baseval ≤ u) (u2 : u < s.head + b.s.baseval) : b.s.Vertex (bq b s u) ∧ s.dist.get (bq b s u) ≠ -1 :=
  F.enum.mem (i := u - b.s.baseval) (by omega) (by omega)

theorem BdFound.bq_onto (F : BdFound b D s) {v : Int} (hv : b.s.Vertex v) (hd : s.dist.get v ≠ -1) : ∃ u, b.s.baseval ≤ u ∧ u < s.head + b.s.baseval ∧ bq b s u = v := by
  obtain ⟨i, i1, i2, i3⟩ := (F.enum.2.2 v).1 ⟨hv, hd⟩
  exact ⟨i + b.s.baseval, by omega, by omega, by unfold bq; rw [show i + b.s.baseval - b.s.baseval = i by omega, i3]⟩

theorem BdFound.head_le (hc : ConsE b.s) (F : BdFound b D s) : 0 ≤ s.head ∧ s.head ≤ b.s.vertnbr := by
  have hnn := hc.vertnnd
  have hn := hc.vertnbr
  have := F.enum.le (lo := b.s.baseval) (hi := b.s.vertnnd) (by omega) (fun v hv => hv.1)
  have := F.enum.1
  omega

theorem bdIndex_holds (hc : ConsE b.s) (F : BdFound b D s) : Holds (bdIndex s.queu b.s.baseval (s.head + b.s.baseval) distmax s.dist) (fun r => BdNum b s distmax r.1 r.2) := by
  have hnn := hc.vertnnd
  obtain ⟨hh0, hh1⟩ := F.head_le hc
  have hb := F.bnd
  unfold bdIndex
  rw [Holds_bind]
  have key : Holds (bdIndexIn s.queu b.s.baseval (s.head + b.s.baseval) distmax s.dist) (Loop.Sat
      (fun a => a.lo = b.s.baseval ∧ a.hi = b.s.baseval + b.s.vertnbr ∧ (∀ u, b.s.baseval ≤ u → u < s.head + b.s.baseval → a.get (bq b s u) = u ∧ s.dist.get (bq b s u) < distmax) ∧
        ∀ v, (∀ u, b.s.baseval ≤ u → u < s.head + b.s.baseval → bq b s u ≠ v) → a.get v = s.dist.get v)
      (fun r => b.s.baseval ≤ r.1 ∧ r.1 < s.head + b.s.baseval ∧ r.2.lo = b.s.baseval ∧ r.2.hi = b.s.baseval + b.s.vertnbr ∧ (∀ u, b.s.baseval ≤ u → u < r.1 → r.2.get (bq b s u) = u ∧ s.dist.get (bq b s u) < distmax) ∧
        ∀ v, (∀ u, b.s.baseval ≤ u → u < r.1 → bq b s u ≠ v) → r.2.get v = s.dist.get v)) := by
    unfold bdIndexIn
    refine Holds_forUpB (fun i (a : Arr Int) => a.lo = b.s.baseval ∧ a.hi = b.s.baseval + b.s.vertnbr ∧ (∀ u, b.s.baseval ≤ u → u < i → a.get (bq b s u) = u ∧ s.dist.get (bq b s u) < distmax) ∧
        ∀ v, (∀ u, b.s.baseval ≤ u → u < i → bq b s u ≠ v) → a.get v = s.dist.get v)
      (fun r : Int × Arr Int => b.s.baseval ≤ r.1 ∧ r.1 < s.head + b.s.baseval ∧ r.2.lo = b.s.baseval ∧ r.2.hi = b.s.baseval + b.s.vertnbr ∧ (∀ u, b.s.baseval ≤ u → u < r.1 → r.2.get (bq b s u) = u ∧ s.dist.get (bq b s u) < distmax) ∧
        ∀ v, (∀ u, b.s.baseval ≤ u → u < r.1 → bq b s u ≠ v) → r.2.get v = s.dist.get v) (by omega) ?_ ?_ ?_ ?_
    · exact ⟨by omega, by omega, fun u u1 u2 => by omega, fun v _ => rfl⟩
    · rintro u a u1 u2 ⟨a1, a2, a3, a4⟩
      obtain ⟨m1, m2⟩ := F.bq_mem u1 u2
      have v1 := m1.1
      have v2 := m1.2
      have hold : a.get (bq b s u) = s.dist.get (bq b s u) := a4 _ (fun w w1 w2 e => by have := F.bq_inj w1 (by omega) u1 u2 e; omega)
      rw [Arr.rd_ok _ (by omega) (by omega), ok_bind, show s.queu.get (u - b.s.baseval) = bq b s u from rfl, Arr.rd_ok _ (by omega) (by omega), ok_bind, hold]
      by_cases hd : s.dist.get (bq b s u) ≥ distmax
      · rw [if_pos hd, Holds_pure, Loop.Sat_brk]
        exact ⟨u1, u2, a1, a2, a3, a4⟩
      · rw [if_neg hd, Arr.wr_ok _ _ (by omega) (by omega), ok_bind, Holds_pure, Loop.Sat_next]
        refine ⟨a1, a2, ?_, ?_⟩
        · intro w w1 w2
          by_cases e : w = u
          · rw [e, Arr.set_get_same]; exact ⟨rfl, by omega⟩
          · rw [Arr.set_get_ne _ _ (fun e' => e (F.bq_inj w1 (by omega) u1 u2 e'))]
            exact a3 w w1 (by omega)
        · intro v hv
          rw [Arr.set_get_ne _ _ (fun e => hv u u1 (by omega) e.symm)]
          exact a4 v (fun w w1 w2 => hv w w1 (by omega))
    · intro a h; exact h
    · intro r h; exact h
  refine key.mono ?_
  have hout : ∀ v, s.dist.get v = -1 → ∀ u, b.s.baseval ≤ u → u < s.head + b.s.baseval → bq b s u ≠ v := by
    rintro v hv u u1 u2 rfl
    exact (F.bq_mem u1 u2).2 hv
  rintro (a | ⟨u0, a⟩) h
  · obtain ⟨a1, a2, a3, a4⟩ := h
    dsimp only
    rw [Holds_pure]
    exact ⟨⟨by dsimp only; omega, by dsimp only; omega⟩, ⟨a1, a2⟩, fun u u1 u2 => (a3 u u1 u2).1, fun v _ hv => by dsimp only; rw [a4 v (hout v hv), hv], fun u u1 u2 => (a3 u u1 u2).2⟩
  · obtain ⟨k1, k2, a1, a2, a3, a4⟩ := h
    dsimp only at k1 k2 a1 a2 a3 a4 ⊢
    rw [Holds_bind]
    unfold bdIndexOut
    refine Holds_forUp (fun i (a : Arr Int) => a.lo = b.s.baseval ∧ a.hi = b.s.baseval + b.s.vertnbr ∧ (∀ u, b.s.baseval ≤ u → u < i → a.get (bq b s u) = u) ∧
        ∀ v, (∀ u, b.s.baseval ≤ u → u < i → bq b s u ≠ v) → a.get v = s.dist.get v) (by omega) ?_ ?_ ?_
    · exact ⟨a1, a2, fun u u1 u2 => (a3 u u1 u2).1, a4⟩
    · rintro u a u1 u2 ⟨c1, c2, c3, c4⟩
      obtain ⟨m1, m2⟩ := F.bq_mem (u := u) (by omega) u2
      have v1 := m1.1
      have v2 := m1.2
      rw [Arr.rd_ok _ (by omega) (by omega), ok_bind, show s.queu.get (u - b.s.baseval) = bq b s u from rfl, Arr.wr_ok _ _ (by omega) (by omega), Holds_ok]
      refine ⟨c1, c2, ?_, ?_⟩
      · intro w w1 w2
        by_cases e : w = u
        · rw [e, Arr.set_get_same]
        · rw [Arr.set_get_ne _ _ (fun e' => e (F.bq_inj w1 (by omega) (by omega) u2 e'))]
          exact c3 w w1 (by omega)
      · intro v hv
        rw [Arr.set_get_ne _ _ (fun e => hv u (by omega) (by omega) e.symm)]
        exact c4 v (fun w w1 w2 => hv w w1 (by omega))
    · rintro a ⟨c1, c2, c3, c4⟩
      rw [Holds_pure]
      exact ⟨⟨k1, by dsimp only; omega⟩, ⟨c1, c2⟩, c3, fun v _ hv => by dsimp only; rw [c4 v (hout v hv), hv], fun u u1 u2 => (a3 u u1 u2).2⟩

/-! ## Adjacency lists -/

/-- Neighbours of a vertex that are in the band. -/
def bIn (b : Vgraph) (s : BdSt) (idx : Int → Int) (u : Int) : List Int :=
  (seg (fun e => idx (b.s.dest e)) (b.s.vert (bq b s u)) (b.s.vend (bq b s u))).filter (fun x => decide (x ≠ -1))

/-- Whether a vertex has a neighbour that is out of the band. -/
def bAnc (b : Vgraph) (s : BdSt) (idx : Int → Int) (u : Int) : Bool := decide (((bIn b s idx u).length : Int) < b.s.vend (bq b s u) - b.s.vert (bq b s u))

/-- Vertices that are linked to an anchor vertex. -/
def bFrom (b : Vgraph) (s : BdSt) (idx : Int → Int) (k lo hi : Int) : List Int := (seg id lo hi).filter (fun u => bAnc b s idx u && decide (b.part (bq b s u) = k))

/-- Neighbours of a vertex of the band graph. -/
def bAdj (b : Vgraph) (s : BdSt) (idx : Int → Int) (u : Int) : List Int :=
  if u < s.head + b.s.baseval then bIn b s idx u ++ (if bAnc b s idx u = true then [s.head + b.s.baseval + b.part (bq b s u)] else [])
  else if u = s.head + b.s.baseval then bFrom b s idx 0 b.s.baseval (s.head + b.s.baseval)
  else (bFrom b s idx 1 b.s.baseval (s.head + b.s.baseval)).reverse

theorem bIn_len (hc : ConsE b.s) (F : BdFound b D s) (idx : Int → Int) {u : Int} (u1 : b.s.baseval ≤ u) (u2 : u < s.head + b.s.baseval) :
    ((bIn b s idx u).length : Int) ≤ b.s.vend (bq b s u) - b.s.vert (bq b s u) := by
  have hr := (hc.range _ (F.bq_mem u1 u2).1).2
  have := List.length_filter_le (fun x => decide (x ≠ -1)) (seg (fun e => idx (b.s.dest e)) (b.s.vert (bq b s u)) (b.s.vend (bq b s u)))
  have h := seg_length (fun e => idx (b.s.dest e)) hr
  unfold bIn
  omega

theorem bAdj_len (hc : ConsE b.s) (F : BdFound b D s) (idx : Int → Int) {u : Int} (u1 : b.s.baseval ≤ u) (u2 : u < s.head + b.s.baseval) :
    ((bAdj b s idx u).length : Int) = (bIn b s idx u).length + (if bAnc b s idx u = true then 1 else 0) ∧ ((bAdj b s idx u).length : Int) ≤ b.s.vend (bq b s u) - b.s.vert (bq b s u) := by
  have h := bIn_len hc F idx u1 u2
  have e : ((bAdj b s idx u).length : Int) = (bIn b s idx u).length + (if bAnc b s idx u = true then 1 else 0) := by
    unfold bAdj
    rw [if_pos u2, List.length_append]
    by_cases ha : bAnc b s idx u = true
    · rw [if_pos ha, if_pos ha]; simp
    · rw [if_neg ha, if_neg ha]; simp
  refine ⟨e, ?_⟩
  rw [e]
  by_cases ha : bAnc b s idx u = true
  · rw [if_pos ha]
    unfold bAnc at ha
    rw [decide_eq_true_eq] at ha
    omega
  · rw [if_neg ha]; omega

/-- If all neighbours are in the band, then there is no anchor. -/
theorem bAnc_false (hc : ConsE b.s) (F : BdFound b D s) {idx : Int → Int} {u : Int} (u1 : b.s.baseval ≤ u) (u2 : u < s.head + b.s.baseval) (h : ∀ w, b.s.Adj (bq b s u) w → idx w ≠ -1) : bAnc b s idx u = false := by
  unfold bAnc
  rw [decide_eq_false_iff_not]
  have hr := (hc.range _ (F.bq_mem u1 u2).1).2
  have e : bIn b s idx u = seg (fun e => idx (b.s.dest e)) (b.s.vert (bq b s u)) (b.s.vend (bq b s u)) := by
    unfold bIn
    rw [List.filter_eq_self]
    intro x hx
    obtain ⟨e, e1, e2, e3⟩ := (mem_seg _ _ _ _).1 hx
    rw [decide_eq_true_eq, ← e3]
    exact h _ ⟨e, e1, e2, rfl⟩
  rw [e, seg_length _ hr]
  omega

/-- An anchored vertex has a neighbour out of the band. -/
theorem bAnc_true (hc : ConsE b.s) (F : BdFound b D s) {idx : Int → Int} {u : Int} (u1 : b.s.baseval ≤ u) (u2 : u < s.head + b.s.baseval) (h : bAnc b s idx u = true) : ∃ w, b.s.Adj (bq b s u) w ∧ idx w = -1 := by
  refine Classical.byContradiction fun k => ?_
  have := bAnc_false hc F (idx := idx) u1 u2 (fun w hw e => k ⟨w, hw, e⟩)
  rw [h] at this
  cases this

theorem bAnc_iff (hc : ConsE b.s) (F : BdFound b D s) {idx : Int → Int} {u : Int} (u1 : b.s.baseval ≤ u) (u2 : u < s.head + b.s.baseval) : bAnc b s idx u = true ↔ ∃ w, b.s.Adj (bq b s u) w ∧ idx w = -1 := by
  refine ⟨bAnc_true hc F u1 u2, ?_⟩
  rintro ⟨w, ⟨e, e1, e2, e3⟩, hw⟩
  unfold bAnc
  rw [decide_eq_true_eq]
  have hr := (hc.range _ (F.bq_mem u1 u2).1).2
  have h := seg_length (fun e => idx (b.s.dest e)) hr
  have hlt : (bIn b s idx u).length < (seg (fun e => idx (b.s.dest e)) (b.s.vert (bq b s u)) (b.s.vend (bq b s u))).length := by
    unfold bIn
    rw [List.length_filter_lt_length_iff_exists]
    exact ⟨-1, (mem_seg _ _ _ _).2 ⟨e, e1, e2, by rw [e3, hw]⟩, by decide⟩
  omega

/-- Arcs of a vertex. -/
theorem bdArcs_holds (hc : ConsE b.s) (ha : Alloc b) (F : BdFound b D s) {idx : Arr Int} (hi : idx.lo = b.s.baseval ∧ idx.hi = b.s.baseval + b.s.vertnbr) {u : Int} (u1 : b.s.baseval ≤ u) (u2 : u < s.head + b.s.baseval)
    {edge : Arr Int} {num : Int} (hn : edge.lo ≤ num ∧ num + (b.s.vend (bq b s u) - b.s.vert (bq b s u)) ≤ edge.hi) {body : Int → Int → Arr Int × Int → M (Arr Int × Int)}
    (hbody : body = bdArcOut idx ∨ (body = bdArcIn idx ∧ ∀ w, b.s.Adj (bq b s u) w → idx.get w ≠ -1)) :
    Holds (b.s.forArcs (bq b s u) (edge, num) body) (fun r => r.1.lo = edge.lo ∧ r.1.hi = edge.hi ∧ num ≤ r.2 ∧ seg r.1.get num r.2 = bIn b s idx.get u ∧ ∀ x, x < num → r.1.get x = edge.get x) := by
  obtain ⟨m1, m2⟩ := F.bq_mem u1 u2
  have hnn := hc.vertnnd
  have hr := (hc.range _ m1).2
  generalize hv : bq b s u = v at *
  have hbI : bIn b s idx.get u = (seg (fun e => idx.get (b.s.dest e)) (b.s.vert v) (b.s.vend v)).filter (fun x => decide (x ≠ -1)) := by unfold bIn; rw [hv]
  rw [hbI]
  refine Holds_forArcs ha.graph m1 hr (fun e (r : Arr Int × Int) => r.1.lo = edge.lo ∧ r.1.hi = edge.hi ∧ num ≤ r.2 ∧ r.2 ≤ num + (e - b.s.vert v) ∧
    seg r.1.get num r.2 = (seg (fun e => idx.get (b.s.dest e)) (b.s.vert v) e).filter (fun x => decide (x ≠ -1)) ∧ ∀ x, x < num → r.1.get x = edge.get x) ?_ ?_ ?_
  · refine ⟨rfl, rfl, Int.le_refl _, by dsimp only; omega, ?_, fun _ _ => rfl⟩
    rw [seg_empty _ (Int.le_refl _), seg_empty _ (Int.le_refl _)]; rfl
  · rintro e ⟨ed, k⟩ e1 e2 ⟨i1, i2, i3, i4, i5, i6⟩
    dsimp only at i1 i2 i3 i4 i5 i6
    have hw := (hc.inside v e m1 e1 e2).1
    have w1 := hw.1
    have w2 := hw.2
    have hpush : ∀ x, x ≠ -1 → idx.get (b.s.dest e) = x → (ed.set k x).lo = edge.lo ∧ (ed.set k x).hi = edge.hi ∧ num ≤ k + 1 ∧ k + 1 ≤ num + (e + 1 - b.s.vert v) ∧
        seg (ed.set k x).get num (k + 1) = (seg (fun e => idx.get (b.s.dest e)) (b.s.vert v) (e + 1)).filter (fun x => decide (x ≠ -1)) ∧ ∀ y, y < num → (ed.set k x).get y = edge.get y := by
      intro x hx hxe
      refine ⟨i1, i2, by omega, by omega, ?_, ?_⟩
      · rw [seg_succ _ i3, seg_succ _ e1, List.filter_append, ← i5, Arr.set_get_same, hxe]
        congr 1
        · exact seg_congr fun y y1 y2 => Arr.set_get_ne _ _ (by omega)
        · simp [hx]
      · intro y hy
        rw [Arr.set_get_ne _ _ (by omega)]
        exact i6 y hy
    rcases hbody with rfl | ⟨rfl, hall⟩
    · unfold bdArcOut
      rw [Arr.rd_ok _ (by omega) (by omega), ok_bind]
      by_cases hx : idx.get (b.s.dest e) ≠ -1
      · rw [if_pos hx]
        dsimp only
        rw [Arr.wr_ok _ _ (by omega) (by omega), ok_bind, Holds_pure]
        exact hpush _ hx rfl
      · rw [if_neg hx, Holds_pure]
        refine ⟨i1, i2, i3, by dsimp only; omega, ?_, i6⟩
        dsimp only
        rw [seg_succ _ e1, List.filter_append, i5]
        have : idx.get (b.s.dest e) = -1 := Classical.byContradiction hx
        simp [this]
    · unfold bdArcIn
      dsimp only
      rw [Arr.rd_ok _ (by omega) (by omega), ok_bind, Arr.wr_ok _ _ (by omega) (by omega), ok_bind, Holds_pure]
      exact hpush _ (hall _ ⟨e, e1, e2, rfl⟩) rfl
  · rintro r ⟨i1, i2, i3, i4, i5, i6⟩
    exact ⟨i1, i2, i3, i5, i6⟩

end Scotch.Separ
