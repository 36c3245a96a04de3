import Verif.Bipart.LemmasBd1
import Verif.Bipart.LemmasGpGrow
import Verif.Bipart.Lemmas
import Verif.Graph.OfListsW

/-! # Bipartition of band graphs: arcs -/

set_option autoImplicit false
set_option linter.unusedSimpArgs false

namespace Scotch.Bipart
open Graph

/-- Vertex of the graph that a vertex of the band graph stands for. -/
def bq (b : Bgraph) (s : BdSt) (u : Int) : Int := s.queu.get (u - b.s.baseval)

/-- End of the vertices of the band graph that stand for a vertex: number of the first anchor vertex. -/
def bN (b : Bgraph) (s : BdSt) : Int := b.s.baseval + s.head

/-- Arc loads are positive. -/
def Loaded (g : Graph) : Prop := ∀ v e, g.Vertex v → g.vert v ≤ e → e < g.vend v → 0 < g.edlo e

/-- Facts about the search. -/
structure BdCtx (b : Bgraph) (vlvl : Int) (s : BdSt) : Prop where
  cons : ConsE b.s
  alloc : Alloc b
  valid : Valid b
  base : 0 ≤ b.s.baseval
  loaded : Loaded b.s
  found : BdFound b vlvl s

variable {b : Bgraph} {s : BdSt} {vlvl : Int}

theorem BdCtx.head_le (C : BdCtx b vlvl s) : 0 ≤ s.head ∧ s.head ≤ b.s.vertnbr ∧ 0 ≤ vlvl ∧ vlvl ≤ s.head ∧ b.s.vertnnd = b.s.baseval + b.s.vertnbr ∧ bN b s = b.s.baseval + s.head := by
  have hnn := C.cons.vertnnd
  have hn := C.cons.vertnbr
  have h1 := C.found.enum.le (lo := b.s.baseval) (hi := b.s.vertnnd) (by omega) (fun v hv => hv.1)
  have h2 := C.found.enum.1
  have h3 := C.found.lvl
  have h4 := C.valid.fron.1
  exact ⟨h2, by omega, by omega, by omega, hnn, rfl⟩

theorem BdCtx.bq_inj (C : BdCtx b vlvl s) {u w : Int} (u1 : b.s.baseval ≤ u) (u2 : u < bN b s) (w1 : b.s.baseval ≤ w) (w2 : w < bN b s) (h : bq b s u = bq b s w) : u = w := by
  unfold bN at u2 w2
  have := C.found.enum.2.1 (u - b.s.baseval) (w - b.s.baseval) (by omega) (by omega) (by omega) (by omega) h
  omega

theorem BdCtx.bq_mem (C : BdCtx b vlvl s) {u : Int} (u1 : b.s.baseval ≤ u) (u2 : u < bN b s) : b.s.Vertex (bq b s u) ∧ s.idx.get (bq b s u) = u := by
  unfold bN at u2
  refine ⟨(C.found.enum.mem (i := u - b.s.baseval) (by omega) (by omega)).1, ?_⟩
  unfold bq
  rw [C.found.num _ (by omega) (by omega)]; omega

/-- Vertices that have a number. -/
theorem BdCtx.idx_in (C : BdCtx b vlvl s) {w : Int} (hw : b.s.Vertex w) (h : s.idx.get w ≠ -1) : b.s.baseval ≤ s.idx.get w ∧ s.idx.get w < bN b s ∧ bq b s (s.idx.get w) = w := by
  obtain ⟨i, i1, i2, i3⟩ := (C.found.enum.2.2 w).1 ⟨hw, h⟩
  have e := C.found.num i i1 i2
  rw [i3] at e
  unfold bN bq
  rw [e, show b.s.baseval + i - b.s.baseval = i by omega]
  exact ⟨by omega, by omega, i3⟩

theorem BdCtx.bq_ne (C : BdCtx b vlvl s) {u : Int} (u1 : b.s.baseval ≤ u) (u2 : u < bN b s) : s.idx.get (bq b s u) ≠ -1 := by
  have := (C.bq_mem u1 u2).2
  have := C.base
  omega

/-- Neighbours of a vertex of a level that is not the last one are in the band. -/
theorem BdCtx.low (C : BdCtx b vlvl s) {u : Int} (u1 : b.s.baseval ≤ u) (u2 : u < b.s.baseval + vlvl) : ∀ w, b.s.Adj (bq b s u) w → s.idx.get w ≠ -1 := fun w hw => C.found.done (u - b.s.baseval) (by omega) (by omega) w hw

/-! ## Adjacency lists -/

/-- Neighbours of a vertex that are in the band. -/
def bIn (b : Bgraph) (s : BdSt) (u : Int) : List (Int × Int) :=
  (seg (fun e => (s.idx.get (b.s.dest e), b.s.edlo e)) (b.s.vert (bq b s u)) (b.s.vend (bq b s u))).filter (fun x => decide (x.1 ≠ -1))

/-- Load of the arcs to vertices that are out of the band. -/
def ancL (b : Bgraph) (s : BdSt) (u : Int) : Int := sumI (b.s.vert (bq b s u)) (b.s.vend (bq b s u)) (fun e => if s.idx.get (b.s.dest e) = -1 then b.s.edlo e else 0)

/-- Vertices that are linked to an anchor vertex, with the load of the link. -/
def bFrom (b : Bgraph) (s : BdSt) (k lo hi : Int) : List (Int × Int) := ((seg id lo hi).filter (fun u => decide (0 < ancL b s u) && decide (b.part (bq b s u) = k))).map (fun u => (u, ancL b s u))

/-- Neighbours of a vertex of the band graph. -/
def bAdj (b : Bgraph) (s : BdSt) (u : Int) : List (Int × Int) :=
  if u < bN b s then bIn b s u ++ (if 0 < ancL b s u then [(bN b s + b.part (bq b s u), ancL b s u)] else [])
  else if u = bN b s then bFrom b s 0 b.s.baseval (bN b s)
  else (bFrom b s 1 b.s.baseval (bN b s)).reverse

theorem BdCtx.ancL_nonneg (C : BdCtx b vlvl s) {u : Int} (u1 : b.s.baseval ≤ u) (u2 : u < bN b s) : 0 ≤ ancL b s u := by
  obtain ⟨m1, -⟩ := C.bq_mem u1 u2
  unfold ancL
  refine sumI_nonneg fun e e1 e2 => ?_
  split
  · exact C.cons.edlo _ e m1 e1 e2
  · omega

/-- A vertex is linked to an anchor vertex when it has a neighbour out of the band. -/
theorem BdCtx.ancL_pos (C : BdCtx b vlvl s) {u : Int} (u1 : b.s.baseval ≤ u) (u2 : u < bN b s) : 0 < ancL b s u ↔ ∃ w, b.s.Adj (bq b s u) w ∧ s.idx.get w = -1 := by
  obtain ⟨m1, -⟩ := C.bq_mem u1 u2
  constructor
  · intro h
    refine Classical.byContradiction fun k => ?_
    have : ancL b s u = 0 := by
      unfold ancL
      refine sumI_eq_zero fun e e1 e2 => ?_
      rw [if_neg (fun h => k ⟨_, ⟨e, e1, e2, rfl⟩, h⟩)]
    omega
  · rintro ⟨w, ⟨e, e1, e2, e3⟩, hw⟩
    have h0 := C.loaded _ e m1 e1 e2
    have hs : sumI (b.s.vert (bq b s u)) (b.s.vend (bq b s u)) (fun x => if x = e then b.s.edlo x else 0) ≤ ancL b s u := by
      unfold ancL
      refine sumI_mono fun x x1 x2 => ?_
      have := C.cons.edlo _ x m1 x1 x2
      by_cases hx : x = e
      · rw [if_pos hx, hx, e3, if_pos hw]
      · rw [if_neg hx]; split <;> omega
    rw [sumI_single e1 e2] at hs
    omega

theorem BdCtx.no_anc (C : BdCtx b vlvl s) {u : Int} (u1 : b.s.baseval ≤ u) (u2 : u < b.s.baseval + vlvl) : ancL b s u = 0 := by
  have := C.head_le
  have h0 := C.ancL_nonneg u1 (show u < bN b s by omega)
  refine Classical.byContradiction fun k => ?_
  obtain ⟨w, hw, e⟩ := (C.ancL_pos u1 (show u < bN b s by omega)).1 (by omega)
  exact C.low u1 u2 w hw e

theorem BdCtx.bIn_len (C : BdCtx b vlvl s) {u : Int} (u1 : b.s.baseval ≤ u) (u2 : u < bN b s) :
    ((bIn b s u).length : Int) ≤ b.s.vend (bq b s u) - b.s.vert (bq b s u) ∧ (0 < ancL b s u → ((bIn b s u).length : Int) < b.s.vend (bq b s u) - b.s.vert (bq b s u)) := by
  obtain ⟨m1, -⟩ := C.bq_mem u1 u2
  have hr := (C.cons.range _ m1).2
  have h := seg_length (fun e => (s.idx.get (b.s.dest e), b.s.edlo e)) hr
  constructor
  · have := List.length_filter_le (fun x : Int × Int => decide (x.1 ≠ -1)) (seg (fun e => (s.idx.get (b.s.dest e), b.s.edlo e)) (b.s.vert (bq b s u)) (b.s.vend (bq b s u)))
    unfold bIn
    omega
  · intro ha
    obtain ⟨w, ⟨e, e1, e2, e3⟩, hw⟩ := (C.ancL_pos u1 u2).1 ha
    have hlt : (bIn b s u).length < (seg (fun e => (s.idx.get (b.s.dest e), b.s.edlo e)) (b.s.vert (bq b s u)) (b.s.vend (bq b s u))).length := by
      unfold bIn
      rw [List.length_filter_lt_length_iff_exists]
      exact ⟨(-1, b.s.edlo e), (mem_seg _ _ _ _).2 ⟨e, e1, e2, by rw [e3, hw]⟩, by simp⟩
    omega

theorem BdCtx.bAdj_len (C : BdCtx b vlvl s) {u : Int} (u1 : b.s.baseval ≤ u) (u2 : u < bN b s) :
    ((bAdj b s u).length : Int) = (bIn b s u).length + (if 0 < ancL b s u then 1 else 0) ∧ ((bAdj b s u).length : Int) ≤ b.s.vend (bq b s u) - b.s.vert (bq b s u) := by
  obtain ⟨h1, h2⟩ := C.bIn_len u1 u2
  have e : ((bAdj b s u).length : Int) = (bIn b s u).length + (if 0 < ancL b s u then 1 else 0) := by
    unfold bAdj
    rw [if_pos u2, List.length_append]
    by_cases ha : 0 < ancL b s u
    · rw [if_pos ha, if_pos ha]; simp
    · rw [if_neg ha, if_neg ha]; simp
  refine ⟨e, ?_⟩
  rw [e]
  by_cases ha : 0 < ancL b s u
  · rw [if_pos ha]; have := h2 ha; omega
  · rw [if_neg ha]; omega

/-- Loads of the arcs of a vertex. -/
theorem bIn_sum (u : Int) (hr : b.s.vert (bq b s u) ≤ b.s.vend (bq b s u)) : ((bIn b s u).map Prod.snd).sum + ancL b s u = sumI (b.s.vert (bq b s u)) (b.s.vend (bq b s u)) b.s.edlo := by
  unfold bIn ancL
  generalize b.s.vert (bq b s u) = lo at *
  generalize b.s.vend (bq b s u) = hi at *
  obtain ⟨n, rfl⟩ : ∃ n : Nat, hi = lo + n := ⟨(hi - lo).toNat, by omega⟩
  clear hr
  induction n with
  | zero => rw [seg_empty _ (by omega), sumI_empty (by omega), sumI_empty (by omega)]; rfl
  | succ n ih =>
    rw [show lo + ((n + 1 : Nat) : Int) = lo + n + 1 by omega, seg_succ _ (by omega), sumI_succ (by omega), sumI_succ (by omega), List.filter_append, List.map_append, List.sum_append, ← ih]
    by_cases h : s.idx.get (b.s.dest (lo + n)) = -1
    · rw [if_pos h]; simp [h]; omega
    · rw [if_neg h]; simp [h]; omega

/-- Arcs of a vertex have been written. -/
structure BdArcs (b : Bgraph) (s : BdSt) (u : Int) (edge edlo : Arr Int) (num losum : Int) (r : BdEd) : Prop where
  bedge : r.edge.lo = edge.lo ∧ r.edge.hi = edge.hi
  bedlo : r.edlo.lo = edlo.lo ∧ r.edlo.hi = edlo.hi
  le : num ≤ r.num
  list : seg (fun e => (r.edge.get e, r.edlo.get e)) num r.num = bIn b s u
  old : ∀ x, x < num → r.edge.get x = edge.get x ∧ r.edlo.get x = edlo.get x
  losum : r.losum = losum + sumI (b.s.vert (bq b s u)) (b.s.vend (bq b s u)) b.s.edlo
  anc : r.anc = ancL b s u

theorem BdCtx.arcs (C : BdCtx b vlvl s) {u : Int} (u1 : b.s.baseval ≤ u) (u2 : u < bN b s)
    {edge edlo : Arr Int} {num losum : Int} (hn : edge.lo ≤ num ∧ num + (b.s.vend (bq b s u) - b.s.vert (bq b s u)) ≤ edge.hi) (hl : edlo.lo = edge.lo ∧ edlo.hi = edge.hi) {body : Int → Int → BdEd → M BdEd}
    (hbody : body = bdArcOut b.s s.idx ∨ (body = bdArcIn b.s s.idx ∧ ∀ w, b.s.Adj (bq b s u) w → s.idx.get w ≠ -1)) :
    Holds (b.s.forArcs (bq b s u) (⟨edge, edlo, num, losum, 0⟩ : BdEd) body) (BdArcs b s u edge edlo num losum) := by
  obtain ⟨m1, m2⟩ := C.bq_mem u1 u2
  have hnn := C.cons.vertnnd
  have hi := C.found.bnd
  have hr := (C.cons.range _ m1).2
  generalize hv : bq b s u = v at *
  have hbI : bIn b s u = (seg (fun e => (s.idx.get (b.s.dest e), b.s.edlo e)) (b.s.vert v) (b.s.vend v)).filter (fun x => decide (x.1 ≠ -1)) := by unfold bIn; rw [hv]
  have hbA : ancL b s u = sumI (b.s.vert v) (b.s.vend v) (fun e => if s.idx.get (b.s.dest e) = -1 then b.s.edlo e else 0) := by unfold ancL; rw [hv]
  refine Holds_forArcs C.alloc.graph m1 hr (fun e (r : BdEd) => (r.edge.lo = edge.lo ∧ r.edge.hi = edge.hi) ∧ (r.edlo.lo = edlo.lo ∧ r.edlo.hi = edlo.hi) ∧ num ≤ r.num ∧ r.num ≤ num + (e - b.s.vert v) ∧
    seg (fun e => (r.edge.get e, r.edlo.get e)) num r.num = (seg (fun e => (s.idx.get (b.s.dest e), b.s.edlo e)) (b.s.vert v) e).filter (fun x => decide (x.1 ≠ -1)) ∧
    (∀ x, x < num → r.edge.get x = edge.get x ∧ r.edlo.get x = edlo.get x) ∧ r.losum = losum + sumI (b.s.vert v) e b.s.edlo ∧ r.anc = sumI (b.s.vert v) e (fun e => if s.idx.get (b.s.dest e) = -1 then b.s.edlo e else 0)) ?_ ?_ ?_
  · refine ⟨⟨rfl, rfl⟩, ⟨rfl, rfl⟩, Int.le_refl _, by dsimp only; omega, ?_, fun _ _ => ⟨rfl, rfl⟩, ?_, ?_⟩
    · rw [seg_empty _ (Int.le_refl _), seg_empty _ (Int.le_refl _)]; rfl
    · dsimp only; rw [sumI_empty (Int.le_refl _)]; omega
    · dsimp only; rw [sumI_empty (Int.le_refl _)]
  · rintro e ⟨ed, el, k, ls, an⟩ e1 e2 ⟨i1, i2, i3, i4, i5, i6, i7, i8⟩
    dsimp only at i1 i2 i3 i4 i5 i6 i7 i8
    have hw := (C.cons.inside v e m1 e1 e2).1
    have w1 := hw.1
    have w2 := hw.2
    have hpush : s.idx.get (b.s.dest e) ≠ -1 → ((ed.set k (s.idx.get (b.s.dest e))).lo = edge.lo ∧ (ed.set k (s.idx.get (b.s.dest e))).hi = edge.hi) ∧ ((el.set k (b.s.edlo e)).lo = edlo.lo ∧ (el.set k (b.s.edlo e)).hi = edlo.hi) ∧ num ≤ k + 1 ∧
        k + 1 ≤ num + (e + 1 - b.s.vert v) ∧
        seg (fun x => ((ed.set k (s.idx.get (b.s.dest e))).get x, (el.set k (b.s.edlo e)).get x)) num (k + 1) = (seg (fun e => (s.idx.get (b.s.dest e), b.s.edlo e)) (b.s.vert v) (e + 1)).filter (fun x => decide (x.1 ≠ -1)) ∧
        (∀ y, y < num → (ed.set k (s.idx.get (b.s.dest e))).get y = edge.get y ∧ (el.set k (b.s.edlo e)).get y = edlo.get y) ∧
        ls + b.s.edlo e = losum + sumI (b.s.vert v) (e + 1) b.s.edlo ∧ an = sumI (b.s.vert v) (e + 1) (fun e => if s.idx.get (b.s.dest e) = -1 then b.s.edlo e else 0) := by
      intro hx
      refine ⟨i1, i2, by omega, by omega, ?_, ?_, ?_, ?_⟩
      · rw [seg_succ _ i3, seg_succ _ e1, List.filter_append, ← i5, Arr.set_get_same, Arr.set_get_same]
        congr 1
        · exact seg_congr fun y y1 y2 => by rw [Arr.set_get_ne _ _ (by omega), Arr.set_get_ne _ _ (by omega)]
        · simp [hx]
      · intro y hy
        rw [Arr.set_get_ne _ _ (by omega), Arr.set_get_ne _ _ (by omega)]
        exact i6 y hy
      · rw [sumI_succ e1]; omega
      · rw [sumI_succ e1, if_neg hx]; omega
    have hro : b.s.rdEdlo e = .ok (b.s.edlo e) := rdEdlo_eq C.alloc.graph m1 e1 e2
    rcases hbody with rfl | ⟨rfl, hall⟩
    · unfold bdArcOut
      rw [hro, ok_bind, Arr.rd_ok _ (by omega) (by omega), ok_bind]
      by_cases hx : s.idx.get (b.s.dest e) ≠ -1
      · rw [if_pos hx]
        dsimp only
        rw [Arr.wr_ok _ _ (by omega) (by omega), ok_bind, Arr.wr_ok _ _ (by omega) (by omega), ok_bind, Holds_pure]
        exact hpush hx
      · rw [if_neg hx, Holds_pure]
        have hx' : s.idx.get (b.s.dest e) = -1 := Classical.byContradiction hx
        refine ⟨i1, i2, i3, by dsimp only; omega, ?_, i6, ?_, ?_⟩
        · dsimp only
          rw [seg_succ _ e1, List.filter_append, i5]
          simp [hx']
        · dsimp only; rw [sumI_succ e1]; omega
        · dsimp only; rw [sumI_succ e1, if_pos hx']; omega
    · unfold bdArcIn
      dsimp only
      rw [hro, ok_bind, Arr.rd_ok _ (by omega) (by omega), ok_bind, Arr.wr_ok _ _ (by omega) (by omega), ok_bind, Arr.wr_ok _ _ (by omega) (by omega), ok_bind, Holds_pure]
      exact hpush (hall _ ⟨e, e1, e2, rfl⟩)
  · rintro r ⟨i1, i2, i3, i4, i5, i6, i7, i8⟩
    exact ⟨i1, i2, i3, by rw [hbI]; exact i5, i6, by rw [hv]; exact i7, by rw [hbA]; exact i8⟩

end Scotch.Bipart
