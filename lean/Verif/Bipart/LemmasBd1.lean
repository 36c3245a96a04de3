import Verif.Bipart.ModelBd
import Verif.Bipart.LemmasBasic
import Verif.Bipart.LemmasCut

/-! # Bipartition of band graphs: search -/

set_option autoImplicit false
set_option linter.unusedSimpArgs false

namespace Scotch.Bipart
open Graph

/-- Load of a vertex, or 0 if there are no loads. -/
def velo0 (g : Graph) (v : Int) : Int := match g.velotax with | none => 0 | some a => a.get v

theorem rdVelo0_eq {g : Graph} (ha : g.Allocated) {v : Int} (hv : g.Vertex v) : rdVelo0 g v = .ok (velo0 g v) := by
  unfold rdVelo0 velo0
  cases h : g.velotax with
  | none => rfl
  | some a =>
    have := ha.velo a h
    exact Arr.rd_ok _ (by have := hv.1; omega) (by have := hv.2; omega)

/-- Queue of the search. -/
structure BdQ (b : Bgraph) (s : BdSt) : Prop where
  bnd : s.idx.lo = b.s.baseval ∧ s.idx.hi = b.s.baseval + b.s.vertnbr ∧ s.queu.lo = 0 ∧ s.queu.hi = b.s.vertnbr
  enum : Enum s.queu s.head (fun v => b.s.Vertex v ∧ s.idx.get v ≠ -1)
  num : ∀ i, 0 ≤ i → i < s.head → s.idx.get (s.queu.get i) = b.s.baseval + i

/-- Sums over the vertices that have been taken from the queue. -/
structure BdSum (b : Bgraph) (k : Int) (s : BdSt) : Prop where
  edge : s.edgenbr = sumI 0 k (fun i => b.s.vend (s.queu.get i) - b.s.vert (s.queu.get i))
  size : s.size1 = sumI 0 k (fun i => b.part (s.queu.get i))
  velo : s.velosum = sumI 0 k (fun i => velo0 b.s (s.queu.get i))
  load : s.load1 = sumI 0 k (fun i => velo0 b.s (s.queu.get i) * b.part (s.queu.get i))

/-- The queue gets longer. -/
structure BdExt (s s' : BdSt) : Prop where
  head : s.head ≤ s'.head
  queu : ∀ i, 0 ≤ i → i < s.head → s'.queu.get i = s.queu.get i
  idx : ∀ v, s.idx.get v ≠ -1 → s'.idx.get v = s.idx.get v

theorem BdExt.refl (s : BdSt) : BdExt s s := ⟨Int.le_refl _, fun _ _ _ => rfl, fun _ _ => rfl⟩

theorem BdExt.trans {s t u : BdSt} (h : BdExt s t) (k : BdExt t u) : BdExt s u :=
  ⟨Int.le_trans h.head k.head, fun i h1 h2 => by rw [k.queu i h1 (by have := h.head; omega), h.queu i h1 h2],
    fun v hv => by rw [k.idx v (by rw [h.idx v hv]; exact hv), h.idx v hv]⟩

variable {b : Bgraph} {s : BdSt}

/-- A vertex is put in the queue. -/
theorem BdQ.put (hc : ConsE b.s) (hb : 0 ≤ b.s.baseval) (h : BdQ b s) {w : Int} (hw : b.s.Vertex w) (hn : s.idx.get w = -1) :
    s.head < b.s.vertnbr ∧ 0 ≤ s.head ∧
    BdQ b { s with idx := s.idx.set w (b.s.baseval + s.head), queu := s.queu.set s.head w, head := s.head + 1 } ∧
    BdExt s { s with idx := s.idx.set w (b.s.baseval + s.head), queu := s.queu.set s.head w, head := s.head + 1 } := by
  have hnn := hc.vertnnd
  have h0 := h.enum.1
  have hx0 : ¬ (b.s.Vertex w ∧ s.idx.get w ≠ -1) := fun k => k.2 hn
  have hlt := h.enum.lt (lo := b.s.baseval) (hi := b.s.vertnnd) (fun v hv => hv.1) hx0 hw.1 hw.2
  refine ⟨by omega, h0, ⟨h.bnd, ?_, ?_⟩, ⟨by dsimp only; omega, ?_, ?_⟩⟩
  · refine (h.enum.push hx0).congr ?_
    intro v
    dsimp only
    by_cases e : v = w
    · rw [e, Arr.set_get_same]
      exact ⟨fun _ => ⟨hw, by omega⟩, fun _ => Or.inr rfl⟩
    · rw [Arr.set_get_ne _ _ e]
      exact ⟨fun k => k.resolve_right e, Or.inl⟩
  · intro i i1 i2
    dsimp only at i2 ⊢
    by_cases e : i = s.head
    · rw [e, Arr.set_get_same, Arr.set_get_same]
    · rw [Arr.set_get_ne _ _ e, Arr.set_get_ne _ _ (by
        intro k
        have := (h.enum.mem (i := i) i1 (by omega)).2
        rw [k] at this
        exact this hn)]
      exact h.num i i1 (by omega)
  · intro i i1 i2; dsimp only; rw [Arr.set_get_ne _ _ (by omega)]
  · intro v hv
    dsimp only
    rw [Arr.set_get_ne _ _ (by rintro rfl; exact hv hn)]

theorem BdSum.ext {k : Int} {s' : BdSt} (S : BdSum b k s) (h : ∀ i, 0 ≤ i → i < k → s'.queu.get i = s.queu.get i) (e1 : s'.edgenbr = s.edgenbr) (e2 : s'.size1 = s.size1) (e3 : s'.velosum = s.velosum) (e4 : s'.load1 = s.load1) :
    BdSum b k s' := by
  refine ⟨?_, ?_, ?_, ?_⟩
  · rw [e1, S.edge]; exact sumI_congr fun i i1 i2 => by rw [h i i1 i2]
  · rw [e2, S.size]; exact sumI_congr fun i i1 i2 => by rw [h i i1 i2]
  · rw [e3, S.velo]; exact sumI_congr fun i i1 i2 => by rw [h i i1 i2]
  · rw [e4, S.load]; exact sumI_congr fun i i1 i2 => by rw [h i i1 i2]

theorem bdTake_holds (ha : Alloc b) {k : Int} (k0 : 0 ≤ k) (S : BdSum b k s) (hv : b.s.Vertex (s.queu.get k)) :
    Holds (bdTake b (s.queu.get k) s) (fun s' => s'.idx = s.idx ∧ s'.queu = s.queu ∧ s'.head = s.head ∧ BdSum b (k + 1) s') := by
  have hp := ha.part
  unfold bdTake
  rw [rdVend_eq ha.graph hv, ok_bind, rdVert_eq ha.graph hv, ok_bind, Arr.rd_ok _ (by have := hv.1; omega) (by have := hv.2; omega), ok_bind, rdVelo0_eq ha.graph hv, ok_bind, Holds_pure]
  refine ⟨rfl, rfl, rfl, ⟨?_, ?_, ?_, ?_⟩⟩
  · dsimp only; rw [sumI_succ k0, S.edge]
  · dsimp only; rw [sumI_succ k0, S.size]; rfl
  · dsimp only; rw [sumI_succ k0, S.velo]
  · dsimp only; rw [sumI_succ k0, S.load]; rfl

theorem bdFirst_holds (hc : ConsE b.s) (hb : 0 ≤ b.s.baseval) (ha : Alloc b) (hv : Valid b) (junk : Int → Int) :
    Holds (forUp 0 b.fronnbr ⟨Arr.const b.s.baseval (b.s.baseval + b.s.vertnbr) (-1), ⟨0, b.s.vertnbr, junk⟩, 0, 0, 0, 0, 0⟩ (bdFirst b)) (fun s => BdQ b s ∧ s.head = b.fronnbr ∧ BdSum b 0 s ∧
      ∀ i, 0 ≤ i → i < b.fronnbr → s.queu.get i = b.frontab.get i) := by
  have hnn := hc.vertnnd
  have hn := hc.vertnbr
  have hf := ha.fron
  have f0 := hv.fron.1
  have fle := hv.fron.le (lo := b.s.baseval) (hi := b.s.vertnnd) (by omega) (fun v hv => hv.1)
  refine Holds_forUp (fun i (s : BdSt) => BdQ b s ∧ s.head = i ∧ BdSum b 0 s ∧ (∀ j, 0 ≤ j → j < i → s.queu.get j = b.frontab.get j) ∧
    ∀ v, s.idx.get v ≠ -1 → ∃ j, 0 ≤ j ∧ j < i ∧ b.frontab.get j = v) f0 ?_ ?_ ?_
  · refine ⟨⟨⟨rfl, rfl, rfl, rfl⟩, ?_, fun i i1 i2 => by dsimp only at i2; omega⟩, rfl, ⟨?_, ?_, ?_, ?_⟩, fun j h1 h2 => by omega, fun v h => absurd rfl h⟩
    · exact (Enum.empty _).congr fun v => ⟨False.elim, fun h => h.2 rfl⟩
    all_goals dsimp only; rw [sumI_empty (Int.le_refl _)]
  · rintro i s h1 h2 ⟨hq, hh, he, hj, hd⟩
    obtain ⟨hx, hx2⟩ := hv.fron.mem h1 h2
    have v1 := hx.1
    have v2 := hx.2
    have hb' := hq.bnd
    have hno : s.idx.get (b.frontab.get i) = -1 := by
      refine Classical.byContradiction fun k => ?_
      obtain ⟨j, j1, j2, j3⟩ := hd _ k
      have := hv.fron.2.1 j i j1 (by omega) h1 h2 j3
      omega
    obtain ⟨q1, q2, q3, q4⟩ := hq.put hc hb hx hno
    unfold bdFirst
    rw [Arr.rd_ok _ (by omega) (by omega), ok_bind, Arr.wr_ok _ _ (by omega) (by omega), ok_bind, Arr.wr_ok _ _ (by omega) (by omega), ok_bind, Holds_pure]
    rw [hh] at q3
    refine ⟨q3, by dsimp only, ?_, ?_, ?_⟩
    · exact he.ext (fun j j1 j2 => by omega) rfl rfl rfl rfl
    · intro j j1 j2
      dsimp only
      by_cases e : j = i
      · rw [e, Arr.set_get_same]
      · rw [Arr.set_get_ne _ _ (by omega)]; exact hj j j1 (by omega)
    · intro v hv'
      dsimp only at hv'
      by_cases e : v = b.frontab.get i
      · exact ⟨i, h1, by omega, e.symm⟩
      · rw [Arr.set_get_ne _ _ e] at hv'
        obtain ⟨j, j1, j2, j3⟩ := hd v hv'
        exact ⟨j, j1, by omega, j3⟩
  · rintro s ⟨hq, hh, he, hj, -⟩
    exact ⟨hq, hh, he, hj⟩

theorem bdArc_holds (hc : ConsE b.s) (hb : 0 ≤ b.s.baseval) (h : BdQ b s) {e w k : Int} (S : BdSum b k s) (hk : k ≤ s.head) (hw : b.s.Vertex w) :
    Holds (bdArc b e w s) (fun s' => BdQ b s' ∧ BdExt s s' ∧ BdSum b k s' ∧ s'.idx.get w ≠ -1) := by
  have hnn := hc.vertnnd
  have hbn := h.bnd
  have w1 := hw.1
  have w2 := hw.2
  unfold bdArc
  rw [Arr.rd_ok _ (by omega) (by omega), ok_bind]
  by_cases hn : s.idx.get w = -1
  · obtain ⟨q1, q2, q3, q4⟩ := h.put hc hb hw hn
    rw [if_pos hn, Arr.wr_ok _ _ (by omega) (by omega), ok_bind, Arr.wr_ok _ _ (by omega) (by omega), ok_bind, Holds_pure]
    exact ⟨q3, q4, S.ext (fun i i1 i2 => q4.queu i i1 (by omega)) rfl rfl rfl rfl, by dsimp only; rw [Arr.set_get_same]; omega⟩
  · rw [if_neg hn, Holds_pure]
    exact ⟨h, BdExt.refl s, S, hn⟩

theorem bdVert_holds (hc : ConsE b.s) (hb : 0 ≤ b.s.baseval) (ha : Alloc b) (h : BdQ b s) {i : Int} (i0 : 0 ≤ i) (i1 : i < s.head) (S : BdSum b i s) :
    Holds (bdVert b i s) (fun s' => BdQ b s' ∧ BdExt s s' ∧ BdSum b (i + 1) s' ∧ ∀ w, b.s.Adj (s.queu.get i) w → s'.idx.get w ≠ -1) := by
  have hnn := hc.vertnnd
  have hbn := h.bnd
  have hle := h.enum.le (lo := b.s.baseval) (hi := b.s.vertnnd) (by have := hc.vertnbr; omega) (fun v hv => hv.1)
  obtain ⟨m1, m2⟩ := h.enum.mem i0 i1
  have hr := hc.range _ m1
  unfold bdVert
  rw [Arr.rd_ok _ (by omega) (by omega), ok_bind, Holds_bind]
  refine (bdTake_holds ha i0 S m1).mono ?_
  rintro s1 ⟨e1, e2, e3, S1⟩
  have h1 : BdQ b s1 := ⟨by rw [e1, e2]; exact h.bnd, by rw [e1, e2, e3]; exact h.enum, by rw [e1, e2, e3]; exact h.num⟩
  have x1 : BdExt s s1 := ⟨by omega, fun _ _ _ => by rw [e2], fun _ _ => by rw [e1]⟩
  refine Holds_forArcs ha.graph m1 hr.2 (fun e s' => BdQ b s' ∧ BdExt s s' ∧ BdSum b (i + 1) s' ∧ ∀ e', b.s.vert (s.queu.get i) ≤ e' → e' < e → s'.idx.get (b.s.dest e') ≠ -1) ?_ ?_ ?_
  · exact ⟨h1, x1, S1, fun e' k1 k2 => by omega⟩
  · rintro e s' k1 k2 ⟨j1, j2, j3, j4⟩
    refine (bdArc_holds hc hb j1 j3 (by have := j2.head; omega) (hc.inside _ e m1 k1 k2).1).mono ?_
    rintro t ⟨t1, t2, t3, t4⟩
    refine ⟨t1, j2.trans t2, t3, ?_⟩
    intro e' a1 a2
    by_cases ee : e' = e
    · rw [ee]; exact t4
    · have := j4 e' a1 (by omega)
      rw [t2.idx _ this]; exact this
  · rintro s' ⟨j1, j2, j3, j4⟩
    refine ⟨j1, j2, j3, fun w hw => ?_⟩
    obtain ⟨e, a1, a2, a3⟩ := hw
    rw [← a3]; exact j4 e a1 a2

/-- Vertices that have been taken from the queue. -/
structure BdTail (b : Bgraph) (s0 : BdSt) (k : Int) (s : BdSt) : Prop where
  range : 0 ≤ k ∧ k ≤ s.head
  q : BdQ b s
  ext : BdExt s0 s
  sum : BdSum b k s
  done : ∀ i, 0 ≤ i → i < k → ∀ w, b.s.Adj (s.queu.get i) w → s.idx.get w ≠ -1

theorem bdLevel_holds (hc : ConsE b.s) (hb : 0 ≤ b.s.baseval) (ha : Alloc b) {s0 : BdSt} {k : Int} (T : BdTail b s0 k s) : Holds (bdLevel b (k, s)) (fun r => r.1 = s.head ∧ BdTail b s0 r.1 r.2) := by
  have hr := T.range
  unfold bdLevel
  dsimp only
  rw [Holds_bind]
  refine Holds_forUp (fun i s' => s.head ≤ s'.head ∧ BdTail b s0 i s') hr.2 ⟨Int.le_refl _, T⟩ ?_ ?_
  · rintro i s' i1 i2 ⟨hh, T'⟩
    refine (bdVert_holds hc hb ha T'.q T'.range.1 (by omega) T'.sum).mono ?_
    rintro t ⟨t1, t2, t3, t4⟩
    have h2 := t2.head
    have h3 := T'.range
    refine ⟨by omega, ⟨by omega, by omega⟩, t1, T'.ext.trans t2, t3, ?_⟩
    intro j j1 j2 w hw
    rw [t2.queu j j1 (by omega)] at hw
    by_cases e : j = i
    · rw [e] at hw; exact t4 w hw
    · have := T'.done j j1 (by omega) w hw
      rw [t2.idx w this]; exact this
  · rintro s' ⟨hh, T'⟩
    rw [Holds_pure]
    exact ⟨rfl, T'⟩

/-- Result of the search. -/
structure BdFound (b : Bgraph) (vlvl : Int) (s : BdSt) : Prop where
  bnd : s.idx.lo = b.s.baseval ∧ s.idx.hi = b.s.baseval + b.s.vertnbr ∧ s.queu.lo = 0 ∧ s.queu.hi = b.s.vertnbr
  enum : Enum s.queu s.head (fun v => b.s.Vertex v ∧ s.idx.get v ≠ -1)
  num : ∀ i, 0 ≤ i → i < s.head → s.idx.get (s.queu.get i) = b.s.baseval + i
  lvl : b.fronnbr ≤ vlvl ∧ vlvl ≤ s.head
  fron : ∀ i, 0 ≤ i → i < b.fronnbr → s.queu.get i = b.frontab.get i
  done : ∀ i, 0 ≤ i → i < vlvl → ∀ w, b.s.Adj (s.queu.get i) w → s.idx.get w ≠ -1
  edge : s.edgenbr = sumI 0 s.head (fun i => b.s.vend (s.queu.get i) - b.s.vert (s.queu.get i)) + (s.head - vlvl)
  velo : s.velosum = sumI 0 s.head (fun i => b.s.velo (s.queu.get i))
  size : s.size1 = sumI 0 s.head (fun i => b.part (s.queu.get i))
  load : s.load1 = sumI 0 s.head (fun i => b.s.velo (s.queu.get i) * b.part (s.queu.get i))

theorem bdSearch_holds (hc : ConsE b.s) (hb : 0 ≤ b.s.baseval) (ha : Alloc b) (hv : Valid b) (junk : Int → Int) (distmax : Int) :
    Holds (bdSearch junk distmax b) (fun r => BdFound b r.1 r.2) := by
  have hnn := hc.vertnnd
  have f0 := hv.fron.1
  unfold bdSearch
  have hd : 1 ≤ (if distmax < 1 then 1 else distmax) := by split <;> omega
  generalize (if distmax < 1 then 1 else distmax) = D at hd
  dsimp only
  rw [Holds_bind]
  refine (bdFirst_holds hc hb ha hv junk).mono ?_
  rintro s0 ⟨q0, h0, e0, j0⟩
  rw [Holds_bind]
  refine Holds_forUp (fun i (t : Int × BdSt) => BdTail b s0 t.1 t.2 ∧ (1 ≤ i → b.fronnbr ≤ t.1)) (by omega) ?_ ?_ ?_
  · exact ⟨⟨by dsimp only; omega, q0, BdExt.refl _, e0, fun i i1 i2 => by dsimp only at i2; omega⟩, fun h => by omega⟩
  · rintro i ⟨k, s⟩ i1 i2 ⟨T, -⟩
    refine (bdLevel_holds hc hb ha T).mono ?_
    rintro r ⟨r1, r2⟩
    have r1 : r.1 = s.head := r1
    have : s0.head ≤ s.head := T.ext.head
    exact ⟨r2, fun _ => by omega⟩
  · rintro ⟨k, s⟩ ⟨T, hk⟩
    dsimp only at T hk ⊢
    have hk := hk hd
    have hr := T.range
    rw [Holds_bind]
    refine Holds_forUp (fun i (t : BdSt) => t.idx = s.idx ∧ t.queu = s.queu ∧ t.head = s.head ∧ BdSum b i { t with edgenbr := t.edgenbr - (s.head - k) }) hr.2 ?_ ?_ ?_
    · exact ⟨rfl, rfl, rfl, T.sum.ext (fun _ _ _ => rfl) (by dsimp only; omega) rfl rfl rfl⟩
    · rintro i t i1 i2 ⟨e1, e2, e3, S⟩
      have hle := T.q.enum.le (lo := b.s.baseval) (hi := b.s.vertnnd) (by have := hc.vertnbr; omega) (fun v hv => hv.1)
      have hbn := T.q.bnd
      obtain ⟨m1, m2⟩ := T.q.enum.mem (i := i) (by omega) i2
      unfold bdLast
      rw [e2, Arr.rd_ok _ (by omega) (by omega), ok_bind]
      have h := bdTake_holds ha (by omega) S (by show b.s.Vertex (t.queu.get i); rw [e2]; exact m1)
      dsimp only at h
      rw [e2] at h
      unfold bdTake at h ⊢
      rw [rdVend_eq ha.graph m1, ok_bind, rdVert_eq ha.graph m1, ok_bind, Arr.rd_ok _ (by have := m1.1; have := ha.part; omega) (by have := m1.2; have := ha.part; omega), ok_bind, rdVelo0_eq ha.graph m1, ok_bind, Holds_pure] at h ⊢
      obtain ⟨-, -, -, h⟩ := h
      refine ⟨e1, e2, e3, h.ext (fun _ _ _ => by dsimp only; rw [e2]) ?_ rfl rfl rfl⟩
      dsimp only
      omega
    · rintro t ⟨e1, e2, e3, S⟩
      rw [Holds_pure]
      have hedge : t.edgenbr = sumI 0 t.head (fun i => b.s.vend (t.queu.get i) - b.s.vert (t.queu.get i)) + (t.head - k) := by
        have := S.edge
        dsimp only at this
        rw [e3, ← this]; omega
      have hsize := S.size
      have hvelo := S.velo
      have hload := S.load
      dsimp only at hsize hvelo hload
      rw [← e3] at hsize hvelo hload
      have hfr : ∀ i, 0 ≤ i → i < b.fronnbr → t.queu.get i = b.frontab.get i := by
        intro i i1 i2
        rw [e2, T.ext.queu i i1 (by omega)]; exact j0 i i1 i2
      have hdn : ∀ i, 0 ≤ i → i < k → ∀ w, b.s.Adj (t.queu.get i) w → t.idx.get w ≠ -1 := by rw [e1, e2]; exact T.done
      have hbnd := T.q.bnd
      have henum := T.q.enum
      have hnum := T.q.num
      rw [← e1, ← e2] at hbnd
      rw [← e1, ← e2, ← e3] at henum hnum
      unfold bdLoads
      cases hvt : b.s.velotax with
      | none =>
        rw [if_pos (by rfl)]
        have ev : ∀ v, b.s.velo v = 1 := fun v => by unfold Graph.velo; rw [hvt]
        refine ⟨hbnd, henum, hnum, ⟨hk, by dsimp only; omega⟩, hfr, hdn, hedge, ?_, hsize, ?_⟩
        · dsimp only
          rw [sumI_congr (g := fun _ => 1) (fun i _ _ => ev _), sumI_const henum.1]; omega
        · dsimp only
          rw [hsize]
          exact sumI_congr fun i _ _ => by rw [ev, Int.one_mul]
      | some a =>
        rw [if_neg (by simp)]
        have ev : ∀ v, b.s.velo v = velo0 b.s v := fun v => by unfold Graph.velo velo0; rw [hvt]
        refine ⟨hbnd, henum, hnum, ⟨hk, by dsimp only; omega⟩, hfr, hdn, hedge, ?_, hsize, ?_⟩
        · dsimp only; rw [hvelo]; exact sumI_congr fun i _ _ => (ev _).symm
        · dsimp only; rw [hload]; exact sumI_congr fun i _ _ => by rw [ev]

end Scotch.Bipart
