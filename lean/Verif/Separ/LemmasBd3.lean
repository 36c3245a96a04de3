import Verif.Separ.LemmasBd2
import Verif.Graph.LemmasBase

/-! # Separation of band graphs: vertices of the band graph -/

set_option autoImplicit false
set_option linter.unusedSimpArgs false

namespace Scotch.Separ
open Graph
open Bipart (over)

variable {b : Vgraph} {s : BdSt} {D distmax vlvl : Int} {idx : Arr Int}

/-- Facts about the search and the numbers of vertices. -/
structure BdCtx (b : Vgraph) (D distmax : Int) (s : BdSt) (vlvl : Int) (idx : Arr Int) : Prop where
  cons : ConsE b.s
  alloc : Alloc b
  valid : Valid b
  base : 0 ≤ b.s.baseval
  found : BdFound b D s
  num : BdNum b s distmax vlvl idx
  max : distmax ≤ D
  pos : 1 ≤ D

theorem BdCtx.idx_in (C : BdCtx b D distmax s vlvl idx) {w : Int} (hw : b.s.Vertex w) : (idx.get w = -1 ↔ s.dist.get w = -1) ∧ (idx.get w ≠ -1 → (b.s.baseval ≤ idx.get w ∧ idx.get w < s.head + b.s.baseval ∧ bq b s (idx.get w) = w)) := by
  by_cases h : s.dist.get w = -1
  · have := C.num.out w hw h
    exact ⟨⟨fun _ => h, fun _ => this⟩, fun k => absurd this k⟩
  · obtain ⟨u, u1, u2, u3⟩ := C.found.bq_onto hw h
    have e := C.num.num u u1 u2
    rw [u3] at e
    have := C.base
    rw [e]
    exact ⟨⟨fun k => by omega, fun k => absurd k h⟩, fun _ => ⟨u1, u2, u3⟩⟩

theorem BdCtx.anc_last (C : BdCtx b D distmax s vlvl idx) {u : Int} (u1 : b.s.baseval ≤ u) (u2 : u < s.head + b.s.baseval) (h : bAnc b s idx.get u = true) : D ≤ s.dist.get (bq b s u) := by
  obtain ⟨w, hw, hi⟩ := bAnc_true C.cons C.found u1 u2 h
  obtain ⟨m1, m2⟩ := C.found.bq_mem u1 u2
  have hvw := (C.cons.adj_vertex m1 hw).1
  refine Classical.byContradiction fun k => ?_
  exact C.found.done _ m1 m2 (by omega) w hw ((C.idx_in hvw).1.1 hi)

theorem BdCtx.edge_eq (C : BdCtx b D distmax s vlvl idx) : s.edgenbr = sumI b.s.baseval (s.head + b.s.baseval) (fun u => bdCount b D s.dist.get (bq b s u)) := by
  have h := sumI_shift 0 s.head b.s.baseval (fun u => bdCount b D s.dist.get (bq b s u))
  rw [Int.zero_add] at h
  rw [h, C.found.edge]
  refine sumI_congr fun i _ _ => ?_
  unfold bq
  rw [show i + b.s.baseval - b.s.baseval = i by omega]

theorem BdCtx.room (C : BdCtx b D distmax s vlvl idx) {u : Int} (u1 : b.s.baseval ≤ u) (u2 : u < s.head + b.s.baseval) :
    sumI b.s.baseval u (fun u => ((bAdj b s idx.get u).length : Int)) + (b.s.vend (bq b s u) - b.s.vert (bq b s u)) ≤ s.edgenbr := by
  have hcount : ∀ w, b.s.vend w - b.s.vert w ≤ bdCount b D s.dist.get w := by
    intro w; unfold bdCount; split <;> omega
  have h1 : sumI b.s.baseval u (fun u => ((bAdj b s idx.get u).length : Int)) ≤ sumI b.s.baseval u (fun u => bdCount b D s.dist.get (bq b s u)) := by
    refine sumI_mono fun i i1 i2 => ?_
    have := (bAdj_len C.cons C.found idx.get i1 (by omega)).2
    have := hcount (bq b s i)
    omega
  have h2 := sumI_succ u1 (fun u => bdCount b D s.dist.get (bq b s u))
  have h3 := sumI_split (lo := b.s.baseval) (mid := u + 1) (hi := s.head + b.s.baseval) (by omega) (by omega) (fun u => bdCount b D s.dist.get (bq b s u))
  have h4 : 0 ≤ sumI (u + 1) (s.head + b.s.baseval) (fun u => bdCount b D s.dist.get (bq b s u)) := by
    refine sumI_nonneg fun i i1 i2 => ?_
    have := hcount (bq b s i)
    have := (C.cons.range _ (C.found.bq_mem (u := i) (by omega) i2).1).2
    omega
  have := hcount (bq b s u)
  rw [C.edge_eq]
  omega

/-- Number of anchored vertices. -/
def bAncs (b : Vgraph) (s : BdSt) (idx : Int → Int) (i : Int) : Int := sumI b.s.baseval i (fun w => if bAnc b s idx w = true then 1 else 0)

theorem bAncs_succ (idx : Int → Int) {i : Int} (h : b.s.baseval ≤ i) : bAncs b s idx (i + 1) = bAncs b s idx i + (if bAnc b s idx i = true then 1 else 0) := sumI_succ h _

theorem BdCtx.room_all (C : BdCtx b D distmax s vlvl idx) :
    sumI b.s.baseval (s.head + b.s.baseval) (fun u => ((bAdj b s idx.get u).length : Int)) + bAncs b s idx.get (s.head + b.s.baseval) ≤ s.edgenbr := by
  unfold bAncs
  rw [← sumI_add_dist, C.edge_eq]
  refine sumI_mono fun i i1 i2 => ?_
  have := (bAdj_len C.cons C.found idx.get i1 (by omega)).2
  unfold bdCount
  by_cases h : bAnc b s idx.get i = true
  · rw [if_pos h, if_pos (C.anc_last i1 i2 h)]; omega
  · rw [if_neg h]; split <;> omega

/-- Vertices below `i` have been written. -/
structure BdGrI (b : Vgraph) (s : BdSt) (idx : Arr Int) (a0 a1 i : Int) (t : BdGr) : Prop where
  bvert : t.vert.lo = b.s.baseval ∧ t.vert.hi = b.s.baseval + (s.head + 3)
  bvelo : t.velo.lo = b.s.baseval ∧ t.velo.hi = b.s.baseval + (s.head + 2)
  bedge : t.edge.lo = b.s.baseval ∧ t.edge.hi = b.s.baseval + s.edgenbr
  bpart : t.part.lo = b.s.baseval ∧ t.part.hi = b.s.baseval + (s.head + 2)
  lists : Lists b.s.baseval i (bAdj b s idx.get) t.vert.get t.edge.get t.num
  velo : ∀ w, b.s.baseval ≤ w → w < i → t.velo.get w = b.s.velo (bq b s w)
  anch : t.velo.get (s.head + b.s.baseval) = a0 ∧ t.velo.get (s.head + b.s.baseval + 1) = a1
  part : ∀ w, b.s.baseval ≤ w → w < i → t.part.get w = b.part (bq b s w)
  degr : 0 ≤ t.degr ∧ ∀ w, b.s.baseval ≤ w → w < i → ((bAdj b s idx.get w).length : Int) ≤ t.degr
  anc : t.anc = bAncs b s idx.get i

variable {a0 a1 : Int}

theorem BdGrI.step {u : Int} {t t' : BdGr} (I : BdGrI b s idx a0 a1 u t) (u1 : b.s.baseval ≤ u) (u2 : u < s.head + b.s.baseval)
    (hv : t'.vert = t.vert.set u t.num) (hl : t'.velo = t.velo.set u (b.s.velo (bq b s u))) (hp : t'.part = t.part.set u (b.part (bq b s u)))
    (he : t'.edge.lo = t.edge.lo ∧ t'.edge.hi = t.edge.hi) (he2 : ∀ x, x < t.num → t'.edge.get x = t.edge.get x) (hn : t.num ≤ t'.num) (hs : seg t'.edge.get t.num t'.num = bAdj b s idx.get u)
    (hd : t.degr ≤ t'.degr ∧ t'.num - t.num ≤ t'.degr) (hanc : t'.anc = t.anc + (if bAnc b s idx.get u = true then 1 else 0)) : BdGrI b s idx a0 a1 (u + 1) t' := by
  have hlen := seg_length t'.edge.get hn
  rw [hs] at hlen
  refine ⟨by rw [hv]; exact I.bvert, by rw [hl]; exact I.bvelo, by rw [he.1, he.2]; exact I.bedge, by rw [hp]; exact I.bpart, ?_, ?_, ?_, ?_, ?_, ?_⟩
  · refine I.lists.step u1 ?_ ?_ he2 hn hs
    · intro w hw; rw [hv, Arr.set_get_ne _ _ hw]
    · rw [hv, Arr.set_get_same]
  · intro w w1 w2
    rw [hl]
    by_cases e : w = u
    · rw [e, Arr.set_get_same]
    · rw [Arr.set_get_ne _ _ e]; exact I.velo w w1 (by omega)
  · rw [hl, Arr.set_get_ne _ _ (by omega), Arr.set_get_ne _ _ (by omega)]; exact I.anch
  · intro w w1 w2
    rw [hp]
    by_cases e : w = u
    · rw [e, Arr.set_get_same]
    · rw [Arr.set_get_ne _ _ e]; exact I.part w w1 (by omega)
  · refine ⟨by have := I.degr.1; omega, fun w w1 w2 => ?_⟩
    by_cases e : w = u
    · rw [e]; omega
    · have := I.degr.2 w w1 (by omega); omega
  · rw [hanc, I.anc, bAncs_succ _ u1]

theorem BdCtx.vertIn (C : BdCtx b D distmax s vlvl idx) {u : Int} {t : BdGr} (I : BdGrI b s idx a0 a1 u t) (u1 : b.s.baseval ≤ u) (u2 : u < vlvl) :
    Holds (bdVertIn b s.queu idx u t) (BdGrI b s idx a0 a1 (u + 1)) := by
  have hlv := C.num.lvl
  have hnn := C.cons.vertnnd
  obtain ⟨hh0, hh1⟩ := C.found.head_le C.cons
  obtain ⟨m1, m2⟩ := C.found.bq_mem u1 (show u < s.head + b.s.baseval by omega)
  have hq := C.found.bnd
  have hv1 := I.bvert
  have hv2 := I.bvelo
  have hv3 := I.bedge
  have hv4 := I.bpart
  have hap := C.alloc.part
  have hx1 := m1.1
  have hx2 := m1.2
  have hroom := C.room u1 (show u < s.head + b.s.baseval by omega)
  have hnum := I.lists.next
  have hnn0 := len_nonneg (base := b.s.baseval) (adj := bAdj b s idx.get) u
  have hall : ∀ w, b.s.Adj (bq b s u) w → idx.get w ≠ -1 := by
    intro w hw
    have hvw := (C.cons.adj_vertex m1 hw).1
    have hl := C.num.low u u1 u2
    have := C.max
    intro k
    exact C.found.done _ m1 m2 (by omega) w hw ((C.idx_in hvw).1.1 k)
  have hanc := bAnc_false C.cons C.found u1 (show u < s.head + b.s.baseval by omega) hall
  unfold bdVertIn
  rw [Arr.rd_ok _ (by omega) (by omega), ok_bind, show s.queu.get (u - b.s.baseval) = bq b s u from rfl, Arr.wr_ok _ _ (by omega) (by omega), ok_bind, rdVelo_eq C.alloc.graph m1, ok_bind, Arr.wr_ok _ _ (by omega) (by omega), ok_bind, Holds_bind]
  refine (bdArcs_holds C.cons C.alloc C.found C.num.bnd u1 (by omega) (edge := t.edge) (num := t.num) (by omega) (Or.inr ⟨rfl, hall⟩)).mono ?_
  rintro ⟨ed, k⟩ ⟨r1, r2, r3, r4, r5⟩
  dsimp only at r1 r2 r3 r4 r5 ⊢
  rw [Arr.rd_ok _ (by omega) (by omega), ok_bind, Arr.wr_ok _ _ (by omega) (by omega), ok_bind, Arr.rd_ok _ (by dsimp only [Arr.set]; omega) (by dsimp only [Arr.set]; omega), ok_bind, Arr.set_get_same, Holds_pure]
  refine I.step u1 (by omega) rfl rfl rfl ⟨r1, r2⟩ r5 r3 ?_ ?_ ?_
  · dsimp only
    rw [r4]
    unfold bAdj
    rw [if_pos (by omega), hanc, if_neg (by decide), List.append_nil]
  · dsimp only
    split <;> omega
  · dsimp only
    rw [hanc, if_neg (by decide)]; omega

theorem BdCtx.vertOut (C : BdCtx b D distmax s vlvl idx) {u : Int} {t : BdGr} (I : BdGrI b s idx a0 a1 u t) (u1 : b.s.baseval ≤ u) (u2 : u < s.head + b.s.baseval) :
    Holds (bdVertOut b s.queu idx (s.head + b.s.baseval) u t) (BdGrI b s idx a0 a1 (u + 1)) := by
  have hnn := C.cons.vertnnd
  obtain ⟨hh0, hh1⟩ := C.found.head_le C.cons
  obtain ⟨m1, m2⟩ := C.found.bq_mem u1 u2
  have hq := C.found.bnd
  have hv1 := I.bvert
  have hv2 := I.bvelo
  have hv3 := I.bedge
  have hv4 := I.bpart
  have hap := C.alloc.part
  have hx1 := m1.1
  have hx2 := m1.2
  have hroom := C.room u1 u2
  have hnum := I.lists.next
  have hnn0 := len_nonneg (base := b.s.baseval) (adj := bAdj b s idx.get) u
  unfold bdVertOut
  rw [Arr.rd_ok _ (by omega) (by omega), ok_bind, show s.queu.get (u - b.s.baseval) = bq b s u from rfl, Arr.wr_ok _ _ (by omega) (by omega), ok_bind, rdVelo_eq C.alloc.graph m1, ok_bind, Arr.wr_ok _ _ (by omega) (by omega), ok_bind, Holds_bind]
  refine (bdArcs_holds C.cons C.alloc C.found C.num.bnd u1 (by omega) (edge := t.edge) (num := t.num) (by omega) (Or.inl rfl)).mono ?_
  rintro ⟨ed, k⟩ ⟨r1, r2, r3, r4, r5⟩
  dsimp only at r1 r2 r3 r4 r5 ⊢
  have hlen := seg_length ed.get r3
  rw [r4] at hlen
  rw [Arr.rd_ok _ (by omega) (by omega), ok_bind, Arr.wr_ok _ _ (by omega) (by omega), ok_bind, rdVert_eq C.alloc.graph m1, ok_bind, rdVend_eq C.alloc.graph m1, ok_bind, Arr.rd_ok _ (by dsimp only [Arr.set]; omega) (by dsimp only [Arr.set]; omega), ok_bind, Arr.set_get_same]
  unfold bdAnchor
  by_cases ha : k - t.num < b.s.vend (bq b s u) - b.s.vert (bq b s u)
  · have hanc : bAnc b s idx.get u = true := by unfold bAnc; rw [decide_eq_true_eq]; omega
    rw [if_pos ha]
    dsimp only
    rw [Arr.wr_ok _ _ (by omega) (by omega), ok_bind, Holds_pure]
    refine I.step u1 (by omega) rfl rfl rfl ⟨r1, r2⟩ ?_ ?_ ?_ ?_ ?_
    · intro x hx
      dsimp only
      rw [Arr.set_get_ne _ _ (by omega)]; exact r5 x hx
    · dsimp only; omega
    · dsimp only
      unfold bAdj
      rw [seg_succ _ r3, Arr.set_get_same, if_pos u2, if_pos hanc, ← r4]
      congr 1
      exact seg_congr fun y y1 y2 => Arr.set_get_ne _ _ (by omega)
    · dsimp only
      split <;> omega
    · dsimp only
      rw [if_pos hanc]
  · have hanc : bAnc b s idx.get u = false := by unfold bAnc; rw [decide_eq_false_iff_not]; omega
    rw [if_neg ha, Holds_pure]
    refine I.step u1 (by omega) rfl rfl rfl ⟨r1, r2⟩ r5 r3 ?_ ?_ ?_
    · dsimp only
      rw [r4]
      unfold bAdj
      rw [if_pos (by omega), hanc, if_neg (by decide), List.append_nil]
    · dsimp only
      split <;> omega
    · dsimp only
      rw [hanc, if_neg (by decide)]; omega

theorem BdCtx.verts (C : BdCtx b D distmax s vlvl idx) (junk : BdJunk) :
    Holds (bdVerts junk b s vlvl idx) (BdGrI b s idx (b.compload0 - (s.velosum - b.compload2 - s.load1)) (b.compload1 - s.load1) (s.head + b.s.baseval)) := by
  have hlv := C.num.lvl
  obtain ⟨hh0, hh1⟩ := C.found.head_le C.cons
  unfold bdVerts
  dsimp only
  rw [Arr.wr_ok _ _ (by dsimp only; omega) (by dsimp only; omega), ok_bind, Arr.wr_ok _ _ (by dsimp only [Arr.set]; omega) (by dsimp only [Arr.set]; omega), ok_bind, Holds_bind]
  generalize ha0 : b.compload0 - (s.velosum - b.compload2 - s.load1) = a0
  generalize ha1 : b.compload1 - s.load1 = a1
  refine Holds_forUp (BdGrI b s idx a0 a1) hlv.1 ?_ ?_ ?_
  · refine ⟨⟨rfl, rfl⟩, ⟨rfl, rfl⟩, ⟨rfl, rfl⟩, ⟨rfl, rfl⟩, Lists.init _ _ _ _, fun w w1 w2 => by omega, ?_, fun w w1 w2 => by omega, ⟨Int.le_refl _, fun w w1 w2 => by omega⟩, ?_⟩
    · dsimp only
      rw [Arr.set_get_same, Arr.set_get_ne _ _ (by omega), Arr.set_get_same]
      exact ⟨rfl, rfl⟩
    · unfold bAncs
      rw [sumI_empty (Int.le_refl _)]
  · intro u t u1 u2 I
    exact C.vertIn I u1 u2
  · intro t I
    refine Holds_forUp (BdGrI b s idx a0 a1) hlv.2 I ?_ ?_
    · intro u t u1 u2 I
      exact C.vertOut I (by omega) u2
    · intro t I
      exact I

end Scotch.Separ
