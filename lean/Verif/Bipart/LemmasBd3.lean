import Verif.Bipart.LemmasBd2
import Verif.Graph.LemmasBase

/-! # Bipartition of band graphs: vertices of the band graph -/

set_option autoImplicit false
set_option linter.unusedSimpArgs false

namespace Scotch.Bipart
open Graph

variable {b : Bgraph} {s : BdSt} {vlvl : Int}

/-- Degree of a vertex of the band. -/
def bDeg (b : Bgraph) (s : BdSt) (u : Int) : Int := b.s.vend (bq b s u) - b.s.vert (bq b s u)

/-- Sums over the queue. -/
theorem sum_bq (b : Bgraph) (s : BdSt) (f : Int → Int) : sumI b.s.baseval (bN b s) (fun u => f (bq b s u)) = sumI 0 s.head (fun i => f (s.queu.get i)) := by
  have h := sumI_shift 0 s.head b.s.baseval (fun u => f (bq b s u))
  rw [Int.zero_add, show s.head + b.s.baseval = bN b s by unfold bN; omega] at h
  rw [h]
  refine sumI_congr fun i _ _ => ?_
  unfold bq
  rw [show i + b.s.baseval - b.s.baseval = i by omega]

theorem BdCtx.edge_eq (C : BdCtx b vlvl s) : s.edgenbr = sumI b.s.baseval (bN b s) (bDeg b s) + (s.head - vlvl) := by
  rw [C.found.edge, ← sum_bq b s (fun v => b.s.vend v - b.s.vert v)]; rfl

theorem BdCtx.deg_nonneg (C : BdCtx b vlvl s) {u : Int} (u1 : b.s.baseval ≤ u) (u2 : u < bN b s) : 0 ≤ bDeg b s u := by
  have := (C.cons.range _ (C.bq_mem u1 u2).1).2
  unfold bDeg; omega

theorem BdCtx.room (C : BdCtx b vlvl s) {u : Int} (u1 : b.s.baseval ≤ u) (u2 : u < bN b s) : sumI b.s.baseval u (fun u => ((bAdj b s u).length : Int)) + bDeg b s u ≤ s.edgenbr := by
  have h1 : sumI b.s.baseval u (fun u => ((bAdj b s u).length : Int)) ≤ sumI b.s.baseval u (bDeg b s) := by
    refine sumI_mono fun i i1 i2 => ?_
    exact (C.bAdj_len i1 (by omega)).2
  have h2 := sumI_succ u1 (bDeg b s)
  have h3 := sumI_split (lo := b.s.baseval) (mid := u + 1) (hi := bN b s) (by omega) (by omega) (bDeg b s)
  have h4 : 0 ≤ sumI (u + 1) (bN b s) (bDeg b s) := sumI_nonneg fun i i1 i2 => C.deg_nonneg (by omega) i2
  have h5 := C.head_le
  rw [C.edge_eq]
  omega

/-- Number of anchored vertices. -/
def bAncs (b : Bgraph) (s : BdSt) (i : Int) : Int := sumI b.s.baseval i (fun w => if 0 < ancL b s w then 1 else 0)

theorem bAncs_succ {i : Int} (h : b.s.baseval ≤ i) : bAncs b s (i + 1) = bAncs b s i + (if 0 < ancL b s i then 1 else 0) := sumI_succ h _

theorem bAncs_mono {i j : Int} (h1 : b.s.baseval ≤ i) (h2 : i ≤ j) : bAncs b s i ≤ bAncs b s j := by
  unfold bAncs
  rw [sumI_split h1 h2]
  have : 0 ≤ sumI i j (fun w => if 0 < ancL b s w then (1 : Int) else 0) := sumI_nonneg fun w _ _ => by split <;> omega
  omega

theorem BdCtx.room_all (C : BdCtx b vlvl s) : sumI b.s.baseval (bN b s) (fun u => ((bAdj b s u).length : Int)) + bAncs b s (bN b s) ≤ s.edgenbr := by
  obtain ⟨h1, h2, h3, h4, h5, h6⟩ := C.head_le
  have k1 : sumI b.s.baseval (bN b s) (fun u => ((bAdj b s u).length : Int)) ≤ sumI b.s.baseval (bN b s) (bDeg b s) := sumI_mono fun i i1 i2 => (C.bAdj_len i1 (by omega)).2
  have k2 : bAncs b s (bN b s) ≤ s.head - vlvl := by
    unfold bAncs
    rw [sumI_split (mid := b.s.baseval + vlvl) (by omega) (by omega), sumI_eq_zero (hi := b.s.baseval + vlvl) (fun i i1 i2 => by rw [if_neg (by rw [C.no_anc i1 i2]; omega)])]
    have := sumI_mono (lo := b.s.baseval + vlvl) (hi := bN b s) (f := fun w => if 0 < ancL b s w then (1 : Int) else 0) (g := fun _ => 1) (fun i _ _ => by split <;> omega)
    rw [sumI_const (by omega)] at this
    omega
  rw [C.edge_eq]
  omega

/-- External gains of the vertices below `i`. -/
structure BdVx (b : Bgraph) (s : BdSt) (i : Int) (o : Option (Arr Int)) : Prop where
  none : o = none ↔ b.veextax = none
  some : ∀ a, o = some a → (a.lo = b.s.baseval ∧ a.hi = b.s.baseval + (s.head + 2)) ∧ ∀ w, b.s.baseval ≤ w → w < i → a.get w = b.veex (bq b s w)

/-- Vertices below `i` have been written. -/
structure BdGrI (b : Bgraph) (s : BdSt) (a0 a1 i : Int) (t : BdGr) : Prop where
  bvert : t.vert.lo = b.s.baseval ∧ t.vert.hi = b.s.baseval + (s.head + 3)
  bvelo : t.velo.lo = b.s.baseval ∧ t.velo.hi = b.s.baseval + (s.head + 2)
  bedge : t.edge.lo = b.s.baseval ∧ t.edge.hi = b.s.baseval + s.edgenbr
  bedlo : t.edlo.lo = b.s.baseval ∧ t.edlo.hi = b.s.baseval + s.edgenbr
  bpart : t.part.lo = b.s.baseval ∧ t.part.hi = b.s.baseval + (s.head + 2)
  lists : Lists b.s.baseval i (bAdj b s) t.vert.get (fun e => (t.edge.get e, t.edlo.get e)) t.num
  velo : ∀ w, b.s.baseval ≤ w → w < i → t.velo.get w = b.s.velo (bq b s w)
  anch : t.velo.get (bN b s) = a0 ∧ t.velo.get (bN b s + 1) = a1
  part : ∀ w, b.s.baseval ≤ w → w < i → t.part.get w = b.part (bq b s w)
  degr : 0 ≤ t.degr ∧ ∀ w, b.s.baseval ≤ w → w < i → ((bAdj b s w).length : Int) ≤ t.degr
  anc : t.anc = bAncs b s i
  losum : t.losum = sumI b.s.baseval i (fun u => sumI (b.s.vert (bq b s u)) (b.s.vend (bq b s u)) b.s.edlo + ancL b s u)
  veex : BdVx b s i t.veex
  extn : t.extn = sumI b.s.baseval i (fun u => b.veex (bq b s u)) ∧ t.extn1 = sumI b.s.baseval i (fun u => b.veex (bq b s u) * b.part (bq b s u))

variable {a0 a1 : Int}

/-- State after the start of a vertex. -/
structure BdOpened (b : Bgraph) (s : BdSt) (u : Int) (t t' : BdGr) : Prop where
  vert : t'.vert = t.vert.set u t.num
  velo : t'.velo = t.velo.set u (b.s.velo (bq b s u))
  part : t'.part = t.part.set u (b.part (bq b s u))
  rest : t'.edge = t.edge ∧ t'.edlo = t.edlo ∧ t'.num = t.num ∧ t'.losum = t.losum ∧ t'.degr = t.degr ∧ t'.anc = t.anc
  veex : BdVx b s (u + 1) t'.veex
  extn : t'.extn = sumI b.s.baseval (u + 1) (fun u => b.veex (bq b s u)) ∧ t'.extn1 = sumI b.s.baseval (u + 1) (fun u => b.veex (bq b s u) * b.part (bq b s u))

theorem BdCtx.opened (C : BdCtx b vlvl s) {u : Int} {t : BdGr} (I : BdGrI b s a0 a1 u t) (u1 : b.s.baseval ≤ u) (u2 : u < bN b s) :
    Holds (bdOpen b u (bq b s u) (b.part (bq b s u)) t) (BdOpened b s u t) := by
  obtain ⟨h1, h2, h3, h4, h5, h6⟩ := C.head_le
  obtain ⟨m1, -⟩ := C.bq_mem u1 u2
  have hv1 := I.bvert
  have hv2 := I.bvelo
  have hv4 := I.bpart
  unfold bdOpen
  rw [Arr.wr_ok _ _ (by omega) (by omega), ok_bind, rdVelo_eq C.alloc.graph m1, ok_bind, Arr.wr_ok _ _ (by omega) (by omega), ok_bind, Arr.wr_ok _ _ (by omega) (by omega), ok_bind]
  unfold bdVeex
  dsimp only
  have hx := I.veex
  cases ht : t.veex with
  | none =>
    have hn := hx.none.1 ht
    have hz : ∀ v, b.veex v = 0 := fun v => by unfold Bgraph.veex; rw [hn]
    dsimp only
    rw [Holds_pure]
    refine ⟨rfl, rfl, rfl, ⟨rfl, rfl, rfl, rfl, rfl, rfl⟩, ⟨⟨fun _ => hn, fun _ => rfl⟩, fun a h => ?_⟩, ?_, ?_⟩
    · cases h
    · dsimp only; rw [sumI_succ u1, hz, I.extn.1]; omega
    · dsimp only; rw [sumI_succ u1, hz, Int.zero_mul, I.extn.2]; omega
  | some a =>
    obtain ⟨hab, hag⟩ := hx.some a ht
    cases hb : b.veextax with
    | none => have := hx.none.2 hb; rw [ht] at this; cases this
    | some x =>
      have hxa := C.alloc.veex x hb
      have e : b.veex (bq b s u) = x.get (bq b s u) := by unfold Bgraph.veex; rw [hb]
      dsimp only
      rw [Arr.rd_ok _ (by have := m1.1; omega) (by have := m1.2; omega), ok_bind, Arr.wr_ok _ _ (by omega) (by omega), ok_bind, Holds_pure]
      refine ⟨rfl, rfl, rfl, ⟨rfl, rfl, rfl, rfl, rfl, rfl⟩, ⟨?_, ?_⟩, ?_, ?_⟩
      · exact ⟨(fun h => by cases h), fun h => by rw [hb] at h; cases h⟩
      · intro a' h
        cases h
        refine ⟨hab, fun w w1 w2 => ?_⟩
        by_cases ew : w = u
        · rw [ew, Arr.set_get_same, e]
        · rw [Arr.set_get_ne _ _ ew]; exact hag w w1 (by omega)
      · dsimp only; rw [sumI_succ u1, I.extn.1, e]
      · dsimp only; rw [sumI_succ u1, I.extn.2, e]

theorem BdGrI.step {u : Int} {t t1 t' : BdGr} (I : BdGrI b s a0 a1 u t) (u1 : b.s.baseval ≤ u) (u2 : u < bN b s) (O : BdOpened b s u t t1)
    (hv : t'.vert = t1.vert ∧ t'.velo = t1.velo ∧ t'.part = t1.part ∧ t'.veex = t1.veex ∧ t'.extn = t1.extn ∧ t'.extn1 = t1.extn1)
    (he : t'.edge.lo = t.edge.lo ∧ t'.edge.hi = t.edge.hi) (hel : t'.edlo.lo = t.edlo.lo ∧ t'.edlo.hi = t.edlo.hi) (he2 : ∀ x, x < t.num → t'.edge.get x = t.edge.get x ∧ t'.edlo.get x = t.edlo.get x) (hn : t.num ≤ t'.num)
    (hs : seg (fun e => (t'.edge.get e, t'.edlo.get e)) t.num t'.num = bAdj b s u) (hd : t'.degr = bdDegr t.degr (t'.num - t.num)) (hanc : t'.anc = t.anc + (if 0 < ancL b s u then 1 else 0))
    (hlo : t'.losum = t.losum + (sumI (b.s.vert (bq b s u)) (b.s.vend (bq b s u)) b.s.edlo + ancL b s u)) : BdGrI b s a0 a1 (u + 1) t' := by
  have hlen := seg_length (fun e => (t'.edge.get e, t'.edlo.get e)) hn
  rw [hs] at hlen
  obtain ⟨hv, hl, hp, hx, hx0, hx1⟩ := hv
  have hv := hv.trans O.vert
  have hl := hl.trans O.velo
  have hp := hp.trans O.part
  have hdd : t.degr ≤ t'.degr ∧ t'.num - t.num ≤ t'.degr := by rw [hd]; unfold bdDegr; split <;> omega
  refine ⟨by rw [hv]; exact I.bvert, by rw [hl]; exact I.bvelo, by rw [he.1, he.2]; exact I.bedge, by rw [hel.1, hel.2]; exact I.bedlo, by rw [hp]; exact I.bpart, ?_, ?_, ?_, ?_, ?_, ?_, ?_, by rw [hx]; exact O.veex, by rw [hx0, hx1]; exact O.extn⟩
  · refine I.lists.step u1 ?_ ?_ ?_ hn hs
    · intro w hw; rw [hv, Arr.set_get_ne _ _ hw]
    · rw [hv, Arr.set_get_same]
    · intro x hx; rw [(he2 x hx).1, (he2 x hx).2]
  · intro w w1 w2
    rw [hl]
    by_cases e : w = u
    · rw [e, Arr.set_get_same]
    · rw [Arr.set_get_ne _ _ e]; exact I.velo w w1 (by omega)
  · rw [hl, Arr.set_get_ne _ _ (by omega), Arr.set_get_ne _ _ (by omega)]; exact I.anch
  · intro w w1 w2
    rw [hp]
    by_cases e : w = u
    · rw [e, Arr.set_get_same]
    · rw [Arr.set_get_ne _ _ e]; exact I.part w w1 (by omega)
  · refine ⟨by have := I.degr.1; omega, fun w w1 w2 => ?_⟩
    by_cases e : w = u
    · rw [e]; omega
    · have := I.degr.2 w w1 (by omega); omega
  · rw [hanc, I.anc, bAncs_succ u1]
  · rw [hlo, I.losum, sumI_succ u1]

/-- The array of original numbers holds the queue. -/
structure BdQueu (b : Bgraph) (s : BdSt) (queu : Arr Int) : Prop where
  bnd : queu.lo = 0 ∧ queu.hi = b.s.vertnbr
  old : ∀ i, 0 ≤ i → i < s.head → queu.get i = s.queu.get i
  anch : queu.get s.head = -1 ∧ queu.get (s.head + 1) = -1

variable {queu : Arr Int}

theorem BdCtx.vertIn (C : BdCtx b vlvl s) (Q : BdQueu b s queu) {u : Int} {t : BdGr} (I : BdGrI b s a0 a1 u t) (u1 : b.s.baseval ≤ u) (u2 : u < b.s.baseval + vlvl) :
    Holds (bdVertIn b queu s.idx u t) (BdGrI b s a0 a1 (u + 1)) := by
  obtain ⟨h1, h2, h3, h4, h5, h6⟩ := C.head_le
  have u3 : u < bN b s := by omega
  obtain ⟨m1, m2⟩ := C.bq_mem u1 u3
  have hq := Q.bnd
  have hap := C.alloc.part
  have hx1 := m1.1
  have hx2 := m1.2
  have hroom := C.room u1 u3
  have hnum := I.lists.next
  have hb3 := I.bedge
  have hb4 := I.bedlo
  have hnn0 := len_nonneg (base := b.s.baseval) (adj := bAdj b s) u
  have hall := C.low u1 u2
  have hanc := C.no_anc u1 u2
  unfold bdVertIn
  rw [Arr.rd_ok _ (by omega) (by omega), ok_bind, show queu.get (u - b.s.baseval) = bq b s u from Q.old _ (by omega) (by omega), Arr.rd_ok _ (by omega) (by omega), ok_bind, Holds_bind]
  refine (C.opened I u1 u3).mono ?_
  intro t1 O
  obtain ⟨o1, o2, o3, o4, o5, o6⟩ := O.rest
  rw [Holds_bind, o1, o2, o3, o4]
  refine (C.arcs u1 u3 (edge := t.edge) (edlo := t.edlo) (num := t.num) (by unfold bDeg at hroom; omega) (by omega) (Or.inr ⟨rfl, hall⟩)).mono ?_
  intro r A
  have hbv := I.bvert
  have hvv := O.vert
  rw [hvv, Arr.rd_ok _ (by dsimp only [Arr.set]; omega) (by dsimp only [Arr.set]; omega), ok_bind, Arr.set_get_same, Holds_pure]
  refine I.step u1 u3 O ⟨hvv.symm, rfl, rfl, rfl, rfl, rfl⟩ A.bedge A.bedlo A.old A.le ?_ ?_ ?_ ?_
  · dsimp only
    rw [A.list]
    unfold bAdj
    rw [if_pos u3, hanc, if_neg (by decide), List.append_nil]
  · dsimp only; rw [o5]
  · dsimp only; rw [hanc, if_neg (by decide), o6]; omega
  · dsimp only; rw [hanc, A.losum]; omega

theorem BdCtx.vertOut (C : BdCtx b vlvl s) (Q : BdQueu b s queu) {u : Int} {t : BdGr} (I : BdGrI b s a0 a1 u t) (u1 : b.s.baseval ≤ u) (u3 : u < bN b s) :
    Holds (bdVertOut b queu s.idx (bN b s) u t) (BdGrI b s a0 a1 (u + 1)) := by
  obtain ⟨h1, h2, h3, h4, h5, h6⟩ := C.head_le
  obtain ⟨m1, m2⟩ := C.bq_mem u1 u3
  have hq := Q.bnd
  have hap := C.alloc.part
  have hx1 := m1.1
  have hx2 := m1.2
  have hroom := C.room u1 u3
  have hnum := I.lists.next
  have hb3 := I.bedge
  have hb4 := I.bedlo
  have hnn0 := len_nonneg (base := b.s.baseval) (adj := bAdj b s) u
  unfold bdVertOut
  rw [Arr.rd_ok _ (by omega) (by omega), ok_bind, show queu.get (u - b.s.baseval) = bq b s u from Q.old _ (by omega) (by omega), Arr.rd_ok _ (by omega) (by omega), ok_bind, Holds_bind]
  refine (C.opened I u1 u3).mono ?_
  intro t1 O
  obtain ⟨o1, o2, o3, o4, o5, o6⟩ := O.rest
  rw [Holds_bind, o1, o2, o3, o4]
  refine (C.arcs u1 u3 (edge := t.edge) (edlo := t.edlo) (num := t.num) (by unfold bDeg at hroom; omega) (by omega) (Or.inl rfl)).mono ?_
  intro r A
  have hbv := I.bvert
  have hvv := O.vert
  have hlen := seg_length (fun e => (r.edge.get e, r.edlo.get e)) A.le
  rw [A.list] at hlen
  have hbl := C.bIn_len u1 u3
  have ab := A.bedge
  have al := A.bedlo
  have ale := A.le
  have alist := A.list
  unfold bDeg at hroom
  unfold bdAnchor
  rw [A.anc]
  by_cases ha : ancL b s u > 0
  · have hbl2 := hbl.2 ha
    rw [if_pos ha]
    rw [Arr.wr_ok _ _ (by omega) (by omega), ok_bind, Arr.wr_ok _ _ (by omega) (by omega), ok_bind, pure_bind, hvv, Arr.rd_ok _ (by dsimp only [Arr.set]; omega) (by dsimp only [Arr.set]; omega), ok_bind, Arr.set_get_same, Holds_pure]
    refine I.step u1 u3 O ⟨hvv.symm, rfl, rfl, rfl, rfl, rfl⟩ ab al ?_ ?_ ?_ ?_ ?_ ?_
    · intro x hx
      dsimp only
      rw [Arr.set_get_ne _ _ (by omega), Arr.set_get_ne _ _ (by omega)]; exact A.old x hx
    · dsimp only; omega
    · dsimp only
      unfold bAdj
      rw [seg_succ _ ale, Arr.set_get_same, Arr.set_get_same, if_pos u3, if_pos ha, ← alist]
      congr 1
      exact seg_congr fun y y1 y2 => by rw [Arr.set_get_ne _ _ (by omega), Arr.set_get_ne _ _ (by omega)]
    · dsimp only; rw [o5]
    · dsimp only; rw [if_pos ha, o6]
    · dsimp only; rw [A.losum]; omega
  · have h0 := C.ancL_nonneg u1 u3
    rw [if_neg ha, pure_bind, hvv, Arr.rd_ok _ (by dsimp only [Arr.set]; omega) (by dsimp only [Arr.set]; omega), ok_bind, Arr.set_get_same, Holds_pure]
    refine I.step u1 u3 O ⟨hvv.symm, rfl, rfl, rfl, rfl, rfl⟩ ab al A.old ale ?_ ?_ ?_ ?_
    · dsimp only
      rw [alist]
      unfold bAdj
      rw [if_pos u3, if_neg (by omega), List.append_nil]
    · dsimp only; rw [o5]
    · dsimp only; rw [if_neg (by omega), o6]; omega
    · dsimp only; rw [A.losum]; omega

theorem BdCtx.verts (C : BdCtx b vlvl s) (Q : BdQueu b s queu) (junk : BdJunk) :
    Holds (bdVerts junk b vlvl s queu) (BdGrI b s (b.compload0 - (s.velosum - s.load1)) (b.s.velosum - b.compload0 - s.load1) (bN b s)) := by
  obtain ⟨h1, h2, h3, h4, h5, h6⟩ := C.head_le
  unfold bdVerts
  dsimp only
  rw [Arr.wr_ok _ _ (by dsimp only; omega) (by dsimp only; omega), ok_bind, Arr.wr_ok _ _ (by dsimp only [Arr.set]; omega) (by dsimp only [Arr.set]; omega), ok_bind, Holds_bind]
  generalize ha0 : b.compload0 - (s.velosum - s.load1) = a0
  generalize ha1 : b.s.velosum - b.compload0 - s.load1 = a1
  refine Holds_forUp (BdGrI b s a0 a1) (by omega) ?_ ?_ ?_
  · refine ⟨⟨rfl, rfl⟩, ⟨rfl, rfl⟩, ⟨rfl, rfl⟩, ⟨rfl, rfl⟩, ⟨rfl, rfl⟩, Lists.init _ _ _ _, fun w w1 w2 => by omega, ?_, fun w w1 w2 => by omega, ⟨Int.le_refl _, fun w w1 w2 => by omega⟩, ?_, ?_, ⟨?_, ?_⟩, ?_, ?_⟩
    · dsimp only
      rw [h6, Arr.set_get_same, Arr.set_get_ne _ _ (by omega), Arr.set_get_same]
      exact ⟨rfl, rfl⟩
    · unfold bAncs
      rw [sumI_empty (Int.le_refl _)]
    · dsimp only; rw [sumI_empty (Int.le_refl _)]
    · dsimp only; unfold bdVeexInit
      cases b.veextax with
      | none => exact ⟨fun _ => rfl, fun _ => rfl⟩
      | some a => exact ⟨(fun h => by cases h), fun h => by cases h⟩
    · intro a h
      dsimp only at h
      unfold bdVeexInit at h
      cases hb : b.veextax with
      | none => rw [hb] at h; cases h
      | some x => rw [hb] at h; cases h; exact ⟨⟨rfl, rfl⟩, fun w w1 w2 => by omega⟩
    · dsimp only; rw [sumI_empty (Int.le_refl _)]
    · dsimp only; rw [sumI_empty (Int.le_refl _)]
  · intro u t u1 u2 I
    exact C.vertIn Q I u1 u2
  · intro t I
    refine Holds_forUp (BdGrI b s a0 a1) (by omega) I ?_ ?_
    · intro u t u1 u2 I
      exact C.vertOut Q I (by omega) u2
    · intro t I
      exact I

end Scotch.Bipart
