import Verif.HOrder.LemmasHx5
import Verif.HOrder.LemmasKp

/-! # Ordering of graphs by minimum degree methods: lemmas -/

set_option autoImplicit false
set_option linter.unusedSimpArgs false
set_option linter.unusedVariables false

namespace Scotch.HOrder
open Graph

/-! ## Quotient graph -/

section
variable {h : Hgraph}

/-- First cell of the neighbours of a vertex. -/
def qpos (h : Hgraph) (v : Int) : Int := 1 + sumI h.s.baseval v (fun u => h.s.vend u - h.s.vert u)

theorem qpos_succ {v : Int} (hv : h.s.baseval ≤ v) : qpos h (v + 1) = qpos h v + (h.s.vend v - h.s.vert v) := by
  unfold qpos; rw [sumI_succ hv]; omega

theorem qpos_end (hc : HCons h) : qpos h h.s.vertnnd = 1 + h.s.edgenbr := by
  unfold qpos
  rw [hc.whole.edgenbr]
  congr 1
  apply sumI_congr
  intro v v1 v2
  have := (hc.whole.range v ⟨v1, v2⟩).2
  unfold nbrs arcs
  simp
  omega

theorem qpos_mono (hc : HCons h) {u v : Int} (h1 : h.s.baseval ≤ u) (h2 : u ≤ v) (h3 : v ≤ h.s.vertnnd) : qpos h u ≤ qpos h v := by
  unfold qpos
  rw [sumI_split h1 h2]
  have : 0 ≤ sumI u v (fun u => h.s.vend u - h.s.vert u) := sumI_nonneg (fun i i1 i2 => by
    have := (hc.whole.range i ⟨by omega, by omega⟩).2; omega)
  omega

theorem qlen (h : Hgraph) : h.s.vertnbr ≤ hxLen h ∧ (0 ≤ h.s.edgenbr → h.s.edgenbr ≤ hxLen h) := by
  unfold hxLen
  refine ⟨Int.le_max_right .., fun hx => ?_⟩
  refine Int.le_trans ?_ (Int.le_max_left ..)
  rw [Int.tdiv_eq_ediv_of_nonneg (by omega)]
  omega

/-- Invariant of the loop on vertices. -/
structure HxFI (h : Hgraph) (v : Int) (s : HxF) : Prop where
  tabs : ∀ a, a = s.pe ∨ a = s.len ∨ a = s.nv ∨ a = s.elen → a.lo = 1 ∧ a.hi = 1 + h.s.vertnbr
  iw : s.iw.lo = 1 ∧ s.iw.hi = 1 + hxLen h
  pos : s.edgenew = qpos h v
  pe : ∀ u, h.s.baseval ≤ u → u < v → s.pe.get (u - h.s.baseval + 1) = qpos h u
  len : ∀ u, h.s.baseval ≤ u → u < v → s.len.get (u - h.s.baseval + 1) = if u < h.vnohnnd then h.s.vend u - h.s.vert u else if h.s.vert u - h.s.vend u ≠ 0 then h.s.vert u - h.s.vend u else -1 - h.s.velosum
  load : ∀ u, h.s.baseval ≤ u → u < v → s.nv.get (u - h.s.baseval + 1) = h.s.velo u
  elen : ∀ u, h.s.baseval ≤ u → u < v → s.elen.get (u - h.s.baseval + 1) = 0
  edge : ∀ u k, h.s.baseval ≤ u → u < v → 0 ≤ k → k < h.s.vend u - h.s.vert u → s.iw.get (qpos h u + k) = h.s.dest (h.s.vert u + k) - h.s.baseval + 1

theorem put_get {a : Arr Int} {b v : Int} {f : Int → Int} {x : Int} (hp : ∀ u, b ≤ u → u < v → a.get (u - b + 1) = f u) (hx : f v = x) : ∀ u, b ≤ u → u < v + 1 → (a.set (v + (1 - b)) x).get (u - b + 1) = f u := by
  intro u u1 u2
  by_cases hu : u = v
  · rw [hu, show v + (1 - b) = v - b + 1 by omega, Arr.set_get_same, hx]
  · rw [Arr.set_get_ne _ _ (by omega)]
    exact hp u u1 (by omega)

theorem hxFillVert_holds (hc : HCons h) (ha : HAlloc h) {v : Int} {s : HxF} (hv : h.s.Vertex v) (I : HxFI h v s) : Holds (hxFillVert h v s) (HxFI h (v + 1)) := by
  obtain ⟨v1, v2⟩ := hv
  have hnn := hc.whole.vertnnd
  have hr := hc.whole.range v ⟨v1, v2⟩
  have hvl := ha.whole.vlo
  have hvh := ha.whole.vhi
  have t1 := I.tabs s.pe (Or.inl rfl)
  have t2 := I.tabs s.len (Or.inr (Or.inl rfl))
  have t3 := I.tabs s.nv (Or.inr (Or.inr (Or.inl rfl)))
  have t4 := I.tabs s.elen (Or.inr (Or.inr (Or.inr rfl)))
  have hiw := I.iw
  have hq0 : 1 ≤ qpos h v := by
    have := qpos_mono hc (Int.le_refl _) v1 (by omega)
    unfold qpos at this ⊢
    rw [sumI_empty (Int.le_refl _)] at this
    omega
  have hq1 := qpos_mono hc (u := v + 1) (v := h.s.vertnnd) (by omega) (by omega) (Int.le_refl _)
  rw [qpos_end hc, qpos_succ v1] at hq1
  have hql := (qlen h).2 (by omega)
  have e1 : h.s.verttax.rd v = .ok (h.s.vert v) := Arr.rd_ok _ (by omega) (by omega)
  unfold hxFillVert
  rw [e1, ok_bind, rdVend_eq ha.whole ⟨v1, v2⟩, ok_bind]
  dsimp only
  rw [Arr.wr_ok _ _ (by omega) (by omega), ok_bind, Arr.wr_ok _ _ (by omega) (by omega), ok_bind, Arr.wr_ok _ _ (by omega) (by omega), ok_bind, rdVelo_eq ha.whole ⟨v1, v2⟩, ok_bind,
    Arr.wr_ok _ _ (by omega) (by omega), ok_bind, Holds_bind]
  refine Holds_forUp (fun i (t : Arr Int × Int) => (t.1.lo = 1 ∧ t.1.hi = 1 + hxLen h) ∧ t.2 = qpos h v + (i - h.s.vert v) ∧ (∀ j, j < qpos h v → t.1.get j = s.iw.get j) ∧
    ∀ k, 0 ≤ k → k < i - h.s.vert v → t.1.get (qpos h v + k) = h.s.dest (h.s.vert v + k) - h.s.baseval + 1) hr.2 ?_ ?_ ?_
  · refine ⟨hiw, ?_, fun _ _ => rfl, fun k k1 k2 => by omega⟩
    dsimp only; rw [I.pos]; omega
  · rintro i ⟨w, q⟩ i1 i2 ⟨⟨w1, w2⟩, w3, w4, w5⟩
    dsimp only at w1 w2 w3 w4 w5 ⊢
    have he := ha.whole.edge v ⟨v1, v2⟩ (by omega)
    rw [Arr.rd_ok _ (by omega) (by omega), ok_bind, Arr.wr_ok _ _ (by omega) (by omega), ok_bind, Holds_pure]
    refine ⟨⟨w1, w2⟩, by dsimp only; omega, ?_, ?_⟩
    · intro j hj
      dsimp only
      rw [Arr.set_get_ne _ _ (by omega)]; exact w4 j hj
    · intro k k1 k2
      dsimp only
      by_cases hk : k = i - h.s.vert v
      · rw [hk, w3, Arr.set_get_same, show h.s.vert v + (i - h.s.vert v) = i by omega]
        unfold dest; omega
      · rw [Arr.set_get_ne _ _ (by omega)]; exact w5 k k1 (by omega)
  · rintro ⟨w, q⟩ ⟨w1, w3, w4, w5⟩
    dsimp only at w1 w3 w4 w5 ⊢
    rw [Holds_pure]
    refine ⟨?_, w1, ?_, ?_, ?_, ?_, ?_, ?_⟩
    · rintro a (rfl | rfl | rfl | rfl)
      · exact t1
      · exact t2
      · exact t3
      · exact t4
    · dsimp only; rw [qpos_succ v1]; omega
    · exact put_get I.pe I.pos.symm
    · exact put_get I.len rfl
    · exact put_get I.load rfl
    · exact put_get I.elen rfl
    · intro u k u1 u2 k1 k2
      dsimp only
      by_cases hu : u = v
      · subst hu
        exact w5 k k1 (by omega)
      · have := qpos_mono hc (u := u + 1) (v := v) (by omega) (by omega) (by omega)
        rw [qpos_succ u1] at this
        rw [w4 _ (by omega)]
        exact I.edge u k u1 (by omega) k1 k2

theorem hxFill_holds (hc : HCons h) (ha : HAlloc h) (mem : Int → Int) : Holds (hxFill h mem) (Quotient h) := by
  have hnn := hc.whole.vertnnd
  have hn := hc.whole.vertnbr
  unfold hxFill
  dsimp only
  rw [Holds_bind]
  refine Holds_forUp (HxFI h) (by omega) ?_ (fun v s v1 v2 I => hxFillVert_holds hc ha ⟨v1, v2⟩ I) ?_
  · refine ⟨?_, ⟨rfl, rfl⟩, ?_, ?_, ?_, ?_, ?_, ?_⟩
    · rintro a (rfl | rfl | rfl | rfl) <;> exact ⟨rfl, rfl⟩
    · unfold qpos; rw [sumI_empty (Int.le_refl _)]; rfl
    · intro u u1 u2; omega
    · intro u u1 u2; omega
    · intro u u1 u2; omega
    · intro u u1 u2; omega
    · intro u k u1 u2; omega
  · intro s I
    rw [Holds_pure]
    have he : 0 ≤ h.s.edgenbr := by
      rw [hc.whole.edgenbr]
      exact sumI_nonneg (fun i _ _ => by omega)
    refine ⟨rfl, rfl, I.tabs, ⟨I.iw.1, I.iw.2, (qlen h).1⟩, ⟨?_, (qlen h).2 he⟩, fun v hv => I.pe v hv.1 hv.2, ?_, ?_, ?_, fun v hv => I.load v hv.1 hv.2, fun v hv => I.elen v hv.1 hv.2, ?_⟩
    · rw [← qpos_end hc]; exact I.pos
    · intro v hv hl
      dsimp only
      rw [I.len v hv.1 hv.2, if_pos hl]
    · intro v hv hl hd
      dsimp only
      rw [I.len v hv.1 hv.2, if_neg (by omega), if_pos (by omega)]; omega
    · intro v hv hl hd
      dsimp only
      rw [I.len v hv.1 hv.2, if_neg (by omega), if_neg (by omega)]; omega
    · intro v k hv k1 k2
      dsimp only
      rw [I.pe v hv.1 hv.2]
      exact I.edge v k hv.1 hv.2 k1 k2
end

/-! ## `hallOrderHxBuild` -/

theorem Forest.ini {N n b : Int} {nv pe : Int → Int} (F : Forest N n nv pe) : ∃ rk, HxIni b N n rk (fun v => nv (v - b + 1)) (fun v => pe (v - b + 1)) := by
  obtain ⟨rk, k1, k2⟩ := F.acyclic
  refine ⟨fun v => rk (v - b + 1), ?_, ?_, ?_, ?_⟩
  · intro v v1 v2; exact F.load _ (by omega) (by omega)
  · intro v v1 v2 hv
    have hr := F.range (v - b + 1) (by omega) (by omega)
    obtain ⟨s1, s2⟩ := F.secondary (v - b + 1) (by omega) (by omega) hv
    refine ⟨by omega, by omega, fun hx => ?_⟩
    rw [show b - (pe (v - b + 1) + 1) - b + 1 = -pe (v - b + 1) by omega]
    exact s2 (by omega)
  · intro v v1 v2 hv p1 p2
    rw [show b - (pe (v - b + 1) + 1) - b + 1 = -pe (v - b + 1) by omega]
    exact ⟨F.principal _ (by omega) (by omega) hv (by omega) (by omega), k2 _ (by omega) (by omega) hv (by omega) (by omega)⟩
  · intro v v1 v2; exact k1 _ (by omega) (by omega)

theorem hxSet_eq {lo n hi val : Int} {mem : Int → Int} (h : n ≤ hi - lo) : hxSet lo n hi val mem = .ok ⟨lo, hi, fun i => if lo ≤ i ∧ i < lo + n then val else mem i⟩ := if_pos h

variable {h : Hgraph}

theorem hxRenum_holds {ordenum : Int} {p0 p : Arr Int} {e : List Int} (hc : HCons h) (ha : HAlloc h) (h1 : p0.lo ≤ ordenum) (h2 : ordenum + h.vnohnbr ≤ p0.hi) (W : Wr ordenum h.s.baseval h.vnohnbr p0 p e) (hl : (e.length : Int) = h.vnohnbr) :
    Holds (hxRenum h.vnohnbr ordenum h.s.vnumtax p) (fun p' => (p'.lo = p0.lo ∧ p'.hi = p0.hi) ∧ (∀ i, (i < ordenum ∨ ordenum + h.vnohnbr ≤ i) → p'.get i = p0.get i) ∧ ∀ k (hk : k < e.length), p'.get (ordenum + k) = onum h.s e[k]) := by
  have hnn : h.vnohnnd = h.s.baseval + h.vnohnbr := hc.part.vertnnd
  have hb := W.bnd
  unfold hxRenum
  cases hvn : h.s.vnumtax with
  | none =>
    dsimp only
    rw [Holds_pure]
    refine ⟨W.bnd, W.frame, fun k hk => ?_⟩
    rw [W.cell k hk]; unfold onum; rw [hvn]
  | some a =>
    have hva := ha.part.vnum a hvn
    have hva1 : a.lo ≤ h.s.baseval := hva.1
    have hva2 : h.vnohnnd ≤ a.hi := hva.2
    dsimp only
    refine Holds_forUp (fun i (q : Arr Int) => (q.lo = p0.lo ∧ q.hi = p0.hi) ∧ (∀ i, (i < ordenum ∨ ordenum + h.vnohnbr ≤ i) → q.get i = p0.get i) ∧
      ∀ k (hk : k < e.length), q.get (ordenum + k) = if (k : Int) < i then a.get e[k] else e[k]) hc.nbr.1 ?_ ?_ ?_
    · exact ⟨W.bnd, W.frame, fun k hk => by rw [if_neg (by omega)]; exact W.cell k hk⟩
    · rintro i q i1 i2 ⟨⟨q1, q2⟩, q3, q4⟩
      obtain ⟨t, rfl⟩ : ∃ t : Nat, i = t := ⟨i.toNat, by omega⟩
      have ht : t < e.length := by omega
      have hm := W.mem e[t] (List.getElem_mem ..)
      rw [Arr.rd_ok _ (by omega) (by omega), ok_bind, q4 t ht, if_neg (by omega), Arr.rd_ok _ (by omega) (by omega), ok_bind, Arr.wr_ok _ _ (by omega) (by omega), Holds_ok]
      refine ⟨⟨q1, q2⟩, ?_, ?_⟩
      · intro j hj
        rw [Arr.set_get_ne _ _ (by omega)]; exact q3 j hj
      · intro k hk
        by_cases hkt : k = t
        · subst hkt
          rw [Arr.set_get_same, if_pos (by omega)]
        · rw [Arr.set_get_ne _ _ (by omega), q4 k hk]
          by_cases hlt : (k : Int) < t
          · rw [if_pos hlt, if_pos (by omega)]
          · rw [if_neg hlt, if_neg (by omega)]
    · rintro q ⟨q1, q2, q3⟩
      refine ⟨q1, q2, fun k hk => ?_⟩
      rw [q3 k hk, if_pos (by omega)]
      unfold onum; rw [hvn]

theorem hxBuild_holds {n : Int} {rk nv0 pe0 : Int → Int} {s : HxS} {leaf : Arr Int} {ordenum : Int} {o : Ord} (p : HxPara) (hc : HCons h) (ha : HAlloc h) (hb0 : 0 ≤ h.s.baseval) (hN : 1 ≤ h.vnohnbr) (hn : h.vnohnbr ≤ n)
    (h1 : o.peritab.lo ≤ ordenum) (h2 : ordenum + h.vnohnbr ≤ o.peritab.hi)
    (hi0 : HxIni h.s.baseval h.vnohnbr n rk nv0 pe0) (hB : HxB h.s.baseval n s) (hp : s.Pos h.s.baseval h.vnohnbr)
    (n1 : ∀ v, h.s.baseval ≤ v → v < h.s.baseval + h.vnohnbr → s.nvar.get v = nv0 v) (n2 : ∀ v, h.s.baseval ≤ v → v < h.s.baseval + h.vnohnbr → s.fath.get v = pe0 v)
    (n3 : ∀ v, h.s.baseval ≤ v → v < h.s.baseval + n → s.size.get v = 0 ∧ s.frst.get v = -1 ∧ s.secn.get v = -1 ∧ s.desc.get v = 0) (n4 : s.cblknbr = 0) (n5 : s.root = -1) (hl : leaf.lo ≤ 0 ∧ n ≤ leaf.hi) :
    Holds (hxBuild p h.s.baseval h.vnohnbr h.s.vnumtax ordenum s leaf o (leafBlock h.vnohnbr)) (fun r => r.1 = 0 ∧ ∃ π, Placed h ordenum o r.2.1 r.2.2 π) := by
  have hnn : h.vnohnnd = h.s.baseval + h.vnohnbr := hc.part.vertnnd
  have hf : h.vnohnbr.toNat < h.vnohnbr.toNat + 1 := by omega
  unfold hxBuild
  dsimp only
  rw [Holds_bind]
  refine (hxVerts_holds hi0 hb0 hn (by omega) hB hp n1 n2 n3 n4 n5).mono ?_
  rintro s1 ⟨S, Q, own, P⟩
  rw [Holds_bind]
  refine (hxLeaves_holds hb0 (by omega) hn P hl).mono ?_
  rintro ⟨leaf1, nbr⟩ ⟨L, I⟩
  dsimp only
  rw [Holds_bind]
  refine (hxLoop_holds hb0 (by omega) hn hf rfl I).mono ?_
  rintro s2 ⟨hB2, S2, Q2, own2, T⟩
  rw [Holds_bind]
  refine (hxTrees_holds hb0 hN hn hB2 T h1 h2 hf).mono ?_
  rintro p1 ⟨e, W, he⟩
  have hlen : (e.length : Int) = h.vnohnbr := by
    have := sum_perm (by omega) W.nodup he (fun _ => 1)
    rw [sumI_const (by omega)] at this
    simp at this
    omega
  have hcnt : s2.cblknbr = ((blkSizes s2 e).length : Int) := by
    rw [blkSizes_length, sum_perm (by omega) W.nodup he]; exact T.cnt
  have hsum : (blkSizes s2 e).sum = h.vnohnbr := by
    rw [blkSizes_sum, sum_perm (by omega) W.nodup he, T.sum]; omega
  have hpos : ∀ x ∈ blkSizes s2 e, 1 ≤ x := by
    intro x hx
    unfold blkSizes at hx
    rw [List.mem_map] at hx
    obtain ⟨v, hv, rfl⟩ := hx
    rw [List.mem_filter] at hv
    obtain ⟨v1, v2⟩ := (he v).1 hv.1
    exact (T.size v v1 v2 (by simpa using hv.2)).2 v2
  have hπ : ∀ i : Int, 0 ≤ i → i < h.vnohnbr → ∃ hk : i.toNat < e.length, e.getD i.toNat 0 = e[i.toNat] := by
    intro i i1 i2
    have hk : i.toNat < e.length := by omega
    exact ⟨hk, by rw [List.getD_eq_getElem?_getD, List.getElem?_eq_getElem hk]; rfl⟩
  have hv : ∀ i, 0 ≤ i → i < h.vnohnbr → (unhalo h).Vertex (e.getD i.toNat 0) := by
    intro i i1 i2
    obtain ⟨hk, hg⟩ := hπ i i1 i2
    rw [hg]
    obtain ⟨m1, m2⟩ := W.mem _ (List.getElem_mem hk)
    exact ⟨m1, (by show _ < h.vnohnnd; omega)⟩
  have hinj : ∀ i j, 0 ≤ i → i < h.vnohnbr → 0 ≤ j → j < h.vnohnbr → e.getD i.toNat 0 = e.getD j.toNat 0 → i = j := by
    intro i j i1 i2 j1 j2 hij
    obtain ⟨hk, hg⟩ := hπ i i1 i2
    obtain ⟨hk', hg'⟩ := hπ j j1 j2
    rw [hg, hg', W.nodup.getElem_inj_iff] at hij
    omega
  have hfin : ∀ q : Arr Int, (∀ k (hk : k < e.length), q.get (ordenum + k) = onum h.s e[k]) → ∀ i, 0 ≤ i → i < h.vnohnbr → q.get (ordenum + i) = onum h.s (e.getD i.toNat 0) := by
    intro q hq i i1 i2
    obtain ⟨hk, hg⟩ := hπ i i1 i2
    rw [hg, ← hq _ hk, show ((i.toNat : Nat) : Int) = i by omega]
  rw [Holds_bind]
  unfold hxBlocks
  by_cases h1b : s2.cblknbr ≠ 1
  · rw [if_pos h1b, Holds_bind]
    refine (hxBlk_holds hN hn hB2 T h1 h2 W he).mono ?_
    rintro l rfl
    rw [Holds_pure]
    dsimp only
    rw [Holds_bind]
    refine (hxRenum_holds hc ha h1 h2 W hlen).mono ?_
    rintro q ⟨q1, q2, q3⟩
    rw [Holds_pure]
    refine ⟨rfl, fun i => e.getD i.toNat 0, ?_⟩
    rw [hcnt]
    exact placed_flat hN q1 q2 hv hinj (hfin q q3) hpos hsum rfl rfl
  · rw [if_neg h1b, Holds_pure]
    dsimp only
    rw [Holds_bind]
    refine (hxRenum_holds hc ha h1 h2 W hlen).mono ?_
    rintro q ⟨q1, q2, q3⟩
    rw [Holds_pure]
    exact ⟨rfl, fun i => e.getD i.toNat 0, placed_leaf hN q1 q2 hv hinj (hfin q q3) rfl rfl⟩

theorem orderHx_orders {cls : Graph → Prop} {tot sure : Bool} (env : Env) (top : Bool) {hd : Bool} (p : HxPara) {kern : HxKern} (hk : KernOk cls tot sure kern) (hpos : ∀ g, cls g → ∀ v, g.Vertex v → 0 < g.velo v)
    (hhd : hd = true → ∀ g, cls g → g.velotax = none) : Orders cls tot sure top (orderHx env hd p kern) := by
  intro h ordenum o hc ha hb hn h1 h2 ht hcls
  have hnn : h.vnohnnd = h.s.baseval + h.vnohnbr := hc.part.vertnnd
  have hwn := hc.whole.vertnnd
  have hnb := hc.nbr
  unfold orderHx
  by_cases hm : h.vnlosum < p.colmin
  · rw [if_pos hm]
    exact orderSi_orders cls tot sure top h ordenum o hc ha hb hn h1 h2 ht hcls
  rw [if_neg hm]
  dsimp only
  rw [Meets_bind]
  refine Meets.mono (Meets.of_holds (hxFill_holds hc ha (env.junk o.tick))) ?_
  intro x X
  rw [Meets_bind]
  refine Meets.mono (hk o.tick h x hc ha hb hn hcls X) ?_
  rintro r ⟨r1, r2⟩
  cases r with
  | none =>
    dsimp only
    rw [Meets_pure]
    exact ⟨fun hs => absurd rfl (r1 hs), fun hx => by dsimp only at hx; omega⟩
  | some r =>
    have F := r2 r rfl
    obtain ⟨rk, hini⟩ := F.ini (b := h.s.baseval)
    dsimp only
    refine Meets.of_holds ?_
    rw [Holds_bind]
    have hcw : Holds (hxLoads h)
        (fun c => ∀ a, c = some a → (a.lo ≤ h.s.baseval ∧ h.s.baseval + h.s.vertnbr ≤ a.hi) ∧ ∀ v, h.s.baseval ≤ v → v < h.s.baseval + h.vnohnbr → 0 < a.get v) := by
      unfold hxLoads
      cases hv : h.s.velotax with
      | none => dsimp only; rw [Holds_pure]; intro a hx; cases hx
      | some a =>
        have hva := ha.whole.velo a hv
        dsimp only
        rw [if_pos (by omega), Holds_pure]
        intro a' hx
        cases hx
        refine ⟨⟨Int.le_refl _, Int.le_refl _⟩, fun v v1 v2 => ?_⟩
        have := hpos _ hcls v ⟨v1, (by show v < h.vnohnnd; omega)⟩
        unfold velo at this
        rw [show (unhalo h).velotax = some a from hv] at this
        exact this
    refine hcw.mono ?_
    intro cw hcw
    have hroom := X.room
    have hsec : h.s.vertnbr ≤ (h.s.baseval + if hd = true then x.norig + 1 else h.s.vertnbr) - h.s.baseval := by
      by_cases hd1 : hd = true
      · rw [if_pos hd1, X.norig]
        have hv : h.s.velotax = none := hhd hd1 (unhalo h) hcls
        have := hc.whole.velosum
        rw [sumI_congr (g := fun _ => 1) (fun v _ _ => by unfold velo; rw [hv]), sumI_const (by omega)] at this
        omega
      · rw [if_neg hd1]; omega
    rw [hxSet_eq (by omega), ok_bind, hxSet_eq (by omega), ok_bind, hxSet_eq (by omega), ok_bind, hxSet_eq hsec, ok_bind]
    refine (hxBuild_holds (o := { o with tick := o.tick + 1 }) (n := h.s.vertnbr) (rk := rk) p hc ha hb hn hnb.2 h1 h2 hini ?_ ?_ ?_ ?_ ?_ ?_ ?_ ?_).mono ?_
    · refine ⟨?_, ?_, ?_, ?_, ?_, ?_, ?_, fun a hx => (hcw a hx).1⟩
      · exact ⟨Int.le_refl _, Int.le_refl _⟩
      · exact ⟨Int.le_refl _, Int.le_refl _⟩
      · exact ⟨Int.le_refl _, Int.le_refl _⟩
      · exact ⟨Int.le_refl _, Int.le_refl _⟩
      · exact ⟨Int.le_refl _, Int.le_refl _⟩
      · refine ⟨Int.le_refl _, ?_⟩
        dsimp only; omega
      · refine ⟨Int.le_refl _, ?_⟩
        dsimp only; omega
    · intro a hx
      exact (hcw a hx).2
    · intro v _ _; rfl
    · intro v _ _; rfl
    · intro v v1 v2
      dsimp only
      simp only [v1, v2, and_self, if_true]
    · rfl
    · rfl
    · dsimp only; omega
    · rintro ⟨c, o', cb⟩ ⟨q1, q2⟩
      refine ⟨fun _ => q1, fun _ => ?_⟩
      obtain ⟨π, hπ⟩ := q2
      exact ⟨π, hπ.bnd, hπ.frame, hπ.vertex, hπ.inj, hπ.peri, hπ.size, hπ.coherent, hπ.alloc, hπ.tree, hπ.cblk, hπ.separates⟩

end Scotch.HOrder
