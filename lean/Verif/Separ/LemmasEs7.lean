import Verif.Separ.LemmasEs6

/-! # Bipartite graph of the cut edges: filling -/

set_option autoImplicit false
set_option linter.unusedSimpArgs false

namespace Scotch.Separ
open Graph Bipart

variable {g : Graph} {part fron vnum : Arr Int} {n pv : Int}

/-- Number of the cut arcs of a vertex, before an arc. -/
def cutTo (g : Graph) (p : Int → Int) (v e : Int) : Int := sumI (g.vert v) e (fun e => if p (g.dest e) = p v then 0 else 1)

/-- Number, in the bipartite graph, of a vertex of the frontier. -/
def esNV (part fron vnum : Arr Int) (n pv w : Int) : Int := vnum.get w + xorP (part.get w) pv * cnt part.get fron.get pv n

theorem esNV_eq (h : EsCtx g part fron n) (hpv : pv = 0 ∨ pv = 1) {s : EsNum} (I : NumInv g part fron n s) {j : Int} (h1 : 0 ≤ j) (h2 : j < n) :
    esNV part fron s.vnum n pv (fron.get j) = esN part fron n pv j := by
  unfold esNV esN esBase
  rw [I.vnum j h1 h2, xorP_eq (h.part01 h1 h2) hpv]
  split <;> omega

structure BipInv (g : Graph) (part fron vnum : Arr Int) (n pv i : Int) (s : EsBip) : Prop where
  bvert : s.vert.lo = 0 ∧ s.vert.hi = n + 1
  bvelo : s.velo.lo = 0 ∧ s.velo.hi = n
  bvnum : s.vnum.lo = 0 ∧ s.vnum.hi = n
  bedge : s.edge.lo = 0 ∧ s.edge.hi = 2 * eds g part.get fron.get 0 n
  e0 : s.edg0 = esEdge g part fron n pv 0 + eds g part.get fron.get 0 i
  e1 : s.edg1 = esEdge g part fron n pv 1 + eds g part.get fron.get 1 i
  vert : ∀ j, 0 ≤ j → j < i → s.vert.get (esN part fron n pv j) = esS g part fron n pv j
  vnum' : ∀ j, 0 ≤ j → j < i → s.vnum.get (esN part fron n pv j) = fron.get j
  fwd : ∀ j, 0 ≤ j → j < i → ∀ w, g.Adj (fron.get j) w → part.get w ≠ part.get (fron.get j) →
    ∃ x, esS g part fron n pv j ≤ x ∧ x < esS g part fron n pv j + cutDeg g part.get (fron.get j) ∧ s.edge.get x = esNV part fron vnum n pv w
  bwd : ∀ j, 0 ≤ j → j < i → ∀ x, esS g part fron n pv j ≤ x → x < esS g part fron n pv j + cutDeg g part.get (fron.get j) →
    ∃ w, g.Adj (fron.get j) w ∧ part.get w ≠ part.get (fron.get j) ∧ s.edge.get x = esNV part fron vnum n pv w

structure ArcInv (g : Graph) (part fron vnum : Arr Int) (n pv i e : Int) (s t : EsBip) : Prop where
  same : t.vert = s.vert ∧ t.velo = s.velo ∧ t.vnum = s.vnum ∧ t.edge.lo = s.edge.lo ∧ t.edge.hi = s.edge.hi
  e0 : t.edg0 = s.edg0 + if part.get (fron.get i) = 0 then cutTo g part.get (fron.get i) e else 0
  e1 : t.edg1 = s.edg1 + if part.get (fron.get i) = 1 then cutTo g part.get (fron.get i) e else 0
  other : ∀ x, ¬ (esS g part fron n pv i ≤ x ∧ x < esS g part fron n pv i + cutDeg g part.get (fron.get i)) → t.edge.get x = s.edge.get x
  fwd : ∀ e', g.vert (fron.get i) ≤ e' → e' < e → part.get (g.dest e') ≠ part.get (fron.get i) →
    ∃ x, esS g part fron n pv i ≤ x ∧ x < esS g part fron n pv i + cutTo g part.get (fron.get i) e ∧ t.edge.get x = esNV part fron vnum n pv (g.dest e')
  bwd : ∀ x, esS g part fron n pv i ≤ x → x < esS g part fron n pv i + cutTo g part.get (fron.get i) e →
    ∃ w, g.Adj (fron.get i) w ∧ part.get w ≠ part.get (fron.get i) ∧ t.edge.get x = esNV part fron vnum n pv w

theorem cutTo_le {p : Int → Int} {v e : Int} (h1 : g.vert v ≤ e) (h2 : e < g.vend v) (hc : p (g.dest e) ≠ p v) : 0 ≤ cutTo g p v e ∧ cutTo g p v e < cutDeg g p v := by
  constructor
  · exact sumI_nonneg fun _ _ _ => by split <;> decide
  · unfold cutTo cutDeg
    have hsp := sumI_split (lo := g.vert v) (mid := e + 1) (hi := g.vend v) (by omega) (by omega) (fun e => if p (g.dest e) = p v then 0 else 1)
    rw [sumI_succ h1, if_neg hc] at hsp
    have := sumI_nonneg (lo := e + 1) (hi := g.vend v) (f := fun e => if p (g.dest e) = p v then 0 else 1) (fun _ _ _ => by split <;> decide)
    omega

theorem esBipArc_holds (h : EsCtx g part fron n) (hpv : pv = 0 ∨ pv = 1) (hvn : vnum.lo = g.baseval ∧ vnum.hi = g.vertnnd) {i : Int} (h1 : 0 ≤ i) (h2 : i < n)
    {s : EsBip} (hbe : s.edge.lo = 0 ∧ s.edge.hi = 2 * eds g part.get fron.get 0 n)
    (he0 : s.edg0 = esEdge g part fron n pv 0 + eds g part.get fron.get 0 i) (he1 : s.edg1 = esEdge g part fron n pv 1 + eds g part.get fron.get 1 i)
    {e : Int} (e1 : g.vert (fron.get i) ≤ e) (e2 : e < g.vend (fron.get i)) {t : EsBip} (I : ArcInv g part fron vnum n pv i e s t) :
    Holds (esBipArc part vnum (part.get (fron.get i)) pv (cnt part.get fron.get pv n) (g.dest e) t) (ArcInv g part fron vnum n pv i (e + 1) s) := by
  have hv := h.vertex h1 h2
  have hw := (h.cons.inside _ e hv e1 e2).1
  have hw1 := hw.1
  have hw2 := hw.2
  obtain ⟨m1, m2, m3, m4, m5⟩ := I.same
  have hct : cutTo g part.get (fron.get i) (e + 1) = cutTo g part.get (fron.get i) e + if part.get (g.dest e) = part.get (fron.get i) then 0 else 1 := sumI_succ e1 _
  unfold esBipArc
  rw [h.rdPart hw, ok_bind, Holds_ite]
  constructor
  · intro hne
    obtain ⟨c1, c2⟩ := cutTo_le e1 e2 hne
    rw [if_neg hne] at hct
    have hr := esS_range h hpv h1 h2
    have hpos : part.get (fron.get i) * (t.edg1 - t.edg0) + t.edg0 = esS g part fron n pv i + cutTo g part.get (fron.get i) e := by
      have := I.e0
      have := I.e1
      unfold esS
      rcases h.part01 h1 h2 with k | k <;> rw [k] at this ⊢ <;> simp at * <;> omega
    have hE : 0 ≤ esEdge g part fron n pv (part.get (fron.get i)) ∧ esEdge g part fron n pv (part.get (fron.get i)) ≤ eds g part.get fron.get 0 n := by
      have := eds_nonneg (g := g) (p := part.get) (F := fron.get) (k := 0) h.enum.1
      unfold esEdge; split <;> omega
    rw [Arr.rd_ok vnum (by omega) (by omega), ok_bind, hpos, Arr.wr_ok t.edge _ (by omega) (by omega), ok_bind, Holds_pure]
    have hval : vnum.get (g.dest e) + xorP (part.get (g.dest e)) pv * cnt part.get fron.get pv n = esNV part fron vnum n pv (g.dest e) := rfl
    rw [hval]
    refine ⟨⟨m1, m2, m3, m4, m5⟩, ?_, ?_, ?_, ?_, ?_⟩
    · dsimp only
      rw [hct]
      have := I.e0
      rcases h.part01 h1 h2 with k | k <;> rw [k] at this ⊢ <;> simp [xorP] at * <;> omega
    · dsimp only
      rw [hct]
      have := I.e1
      rcases h.part01 h1 h2 with k | k <;> rw [k] at this ⊢ <;> simp at * <;> omega
    · intro x hx
      dsimp only
      rw [Arr.set_get_ne _ _ (by omega)]
      exact I.other x hx
    · intro e' f1 f2 f3
      dsimp only
      by_cases he : e' = e
      · subst he
        exact ⟨_, by omega, by omega, Arr.set_get_same _ _ _⟩
      · obtain ⟨x, x1, x2, x3⟩ := I.fwd e' f1 (by omega) f3
        exact ⟨x, x1, by omega, by rw [Arr.set_get_ne _ _ (by omega)]; exact x3⟩
    · intro x x1 x2
      dsimp only
      by_cases hx : x = esS g part fron n pv i + cutTo g part.get (fron.get i) e
      · subst hx
        exact ⟨g.dest e, ⟨e, e1, e2, rfl⟩, hne, Arr.set_get_same _ _ _⟩
      · obtain ⟨w, w1, w2, w3⟩ := I.bwd x x1 (by omega)
        exact ⟨w, w1, w2, by rw [Arr.set_get_ne _ _ hx]; exact w3⟩
  · intro heq
    have heq := Classical.byContradiction heq
    rw [if_pos heq] at hct
    rw [Holds_pure]
    rw [Int.add_zero] at hct
    refine ⟨I.same, by rw [hct]; exact I.e0, by rw [hct]; exact I.e1, I.other, ?_, by rw [hct]; exact I.bwd⟩
    rw [hct]
    intro e' f1 f2 f3
    by_cases he : e' = e
    · subst he; exact absurd heq f3
    · exact I.fwd e' f1 (by omega) f3

/-- State before the loop on arcs. -/
theorem esBipVelo_holds (h : EsCtx g part fron n) {v b : Int} (hv : g.Vertex v) {s : EsBip} (h1 : s.velo.lo ≤ b) (h2 : b < s.velo.hi) :
    Holds (esBipVelo g.velotax v b s) (fun t => t.vert = s.vert ∧ t.vnum = s.vnum ∧ t.edge = s.edge ∧ t.edg0 = s.edg0 ∧ t.edg1 = s.edg1 ∧
      t.velo.lo = s.velo.lo ∧ t.velo.hi = s.velo.hi) := by
  unfold esBipVelo
  cases hvt : g.velotax with
  | none =>
    dsimp only
    rw [Holds_pure]
    exact ⟨rfl, rfl, rfl, rfl, rfl, rfl, rfl⟩
  | some a =>
    dsimp only
    obtain ⟨a1, a2⟩ := h.alloc.velo a hvt
    rw [Arr.rd_ok a (by have := hv.1; omega) (by have := hv.2; omega), ok_bind, Arr.wr_ok s.velo _ h1 h2, ok_bind, Holds_pure]
    exact ⟨rfl, rfl, rfl, rfl, rfl, rfl, rfl⟩

theorem esBipVertex_holds (h : EsCtx g part fron n) (hpv : pv = 0 ∨ pv = 1) {num : EsNum} (hnum : NumInv g part fron n num) {i : Int} (h1 : 0 ≤ i) (h2 : i < n)
    {s : EsBip} (I : BipInv g part fron num.vnum n pv i s) :
    Holds (esBipVertex g part fron num.vnum pv (cnt part.get fron.get pv n) i s) (BipInv g part fron num.vnum n pv (i + 1)) := by
  have hv := h.vertex h1 h2
  obtain ⟨nb1, nb2⟩ := hnum.bounds
  have hv1 := hv.1
  have hv2 := hv.2
  unfold esBipVertex
  rw [h.rdFron h1 h2, ok_bind, h.rdPart hv, ok_bind, Arr.rd_ok num.vnum (by omega) (by omega), ok_bind]
  have hN : xorP (part.get (fron.get i)) pv * cnt part.get fron.get pv n + num.vnum.get (fron.get i) = esN part fron n pv i := by
    rw [← esNV_eq h hpv hnum h1 h2]; unfold esNV; omega
  rw [hN]
  obtain ⟨n1, n2, -⟩ := esN_side h hpv h1 h2
  obtain ⟨bv1, bv2⟩ := I.bvert
  obtain ⟨bw1, bw2⟩ := I.bvelo
  obtain ⟨bn1, bn2⟩ := I.bvnum
  rw [Holds_bind]
  refine (esBipVelo_holds h hv (by omega) (by omega)).mono ?_
  rintro s1 ⟨a1, a2, a3, a4, a5, a6, a7⟩
  dsimp only
  rw [a2, Arr.wr_ok s.vnum _ (by omega) (by omega), ok_bind, a1, a4, a5, Arr.wr_ok s.vert _ (by omega) (by omega), ok_bind]
  have hpos : part.get (fron.get i) * (s.edg1 - s.edg0) + s.edg0 = esS g part fron n pv i := by
    have k0 := I.e0
    have k1 := I.e1
    unfold esS
    rcases h.part01 h1 h2 with k | k <;> rw [k] <;> omega
  rw [hpos]
  generalize hs2 : ({ s1 with vnum := s.vnum.set (esN part fron n pv i) (fron.get i), vert := s.vert.set (esN part fron n pv i) (esS g part fron n pv i), edg0 := s.edg0, edg1 := s.edg1 } : EsBip) = s2
  have hs2v : s2.vert = s.vert.set (esN part fron n pv i) (esS g part fron n pv i) := by rw [← hs2]
  have hs2n : s2.vnum = s.vnum.set (esN part fron n pv i) (fron.get i) := by rw [← hs2]
  have hs2e : s2.edge = s.edge := by rw [← hs2]; exact a3
  have hs20 : s2.edg0 = s.edg0 := by rw [← hs2]
  have hs21 : s2.edg1 = s.edg1 := by rw [← hs2]
  have hs2w : s2.velo = s1.velo := by rw [← hs2]
  refine Holds_forArcs h.alloc hv (h.cons.range _ hv).2 (fun e t => ArcInv g part fron num.vnum n pv i e s2 t) ?_ ?_ ?_
  · have hz : cutTo g part.get (fron.get i) (g.vert (fron.get i)) = 0 := sumI_empty (Int.le_refl _) _
    refine ⟨⟨rfl, rfl, rfl, rfl, rfl⟩, by rw [hz]; simp, by rw [hz]; simp, fun x _ => rfl, fun e' f1 f2 => by omega, ?_⟩
    rw [hz]
    intro x x1 x2; omega
  · intro e t e1 e2 J
    exact esBipArc_holds h hpv hnum.bounds h1 h2 (by rw [hs2e]; exact I.bedge) (by rw [hs20]; exact I.e0) (by rw [hs21]; exact I.e1) e1 e2 J
  · intro t J
    have hfull : cutTo g part.get (fron.get i) (g.vend (fron.get i)) = cutDeg g part.get (fron.get i) := rfl
    obtain ⟨m1, m2, m3, m4, m5⟩ := J.same
    have hdisj : ∀ j, 0 ≤ j → j < i → ∀ x, esS g part fron n pv j ≤ x → x < esS g part fron n pv j + cutDeg g part.get (fron.get j) → t.edge.get x = s.edge.get x := by
      intro j j1 j2 x x1 x2
      rw [J.other x (esS_disjoint h hpv j1 (by omega) h1 h2 j2 x1 x2), hs2e]
    have hne : ∀ j, 0 ≤ j → j < i → esN part fron n pv j ≠ esN part fron n pv i := by
      intro j j1 j2 he
      have := esN_inj h hpv j1 (by omega) h1 h2 he
      omega
    refine ⟨?_, ?_, ?_, ?_, ?_, ?_, ?_, ?_, ?_, ?_⟩
    · rw [m1, hs2v]; exact I.bvert
    · rw [m2, hs2w]; exact ⟨by omega, by omega⟩
    · rw [m3, hs2n]; exact I.bvnum
    · rw [m4, m5, hs2e]; exact I.bedge
    · rw [J.e0, hfull, hs20, I.e0, eds_succ h1]; omega
    · rw [J.e1, hfull, hs21, I.e1, eds_succ h1]; omega
    · intro j j1 j2
      rw [m1, hs2v]
      by_cases hj : j = i
      · rw [hj]; exact Arr.set_get_same _ _ _
      · rw [Arr.set_get_ne _ _ (hne j j1 (by omega))]; exact I.vert j j1 (by omega)
    · intro j j1 j2
      rw [m3, hs2n]
      by_cases hj : j = i
      · rw [hj]; exact Arr.set_get_same _ _ _
      · rw [Arr.set_get_ne _ _ (hne j j1 (by omega))]; exact I.vnum' j j1 (by omega)
    · intro j j1 j2 w hw hp
      by_cases hj : j = i
      · rw [hj] at hw hp ⊢
        obtain ⟨e', f1, f2, f3⟩ := hw
        obtain ⟨x, x1, x2, x3⟩ := J.fwd e' f1 f2 (by rw [f3]; exact hp)
        exact ⟨x, x1, x2, by rw [← f3]; exact x3⟩
      · obtain ⟨x, x1, x2, x3⟩ := I.fwd j j1 (by omega) w hw hp
        exact ⟨x, x1, x2, by rw [hdisj j j1 (by omega) x x1 x2]; exact x3⟩
    · intro j j1 j2 x x1 x2
      by_cases hj : j = i
      · rw [hj] at x1 x2 ⊢
        exact J.bwd x x1 x2
      · obtain ⟨w, w1, w2, w3⟩ := I.bwd j j1 (by omega) x x1 x2
        exact ⟨w, w1, w2, by rw [hdisj j j1 (by omega) x x1 x2]; exact w3⟩

end Scotch.Separ
