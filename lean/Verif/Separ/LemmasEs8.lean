import Verif.Separ.LemmasEs7

/-! # Bipartite graph of the cut edges: result -/

set_option autoImplicit false
set_option linter.unusedSimpArgs false

namespace Scotch.Separ
open Graph Bipart

variable {g : Graph} {part fron vnum : Arr Int} {n pv : Int}

/-- Starts of ranges of arcs: at each number, up to the end. -/
theorem esVert (h : EsCtx g part fron n) (hpv : pv = 0 ∨ pv = 1) {s : EsBip} (I : BipInv g part fron vnum n pv n s) {vert : Arr Int}
    (hvert : vert = s.vert.set n (2 * eds g part.get fron.get 0 n)) {k i : Int} (hk : k = 0 ∨ k = 1) (h0 : 0 ≤ i) (hi : i ≤ n) :
    vert.get (esBase part fron n pv k + cnt part.get fron.get k i) = esEdge g part fron n pv k + eds g part.get fron.get k i := by
  have htot := h.total
  have hn := h.enum.1
  have heds := eds_total h.cons h.parts h.enum
  have hone : ∀ k, (k = 0 ∨ k = 1) → (vert.get (esBase part fron n pv k + cnt part.get fron.get k n) = esEdge g part fron n pv k + eds g part.get fron.get k n) →
      ∀ m : Nat, ∀ i, 0 ≤ i → i + m = n → vert.get (esBase part fron n pv k + cnt part.get fron.get k i) = esEdge g part fron n pv k + eds g part.get fron.get k i := by
    intro k hk hend m
    induction m with
    | zero =>
      intro i _ hi
      have : i = n := by omega
      rw [this]; exact hend
    | succ m ih =>
      intro i h0 hi
      by_cases hq : part.get (fron.get i) = k
      · have hside := esN_side h hpv h0 (by omega : i < n)
        have e1 : esBase part fron n pv k + cnt part.get fron.get k i = esN part fron n pv i := by unfold esN; rw [hq]
        have e2 : esEdge g part fron n pv k + eds g part.get fron.get k i = esS g part fron n pv i := by unfold esS; rw [hq]
        rw [e1, e2, hvert, Arr.set_get_ne _ _ (by omega)]
        exact I.vert i h0 (by omega)
      · have := ih (i + 1) (by omega) (by omega)
        rw [cnt_succ h0, eds_succ h0, if_neg hq, if_neg hq, Int.add_zero, Int.add_zero] at this
        exact this
  -- the second part ends at the end of arrays
  have hsec : ∀ k, (k = 0 ∨ k = 1) → k ≠ pv → vert.get (esBase part fron n pv k + cnt part.get fron.get k n) = esEdge g part fron n pv k + eds g part.get fron.get k n := by
    intro k hk hkp
    have e1 : esBase part fron n pv k + cnt part.get fron.get k n = n := by
      unfold esBase; rw [if_neg hkp]
      rcases hk with rfl | rfl <;> rcases hpv with rfl | rfl <;> omega
    have e2 : esEdge g part fron n pv k + eds g part.get fron.get k n = 2 * eds g part.get fron.get 0 n := by
      unfold esEdge; rw [if_neg hkp]
      rcases hk with rfl | rfl <;> omega
    rw [e1, e2, hvert, Arr.set_get_same]
  have hfirst : vert.get (esBase part fron n pv pv + cnt part.get fron.get pv n) = esEdge g part fron n pv pv + eds g part.get fron.get pv n := by
    obtain ⟨k, hk, hkp⟩ : ∃ k : Int, (k = 0 ∨ k = 1) ∧ k ≠ pv := by
      rcases hpv with rfl | rfl
      · exact ⟨1, by omega, by omega⟩
      · exact ⟨0, by omega, by omega⟩
    have := hone k hk (hsec k hk hkp) n.toNat 0 (Int.le_refl 0) (by omega)
    rw [cnt_zero, eds_zero] at this
    have e1 : esBase part fron n pv pv + cnt part.get fron.get pv n = esBase part fron n pv k + 0 := by
      unfold esBase; rw [if_pos rfl, if_neg hkp]; omega
    have e2 : esEdge g part fron n pv pv + eds g part.get fron.get pv n = esEdge g part fron n pv k + 0 := by
      unfold esEdge; rw [if_pos rfl, if_neg hkp]
      rcases hpv with rfl | rfl <;> omega
    rw [e1, e2]; exact this
  refine hone k hk ?_ (n - i).toNat i h0 (by omega)
  by_cases hkp : k = pv
  · subst hkp; exact hfirst
  · exact hsec k hk hkp

/-- The bipartite graph: its vertices are the ones of the frontier, and its arcs are the cut arcs. -/
structure BipOf (g : Graph) (part : Arr Int) (n : Int) (bip : Graph) (vnum : Arr Int) (pv nbrp : Int) : Prop where
  isBip : Bip bip nbrp
  base : bip.baseval = 0
  size : bip.vertnbr = n
  pv01 : pv = 0 ∨ pv = 1
  bounds : vnum.lo = 0 ∧ vnum.hi = n
  frontier : ∀ b, 0 ≤ b → b < n → Frontier g part.get (vnum.get b)
  side : ∀ b, 0 ≤ b → b < n → (b < nbrp ↔ part.get (vnum.get b) = pv)
  inj : ∀ b b', 0 ≤ b → b < n → 0 ≤ b' → b' < n → vnum.get b = vnum.get b' → b = b'
  onto : ∀ v, Frontier g part.get v → ∃ b, 0 ≤ b ∧ b < n ∧ vnum.get b = v
  arcs : ∀ b b', 0 ≤ b → b < n → 0 ≤ b' → b' < n → g.Adj (vnum.get b) (vnum.get b') → part.get (vnum.get b') ≠ part.get (vnum.get b) → bip.Adj b b'

theorem bipOf (h : EsCtx g part fron n) (hpv : pv = 0 ∨ pv = 1) {num : EsNum} (hnum : NumInv g part fron n num) {s : EsBip}
    (I : BipInv g part fron num.vnum n pv n s) {bip : Graph} (b0 : bip.baseval = 0) (b1 : bip.vertnbr = n) (b2 : bip.vertnnd = n)
    (b3 : bip.verttax = s.vert.set n (2 * eds g part.get fron.get 0 n)) (b4 : bip.vendtax = none) (b5 : ∀ a, bip.velotax = some a → a = s.velo)
    (b6 : bip.vnumtax = some s.vnum) (b7 : bip.vlbltax = none) (b8 : bip.edgetax = s.edge) (b9 : bip.edlotax = none) :
    BipOf g part n bip s.vnum pv (cnt part.get fron.get pv n) := by
  have hn := h.enum.1
  have hV : ∀ {b : Int}, bip.Vertex b ↔ 0 ≤ b ∧ b < n := by intro b; unfold Graph.Vertex; rw [b0, b2]
  -- numbers of vertices
  have hsurj : ∀ b, 0 ≤ b → b < n → ∃ j, 0 ≤ j ∧ j < n ∧ esN part fron n pv j = b := by
    intro b h1 h2
    have hi : IsInj 0 0 n (esN part fron n pv) := by
      refine ⟨fun i i1 i2 => ?_, fun i j i1 i2 j1 j2 he => esN_inj h hpv i1 (by omega) j1 (by omega) he⟩
      have := esN_side h hpv i1 (by omega)
      omega
    obtain ⟨j, j1, j2, j3⟩ := hi.surj b h1 (by omega)
    exact ⟨j, j1, by omega, j3⟩
  have hvert : ∀ j, 0 ≤ j → j < n → bip.vert (esN part fron n pv j) = esS g part fron n pv j ∧
      bip.vend (esN part fron n pv j) = esS g part fron n pv j + cutDeg g part.get (fron.get j) := by
    intro j j1 j2
    have e1 := esVert h hpv I b3 (h.part01 j1 j2) j1 (by omega : j ≤ n)
    have e2 := esVert h hpv I b3 (h.part01 j1 j2) (by omega : 0 ≤ j + 1) (by omega : j + 1 ≤ n)
    rw [cnt_succ j1, eds_succ j1, if_pos rfl, if_pos rfl] at e2
    refine ⟨e1, ?_⟩
    have : bip.vend (esN part fron n pv j) = bip.verttax.get (esN part fron n pv j + 1) := by unfold Graph.vend; rw [b4]
    rw [this]
    unfold esN esS
    rw [Int.add_assoc, Int.add_assoc]
    exact e2
  have hdest : ∀ x, bip.dest x = s.edge.get x := by intro x; unfold Graph.dest; rw [b8]
  have hNV : ∀ j w, 0 ≤ j → j < n → g.Adj (fron.get j) w → part.get w ≠ part.get (fron.get j) →
      ∃ i, 0 ≤ i ∧ i < n ∧ fron.get i = w ∧ esNV part fron num.vnum n pv w = esN part fron n pv i := by
    intro j w j1 j2 ha hp
    have hv := h.vertex j1 j2
    obtain ⟨hw, -⟩ := h.cons.adj_vertex hv ha
    have hF : Frontier g part.get w := frontier_adj.2 ⟨hw, fron.get j, h.cons.adj_symm hv ha, fun hh => hp hh.symm⟩
    obtain ⟨i, i1, i2, i3⟩ := (h.enum.2.2 w).1 hF
    exact ⟨i, i1, i2, i3, by rw [← i3]; exact esNV_eq h hpv hnum i1 i2⟩
  have hadj : ∀ j w, 0 ≤ j → j < n → (bip.Adj (esN part fron n pv j) w ↔
      ∃ i, 0 ≤ i ∧ i < n ∧ w = esN part fron n pv i ∧ g.Adj (fron.get j) (fron.get i) ∧ part.get (fron.get i) ≠ part.get (fron.get j)) := by
    intro j w j1 j2
    obtain ⟨e1, e2⟩ := hvert j j1 j2
    unfold Graph.Adj
    rw [e1, e2]
    constructor
    · rintro ⟨x, x1, x2, x3⟩
      rw [hdest] at x3
      obtain ⟨u, u1, u2, u3⟩ := I.bwd j j1 j2 x x1 x2
      obtain ⟨i, i1, i2, i3, i4⟩ := hNV j u j1 j2 u1 u2
      refine ⟨i, i1, i2, by rw [← x3, u3, i4], by rw [i3]; exact u1, by rw [i3]; exact u2⟩
    · rintro ⟨i, i1, i2, rfl, ha, hp⟩
      obtain ⟨x, x1, x2, x3⟩ := I.fwd j j1 j2 _ ha hp
      exact ⟨x, x1, x2, by rw [hdest, x3]; exact esNV_eq h hpv hnum i1 i2⟩
  have hcd : ∀ v, 0 ≤ cutDeg g part.get v := fun v => cutDeg_nonneg v
  have hvn : ∀ j, 0 ≤ j → j < n → s.vnum.get (esN part fron n pv j) = fron.get j := I.vnum'
  have hc0 := cnt_nonneg (p := part.get) (F := fron.get) (k := pv) hn
  have hcn : cnt part.get fron.get pv n ≤ n := by
    have := h.total
    have := cnt_nonneg (p := part.get) (F := fron.get) (k := 0) hn
    have := cnt_nonneg (p := part.get) (F := fron.get) (k := 1) hn
    rcases hpv with rfl | rfl <;> omega
  obtain ⟨bv1, bv2⟩ := I.bvert
  obtain ⟨bw1, bw2⟩ := I.bvelo
  obtain ⟨bn1, bn2⟩ := I.bvnum
  obtain ⟨be1, be2⟩ := I.bedge
  refine ⟨⟨?_, by omega, by omega, by omega, by omega, ?_, ?_, ?_, ?_⟩, b0, b1, hpv, I.bvnum, ?_, ?_, ?_, ?_, ?_⟩
  · refine ⟨?_, ?_, ?_, ?_, ?_, ?_, ?_, ?_, ?_⟩
    · rw [b3, b0]; show s.vert.lo ≤ 0; omega
    · rw [b3, b2]; show n ≤ s.vert.hi; omega
    · intro _; rw [b3, b2]; show n + 1 ≤ s.vert.hi; omega
    · intro a ha; rw [b4] at ha; cases ha
    · intro a ha; rw [b5 a ha, b0, b2]; omega
    · intro a ha
      rw [b6] at ha
      injection ha with ha
      rw [← ha, b0, b2]; omega
    · intro a ha; rw [b7] at ha; cases ha
    · intro v hv hlt
      obtain ⟨j, j1, j2, rfl⟩ := hsurj v (hV.1 hv).1 (hV.1 hv).2
      obtain ⟨e1, e2⟩ := hvert j j1 j2
      have hr := esS_range h hpv j1 j2
      have := eds_nonneg (g := g) (p := part.get) (F := fron.get) (k := 0) hn
      have hE : 0 ≤ esEdge g part fron n pv (part.get (fron.get j)) ∧ esEdge g part fron n pv (part.get (fron.get j)) ≤ eds g part.get fron.get 0 n := by
        unfold esEdge; split <;> omega
      rw [b8, e1, e2]
      omega
    · intro a ha; rw [b9] at ha; cases ha
  · intro v hv
    obtain ⟨j, j1, j2, rfl⟩ := hsurj v (hV.1 hv).1 (hV.1 hv).2
    obtain ⟨e1, e2⟩ := hvert j j1 j2
    have := hcd (fron.get j)
    omega
  · intro v w hv ha
    obtain ⟨j, j1, j2, rfl⟩ := hsurj v (hV.1 hv).1 (hV.1 hv).2
    obtain ⟨i, i1, i2, rfl, -, -⟩ := (hadj j w j1 j2).1 ha
    have := esN_side h hpv i1 i2
    exact hV.2 ⟨this.1, this.2.1⟩
  · intro v w hv ha
    obtain ⟨j, j1, j2, rfl⟩ := hsurj v (hV.1 hv).1 (hV.1 hv).2
    obtain ⟨i, i1, i2, rfl, -, hp⟩ := (hadj j w j1 j2).1 ha
    rw [(esN_side h hpv i1 i2).2.2, (esN_side h hpv j1 j2).2.2]
    have a := h.part01 i1 i2
    have b := h.part01 j1 j2
    omega
  · intro v w hv ha
    obtain ⟨j, j1, j2, rfl⟩ := hsurj v (hV.1 hv).1 (hV.1 hv).2
    obtain ⟨i, i1, i2, rfl, ha', hp⟩ := (hadj j w j1 j2).1 ha
    exact (hadj i _ i1 i2).2 ⟨j, j1, j2, rfl, h.cons.adj_symm (h.vertex j1 j2) ha', fun hh => hp hh.symm⟩
  · intro b h1 h2
    obtain ⟨j, j1, j2, rfl⟩ := hsurj b h1 h2
    rw [hvn j j1 j2]; exact h.enum.mem j1 j2
  · intro b h1 h2
    obtain ⟨j, j1, j2, rfl⟩ := hsurj b h1 h2
    rw [hvn j j1 j2]; exact (esN_side h hpv j1 j2).2.2
  · intro b b' h1 h2 h3 h4 he
    obtain ⟨j, j1, j2, rfl⟩ := hsurj b h1 h2
    obtain ⟨i, i1, i2, rfl⟩ := hsurj b' h3 h4
    rw [hvn j j1 j2, hvn i i1 i2] at he
    rw [h.inj j1 j2 i1 i2 he]
  · intro v hv
    obtain ⟨j, j1, j2, rfl⟩ := (h.enum.2.2 v).1 hv
    have := esN_side h hpv j1 j2
    exact ⟨_, this.1, this.2.1, hvn j j1 j2⟩
  · intro b b' h1 h2 h3 h4 ha hp
    obtain ⟨j, j1, j2, rfl⟩ := hsurj b h1 h2
    obtain ⟨i, i1, i2, rfl⟩ := hsurj b' h3 h4
    rw [hvn j j1 j2, hvn i i1 i2] at ha hp
    exact (hadj j _ j1 j2).2 ⟨i, i1, i2, rfl, ha, hp⟩

theorem esBipart_holds (h : EsCtx g part fron n) (junk : Nat → Int → Int) :
    Holds (esBipart junk g part fron n) (fun r => BipOf g part n r.1 r.2.1 r.2.2.1 r.2.2.2) := by
  have hn := h.enum.1
  have hnd := h.cons.vertnnd
  unfold esBipart
  rw [Holds_bind]
  refine Holds_forUp (fun i s => NumInv g part fron i s) hn ?_ (fun i s h1 h2 I => esNumber_holds h h1 h2 I) ?_
  · exact ⟨⟨rfl, hnd.symm⟩, fun j _ _ => by omega, eds_zero.symm, cnt_zero.symm, cnt_zero.symm⟩
  · intro num hnum
    have htot := h.total
    have hE := eds_nonneg (g := g) (p := part.get) (F := fron.get) (k := 0) hn
    dsimp only
    rw [hnum.nbr0, hnum.nbr1, hnum.edges, htot, show Int.tdiv (eds g part.get fron.get 0 n * 2) 2 = eds g part.get fron.get 0 n by
      rw [Int.tdiv_eq_ediv_of_nonneg (by omega)]; omega]
    generalize hpv : (if cnt part.get fron.get 0 n ≤ cnt part.get fron.get 1 n then (0 : Int) else 1) = pv
    have hpv01 : pv = 0 ∨ pv = 1 := by rw [← hpv]; split <;> simp
    have hnp : (if pv = 0 then cnt part.get fron.get 0 n else cnt part.get fron.get 1 n) = cnt part.get fron.get pv n := by
      rcases hpv01 with rfl | rfl <;> simp
    have he0 : (if pv = 0 then 0 else eds g part.get fron.get 0 n) = esEdge g part fron n pv 0 := by
      unfold esEdge; rcases hpv01 with rfl | rfl <;> simp
    have he1 : (if pv = 0 then eds g part.get fron.get 0 n else 0) = esEdge g part fron n pv 1 := by
      unfold esEdge; rcases hpv01 with rfl | rfl <;> simp
    rw [hnp, he0, he1, Holds_bind]
    refine Holds_forUp (fun i s => BipInv g part fron num.vnum n pv i s) hn ?_ (fun i s h1 h2 I => esBipVertex_holds h hpv01 hnum h1 h2 I) ?_
    · refine ⟨⟨rfl, rfl⟩, ⟨rfl, rfl⟩, ⟨rfl, rfl⟩, ⟨rfl, by dsimp only; omega⟩, ?_, ?_, fun j _ _ => by omega, fun j _ _ => by omega, fun j _ _ => by omega, fun j _ _ => by omega⟩
      · rw [eds_zero]; dsimp only; omega
      · rw [eds_zero]; dsimp only; omega
    · intro s I
      obtain ⟨bv1, bv2⟩ := I.bvert
      rw [Arr.wr_ok s.vert _ (by omega) (by omega), ok_bind, Holds_pure]
      refine bipOf h hpv01 hnum I rfl rfl rfl (congrArg (s.vert.set n) (Int.mul_comm _ _)) rfl ?_ rfl rfl rfl rfl
      intro a ha
      dsimp only at ha
      cases hv : g.velotax with
      | none => rw [hv] at ha; cases ha
      | some x => rw [hv] at ha; injection ha with ha; exact ha.symm

end Scotch.Separ
