import Verif.HOrder.LemmasInduce

/-! # Induced halo graphs: vertices -/

set_option autoImplicit false
set_option linter.unusedSimpArgs false

namespace Scotch.HOrder
open Graph
open Band (total)
variable {g : Graph} {N halonbr : Int} {l : List Int} {V0 : Int → Int}

/-- First arc of vertex `j`, once the vertices before `i` have been processed. -/
def pos (s : VSt) (i j : Int) : Int := if j = i then s.edgenum else s.vert.get j

/-- Loads. -/
structure VeloOk (g : Graph) (top i : Int) (vnum : Int → Int) (velo : Option (Arr Int)) (velosum : Int) : Prop where
  none : g.velotax = none → velo = none
  some : ∀ a, g.velotax = some a → ∃ b, velo = some b ∧ b.lo = g.baseval ∧ b.hi = top ∧ (∀ j, g.baseval ≤ j → j < i → b.get j = g.velo (vnum j)) ∧
    velosum = sumI g.baseval i (fun j => g.velo (vnum j))

theorem VeloOk.congr {top i : Int} {vnum vnum' : Int → Int} {velo : Option (Arr Int)} {velosum : Int} (h : VeloOk g top i vnum velo velosum) (hv : ∀ j, g.baseval ≤ j → j < i → vnum' j = vnum j) :
    VeloOk g top i vnum' velo velosum := by
  refine ⟨h.none, ?_⟩
  intro a ha
  obtain ⟨b, h1, h2, h3, h4, h5⟩ := h.some a ha
  refine ⟨b, h1, h2, h3, ?_, ?_⟩
  · intro j j1 j2; rw [hv j j1 j2]; exact h4 j j1 j2
  · rw [h5]; exact sumI_congr (fun j j1 j2 => by rw [hv j j1 j2])

theorem copyVelo_holds (ha : Allocated g) {top i org : Int} {s : VSt} (hi : g.baseval ≤ i) (hi2 : i < top) (ho : s.vnum.get i = org) (hv : g.Vertex org) (h : VeloOk g top i s.vnum.get s.velo s.velosum) :
    Holds (copyVelo g i org s) (fun t => ∃ v x, t = { s with velo := v, velosum := x } ∧ VeloOk g top (i + 1) s.vnum.get v x) := by
  unfold copyVelo
  cases hg : g.velotax with
  | none =>
    dsimp only
    rw [Holds_pure]
    exact ⟨s.velo, s.velosum, rfl, h.none, fun a h => by rw [hg] at h; cases h⟩
  | some a =>
    obtain ⟨b, h1, h2, h3, h4, h5⟩ := h.some a hg
    have hb := ha.velo a hg
    have v1 := hv.1
    have v2 := hv.2
    have hgv : g.velo org = a.get org := by unfold Graph.velo; rw [hg]
    rw [h1]
    dsimp only
    rw [Arr.rd_ok _ (by omega) (by omega), ok_bind, Arr.wr_ok _ _ (by omega) (by omega), ok_bind, Holds_pure]
    refine ⟨_, _, rfl, ⟨fun h => (by rw [hg] at h; cases h), ?_⟩⟩
    intro a' ha'
    refine ⟨_, rfl, h2, h3, ?_, ?_⟩
    · intro j j1 j2
      rw [Arr.set_get]
      by_cases hj : j = i
      · rw [if_pos hj, hj, ho, hgv]
      · rw [if_neg hj]; exact h4 j j1 (by omega)
    · rw [sumI_succ hi, ← h5, ho, hgv]

/-- State of the loops on vertices. -/
structure VInv (g : Graph) (N halonbr : Int) (l : List Int) (V0 : Int → Int) (i : Int) (s : VSt) : Prop where
  vert : s.vert.lo = g.baseval ∧ s.vert.hi = N + halonbr + 1
  vnhd : s.vnhd.lo = g.baseval ∧ s.vnhd.hi = N
  vnum : s.vnum.lo = g.baseval ∧ s.vnum.hi = N + halonbr
  edge : s.edge.lo = g.baseval ∧ s.edge.hi = g.baseval + edgeSize g (N - g.baseval + halonbr)
  indx : s.indx.lo = g.baseval ∧ s.indx.hi = g.vertnnd
  num : Num g s.vertnnd s.vnum.get s.indx.get
  nnd : N ≤ s.vertnnd ∧ s.vertnnd ≤ N + halonbr
  ext : ∀ i, N ≤ i → i < s.vertnnd → Ext g l (s.vnum.get i)
  list : ∀ j, g.baseval ≤ j → j < N → s.vnum.get j = V0 j
  start : pos s i g.baseval = g.baseval
  posn : ∀ j, g.baseval ≤ j → j ≤ i → g.baseval ≤ pos s i j ∧ pos s i j ≤ s.edgenum
  sum : s.edgenum - g.baseval ≤ sumI g.baseval i (fun j => g.vend (s.vnum.get j) - g.vert (s.vnum.get j))
  row1 : ∀ j, g.baseval ≤ j → j < i → j < N → Row1 g N (s.vnum.get j) (pos s i j) (s.vnhd.get j) (pos s i (j + 1)) s.edge.get s.indx.get
  row2 : ∀ j, N ≤ j → j < i → Row2 g N (s.vnum.get j) (pos s i j) (pos s i (j + 1)) s.edge.get s.indx.get
  enoh : ∀ k, (k = i ∧ i ≤ N ∨ k = N ∧ N ≤ i) → s.enohnbr = sumI g.baseval k (fun j => s.vnhd.get j - pos s i j)
  velo : VeloOk g (N + halonbr) i s.vnum.get s.velo s.velosum
  degr : 0 ≤ s.degrmax ∧ ∀ j, g.baseval ≤ j → j < i → pos s i (j + 1) - pos s i j ≤ s.degrmax

/-- What remains of `hinduce` for a vertex. -/
theorem VInv.step {i : Int} {s t : VSt} (hN : g.baseval ≤ N) (hi : g.baseval ≤ i) (hi2 : i < s.vertnnd) (h : VInv g N halonbr l V0 i s)
    (hvert : t.vert = s.vert.set i s.edgenum) (hvnhd : t.vnhd.lo = s.vnhd.lo ∧ t.vnhd.hi = s.vnhd.hi ∧ ∀ j, j < N → j < i → t.vnhd.get j = s.vnhd.get j)
    (hbnd : t.vnum.lo = s.vnum.lo ∧ t.vnum.hi = s.vnum.hi ∧ t.edge.lo = s.edge.lo ∧ t.edge.hi = s.edge.hi ∧ t.indx.lo = s.indx.lo ∧ t.indx.hi = s.indx.hi)
    (hnum : Num g t.vertnnd t.vnum.get t.indx.get) (hnnd : s.vertnnd ≤ t.vertnnd ∧ t.vertnnd ≤ N + halonbr) (hext : ∀ i, N ≤ i → i < t.vertnnd → Ext g l (t.vnum.get i))
    (hvold : ∀ j, g.baseval ≤ j → j < s.vertnnd → t.vnum.get j = s.vnum.get j) (hiold : ∀ w, g.Vertex w → s.indx.get w ≠ -1 → t.indx.get w = s.indx.get w)
    (hsame : N < i + 1 → t.indx.get = s.indx.get)
    (hc : ConsE g)
    (heold : ∀ k, k < s.edgenum → t.edge.get k = s.edge.get k) (hedge : s.edgenum ≤ t.edgenum ∧ t.edgenum - s.edgenum ≤ g.vend (s.vnum.get i) - g.vert (s.vnum.get i))
    (hrow1 : i < N → Row1 g N (s.vnum.get i) s.edgenum (t.vnhd.get i) t.edgenum t.edge.get t.indx.get)
    (hrow2 : N ≤ i → Row2 g N (s.vnum.get i) s.edgenum t.edgenum t.edge.get t.indx.get)
    (henoh : i < N → t.enohnbr = s.enohnbr - s.edgenum + t.vnhd.get i) (henoh2 : N ≤ i → t.enohnbr = s.enohnbr)
    (hvelo : VeloOk g (N + halonbr) (i + 1) s.vnum.get t.velo t.velosum)
    (hdeg : s.degrmax ≤ t.degrmax ∧ t.edgenum - s.edgenum ≤ t.degrmax) : VInv g N halonbr l V0 (i + 1) t := by
  have hp : ∀ j, j ≤ i → pos t (i + 1) j = pos s i j := by
    intro j hj
    unfold pos
    rw [if_neg (by omega), hvert, Arr.set_get]
  have hp1 : pos t (i + 1) (i + 1) = t.edgenum := by unfold pos; rw [if_pos rfl]
  have hp0 : pos s i i = s.edgenum := by unfold pos; rw [if_pos rfl]
  have hvn : ∀ j, g.baseval ≤ j → j ≤ i → t.vnum.get j = s.vnum.get j := fun j j1 j2 => hvold j j1 (by omega)
  refine ⟨by rw [hvert]; exact h.vert, by have := h.vnhd; omega, by have := h.vnum; omega, by have := h.edge; omega, by have := h.indx; omega, hnum, by have := h.nnd; omega, hext, ?_, ?_, ?_, ?_, ?_, ?_, ?_, ?_, ?_⟩
  · intro j j1 j2
    have := h.nnd
    rw [hvold j j1 (by omega)]
    exact h.list j j1 j2
  · rw [hp _ hi]; exact h.start
  · intro j j1 j2
    by_cases hj : j = i + 1
    · have h3 := h.posn i hi (Int.le_refl _)
      rw [hp0] at h3
      rw [hj, hp1]; omega
    · rw [hp j (by omega)]
      have := h.posn j j1 (by omega)
      omega
  · rw [sumI_succ hi, hvn i hi (Int.le_refl _), sumI_congr (fun j j1 j2 => by rw [hvn j j1 (by omega)])]
    have := h.sum
    omega
  · intro j j1 j2 j3
    rw [hvn j j1 (by omega), hp j (by omega)]
    by_cases hj : j = i
    · rw [hj, hp1, hp0]; exact hrow1 (by omega)
    · rw [hp (j + 1) (by omega)]
      have h3 := h.row1 j j1 (by omega) j3
      rw [hvnhd.2.2 j j3 (by omega)]
      have h4 := h.posn (j + 1) (by omega) (by omega)
      have h5 := (h.num.fwd j j1 (by have := h.nnd; omega)).1
      exact h3.congr (fun e e1 e2 => heold e (by omega)) (fun w hw h => hiold w (hc.adj_vertex h5 hw).1 h)
  · intro j j1 j2
    rw [hvn j (by omega) (by omega), hp j (by omega)]
    by_cases hj : j = i
    · rw [hj, hp1, hp0]; exact hrow2 (by omega)
    · rw [hp (j + 1) (by omega)]
      have h3 := h.row2 j j1 (by omega)
      have h4 := h.posn (j + 1) (by omega) (by omega)
      rw [hsame (by omega)]
      exact h3.congr (fun e e1 e2 => heold e (by omega))
  · intro k hk
    by_cases hiN : i < N
    · have hk' : k = i + 1 := by omega
      rw [hk', sumI_succ hi, henoh hiN, h.enoh i (Or.inl ⟨rfl, by omega⟩), hp i (Int.le_refl _), hp0,
        sumI_congr (f := fun j => t.vnhd.get j - pos t (i + 1) j) (g := fun j => s.vnhd.get j - pos s i j) (fun j j1 j2 => by rw [hp j (by omega), hvnhd.2.2 j (by omega) j2])]
      omega
    · have hk' : k = N := by omega
      rw [hk', henoh2 (by omega), h.enoh N (Or.inr ⟨rfl, by omega⟩)]
      exact sumI_congr (fun j j1 j2 => by rw [hp j (by omega), hvnhd.2.2 j (by omega) (by omega)])
  · exact hvelo.congr (fun j j1 j2 => hvn j j1 (by omega))
  · refine ⟨by have := h.degr.1; omega, ?_⟩
    intro j j1 j2
    rw [hp j (by omega)]
    by_cases hj : j = i
    · rw [hj, hp1, hp0]; omega
    · rw [hp (j + 1) (by omega)]
      have := h.degr.2 j j1 (by omega)
      omega

/-- The edge array is large enough. -/
theorem VInv.cap (hc : ConsE g) {i : Int} {s : VSt} (hN : g.baseval ≤ N) (hi : g.baseval ≤ i) (hi2 : i < s.vertnnd) (h : VInv g N halonbr l V0 i s) :
    s.edgenum + (g.vend (s.vnum.get i) - g.vert (s.vnum.get i)) ≤ s.edge.hi := by
  have h1 := degrees hc h.num (i := i + 1) (by omega) (by omega)
  rw [sumI_succ hi] at h1
  have h2 := h.sum
  have h3 := h.nnd
  have h4 : (i + 1 - g.baseval) * g.degrmax ≤ (N - g.baseval + halonbr) * g.degrmax := Int.mul_le_mul_of_nonneg_right (by omega) hc.degrmax.1
  rw [h.edge.2]
  unfold edgeSize
  split <;> omega

theorem room' {nnd : Int} {vnum indx : Int → Int} (hN : g.baseval ≤ N) (hle : N ≤ nnd) (h : Num g nnd vnum indx) (hext : ∀ i, N ≤ i → i < nnd → Ext g l (vnum i))
    (hcap : total g (Ext g l) (fun _ => 1) ≤ halonbr) (h0 : 0 ≤ halonbr) : nnd ≤ N + halonbr := by
  by_cases hn : nnd = N
  · omega
  · have h2 : Num g (nnd - 1) vnum (fun w => if indx w = nnd - 1 then -1 else indx w) := by
      constructor
      · intro i i1 i2
        have := h.fwd i i1 (by omega)
        rw [this.2, if_neg (by omega)]
        exact ⟨this.1, rfl⟩
      · intro w hw
        by_cases he : indx w = nnd - 1
        · rw [if_pos he]; intro h; exact absurd rfl h
        · rw [if_neg he]
          intro h1
          have := h.bwd w hw h1
          exact ⟨this.1, by omega, this.2.2⟩
    have h3 := h.fwd (nnd - 1) (by omega) (by omega)
    have := room (w := vnum (nnd - 1)) hN (by omega) h2 (fun i i1 i2 => hext i i1 (by omega)) h3.1 (hext _ (by omega) (by omega))
      (fun i i1 i2 he => by have := h.inj (by omega) (by omega) (by omega) (by omega) he; omega) hcap
    omega

theorem vert1_holds (hc : ConsE g) (ha : Allocated g) {i : Int} {s : VSt} (hN : g.baseval ≤ N) (hcap : total g (Ext g l) (fun _ => 1) ≤ halonbr) (h0 : 0 ≤ halonbr) (hb0 : 0 ≤ g.baseval)
    (hl : ∀ y ∈ l, ∃ j, g.baseval ≤ j ∧ j < N ∧ V0 j = y) (hl2 : ∀ j, g.baseval ≤ j → j < N → V0 j ∈ l) (hi : g.baseval ≤ i) (hi2 : i < N) (h : VInv g N halonbr l V0 i s) :
    Holds (vert1 g N i s) (VInv g N halonbr l V0 (i + 1)) := by
  have hnn := h.nnd
  have hv := (h.num.fwd i hi (by omega)).1
  have hvr := hc.range _ hv
  have hl' : ∀ y ∈ l, s.indx.get y ≠ -1 ∧ g.Vertex y := by
    intro y hy
    obtain ⟨j, j1, j2, j3⟩ := hl y hy
    have := h.num.fwd j j1 (by omega)
    rw [h.list j j1 j2, j3] at this
    exact ⟨by omega, this.1⟩
  have horg : s.vnum.get i ∈ l := by rw [h.list i hi hi2]; exact hl2 i hi hi2
  have hpe := h.posn i hi (Int.le_refl _)
  have hcp := h.cap hc hN hi (by omega)
  obtain ⟨e1, e2⟩ := h.edge
  obtain ⟨v1, v2⟩ := h.vert
  obtain ⟨n1, n2⟩ := h.vnum
  obtain ⟨x1, x2⟩ := h.indx
  obtain ⟨d1, d2⟩ := h.vnhd
  unfold vert1
  rw [Arr.rd_ok _ (by omega) (by omega), ok_bind, Arr.wr_ok _ _ (by omega) (by omega), ok_bind, Holds_bind]
  refine (copyVelo_holds ha (s := { s with vert := s.vert.set i s.edgenum, enohnbr := s.enohnbr - s.edgenum }) hi (by omega : i < N + halonbr) rfl hv h.velo).mono ?_
  rintro _ ⟨vl, vs, rfl, hvelo⟩
  dsimp only at hvelo ⊢
  have hvo1 := hv.1
  have hvo2 := hv.2
  have hal := ha.vlo
  have hah := ha.vhi
  rw [Arr.rd_ok _ (by omega) (by omega), ok_bind, rdVend_eq ha hv, ok_bind, Holds_bind]
  have hvert : g.verttax.get (s.vnum.get i) = g.vert (s.vnum.get i) := rfl
  rw [hvert]
  refine Holds_forArcs ha hv hvr.2 (AInv g N l (s.vnum.get i) s.edgenum (s.edgenum + (g.vend (s.vnum.get i) - g.vert (s.vnum.get i)))
    ⟨s.edge, s.indx, s.vnum, s.vertnnd, s.edgenum, s.edgenum + (g.vend (s.vnum.get i) - g.vert (s.vnum.get i))⟩) ?_ ?_ ?_
  · refine ⟨⟨rfl, rfl, rfl, rfl, rfl, rfl⟩, h.num, Int.le_refl _, fun _ _ _ => rfl, fun _ _ _ => rfl, h.ext, ?_, ?_, ?_, ?_, fun _ _ => rfl⟩
    · dsimp only; omega
    · intro e' k1 k2; omega
    · intro k hk; dsimp only at hk; omega
    · intro k k' hk; dsimp only at hk; omega
  · intro e a k1 k2 I
    exact arc1_holds hc hN (by dsimp only; omega) hcap hl' hb0 (by dsimp only; omega) (by dsimp only; omega) rfl horg hv k1 k2 I
  · intro a I
    obtain ⟨r1, r2⟩ := I.row rfl
    obtain ⟨bnd, num, nnd, vold, iold, ext, cnt, fill, src, inj, frame⟩ := I
    dsimp only at bnd nnd vold iold frame
    rw [Arr.wr_ok _ _ (by omega) (by omega), ok_bind, Holds_pure]
    refine h.step hN hi (by omega) rfl ⟨rfl, rfl, ?_⟩ ?_ num ⟨nnd, room' hN (Int.le_trans hnn.1 nnd) num ext hcap h0⟩ ext vold iold (fun h => absurd h (by omega)) hc frame ?_ ?_ ?_ ?_ ?_ hvelo ?_
    · intro j j1 j2
      exact Arr.set_get_ne _ _ (by omega)
    · exact ⟨bnd.2.2.2.2.1, bnd.2.2.2.2.2, bnd.1, bnd.2.1, bnd.2.2.1, bnd.2.2.2.1⟩
    · dsimp only; omega
    · intro _
      dsimp only
      rw [Arr.set_get_same]
      exact r2
    · intro; omega
    · intro _
      dsimp only
      rw [Arr.set_get_same]
    · intro; omega
    · dsimp only; split <;> omega

theorem vert2_holds (hc : ConsE g) (ha : Allocated g) {i : Int} {s : VSt} (hN : g.baseval ≤ N) (hi : N ≤ i) (hi2 : i < s.vertnnd) (h : VInv g N halonbr l V0 i s) :
    Holds (vert2 g N i s) (fun t => VInv g N halonbr l V0 (i + 1) t ∧ t.vertnnd = s.vertnnd) := by
  have hnn := h.nnd
  have hv := (h.num.fwd i (by omega) (by omega)).1
  have hvr := hc.range _ hv
  have hpe := h.posn i (by omega) (Int.le_refl _)
  have hp0 : pos s i i = s.edgenum := by unfold pos; rw [if_pos rfl]
  have hcp := h.cap hc hN (by omega) (by omega)
  obtain ⟨e1, e2⟩ := h.edge
  obtain ⟨v1, v2⟩ := h.vert
  obtain ⟨n1, n2⟩ := h.vnum
  obtain ⟨x1, x2⟩ := h.indx
  unfold vert2
  rw [Arr.rd_ok _ (by omega) (by omega), ok_bind, Arr.wr_ok _ _ (by omega) (by omega), ok_bind, Holds_bind]
  refine (copyVelo_holds ha (s := { s with vert := s.vert.set i s.edgenum }) (by omega) (by omega : i < N + halonbr) rfl hv h.velo).mono ?_
  rintro _ ⟨vl, vs, rfl, hvelo⟩
  dsimp only at hvelo ⊢
  rw [Holds_bind]
  refine (arcs2_holds (N := N) hc ha hv (s := ⟨s.edge, s.indx, s.vnum, s.vertnnd, s.edgenum, 0⟩) h.num (by dsimp only; omega) (by dsimp only; omega)).mono ?_
  rintro a ⟨r1, r2, r3, r4, r5⟩
  dsimp only at r1 r2 r3 r4 r5 ⊢
  rw [Arr.rd_ok _ (by rw [Arr.set_lo]; omega) (by rw [Arr.set_hi]; omega), ok_bind, Holds_pure, Arr.set_get_same]
  have := r1.le
  refine ⟨h.step hN (by omega) hi2 rfl ⟨rfl, rfl, fun _ _ _ => rfl⟩ ⟨rfl, rfl, r4, r5, rfl, rfl⟩ h.num ⟨Int.le_refl _, hnn.2⟩ h.ext (fun _ _ _ => rfl) (fun _ _ _ => rfl) (fun _ => rfl) hc r3
    ?_ ?_ ?_ ?_ ?_ hvelo ?_, rfl⟩
  · dsimp only; omega
  · intro; omega
  · intro _; exact r1
  · intro; omega
  · intro _; rfl
  · dsimp only; split <;> omega

/-- Reference to the graph that is ordered. -/
theorem vnum_holds (ha : Allocated g) {vnum : Arr Int} {nnd : Int} (hn : g.baseval ≤ nnd) (hb : vnum.lo ≤ g.baseval ∧ nnd ≤ vnum.hi) (hv : ∀ j, g.baseval ≤ j → j < nnd → g.Vertex (vnum.get j)) :
    Holds (induceVnum g vnum nnd) (fun a => a.lo = vnum.lo ∧ a.hi = vnum.hi ∧ ∀ j, g.baseval ≤ j → j < nnd → a.get j = onum g (vnum.get j)) := by
  unfold induceVnum onum
  cases hg : g.vnumtax with
  | none => dsimp only; rw [Holds_pure]; exact ⟨rfl, rfl, fun _ _ _ => rfl⟩
  | some b =>
    have hba := ha.vnum b hg
    dsimp only
    refine Holds_forUp (fun i (a : Arr Int) => a.lo = vnum.lo ∧ a.hi = vnum.hi ∧ (∀ j, i ≤ j → a.get j = vnum.get j) ∧ ∀ j, g.baseval ≤ j → j < i → a.get j = b.get (vnum.get j)) hn ?_ ?_ ?_
    · exact ⟨rfl, rfl, fun _ _ => rfl, fun j j1 j2 => by omega⟩
    · rintro i a i1 i2 ⟨k1, k2, k3, k4⟩
      have h1 := (hv i i1 i2).1
      have h2 := (hv i i1 i2).2
      rw [Arr.rd_ok _ (by omega) (by omega), ok_bind, k3 i (Int.le_refl _), Arr.rd_ok _ (by omega) (by omega), ok_bind, Arr.wr_ok _ _ (by omega) (by omega), Holds_ok]
      refine ⟨k1, k2, ?_, ?_⟩
      · intro j hj
        rw [Arr.set_get_ne _ _ (by omega)]
        exact k3 j (by omega)
      · intro j j1 j2
        rw [Arr.set_get]
        by_cases hj : j = i
        · rw [if_pos hj, hj]
        · rw [if_neg hj]; exact k4 j j1 (by omega)
    · rintro a ⟨k1, k2, k3, k4⟩
      exact ⟨k1, k2, k4⟩

end Scotch.HOrder
