import Verif.HOrder.LemmasVert

/-! # Induced halo graphs -/

set_option autoImplicit false
set_option linter.unusedSimpArgs false

namespace Scotch.HOrder
open Graph
open Band (total)
variable {g : Graph} {N halonbr : Int} {l : List Int} {V0 : Int → Int}

theorem sumI_tele {a b : Int} (h : a ≤ b) (f : Int → Int) : sumI a b (fun j => f (j + 1) - f j) = f b - f a := by
  obtain ⟨n, rfl⟩ : ∃ n : Nat, b = a + n := ⟨(b - a).toNat, by omega⟩
  clear h
  induction n with
  | zero => rw [sumI_empty (by omega)]; simp
  | succ n ih =>
    rw [show a + ((n + 1 : Nat) : Int) = a + n + 1 by omega, sumI_succ (by omega), ih]
    omega

/-- The result of the loops. -/
structure Done (g : Graph) (N halonbr : Int) (l : List Int) (V0 : Int → Int) (s : VSt) : Prop where
  inv : VInv g N halonbr l V0 s.vertnnd s
  hN : g.baseval ≤ N
  hl : ∀ y, y ∈ l ↔ ∃ j, g.baseval ≤ j ∧ j < N ∧ V0 j = y

namespace Done
variable {s : VSt}

theorem num (h : Done g N halonbr l V0 s) : Num g s.vertnnd s.vnum.get s.indx.get := h.inv.num

theorem le (h : Done g N halonbr l V0 s) {v : Int} (h1 : g.baseval ≤ v) (h2 : v < s.vertnnd) : pos s s.vertnnd v ≤ pos s s.vertnnd (v + 1) := by
  by_cases hv : v < N
  · have := (h.inv.row1 v h1 h2 hv).le; omega
  · exact (h.inv.row2 v (by omega) h2).le

theorem arc (hc : ConsE g) (h : Done g N halonbr l V0 s) {v e : Int} (h1 : g.baseval ≤ v) (h2 : v < s.vertnnd) (e1 : pos s s.vertnnd v ≤ e) (e2 : e < pos s s.vertnnd (v + 1)) :
    g.baseval ≤ s.edge.get e ∧ s.edge.get e < s.vertnnd ∧ Adj g (s.vnum.get v) (s.vnum.get (s.edge.get e)) ∧ (v < N ∨ s.edge.get e < N) ∧ (v < N → (e < s.vnhd.get v ↔ s.edge.get e < N)) := by
  have hv := (h.num.fwd v h1 h2).1
  have key : ∀ u, Adj g (s.vnum.get v) u → s.indx.get u = s.edge.get e → s.edge.get e ≠ -1 → g.baseval ≤ s.edge.get e ∧ s.edge.get e < s.vertnnd ∧ Adj g (s.vnum.get v) (s.vnum.get (s.edge.get e)) := by
    intro u k1 k2 k3
    have hu := (hc.adj_vertex hv k1).1
    have := h.num.bwd u hu (by omega)
    rw [k2] at this
    exact ⟨this.1, this.2.1, by rw [this.2.2]; exact k1⟩
  by_cases hvN : v < N
  · have hr := h.inv.row1 v h1 h2 hvN
    have hle := hr.le
    by_cases he : e < s.vnhd.get v
    · obtain ⟨u, k1, k2, k3⟩ := (hr.lo (s.edge.get e)).1 ⟨e, e1, he, rfl⟩
      have := key u k1 k2 (by rw [← k2]; exact hr.all u k1)
      exact ⟨this.1, this.2.1, this.2.2, Or.inl hvN, fun _ => ⟨fun _ => k3, fun _ => he⟩⟩
    · obtain ⟨u, k1, k2, k3⟩ := (hr.hi (s.edge.get e)).1 ⟨e, by omega, e2, rfl⟩
      have := key u k1 k2 (by rw [← k2]; exact hr.all u k1)
      exact ⟨this.1, this.2.1, this.2.2, Or.inl hvN, fun _ => by omega⟩
  · have hr := h.inv.row2 v (by omega) h2
    obtain ⟨u, k1, k2, k3, k4⟩ := (hr.lo (s.edge.get e)).1 ⟨e, e1, e2, rfl⟩
    have := key u k1 k2 k3
    exact ⟨this.1, this.2.1, this.2.2, Or.inr k4, fun h => absurd h hvN⟩

theorem arc' (hb0 : 0 ≤ g.baseval) (h : Done g N halonbr l V0 s) {v w : Int} (h1 : g.baseval ≤ v) (h2 : v < s.vertnnd) (w1 : g.baseval ≤ w) (w2 : w < s.vertnnd) (ha : Adj g (s.vnum.get v) (s.vnum.get w)) (hn : v < N ∨ w < N) :
    ∃ e, pos s s.vertnnd v ≤ e ∧ e < pos s s.vertnnd (v + 1) ∧ s.edge.get e = w ∧ (v < N → w < N → e < s.vnhd.get v) := by
  have hw := (h.num.fwd w w1 w2).2
  by_cases hvN : v < N
  · have hr := h.inv.row1 v h1 h2 hvN
    have hle := hr.le
    by_cases he : w < N
    · obtain ⟨e, k1, k2, k3⟩ := (hr.lo w).2 ⟨_, ha, hw, he⟩
      exact ⟨e, k1, by omega, k3, fun _ _ => k2⟩
    · obtain ⟨e, k1, k2, k3⟩ := (hr.hi w).2 ⟨_, ha, hw, by omega⟩
      exact ⟨e, by omega, k2, k3, fun _ h => absurd h he⟩
  · have hr := h.inv.row2 v (by omega) h2
    obtain ⟨e, k1, k2, k3⟩ := (hr.lo w).2 ⟨_, ha, hw, by omega, by omega⟩
    exact ⟨e, k1, k2, k3, fun h => absurd h hvN⟩

theorem inj (h : Done g N halonbr l V0 s) {v e e' : Int} (h1 : g.baseval ≤ v) (h2 : v < s.vertnnd) (e1 : pos s s.vertnnd v ≤ e) (e2 : e < pos s s.vertnnd (v + 1))
    (e3 : pos s s.vertnnd v ≤ e') (e4 : e' < pos s s.vertnnd (v + 1)) (he : s.edge.get e = s.edge.get e') : e = e' := by
  by_cases hv : v < N
  · exact (h.inv.row1 v h1 h2 hv).inj e e' e1 e2 e3 e4 he
  · exact (h.inv.row2 v (by omega) h2).inj e e' e1 e2 e3 e4 he

/-- Load of a vertex. -/
theorem vel (h : Done g N halonbr l V0 s) {v : Int} (h1 : g.baseval ≤ v) (h2 : v < s.vertnnd) : (match s.velo with | none => (1 : Int) | some a => a.get v) = g.velo (s.vnum.get v) := by
  unfold Graph.velo
  cases hg : g.velotax with
  | none => rw [h.inv.velo.none hg]
  | some a =>
    obtain ⟨b, k1, k2, k3, k4, k5⟩ := h.inv.velo.some a hg
    rw [k1]
    have := k4 v h1 h2
    unfold Graph.velo at this
    rw [hg] at this
    exact this

end Done

/-- The graph that is built. -/
def outG (g : Graph) (s : VSt) (vnum : Arr Int) : Graph :=
  { baseval := g.baseval
    vertnbr := s.vertnnd - g.baseval
    vertnnd := s.vertnnd
    verttax := s.vert.set s.vertnnd s.edgenum
    vendtax := none
    velotax := s.velo
    velosum := if s.velo.isSome then s.velosum else s.vertnnd - g.baseval
    vnumtax := some vnum
    vlbltax := none
    edgenbr := s.edgenum - g.baseval
    edgetax := ⟨g.baseval, g.baseval + (s.edgenum - g.baseval), s.edge.get⟩
    edlotax := none
    edlosum := s.edgenum - g.baseval
    degrmax := s.degrmax }

/-- The halo graph that is built. -/
def outH (h : Hgraph) (N : Int) (s : VSt) (vnum : Arr Int) (vnlosum : Int) : Hgraph :=
  { s := outG h.s s vnum
    vnohnbr := N - h.s.baseval
    vnohnnd := N
    vnhdtax := some s.vnhd
    vnlosum := vnlosum
    enohnbr := s.enohnbr
    enlosum := s.enohnbr
    levlnum := h.levlnum + 1 }

section
variable {s : VSt} {vnum : Arr Int}

theorem out_vert (v : Int) : (outG g s vnum).vert v = pos s s.vertnnd v := by
  show (s.vert.set s.vertnnd s.edgenum).get v = _
  rw [Arr.set_get]; rfl

theorem out_vend (v : Int) : (outG g s vnum).vend v = pos s s.vertnnd (v + 1) := out_vert (g := g) (vnum := vnum) (v + 1)

theorem out_velo (h : Done g N halonbr l V0 s) {v : Int} (hv : (outG g s vnum).Vertex v) : (outG g s vnum).velo v = g.velo (s.vnum.get v) := h.vel hv.1 hv.2

theorem out_consE (hc : ConsE g) (h : Done g N halonbr l V0 s) (hb0 : 0 ≤ g.baseval) : ConsE (outG g s vnum) := by
  have hnn := h.inv.nnd
  have hN := h.hN
  have hpn : pos s s.vertnnd s.vertnnd = s.edgenum := by unfold pos; rw [if_pos rfl]
  have htel := sumI_tele (a := g.baseval) (b := s.vertnnd) (by omega) (pos s s.vertnnd)
  rw [hpn, h.inv.start] at htel
  refine ⟨?_, ?_, ?_, ?_, ?_, ?_, ?_, ?_, ?_, ?_, ?_, ?_⟩
  · show 0 ≤ s.vertnnd - g.baseval; omega
  · show s.vertnnd = g.baseval + (s.vertnnd - g.baseval); omega
  · rintro v ⟨v1, v2⟩
    rw [out_vert, out_vend]
    exact ⟨(h.inv.posn v v1 (Int.le_of_lt v2)).1, h.le v1 v2⟩
  · rintro v e ⟨v1, v2⟩ e1 e2
    rw [out_vert] at e1; rw [out_vend] at e2
    have := h.arc hc v1 v2 e1 e2
    refine ⟨⟨this.1, this.2.1⟩, ?_⟩
    intro heq
    have heq' : s.edge.get e = v := heq
    rw [heq'] at this
    exact (hc.adj_vertex (h.num.fwd v v1 v2).1 this.2.2.1).2 rfl
  · rintro v e ⟨v1, v2⟩ e1 e2
    rw [out_vert] at e1; rw [out_vend] at e2
    have k := h.arc hc v1 v2 e1 e2
    obtain ⟨e', j1, j2, j3, _⟩ := h.arc' hb0 k.1 k.2.1 v1 v2 (hc.adj_symm (h.num.fwd v v1 v2).1 k.2.2.1) k.2.2.2.1.symm
    refine ⟨e', ?_, ?_, j3, rfl⟩
    · rw [out_vert]; exact j1
    · rw [out_vend]; exact j2
  · rintro v ⟨v1, v2⟩ e e' e1 e2 e3 e4 he
    rw [out_vert] at e1 e3; rw [out_vend] at e2 e4
    exact h.inj v1 v2 e1 e2 e3 e4 he
  · show s.edgenum - g.baseval = sumI g.baseval s.vertnnd _
    rw [← htel]
    exact sumI_congr (fun v _ _ => by rw [out_vert, out_vend])
  · rintro v hv
    rw [out_velo h hv]
    exact hc.velo _ (h.num.fwd v hv.1 hv.2).1
  · show (if s.velo.isSome then s.velosum else s.vertnnd - g.baseval) = sumI g.baseval s.vertnnd _
    rw [sumI_congr (lo := g.baseval) (hi := s.vertnnd) (f := (outG g s vnum).velo) (g := fun j => g.velo (s.vnum.get j)) (fun v v1 v2 => out_velo h ⟨v1, v2⟩)]
    cases hg : g.velotax with
    | none =>
      rw [h.inv.velo.none hg]
      have : ∀ j, g.velo (s.vnum.get j) = 1 := fun j => by unfold Graph.velo; rw [hg]
      rw [sumI_congr (g := fun _ => 1) (fun j _ _ => this j), sumI_const (by omega)]
      simp
    | some a =>
      obtain ⟨b, k1, k2, k3, k4, k5⟩ := h.inv.velo.some a hg
      rw [k1, ← k5]; rfl
  · intro v e _ _ _; show (0 : Int) ≤ 1; omega
  · show s.edgenum - g.baseval = sumI g.baseval s.vertnnd _
    rw [← htel]
    apply sumI_congr
    intro v v1 v2
    rw [out_vert, out_vend]
    have : (outG g s vnum).edlo = fun _ => 1 := rfl
    rw [this, sumI_const (h.le v1 v2)]; omega
  · refine ⟨h.inv.degr.1, ?_⟩
    rintro v ⟨v1, v2⟩
    rw [out_vert, out_vend]
    exact h.inv.degr.2 v v1 v2

theorem out_alloc (h : Done g N halonbr l V0 s) (hvn : vnum.lo = g.baseval ∧ s.vertnnd ≤ vnum.hi) : Allocated (outG g s vnum) := by
  have hnn := h.inv.nnd
  have hv := h.inv.vert
  refine ⟨?_, ?_, ?_, ?_, ?_, ?_, ?_, ?_, ?_⟩
  · show s.vert.lo ≤ g.baseval; omega
  · show s.vertnnd ≤ s.vert.hi; omega
  · intro _; show s.vertnnd + 1 ≤ s.vert.hi; omega
  · intro a ha; cases ha
  · intro a ha
    have ha' : s.velo = some a := ha
    show a.lo ≤ g.baseval ∧ s.vertnnd ≤ a.hi
    cases hg : g.velotax with
    | none => rw [h.inv.velo.none hg] at ha'; cases ha'
    | some b =>
      obtain ⟨b, k1, k2, k3, k4, k5⟩ := h.inv.velo.some b hg
      rw [k1] at ha'; cases ha'
      omega
  · intro a ha
    cases ha
    show vnum.lo ≤ g.baseval ∧ s.vertnnd ≤ vnum.hi
    omega
  · intro a ha; cases ha
  · rintro v ⟨v1, v2⟩ _
    rw [out_vert, out_vend]
    have h1 := h.inv.posn v v1 (Int.le_of_lt v2)
    have h2 := h.inv.posn (v + 1) (by have : g.baseval ≤ v := v1; omega) (by have : v < s.vertnnd := v2; omega)
    show g.baseval ≤ _ ∧ _ ≤ g.baseval + (s.edgenum - g.baseval)
    omega
  · intro a ha; cases ha

variable {h0 : Hgraph} {vnlosum : Int}

theorem out_uvert (v : Int) : (unhalo (outH h0 N s vnum vnlosum)).vert v = pos s s.vertnnd v := out_vert (g := h0.s) (vnum := vnum) v

theorem out_uconsE (hc : ConsE h0.s) (h : Done h0.s N halonbr l V0 s) (hb0 : 0 ≤ h0.s.baseval) (hvl : vnlosum = sumI h0.s.baseval N (fun j => h0.s.velo (V0 j))) : ConsE (unhalo (outH h0 N s vnum vnlosum)) := by
  have hnn := h.inv.nnd
  have hN := h.hN
  have hvend : ∀ v, (unhalo (outH h0 N s vnum vnlosum)).vend v = s.vnhd.get v := fun _ => rfl
  have hu : ∀ v, h0.s.baseval ≤ v → v < N → pos s s.vertnnd v ≤ s.vnhd.get v ∧ s.vnhd.get v ≤ pos s s.vertnnd (v + 1) := fun v v1 v2 => (h.inv.row1 v v1 (by omega) v2).le
  refine ⟨?_, ?_, ?_, ?_, ?_, ?_, ?_, ?_, ?_, ?_, ?_, ?_⟩
  · show 0 ≤ N - h0.s.baseval; omega
  · show N = h0.s.baseval + (N - h0.s.baseval); omega
  · rintro v ⟨v1, v2⟩
    replace v2 : v < N := v2
    rw [out_uvert, hvend]
    exact ⟨(h.inv.posn v v1 (by omega)).1, (hu v v1 v2).1⟩
  · rintro v e ⟨v1, v2⟩ e1 e2
    replace v2 : v < N := v2
    rw [out_uvert] at e1; rw [hvend] at e2
    have := hu v v1 v2
    have := h.arc hc v1 (by omega) e1 (by omega)
    refine ⟨⟨this.1, (this.2.2.2.2 v2).1 e2⟩, ?_⟩
    intro heq
    have heq' : s.edge.get e = v := heq
    rw [heq'] at this
    exact (hc.adj_vertex (h.num.fwd v v1 (by omega)).1 this.2.2.1).2 rfl
  · rintro v e ⟨v1, v2⟩ e1 e2
    replace v2 : v < N := v2
    rw [out_uvert] at e1; rw [hvend] at e2
    have := hu v v1 v2
    have k := h.arc hc v1 (by omega) e1 (by omega)
    have kN := (k.2.2.2.2 v2).1 e2
    obtain ⟨e', j1, j2, j3, j4⟩ := h.arc' hb0 k.1 k.2.1 v1 (by omega) (hc.adj_symm (h.num.fwd v v1 (by omega)).1 k.2.2.1) k.2.2.2.1.symm
    refine ⟨e', ?_, ?_, j3, rfl⟩
    · rw [out_uvert]; exact j1
    · exact j4 kN v2
  · rintro v ⟨v1, v2⟩ e e' e1 e2 e3 e4 he
    replace v2 : v < N := v2
    rw [out_uvert] at e1 e3; rw [hvend] at e2 e4
    have := hu v v1 v2
    exact h.inj v1 (by omega) e1 (by omega) e3 (by omega) he
  · show s.enohnbr = sumI h0.s.baseval N _
    rw [h.inv.enoh N (Or.inr ⟨rfl, hnn.1⟩)]
    exact sumI_congr (fun v _ _ => by rw [out_uvert, hvend])
  · rintro v ⟨v1, v2⟩
    replace v2 : v < N := v2
    show 0 ≤ (outG h0.s s vnum).velo v
    rw [out_velo h ⟨v1, by show v < s.vertnnd; omega⟩]
    exact hc.velo _ (h.num.fwd v v1 (by omega)).1
  · show vnlosum = sumI h0.s.baseval N _
    refine hvl.trans ?_
    apply sumI_congr
    intro v v1 v2
    rw [show (unhalo (outH h0 N s vnum vnlosum)).velo v = (outG h0.s s vnum).velo v from rfl, out_velo h ⟨v1, by show v < s.vertnnd; omega⟩, h.inv.list v v1 v2]
  · intro v e _ _ _; show (0 : Int) ≤ 1; omega
  · show s.enohnbr = sumI h0.s.baseval N _
    rw [h.inv.enoh N (Or.inr ⟨rfl, hnn.1⟩)]
    apply sumI_congr
    intro v v1 v2
    rw [out_uvert, hvend]
    have : (unhalo (outH h0 N s vnum vnlosum)).edlo = fun _ => 1 := rfl
    rw [this, sumI_const (hu v v1 v2).1]; omega
  · refine ⟨h.inv.degr.1, ?_⟩
    rintro v ⟨v1, v2⟩
    replace v2 : v < N := v2
    rw [out_uvert, hvend]
    have h1 := h.inv.degr.2 v v1 (by omega)
    have h2 := hu v v1 v2
    show _ ≤ s.degrmax
    omega

theorem out_ualloc (h : Done h0.s N halonbr l V0 s) (ha : Allocated (outG h0.s s vnum)) : Allocated (unhalo (outH h0 N s vnum vnlosum)) := by
  have hnn := h.inv.nnd
  have hv := h.inv.vert
  have hd := h.inv.vnhd
  refine ⟨ha.vlo, ?_, ?_, ?_, ?_, ?_, ?_, ?_, ?_⟩
  · show N ≤ s.vert.hi; omega
  · intro h; cases h
  · intro a ha; cases ha
    show s.vnhd.lo ≤ h0.s.baseval ∧ N ≤ s.vnhd.hi
    omega
  · intro a h1
    have h2 := ha.velo a h1
    exact ⟨h2.1, Int.le_trans hnn.1 h2.2⟩
  · intro a h1
    have h2 := ha.vnum a h1
    exact ⟨h2.1, Int.le_trans hnn.1 h2.2⟩
  · intro a ha; cases ha
  · rintro v ⟨v1, v2⟩ _
    replace v2 : v < N := v2
    replace v1 : h0.s.baseval ≤ v := v1
    rw [out_uvert]
    have h1 := h.inv.posn v v1 (by omega)
    have h2 := h.inv.posn (v + 1) (by omega) (by omega)
    have h3 := (h.inv.row1 v v1 (by omega) v2).le
    show h0.s.baseval ≤ _ ∧ s.vnhd.get v ≤ h0.s.baseval + (s.edgenum - h0.s.baseval)
    omega
  · intro a ha; cases ha

theorem out_hcons (hc : ConsE h0.s) (h : Done h0.s N halonbr l V0 s) (hb0 : 0 ≤ h0.s.baseval) (hvl : vnlosum = sumI h0.s.baseval N (fun j => h0.s.velo (V0 j))) : HCons (outH h0 N s vnum vnlosum) := by
  have hnn := h.inv.nnd
  have hN := h.hN
  refine ⟨consE_iff.1 (out_consE hc h hb0), consE_iff.1 (out_uconsE hc h hb0 hvl), ?_, ?_, ?_, rfl⟩
  · show 0 ≤ N - h0.s.baseval ∧ N - h0.s.baseval ≤ s.vertnnd - h0.s.baseval; omega
  · rintro v ⟨v1, v2⟩
    replace v2 : v < N := v2
    show s.vnhd.get v ≤ (outG h0.s s vnum).vend v ∧ ∀ e, s.vnhd.get v ≤ e → e < (outG h0.s s vnum).vend v → N ≤ s.edge.get e
    rw [out_vend]
    have h3 := (h.inv.row1 v v1 (by omega) v2).le
    refine ⟨h3.2, ?_⟩
    intro e e1 e2
    have := h.arc hc v1 (by omega) (by omega) e2
    have h4 : ¬ s.edge.get e < N := fun h => by have := (this.2.2.2.2 v2).2 h; omega
    omega
  · rintro v p ⟨v1, v2⟩ v3 hp
    replace v3 : N ≤ v := v3
    obtain ⟨e, e1, e2, e3, e4⟩ := (mem_nbrs _ v p).1 hp
    rw [show (outH h0 N s vnum vnlosum).s = outG h0.s s vnum from rfl, out_vert] at e1
    rw [show (outH h0 N s vnum vnlosum).s = outG h0.s s vnum from rfl, out_vend] at e2
    have := h.arc hc v1 v2 e1 e2
    show p.1 < N
    rw [← e3]
    show s.edge.get e < N
    omega

theorem out_induced (hc : ConsE h0.s) (h : Done h0.s N halonbr l V0 s) (hb0 : 0 ≤ h0.s.baseval) (hN : N = l.length + h0.s.baseval) (hV0 : ∀ i (hi : i < l.length), V0 (h0.s.baseval + i) = l[i])
    (hvn : ∀ j, h0.s.baseval ≤ j → j < s.vertnnd → vnum.get j = onum h0.s (s.vnum.get j)) : HInduced h0 l (outH h0 N s vnum vnlosum) s.vnum.get := by
  have hnn := h.inv.nnd
  have hadj : ∀ v w, (outG h0.s s vnum).Vertex v → (outG h0.s s vnum).Vertex w → (Adj (outG h0.s s vnum) v w ↔ Adj h0.s (s.vnum.get v) (s.vnum.get w) ∧ (v < N ∨ w < N)) := by
    rintro v w ⟨v1, v2⟩ ⟨w1, w2⟩
    constructor
    · rintro ⟨e, e1, e2, e3⟩
      rw [out_vert] at e1; rw [out_vend] at e2
      have := h.arc hc v1 v2 e1 e2
      rw [show s.edge.get e = w from e3] at this
      exact ⟨this.2.2.1, this.2.2.2.1⟩
    · rintro ⟨h1, h2⟩
      obtain ⟨e, e1, e2, e3, _⟩ := h.arc' hb0 v1 v2 w1 w2 h1 h2
      exact ⟨e, by rw [out_vert]; exact e1, by rw [out_vend]; exact e2, e3⟩
  refine ⟨rfl, ?_, ?_, ?_, ?_, ?_, hadj, ?_, ?_, h.inv.velo.none⟩
  · show N - h0.s.baseval = l.length; omega
  · intro i hi
    rw [h.inv.list _ (by omega) (by omega)]
    exact hV0 i hi
  · rintro v ⟨v1, v2⟩; exact (h.num.fwd v v1 v2).1
  · rintro v w ⟨v1, v2⟩ ⟨w1, w2⟩ he; exact h.num.inj v1 v2 w1 w2 he
  · intro x
    constructor
    · rintro ⟨v, ⟨v1, v2⟩, v3, rfl⟩; exact h.inv.ext v v3 v2
    · rintro ⟨hx, y, hy, hyx⟩
      obtain ⟨j, j1, j2, j3⟩ := (h.hl y).1 hy
      have hr := h.inv.row1 j j1 (by omega) j2
      rw [h.inv.list j j1 j2, j3] at hr
      have hi := hr.all x hyx
      have hyv : h0.s.Vertex y := by
        have := (h.num.fwd j j1 (by omega)).1
        rw [h.inv.list j j1 j2, j3] at this; exact this
      have hb := h.num.bwd x (hc.adj_vertex hyv hyx).1 hi
      refine ⟨s.indx.get x, ⟨hb.1, hb.2.1⟩, ?_, hb.2.2⟩
      show N ≤ s.indx.get x
      refine Int.not_lt.1 fun hlt => hx ((h.hl x).2 ⟨s.indx.get x, hb.1, hlt, ?_⟩)
      rw [← h.inv.list _ hb.1 hlt]; exact hb.2.2
  · rintro v hv; exact out_velo h hv
  · rintro v ⟨v1, v2⟩; exact hvn v v1 v2

end

/-- `hgraphInduceList`. -/
theorem hinduce_holds {h : Hgraph} (m : HMem) (hc : HCons h) (ha : HAlloc h) (hb0 : 0 ≤ h.s.baseval) (hnd : l.Nodup) (hl : ∀ v ∈ l, h.s.Vertex v) (h0 : 0 ≤ halonbr)
    (hcap : total h.s (fun x => x ∉ l ∧ ∃ y ∈ l, Adj h.s y x) (fun _ => 1) ≤ halonbr) :
    Holds (hinduce h m l halonbr) (fun h' => HCons h' ∧ HAlloc h' ∧ ∃ f, HInduced h l h' f) := by
  have hE : ConsE h.s := consE_iff.2 hc.whole
  have hnd2 := hE.vertnnd
  have htab : ∀ (i : Nat) (hi : i < l.length), (Arr.ofList 0 l).get i = l[i] := by
    intro i hi
    show (if (i : Int) < 0 then default else l.getD ((i : Int) - 0).toNat default) = l[i]
    rw [if_neg (by omega), show ((i : Int) - 0).toNat = i by omega, List.getD_eq_getElem?_getD, List.getElem?_eq_getElem hi]; rfl
  have hV0 : ∀ (i : Nat) (hi : i < l.length), (fun j => (Arr.ofList 0 l).get (j - h.s.baseval)) (h.s.baseval + i) = l[i] := by
    intro i hi
    dsimp only
    rw [show h.s.baseval + (i : Int) - h.s.baseval = i by omega]
    exact htab i hi
  have hVn : ∀ j, h.s.baseval ≤ j → j < l.length + h.s.baseval → ∃ (i : Nat) (hi : i < l.length), j = h.s.baseval + i ∧ (Arr.ofList 0 l).get (j - h.s.baseval) = l[i] := by
    intro j j1 j2
    exact ⟨(j - h.s.baseval).toNat, by omega, by omega, by rw [← htab _ (by omega)]; congr 1; omega⟩
  generalize hV : (fun j => (Arr.ofList 0 l).get (j - h.s.baseval)) = V0 at hV0
  have hVj : ∀ j, (Arr.ofList 0 l).get (j - h.s.baseval) = V0 j := fun j => by rw [← hV]
  have hll : ∀ y, y ∈ l ↔ ∃ j, h.s.baseval ≤ j ∧ j < l.length + h.s.baseval ∧ V0 j = y := by
    intro y
    constructor
    · intro hy
      obtain ⟨i, hi, rfl⟩ := List.getElem_of_mem hy
      exact ⟨h.s.baseval + i, by omega, by omega, hV0 i hi⟩
    · rintro ⟨j, j1, j2, rfl⟩
      obtain ⟨i, hi, k1, k2⟩ := hVn j j1 j2
      rw [hVj] at k2; rw [k2]
      exact List.getElem_mem hi
  have hVinj : ∀ j k, h.s.baseval ≤ j → j < l.length + h.s.baseval → h.s.baseval ≤ k → k < l.length + h.s.baseval → V0 j = V0 k → j = k := by
    intro j k j1 j2 k1 k2 he
    obtain ⟨i, hi, a1, a2⟩ := hVn j j1 j2
    obtain ⟨i', hi', b1, b2⟩ := hVn k k1 k2
    rw [hVj] at a2 b2
    have := (List.Nodup.getElem_inj_iff hnd).1 (a2.symm.trans (he.trans b2))
    omega
  unfold hinduce
  rw [Holds_bind]
  refine Holds_forUp (fun i (t : Arr Int) => t.lo = h.s.baseval ∧ t.hi = h.s.baseval + (l.length + halonbr) ∧ ∀ j, h.s.baseval ≤ j → j < i + h.s.baseval → t.get j = V0 j) (by omega) ?_ ?_ ?_
  · exact ⟨rfl, rfl, fun j j1 j2 => by omega⟩
  · rintro i t i1 i2 ⟨k1, k2, k3⟩
    rw [Arr.rd_ok _ (show (0 : Int) ≤ i by omega) (show i < 0 + (l.length : Int) by omega), ok_bind, Arr.wr_ok _ _ (by omega) (by omega), Holds_ok]
    refine ⟨k1, k2, ?_⟩
    intro j j1 j2
    rw [Arr.set_get]
    by_cases hj : j = i + h.s.baseval
    · rw [if_pos hj, ← hVj]; congr 1; omega
    · rw [if_neg hj]; exact k3 j j1 (by omega)
  rintro vn ⟨n1, n2, n3⟩
  rw [Holds_bind]
  refine Holds_forUp (fun i (t : Arr Int) => t.lo = h.s.baseval ∧ t.hi = h.s.vertnnd ∧ Num h.s i V0 t.get) (by omega) ?_ ?_ ?_
  · refine ⟨rfl, ?_, ?_, ?_⟩
    · show h.s.baseval + h.s.vertnbr = _; omega
    · intro i i1 i2; omega
    · intro w _ hw; exact absurd rfl hw
  · rintro i t i1 i2 ⟨k1, k2, k3⟩
    have hm := (hll (V0 i)).2 ⟨i, i1, i2, rfl⟩
    have hv := hl _ hm
    have v1 := hv.1
    have v2 := hv.2
    rw [Arr.rd_ok _ (by omega) (by omega), ok_bind, n3 i i1 i2, Arr.wr_ok _ _ (by omega) (by omega), Holds_ok]
    refine ⟨k1, k2, ?_, ?_⟩
    · intro j j1 j2
      by_cases hj : j = i
      · rw [hj, Arr.set_get_same]; exact ⟨hv, rfl⟩
      · rw [Arr.set_get_ne _ _ (fun he => hj (hVinj _ _ j1 (by omega) i1 i2 he))]
        exact k3.fwd j j1 (by omega)
    · intro w hw
      rw [Arr.set_get]
      by_cases hwi : w = V0 i
      · rw [if_pos hwi]; intro _; exact ⟨i1, by omega, hwi.symm⟩
      · rw [if_neg hwi]
        intro hx
        have := k3.bwd w hw hx
        exact ⟨this.1, by omega, this.2.2⟩
  rintro ix ⟨x1, x2, x3⟩
  rw [Holds_bind]
  have hcap' : total h.s (Ext h.s l) (fun _ => 1) ≤ halonbr := hcap
  refine Holds_forUp (VInv h.s (l.length + h.s.baseval) halonbr l V0) (by omega) ?_ (fun i s i1 i2 I => vert1_holds hE ha.whole (by omega) hcap' h0 hb0 (fun y hy => (hll y).1 hy)
    (fun j j1 j2 => (hll _).2 ⟨j, j1, j2, rfl⟩) i1 i2 I) ?_
  · refine ⟨⟨rfl, by dsimp only; omega⟩, ⟨rfl, by dsimp only; omega⟩, ⟨n1, by dsimp only; omega⟩, ⟨rfl, ?_⟩, ⟨x1, x2⟩, ?_, ?_, ?_, n3, ?_, ?_, ?_, ?_, ?_, ?_, ?_, ?_⟩
    · show h.s.baseval + edgeSize h.s (l.length + halonbr) = _
      rw [show (l.length : Int) + h.s.baseval - h.s.baseval + halonbr = l.length + halonbr by omega]
    · constructor
      · intro i i1 i2
        dsimp only at i2 ⊢
        rw [n3 i i1 i2]; exact x3.fwd i i1 i2
      · intro w hw hx
        have := x3.bwd w hw hx
        refine ⟨this.1, this.2.1, ?_⟩
        dsimp only
        rw [n3 _ this.1 this.2.1]; exact this.2.2
    · dsimp only; omega
    · intro i i1 i2; dsimp only at i2; omega
    · unfold pos; rw [if_pos rfl]
    · intro j j1 j2
      have : j = h.s.baseval := by omega
      unfold pos; rw [if_pos this]; exact ⟨Int.le_refl _, Int.le_refl _⟩
    · rw [sumI_empty (by omega)]; dsimp only; omega
    · intro j j1 j2; omega
    · intro j j1 j2; omega
    · intro k hk
      rw [sumI_empty (by omega)]
    · refine ⟨fun hg => by dsimp only; rw [hg]; rfl, ?_⟩
      intro a hg
      refine ⟨⟨h.s.baseval, h.s.baseval + (l.length + halonbr), m.velo⟩, by dsimp only; rw [hg]; rfl, rfl, by dsimp only; omega, fun j j1 j2 => by omega, ?_⟩
      rw [sumI_empty (by omega)]
    · exact ⟨Int.le_refl _, fun j j1 j2 => by omega⟩
  intro s1 I1
  have hnn := I1.nnd
  have hvl : (if s1.velo.isSome then s1.velosum else (l.length : Int)) = sumI h.s.baseval (l.length + h.s.baseval) (fun j => h.s.velo (V0 j)) := by
    cases hg : h.s.velotax with
    | none =>
      rw [I1.velo.none hg]
      have : ∀ j, h.s.velo (V0 j) = 1 := fun j => by unfold Graph.velo; rw [hg]
      rw [sumI_congr (g := fun _ => 1) (fun j _ _ => this j), sumI_const (by omega)]
      simp
    | some a =>
      obtain ⟨b, k1, k2, k3, k4, k5⟩ := I1.velo.some a hg
      rw [k1, k5]
      exact sumI_congr (fun j j1 j2 => by rw [I1.list j j1 j2])
  rw [Holds_bind]
  refine Holds_forUp (fun i s => VInv h.s (l.length + h.s.baseval) halonbr l V0 i s ∧ s.vertnnd = s1.vertnnd) (by omega) ⟨I1, rfl⟩ ?_ ?_
  · rintro i s i1 i2 ⟨I, he⟩
    exact (vert2_holds hE ha.whole (by omega) i1 (by omega) I).mono (fun t ht => ⟨ht.1, ht.2.trans he⟩)
  rintro s ⟨I, he⟩
  rw [← he] at I
  have D : Done h.s (l.length + h.s.baseval) halonbr l V0 s := ⟨I, by omega, hll⟩
  have hnn2 := I.nnd
  have hvb := I.vert
  have hnb := I.vnum
  rw [Arr.wr_ok _ _ (by omega) (by omega), ok_bind, Holds_bind]
  refine (vnum_holds ha.whole (by omega) (by omega) (fun j j1 j2 => (D.num.fwd j j1 j2).1)).mono ?_
  rintro vnum ⟨y1, y2, y3⟩
  rw [Holds_pure]
  have hout : (outH h (l.length + h.s.baseval) s vnum (if s1.velo.isSome then s1.velosum else (l.length : Int))) =
      { s := outG h.s s vnum, vnohnbr := l.length, vnohnnd := l.length + h.s.baseval, vnhdtax := some s.vnhd, vnlosum := if s1.velo.isSome then s1.velosum else (l.length : Int), enohnbr := s.enohnbr, enlosum := s.enohnbr, levlnum := h.levlnum + 1 } := by
    unfold outH
    rw [show (l.length : Int) + h.s.baseval - h.s.baseval = l.length by omega]
  have hal := out_alloc (vnum := vnum) D ⟨y1.trans hnb.1, by omega⟩
  have r1 := out_hcons (vnum := vnum) hE D hb0 hvl
  have r2 : HAlloc (outH h (l.length + h.s.baseval) s vnum (if s1.velo.isSome then s1.velosum else (l.length : Int))) := ⟨hal, out_ualloc D hal⟩
  have r3 := out_induced (vnlosum := (if s1.velo.isSome then s1.velosum else (l.length : Int))) hE D hb0 rfl hV0 y3
  rw [hout] at r1 r2 r3
  exact ⟨r1, r2, _, r3⟩

end Scotch.HOrder
