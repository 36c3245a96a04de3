import Verif.Separ.ModelGp
import Verif.Separ.LemmasBasic

/-! # Separation by the Gibbs-Poole-Stockmeyer method -/

set_option autoImplicit false
set_option linter.unusedSimpArgs false

namespace Scotch.Separ
open Graph
open Bipart (over over_congr Gp Bfs Closed GpBnd gpVisit gpVisit_holds gpStart_holds gpPasses_holds nextRoot_holds comp_closed comp_sub Comp Visited sumI_pos)
variable {b : Vgraph} {C : Int → Prop} {p : Int} {old part0 : Int → Int}

theorem rebuild_holds (hc : ConsE b.s) (ha : Alloc b) {part : Arr Int} (hb : part.lo ≤ b.s.baseval ∧ b.s.vertnnd ≤ part.hi) (hp : Parts b.s part.get) :
    Holds (rebuild b part) (fun r => r.1.lo = b.frontab.lo ∧ r.1.hi = b.frontab.hi ∧ Enum r.1 r.2.1 (fun v => b.s.Vertex v ∧ part.get v = 2) ∧
      r.2.2.1 = over b.s part.get 1 (fun _ => 1) ∧ r.2.2.2 = over b.s part.get 2 (fun _ => 1)) := by
  have hn := hc.vertnbr
  have hnn := hc.vertnnd
  have hf := ha.fron
  unfold rebuild
  refine Holds_forUp (fun i (r : Arr Int × Int × Int × Int) => r.1.lo = b.frontab.lo ∧ r.1.hi = b.frontab.hi ∧
    Enum r.1 r.2.1 (fun v => b.s.Vertex v ∧ v < i ∧ part.get v = 2) ∧ r.2.2.1 = sumI b.s.baseval i (fun v => if part.get v = 1 then 1 else 0) ∧
    r.2.2.2 = sumI b.s.baseval i (fun v => if part.get v = 2 then 1 else 0)) (by omega) ?_ ?_ ?_
  · refine ⟨rfl, rfl, (Enum.empty _).congr ?_, by rw [sumI_empty (Int.le_refl _)], by rw [sumI_empty (Int.le_refl _)]⟩
    intro v
    refine ⟨False.elim, ?_⟩
    rintro ⟨h1, h2, _⟩
    have := h1.1
    omega
  · rintro i ⟨fr, n, c1, c2⟩ h1 h2 ⟨i1, i2, i3, i4, i5⟩
    dsimp only at i1 i2 i3 i4 i5
    have hv : b.s.Vertex i := ⟨h1, h2⟩
    rw [Arr.rd_ok _ (by omega) (by omega), ok_bind]
    have hpi := hp i hv
    rw [sumI_succ h1, sumI_succ h1, ← i4, ← i5]
    by_cases h2' : part.get i = 2
    · rw [if_pos h2']
      have hx : ¬ (b.s.Vertex i ∧ i < i ∧ part.get i = 2) := by rintro ⟨_, h, _⟩; omega
      have hlt := i3.lt (lo := b.s.baseval) (hi := b.s.vertnnd) (fun w hw => hw.1) hx hv.1 hv.2
      have h0 := i3.1
      dsimp only
      rw [Arr.wr_ok _ _ (by omega) (by omega), ok_bind, Holds_pure]
      refine ⟨i1, i2, (i3.push hx).congr ?_, ?_, ?_⟩
      · intro v
        constructor
        · rintro (⟨a1, a2, a3⟩ | rfl)
          · exact ⟨a1, by omega, a3⟩
          · exact ⟨hv, by omega, h2'⟩
        · rintro ⟨a1, a2, a3⟩
          by_cases hvi : v = i
          · exact Or.inr hvi
          · exact Or.inl ⟨a1, by omega, a3⟩
      · dsimp only; rw [h2']; simp
      · dsimp only; rw [h2']; simp
    · rw [if_neg h2', Holds_pure]
      refine ⟨i1, i2, i3.congr ?_, ?_, ?_⟩
      · intro v
        constructor
        · rintro ⟨a1, a2, a3⟩; exact ⟨a1, by omega, a3⟩
        · rintro ⟨a1, a2, a3⟩
          refine ⟨a1, ?_, a3⟩
          have : v ≠ i := by rintro rfl; exact h2' a3
          omega
      · dsimp only; rcases hpi with h | h | h <;> rw [h] <;> simp
      · dsimp only; rcases hpi with h | h | h
        · rw [h]; simp
        · rw [h]; simp
        · exact absurd h h2'
  · rintro r ⟨i1, i2, i3, i4, i5⟩
    exact ⟨i1, i2, i3.congr fun v => ⟨fun h => ⟨h.1, h.2.2⟩, fun h => ⟨h.1, h.1.2, h.2⟩⟩, i4, i5⟩

theorem finish_holds (hc : ConsE b.s) (ha : Alloc b) (hw : b.dwgt0 + b.dwgt1 ≠ 0) {part : Arr Int} (hb : part.lo = b.parttax.lo ∧ part.hi = b.parttax.hi)
    (hp : Parts b.s part.get) (hs : Separated b.s part.get) {dlt l2 : Int} (h2 : l2 = over b.s part.get 2 b.s.velo)
    (hd : dlt = over b.s part.get 0 b.s.velo * b.dwgt1 - over b.s part.get 1 b.s.velo * b.dwgt0) :
    Holds (finish b part dlt l2) (fun b' => SameProblem b b' ∧ Valid b' ∧ ∀ v, b'.part v = part.get v) := by
  have hpb := ha.part
  have tv := over_total (g := b.s) hp b.s.velo
  rw [← hc.velosum] at tv
  have tn := over_total (g := b.s) hp (fun _ => 1)
  rw [size_total hc] at tn
  have e : dlt + (b.s.velosum - l2) * b.dwgt0 = over b.s part.get 0 b.s.velo * (b.dwgt0 + b.dwgt1) := by
    rw [hd, h2, ← tv, show over b.s part.get 0 b.s.velo + over b.s part.get 1 b.s.velo + over b.s part.get 2 b.s.velo - over b.s part.get 2 b.s.velo =
      over b.s part.get 0 b.s.velo + over b.s part.get 1 b.s.velo by omega, Int.add_mul, Int.mul_add]
    omega
  unfold finish cdiv
  rw [if_neg hw, e, Int.mul_tdiv_cancel _ hw, Holds_bind, Holds_pure, Holds_bind]
  refine (rebuild_holds hc ha (by omega) hp).mono ?_
  rintro ⟨fr, n, c1, c2⟩ ⟨r1, r2, r3, r4, r5⟩
  dsimp only at r1 r2 r3 r4 r5 ⊢
  rw [Holds_pure]
  have hn : n = c2 := by rw [r5]; exact enum_size hc r3
  refine ⟨⟨rfl, ⟨hb.1, hb.2, r1, r2⟩, rfl, rfl⟩, ⟨⟨hp, hs, ?_, ?_, ?_, ?_, ?_, ?_, ?_⟩, ?_⟩, fun _ => rfl⟩
  · change b.s.vertnbr - c1 - c2 = over b.s part.get 0 _; omega
  · change c1 = over b.s part.get 1 _; omega
  · change c2 = over b.s part.get 2 _; omega
  · rfl
  · change b.s.velosum - l2 - over b.s part.get 0 b.s.velo = over b.s part.get 1 b.s.velo; omega
  · exact h2
  · change dlt = over b.s part.get 0 b.s.velo * b.dwgt1 - (b.s.velosum - l2 - over b.s part.get 0 b.s.velo) * b.dwgt0
    rw [hd, show b.s.velosum - l2 - over b.s part.get 0 b.s.velo = over b.s part.get 1 b.s.velo by omega]
  · change Enum fr c2 (fun v => b.s.Vertex v ∧ part.get v = 2)
    rw [← hn]; exact r3

/-- Sums of loads that are kept up to date. -/
structure Loads (b : Vgraph) (part : Int → Int) (dlt l2 : Int) : Prop where
  two : l2 = over b.s part 2 b.s.velo
  dlt : dlt = over b.s part 0 b.s.velo * b.dwgt1 - over b.s part 1 b.s.velo * b.dwgt0

/-- From part 0 to the separator. -/
theorem Loads.enter {part : Int → Int} {dlt l2 u : Int} (h : Loads b part dlt l2) (hu : b.s.Vertex u) (h0 : part u = 0) :
    Loads b (upd part u 2) (dlt - b.s.velo u * b.dwgt1) (l2 + b.s.velo u) := by
  have ho := fun j => over_upd (g := b.s) part hu 2 j b.s.velo
  constructor
  · rw [ho, h0, h.two]; simp
  · rw [ho, ho, h0, h.dlt]
    simp
    rw [Int.sub_mul]; omega

/-- From the separator to part 1. -/
theorem Loads.leave {part : Int → Int} {dlt l2 u : Int} (h : Loads b part dlt l2) (hu : b.s.Vertex u) (h0 : part u = 2) :
    Loads b (upd part u 1) (dlt - b.s.velo u * b.dwgt0) (l2 - b.s.velo u) := by
  have ho := fun j => over_upd (g := b.s) part hu 1 j b.s.velo
  constructor
  · rw [ho, h0, h.two]; simp
  · rw [ho, ho, h0, h.dlt]
    simp
    rw [Int.add_mul]; omega

/-- State of the growth of part 1 in a closed set. -/
structure Grow (b : Vgraph) (C : Int → Prop) (p : Int) (old part0 : Int → Int) (s : GpGrow) : Prop where
  bfs : Bfs b.s C p old s.gp
  bnd : s.part.lo = b.parttax.lo ∧ s.part.hi = b.parttax.hi
  one : ∀ i, 0 ≤ i → i < s.gp.tail → s.part.get (s.gp.queu.get i) = 1
  two : ∀ i, s.gp.tail ≤ i → i < s.gp.head → s.part.get (s.gp.queu.get i) = 2
  out : ∀ v, ¬ (C v ∧ s.gp.pass.get v = p) → s.part.get v = part0 v
  load : Loads b s.part.get s.comploaddlt s.compload2

theorem gpGrowArcs_holds (hc : ConsE b.s) (ha : Alloc b) (hC : Closed b.s C) (h0 : ∀ v, C v → part0 v = 0) {s : GpGrow} (h : Grow b C p old part0 s) {v d : Int}
    (hv : C v) (hd : 0 ≤ d) :
    Holds (b.s.forArcs v s (gpGrowArc b p d)) (fun s' => Grow b C p old part0 s' ∧ Visited b.s p v s.gp s'.gp ∧ ∀ w, b.s.Adj v w → s'.gp.pass.get w = p) := by
  have hvv := hC.sub v hv
  have hpb := ha.part
  refine Holds_forArcs ha.graph hvv (hc.range v hvv).2 (fun e s' => Grow b C p old part0 s' ∧ Visited b.s p v s.gp s'.gp ∧
    ∀ x, b.s.vert v ≤ x → x < e → s'.gp.pass.get (b.s.dest x) = p) ?_ ?_ ?_
  · exact ⟨h, ⟨rfl, Int.le_refl _, fun _ _ => rfl, fun _ h => h, fun _ _ => rfl, fun i h1 h2 => by omega⟩, fun x h1 h2 => by omega⟩
  · rintro e s' h1 h2 ⟨i1, i2, i3⟩
    have hw : C (b.s.dest e) := hC.adj v _ hv ⟨e, h1, h2, rfl⟩
    have hwv := hC.sub _ hw
    have hb := i1.bfs.bnd
    have w1 := hwv.1
    have w2 := hwv.2
    have hib := i1.bnd
    unfold gpGrowArc
    rw [rdVelo_eq ha.graph hwv, ok_bind, Arr.rd_ok _ (by have := hb.p1; omega) (by have := hb.p2; omega), ok_bind]
    by_cases hlt : s'.gp.pass.get (b.s.dest e) < p
    · rw [if_pos hlt, Holds_bind]
      refine (gpVisit_holds hc hC i1.bfs hw hlt hd).mono ?_
      rintro s2 ⟨j1, j2, j3, j4, j5, j6⟩
      unfold gpSepar
      dsimp only
      rw [Arr.wr_ok _ _ (by omega) (by omega), ok_bind, Holds_pure]
      have hp0 : s'.part.get (b.s.dest e) = 0 := by
        rw [i1.out _ (fun hx => by omega)]; exact h0 _ hw
      have htl := i1.bfs.tail
      have hnq : ∀ i, 0 ≤ i → i < s'.gp.head → s'.gp.queu.get i ≠ b.s.dest e := by
        intro i k1 k2 he
        have := i1.bfs.enum.mem k1 k2
        rw [he] at this
        omega
      refine ⟨⟨j1, hib, ?_, ?_, ?_, i1.load.enter hwv hp0⟩, ⟨by rw [j2, i2.tail], by have := i2.head; dsimp only; omega, ?_, ?_, ?_, ?_⟩, ?_⟩
      · intro i k1 k2
        dsimp only at k2 ⊢
        rw [j2] at k2
        rw [j4, Arr.set_get_ne s'.gp.queu _ (show i ≠ s'.gp.head by omega), Arr.set_get_ne _ _ (hnq i k1 (by omega))]
        exact i1.one i k1 k2
      · intro i k1 k2
        dsimp only at k1 k2 ⊢
        rw [j4]
        by_cases hi : i = s'.gp.head
        · rw [hi, Arr.set_get_same, Arr.set_get_same]
        · rw [Arr.set_get_ne s'.gp.queu _ hi, Arr.set_get_ne _ _ (hnq i (by omega) (by omega))]
          exact i1.two i (by omega) (by omega)
      · intro x hx
        dsimp only at hx ⊢
        have hxw : x ≠ b.s.dest e := by
          rintro rfl
          exact hx ⟨hw, by rw [j5, Arr.set_get_same]⟩
        rw [Arr.set_get_ne _ _ hxw]
        refine i1.out x ?_
        rintro ⟨k1, k2⟩
        exact hx ⟨k1, by rw [j5, Arr.set_get_ne _ _ hxw]; exact k2⟩
      · intro i hi
        have := i2.head
        dsimp only
        rw [j4, Arr.set_get_ne _ _ (by omega), i2.queu i hi]
      · intro x hx
        dsimp only
        rw [j5, Arr.set_get]
        split
        · rfl
        · exact i2.pass x hx
      · intro x hx
        dsimp only
        have hxw : x ≠ b.s.dest e := by
          rintro rfl
          have := i2.pass _ hx
          omega
        rw [j6, Arr.set_get_ne _ _ hxw]
        exact i2.dist x hx
      · intro i k1 k2
        dsimp only at k2 ⊢
        rw [j4]
        by_cases hi : i = s'.gp.head
        · rw [hi, Arr.set_get_same]; exact ⟨e, h1, h2, rfl⟩
        · rw [Arr.set_get_ne _ _ hi]; exact i2.new i k1 (by omega)
      · intro x x1 x2
        dsimp only
        rw [j5, Arr.set_get]
        split
        · rfl
        · rename_i hne
          refine i3 x x1 ?_
          have : x ≠ e := by rintro rfl; exact hne rfl
          omega
    · rw [if_neg hlt, Holds_pure]
      refine ⟨i1, i2, ?_⟩
      intro x x1 x2
      by_cases hx : x = e
      · rw [hx]
        have := i1.bfs.le _ hw
        omega
      · exact i3 x x1 (by omega)
  · rintro s' ⟨i1, i2, i3⟩
    refine ⟨i1, i2, ?_⟩
    rintro w ⟨e, h1, h2, rfl⟩
    exact i3 e h1 h2

/-- Neighbours of the vertices of part 1 have been visited. -/
def Done (b : Vgraph) (p : Int) (s : GpGrow) : Prop :=
  ∀ i, 0 ≤ i → i < s.gp.tail → ∀ w, b.s.Adj (s.gp.queu.get i) w → s.gp.pass.get w = p

theorem gpGrow_holds (hc : ConsE b.s) (ha : Alloc b) (hC : Closed b.s C) (h0 : ∀ v, C v → part0 v = 0) {s : GpGrow} (h : Grow b C p old part0 s)
    (ht : s.gp.tail = 0) (hh : s.gp.head = 1) :
    Holds (loopM (gpGrowStep b p) (b.s.vertnbr.toNat + 1) s) (fun r => Grow b C p old part0 r ∧ Done b p r ∧ r.gp.queu.get 0 = s.gp.queu.get 0 ∧
      0 < r.gp.head ∧ (r.comploaddlt > 0 → r.gp.head = r.gp.tail)) := by
  have hnn := hc.vertnnd
  refine Holds_loopM (fun r : GpGrow => Grow b C p old part0 r ∧ Done b p r ∧ r.gp.tail < r.gp.head ∧ r.gp.queu.get 0 = s.gp.queu.get 0)
    (fun r => (b.s.vertnbr - r.gp.tail).toNat) ?_ _ _ ⟨h, fun i h1 h2 => by omega, by omega, rfl⟩ ?_
  · rintro r ⟨i, id, it, iq⟩
    have hle := i.bfs.head_le hc hC
    have hb := i.bfs.bnd
    have ht := i.bfs.tail
    have hv := i.bfs.enum.mem ht.1 it
    have hpv := i.two r.gp.tail (Int.le_refl _) it
    generalize hx : r.gp.queu.get r.gp.tail = v at hv hpv
    have hvv := hC.sub _ hv.1
    have v1 := hvv.1
    have v2 := hvv.2
    have hpb := ha.part
    have hib := i.bnd
    have hfresh : ∀ j, 0 ≤ j → j < r.gp.head → j ≠ r.gp.tail → r.gp.queu.get j ≠ v := by
      intro j j1 j2 j3 hj
      exact j3 (i.bfs.enum.2.1 j r.gp.tail j1 j2 ht.1 it (by rw [hj, hx]))
    unfold gpGrowStep
    rw [Arr.rd_ok _ (by have := hb.q1; omega) (by have := hb.q2; omega), ok_bind, hx, rdVelo_eq ha.graph hvv, ok_bind,
      Arr.rd_ok _ (by have := hb.d1; omega) (by have := hb.d2; omega), ok_bind, Arr.wr_ok _ _ (by omega) (by omega), ok_bind]
    dsimp only
    rw [Holds_bind]
    have hG : Grow b C p old part0 ⟨{ r.gp with tail := r.gp.tail + 1 }, r.part.set v 1, r.comploaddlt - b.s.velo v * b.dwgt0, r.compload2 - b.s.velo v⟩ := by
      refine ⟨⟨⟨hb.q1, hb.q2, hb.p1, hb.p2, hb.d1, hb.d2⟩, by dsimp only; omega, i.bfs.enum, i.bfs.le, i.bfs.out, i.bfs.dist⟩, hib, ?_, ?_, ?_, i.load.leave hvv hpv⟩
      · intro j j1 j2
        dsimp only at j2 ⊢
        by_cases hj : j = r.gp.tail
        · rw [hj, hx, Arr.set_get_same]
        · rw [Arr.set_get_ne _ _ (hfresh j j1 (by omega) hj)]
          exact i.one j j1 (by omega)
      · intro j j1 j2
        dsimp only at j1 j2 ⊢
        rw [Arr.set_get_ne _ _ (hfresh j (by omega) j2 (by omega))]
        exact i.two j (by omega) j2
      · intro x hx'
        dsimp only at hx' ⊢
        rw [Arr.set_get_ne _ _ (by rintro rfl; exact hx' hv)]
        exact i.out x hx'
    refine (gpGrowArcs_holds hc ha hC h0 hG hv.1 (by have := i.bfs.dist _ hv.1 hv.2; omega)).mono ?_
    rintro s' ⟨j1, j2, j3⟩
    have jt := j2.tail
    have jh := j2.head
    have jq := j2.queu
    dsimp only at jt jh jq
    have hD : Done b p s' := by
      intro k k1 k2 w hw
      rw [jq k (by omega)] at hw
      by_cases hk : k = r.gp.tail
      · rw [hk, hx] at hw
        exact j3 w hw
      · exact j2.pass w (id k k1 (by omega) w hw)
    have hq0 : s'.gp.queu.get 0 = s.gp.queu.get 0 := by rw [jq 0 (by omega), iq]
    have hjt := j1.bfs.tail
    by_cases he : s'.comploaddlt > 0 ∧ ¬ s'.gp.head ≤ s'.gp.tail
    · rw [if_pos he, Holds_pure, Loop.Sat_next]
      exact ⟨⟨j1, hD, by omega, hq0⟩, by omega⟩
    · rw [if_neg he, Holds_pure, Loop.Sat_brk]
      exact ⟨j1, hD, hq0, by omega, fun hx => by omega⟩
  · have := hc.vertnbr
    omega

/-- State of the loop on roots, when the last component has been taken as a whole. -/
structure RootInv (b : Vgraph) (r : Int) (s : GpGrow) : Prop where
  bnd : GpBnd b.s s.gp
  pbnd : s.part.lo = b.parttax.lo ∧ s.part.hi = b.parttax.hi
  parts : ∀ v, b.s.Vertex v → s.part.get v = 0 ∨ s.part.get v = 1
  pass : ∀ v, b.s.Vertex v → 0 ≤ s.gp.pass.get v ∧ (s.part.get v = 1 ↔ s.gp.pass.get v ≠ 0)
  closed : ∀ v w, b.s.Vertex v → s.part.get v = 1 → b.s.Adj v w → s.part.get w = 1
  load : Loads b s.part.get s.comploaddlt s.compload2
  root : b.s.baseval ≤ r ∧ ∀ v, b.s.baseval ≤ v → v < r → v < b.s.vertnnd → s.part.get v = 1

/-- Result of the loop on roots. -/
structure RootPost (b : Vgraph) (s : GpGrow) : Prop where
  pbnd : s.part.lo = b.parttax.lo ∧ s.part.hi = b.parttax.hi
  parts : Parts b.s s.part.get
  sep : Separated b.s s.part.get
  load : Loads b s.part.get s.comploaddlt s.compload2

theorem rootInv_post (hc : ConsE b.s) {r : Int} {s : GpGrow} (h : RootInv b r s) : RootPost b s := by
  refine ⟨h.pbnd, fun v hv => by have := h.parts v hv; omega, ?_, h.load⟩
  rw [sep_adj]
  intro v w hv hw
  refine ⟨?_, ?_⟩
  · rintro ⟨a1, a2⟩
    have := h.closed w v (hc.adj_vertex hv hw).1 a2 (hc.adj_symm hv hw)
    omega
  · rintro ⟨a1, a2⟩
    have := h.closed v w hv a1 hw
    omega

theorem gpRoot_holds (hc : ConsE b.s) (ha : Alloc b) (hw0 : 0 ≤ b.dwgt0) (passnbr : Int) {s : GpGrow} (h : RootInv b b.s.baseval s) :
    Holds (loopM (gpRootStep b passnbr) (b.s.vertnbr.toNat + 1) (b.s.baseval, s)) (RootPost b) := by
  have hnn := hc.vertnnd
  have hn0 := hc.vertnbr
  refine Holds_loopM (fun r : Int × GpGrow => RootInv b r.1 r.2 ∨ (RootPost b r.2 ∧ ¬ r.2.comploaddlt > 0)) (fun r => (b.s.vertnnd - r.1).toNat) ?_ _ _ (Or.inl h)
    (by dsimp only; omega)
  rintro ⟨rn, r⟩ i
  unfold gpRootStep
  dsimp only at i ⊢
  by_cases hcond : ¬ (rn < b.s.vertnnd ∧ r.comploaddlt > 0)
  · rw [if_pos hcond, Holds_pure, Loop.Sat_brk]
    rcases i with i | i
    · exact rootInv_post hc i
    · exact i.1
  replace i : RootInv b rn r := by
    rcases i with i | i
    · exact i
    · exact absurd i.2 (by omega)
  rw [if_neg hcond, Holds_bind]
  have hbnd := i.bnd
  have hex : ∃ v, rn ≤ v ∧ v < b.s.vertnnd ∧ r.gp.pass.get v = 0 := by
    have hl := i.load.dlt
    have h1 : 0 ≤ over b.s r.part.get 1 b.s.velo := over_nonneg _ _ hc.velo
    have h2 : 0 ≤ over b.s r.part.get 1 b.s.velo * b.dwgt0 := Int.mul_nonneg h1 hw0
    have h3 : over b.s r.part.get 0 b.s.velo ≠ 0 := by
      intro hz
      rw [hz, Int.zero_mul] at hl
      omega
    have h4 : 0 ≤ over b.s r.part.get 0 b.s.velo := over_nonneg _ _ hc.velo
    obtain ⟨v, v1, v2, v3⟩ := sumI_pos (show 0 < over b.s r.part.get 0 b.s.velo by omega)
    have hp0 : r.part.get v = 0 := Classical.byContradiction fun hn => v3 (if_neg hn)
    refine ⟨v, ?_, v2, ?_⟩
    · rcases Int.lt_or_le v rn with hlt | hle
      · have := i.root.2 v v1 hlt v2
        omega
      · exact hle
    · refine Classical.byContradiction fun hn => ?_
      have := (i.pass v ⟨v1, v2⟩).2.2 hn
      omega
  refine (nextRoot_holds hbnd.p1 hbnd.p2 i.root.1 hex hnn).mono ?_
  rintro x ⟨x1, x2, x3, x4⟩
  have hr0 := i.root.1
  have hxv : b.s.Vertex x := ⟨by omega, x2⟩
  have hC := comp_closed hc hxv
  have hx0 : r.part.get x = 0 := by
    rcases i.parts x hxv with a | a
    · exact a
    · exact absurd x3 ((i.pass x hxv).2.1 a)
  have hC0 : ∀ v, Comp b.s x v → r.part.get v = 0 := by
    intro v hv
    induction hv with
    | refl => exact hx0
    | @tail y z hy hyz ih =>
      have hyv := hC.sub y hy
      have hzv := (hc.adj_vertex hyv hyz).1
      rcases i.parts z hzv with a | a
      · exact a
      · have := i.closed z y hzv a (hc.adj_symm hyv hyz)
        omega
  have hCp : ∀ v, Comp b.s x v → r.gp.pass.get v = 0 := by
    intro v hv
    refine Classical.byContradiction fun hn => ?_
    have := (i.pass v (hC.sub v hv)).2.2 hn
    have := hC0 v hv
    omega
  rw [Holds_bind]
  refine (gpPasses_holds (old := r.gp.pass.get) hc ha.graph hC passnbr (s := r.gp) ⟨hbnd, fun v hv => by rw [hCp v hv]; decide, fun v _ => rfl⟩
    Relation.ReflTransGen.refl).mono ?_
  rintro p ⟨p1, p2, p3⟩
  rw [Holds_bind]
  refine (gpStart_holds hc hC p1 p2).mono ?_
  rintro gp ⟨q1, q2, q3, q4⟩
  have hdv := hC.sub _ p2
  have d1 := hdv.1
  have d2 := hdv.2
  have hpb := ha.part
  have hib := i.pbnd
  rw [rdVelo_eq ha.graph hdv, ok_bind, Holds_bind]
  unfold gpSepar
  dsimp only
  rw [Arr.wr_ok _ _ (by omega) (by omega), ok_bind, Holds_pure, Holds_bind]
  have hmem := q1.enum.mem (i := 0) (by omega) (by omega)
  rw [q4] at hmem
  have hG : Grow b (Comp b.s x) p.passnum r.gp.pass.get r.part.get ⟨gp, r.part.set p.diam.num 2, r.comploaddlt - b.s.velo p.diam.num * b.dwgt1,
      r.compload2 + b.s.velo p.diam.num⟩ := by
    refine ⟨q1, hib, ?_, ?_, ?_, i.load.enter hdv (hC0 _ p2)⟩
    · intro k k1 k2; dsimp only at k2; omega
    · intro k k1 k2
      dsimp only at k1 k2 ⊢
      have : k = 0 := by omega
      rw [this, q4, Arr.set_get_same]
    · intro v hv
      dsimp only at hv ⊢
      rw [Arr.set_get_ne _ _ (by rintro rfl; exact hv hmem)]
  refine (gpGrow_holds hc ha hC hC0 hG q2 q3).mono ?_
  rintro G ⟨g1, g2, g3, g4, g5⟩
  dsimp only at g3
  rw [Holds_pure, Loop.Sat_next]
  refine ⟨?_, by dsimp only; omega⟩
  dsimp only
  have hTB := g1.bfs.tail
  have hHL := g1.bfs.head_le hc hC
  have hout : ∀ v, ¬ Comp b.s x v → G.part.get v = r.part.get v := fun v hv => g1.out v (fun h => hv h.1)
  have hin : ∀ v, Comp b.s x v → G.part.get v ≠ 0 → ∃ k, 0 ≤ k ∧ k < G.gp.head ∧ G.gp.queu.get k = v := by
    intro v hv hne
    refine (g1.bfs.enum.2.2 v).1 (Classical.byContradiction fun hn => hne ?_)
    rw [g1.out v hn, hC0 v hv]
  by_cases hpos : G.comploaddlt > 0
  · left
    have hq := g5 hpos
    have hall : ∀ v, Comp b.s x v → G.gp.pass.get v = p.passnum := by
      refine comp_sub hc hxv (Q := fun v => G.gp.pass.get v = p.passnum) ?_ p2 ?_
      · intro v w hv hpv hvw
        obtain ⟨k, k1, k2, k3⟩ := (g1.bfs.enum.2.2 v).1 ⟨hv, hpv⟩
        exact g2 k k1 (by omega) w (by rw [k3]; exact hvw)
      · have := (g1.bfs.enum.mem (i := 0) (by omega) (by omega)).2
        rw [g3, q4] at this
        exact this
    have hC1 : ∀ v, Comp b.s x v → G.part.get v = 1 := by
      intro v hv
      obtain ⟨k, k1, k2, k3⟩ := (g1.bfs.enum.2.2 v).1 ⟨hv, hall v hv⟩
      rw [← k3]
      exact g1.one k k1 (by omega)
    refine ⟨g1.bfs.bnd, g1.bnd, ?_, ?_, ?_, g1.load, ⟨by omega, ?_⟩⟩
    · intro v hv
      by_cases hcv : Comp b.s x v
      · exact Or.inr (hC1 v hcv)
      · rw [hout v hcv]; exact i.parts v hv
    · intro v hv
      by_cases hcv : Comp b.s x v
      · rw [hall v hcv, hC1 v hcv]
        exact ⟨by omega, fun _ => by omega, fun _ => rfl⟩
      · rw [hout v hcv, g1.bfs.out v hcv]
        exact i.pass v hv
    · intro v w hv hv1 hvw
      by_cases hcv : Comp b.s x v
      · exact hC1 w (hC.adj v w hcv hvw)
      · rw [hout v hcv] at hv1
        have hw1 := i.closed v w hv hv1 hvw
        by_cases hcw : Comp b.s x w
        · exact hC1 w hcw
        · rw [hout w hcw]; exact hw1
    · intro v v1 v2 v3
      by_cases hcv : Comp b.s x v
      · exact hC1 v hcv
      · rw [hout v hcv]
        by_cases hvx : v = x
        · rw [hvx] at hcv; exact absurd Relation.ReflTransGen.refl hcv
        · rcases Int.lt_or_le v rn with hlt | hle
          · exact i.root.2 v v1 hlt v3
          · exact (i.pass v ⟨v1, v3⟩).2.2 (x4 v hle (by omega))
  · right
    refine ⟨⟨g1.bnd, ?_, ?_, g1.load⟩, hpos⟩
    · intro v hv
      by_cases hcv : Comp b.s x v
      · by_cases hz : G.part.get v = 0
        · exact Or.inl hz
        · obtain ⟨k, k1, k2, k3⟩ := hin v hcv hz
          rw [← k3]
          rcases Int.lt_or_le k G.gp.tail with hk | hk
          · exact Or.inr (Or.inl (g1.one k k1 hk))
          · exact Or.inr (Or.inr (g1.two k hk k2))
      · rw [hout v hcv]
        have := i.parts v hv
        omega
    · -- no arc from part 1 to part 0
      have key : ∀ v w, b.s.Vertex v → b.s.Adj v w → G.part.get v = 1 → G.part.get w ≠ 0 := by
        intro v w hv hvw hv1 hw0
        by_cases hcv : Comp b.s x v
        · obtain ⟨k, k1, k2, k3⟩ := hin v hcv (by omega)
          have hk : k < G.gp.tail := by
            rcases Int.lt_or_le k G.gp.tail with hk | hk
            · exact hk
            · have := g1.two k hk k2
              rw [k3] at this
              omega
          have hpw := g2 k k1 hk w (by rw [k3]; exact hvw)
          obtain ⟨j, j1, j2, j3⟩ := (g1.bfs.enum.2.2 w).1 ⟨hC.adj v w hcv hvw, hpw⟩
          rcases Int.lt_or_le j G.gp.tail with hj | hj
          · have := g1.one j j1 hj
            rw [j3] at this; omega
          · have := g1.two j hj j2
            rw [j3] at this; omega
        · rw [hout v hcv] at hv1
          have hcw : ¬ Comp b.s x w := fun hcw => hcv (hC.adj w v hcw (hc.adj_symm hv hvw))
          rw [hout w hcw] at hw0
          have := i.closed v w hv hv1 hvw
          omega
      rw [sep_adj]
      intro v w hv hw
      exact ⟨fun h => key w v (hc.adj_vertex hv hw).1 (hc.adj_symm hv hw) h.2 h.1, fun h => key v w hv hw h.1 h.2⟩

theorem gpMain_holds (hc : ConsE b.s) (ha : Alloc b) (hw0 : 0 ≤ b.dwgt0) (hw : b.dwgt0 + b.dwgt1 ≠ 0) (junk : Int → Int) (passnbr : Int)
    (h0 : ∀ v, b.s.Vertex v → b.part v = 0) : Holds (gpMain junk passnbr b) (fun b' => SameProblem b b' ∧ Valid b') := by
  have hnn := hc.vertnnd
  unfold gpMain
  dsimp only
  rw [Holds_bind]
  have hov := over_const b.s h0
  have h : RootInv b b.s.baseval ⟨⟨⟨0, b.s.vertnbr, junk⟩, 0, 0, Arr.const b.s.baseval (b.s.baseval + b.s.vertnbr) 0, Arr.const b.s.baseval (b.s.baseval + b.s.vertnbr) 0⟩,
      b.parttax, b.s.velosum * b.dwgt1, 0⟩ := by
    refine ⟨⟨rfl, rfl, rfl, hnn.symm, rfl, hnn.symm⟩, ⟨rfl, rfl⟩, fun v hv => Or.inl (h0 v hv), ?_, ?_, ⟨?_, ?_⟩, ⟨Int.le_refl _, fun v h1 h2 => by omega⟩⟩
    · intro v hv
      refine ⟨Int.le_refl 0, fun h => ?_, fun h => absurd rfl h⟩
      have : b.parttax.get v = 0 := h0 v hv
      dsimp only at h
      omega
    · intro v w hv h
      have : b.parttax.get v = 0 := h0 v hv
      dsimp only at h
      omega
    · change 0 = over b.s b.part 2 _
      rw [hov, if_neg (by decide)]
    · change b.s.velosum * b.dwgt1 = over b.s b.part 0 _ * b.dwgt1 - over b.s b.part 1 _ * b.dwgt0
      rw [hov, hov, if_pos rfl, if_neg (by decide), hc.velosum]
      omega
  refine (gpRoot_holds hc ha hw0 passnbr h).mono ?_
  intro r hr
  exact (finish_holds hc ha hw hr.pbnd hr.parts hr.sep hr.load.two hr.load.dlt).mono fun b' h => ⟨h.1, h.2.1⟩

theorem gp_holds (hc : ConsE b.s) (ha : Alloc b) (hv : Valid b) (hw0 : 0 ≤ b.dwgt0) (hw : b.dwgt0 + b.dwgt1 ≠ 0) (junk : Int → Int) (passnbr : Int) :
    Holds (separateGp junk passnbr b) (fun b' => SameProblem b b' ∧ Valid b') := by
  unfold separateGp
  by_cases h : b.compsize0 ≠ b.s.vertnbr
  · rw [if_pos h, Holds_bind]
    refine (zero_holds hc ha).mono ?_
    rintro z ⟨z1, z2, z3, -⟩
    refine (gpMain_holds (b := z) (by rw [z1.s]; exact hc) (z1.alloc ha) (by rw [z1.dwgt.1]; exact hw0) (by rw [z1.dwgt.1, z1.dwgt.2]; exact hw) junk passnbr
      (by rw [z1.s]; exact z3)).mono ?_
    exact fun b' h => ⟨z1.trans h.1, h.2⟩
  · rw [if_neg h]
    exact gpMain_holds hc ha hw0 hw junk passnbr (all_zero hc hv (Classical.byContradiction h))

end Scotch.Separ
