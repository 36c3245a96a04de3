import Verif.Bipart.LemmasGpGrow

/-! # Bipartition by the Gibbs-Poole-Stockmeyer method: loop on roots, and result -/

set_option autoImplicit false
set_option linter.unusedSimpArgs false

namespace Scotch.Bipart
open Graph
variable {b : Bgraph}

/-- Vertices that can be reached from a vertex. -/
def Comp (g : Graph) (r : Int) : Int → Prop := Relation.ReflTransGen g.Adj r

theorem comp_closed {g : Graph} (hc : ConsE g) {r : Int} (hr : g.Vertex r) : Closed g (Comp g r) := by
  constructor
  · intro v hv
    induction hv with
    | refl => exact hr
    | tail _ h ih => exact (hc.adj_vertex ih h).1
  · intro v w hv h
    exact Relation.ReflTransGen.tail hv h

/-- A closed set that meets a component contains it. -/
theorem comp_sub {g : Graph} (hc : ConsE g) {r : Int} (hr : g.Vertex r) {Q : Int → Prop} (hQ : ∀ v w, Comp g r v → Q v → g.Adj v w → Q w) {d : Int} (hd : Comp g r d)
    (hqd : Q d) : ∀ v, Comp g r v → Q v := by
  have hroot : Q r := by
    have hC := comp_closed hc hr
    induction hd with
    | refl => exact hqd
    | @tail x y hx hxy ih =>
      exact ih (hQ y x (Relation.ReflTransGen.tail hx hxy) hqd (hc.adj_symm (hC.sub x hx) hxy))
  intro v hv
  induction hv with
  | refl => exact hroot
  | @tail x y hx hxy ih => exact hQ x y hx ih hxy

/-- State of the loop on roots. -/
structure RootInv (b : Bgraph) (s : GpRoot) : Prop where
  bnd : GpBnd b.s s.grow.gp
  pbnd : s.grow.part.lo = b.parttax.lo ∧ s.grow.part.hi = b.parttax.hi
  parts : Parts b.s s.grow.part.get
  pass : ∀ v, b.s.Vertex v → 0 ≤ s.grow.gp.pass.get v ∧ (s.grow.part.get v = 1 ↔ s.grow.gp.pass.get v ≠ 0)
  closed : ∀ v w, b.s.Vertex v → s.grow.part.get v = 1 → b.s.Adj v w → s.grow.part.get w = 1
  size : s.grow.compsize0 = over b.s s.grow.part.get 0 (fun _ => 1)
  load : s.grow.compload0dlt = over b.s s.grow.part.get 0 b.s.velo - b.compload0avg
  extn : s.grow.commloadextn = over b.s s.grow.part.get 1 b.veex
  root : b.s.baseval ≤ s.rootnum ∧ ∀ v, b.s.baseval ≤ v → v < s.rootnum → v < b.s.vertnnd → s.grow.part.get v = 1
  fron : s.frontab = b.frontab ∧ s.fronnbr = 0 ∧ s.commloadintn = 0

/-- Result of the loop on roots. -/
structure RootPost (b : Bgraph) (s : GpRoot) : Prop where
  pbnd : s.grow.part.lo = b.parttax.lo ∧ s.grow.part.hi = b.parttax.hi
  fbnd : s.frontab.lo = b.frontab.lo ∧ s.frontab.hi = b.frontab.hi
  parts : Parts b.s s.grow.part.get
  size : s.grow.compsize0 = over b.s s.grow.part.get 0 (fun _ => 1)
  load : s.grow.compload0dlt = over b.s s.grow.part.get 0 b.s.velo - b.compload0avg
  extn : s.grow.commloadextn = over b.s s.grow.part.get 1 b.veex
  cut : s.commloadintn = cut b.s s.grow.part.get
  fron : Enum s.frontab s.fronnbr (Frontier b.s s.grow.part.get)

theorem nextRoot_holds {g : Graph} {pass : Arr Int} (h1 : pass.lo = g.baseval) (h2 : pass.hi = g.vertnnd) {r : Int} (hr : g.baseval ≤ r)
    (he : ∃ v, r ≤ v ∧ v < g.vertnnd ∧ pass.get v = 0) (hn : g.vertnnd = g.baseval + g.vertnbr) :
    Holds (gpNextRoot pass (g.vertnbr.toNat + 1) r) (fun x => r ≤ x ∧ x < g.vertnnd ∧ pass.get x = 0 ∧ ∀ v, r ≤ v → v < x → pass.get v ≠ 0) := by
  obtain ⟨v, v1, v2, v3⟩ := he
  unfold gpNextRoot
  refine Holds_loopM (fun x => r ≤ x ∧ x ≤ v ∧ ∀ w, r ≤ w → w < x → pass.get w ≠ 0) (fun x => (v - x).toNat) ?_ _ _ ?_ ?_
  · rintro x ⟨i1, i2, i3⟩
    rw [Arr.rd_ok _ (by omega) (by omega), ok_bind]
    by_cases hx : pass.get x ≠ 0
    · rw [if_pos hx, Holds_pure, Loop.Sat_next]
      have : x ≠ v := by rintro rfl; exact hx v3
      refine ⟨⟨by omega, by omega, ?_⟩, by omega⟩
      intro w w1 w2
      by_cases hw : w = x
      · rw [hw]; exact hx
      · exact i3 w w1 (by omega)
    · rw [if_neg hx, Holds_pure, Loop.Sat_brk]
      exact ⟨i1, by omega, by omega, i3⟩
  · exact ⟨Int.le_refl r, v1, fun w w1 w2 => by omega⟩
  · omega

theorem sumI_pos {lo hi : Int} {f : Int → Int} (h : 0 < sumI lo hi f) : ∃ v, lo ≤ v ∧ v < hi ∧ f v ≠ 0 := by
  refine Classical.byContradiction fun hn => ?_
  have : sumI lo hi f = 0 := sumI_eq_zero (fun i h1 h2 => Classical.byContradiction fun hf => hn ⟨i, h1, h2, hf⟩)
  omega

theorem linkTo_zero {g : Graph} {part : Int → Int} {k v : Int} (h : ∀ w, g.Adj v w → part w ≠ k) : linkTo g part k v = 0 := by
  unfold linkTo
  have : (g.nbrs v).map (fun p => if part p.1 = k then p.2 else 0) = (g.nbrs v).map (fun _ => 0) := by
    apply List.map_congr_left
    intro x hx
    rw [if_neg (h _ ((adj_iff v x.1).2 ⟨x, hx, rfl⟩))]
  rw [this]
  simp

theorem rootInv_post (hc : ConsE b.s) {s : GpRoot} (h : RootInv b s) : RootPost b s := by
  refine ⟨h.pbnd, by rw [h.fron.1]; exact ⟨rfl, rfl⟩, h.parts, h.size, h.load, h.extn, ?_, ?_⟩
  · rw [h.fron.2.2]
    symm
    unfold cut over
    apply sumI_eq_zero
    intro v h1 h2
    split
    · rename_i hv
      apply linkTo_zero
      intro w hw hk
      have := h.closed w v (hc.adj_vertex ⟨h1, h2⟩ hw).1 hk (hc.adj_symm ⟨h1, h2⟩ hw)
      rw [hv] at this
      exact absurd this (by decide)
    · rfl
  · rw [h.fron.2.1]
    refine (Enum.empty _).congr ?_
    intro v
    refine ⟨False.elim, ?_⟩
    rw [frontier_adj]
    rintro ⟨hv, w, hw, hn⟩
    have hwv := (hc.adj_vertex hv hw).1
    rcases h.parts v hv with a | a <;> rcases h.parts w hwv with c | c
    · rw [a, c] at hn; exact hn rfl
    · have := h.closed w v hwv c (hc.adj_symm hv hw)
      rw [a] at this; exact absurd this (by decide)
    · have := h.closed v w hv a hw
      rw [c] at this; exact absurd this (by decide)
    · rw [a, c] at hn; exact hn rfl

theorem gpRoot_holds (hc : ConsE b.s) (ha : Alloc b) (hav : 0 ≤ b.compload0avg) (passnbr : Int) {s : GpRoot} (h : RootInv b s) (hs : s.rootnum = b.s.baseval) :
    Holds (loopM (gpRootStep b passnbr) (b.s.vertnbr.toNat + 1) s) (RootPost b) := by
  have hnn := hc.vertnnd
  have hn0 := hc.vertnbr
  refine Holds_loopM (RootInv b) (fun r => (b.s.vertnnd - r.rootnum).toNat) ?_ _ _ h (by omega)
  intro r i
  unfold gpRootStep
  by_cases hcond : ¬ (r.rootnum < b.s.vertnnd ∧ r.grow.compload0dlt > 0)
  · rw [if_pos hcond, Holds_pure, Loop.Sat_brk]
    exact rootInv_post hc i
  rw [if_neg hcond, Holds_bind]
  have hbnd := i.bnd
  have hex : ∃ v, r.rootnum ≤ v ∧ v < b.s.vertnnd ∧ r.grow.gp.pass.get v = 0 := by
    have hl := i.load
    have : 0 < over b.s r.grow.part.get 0 b.s.velo := by omega
    obtain ⟨v, v1, v2, v3⟩ := sumI_pos this
    have hp0 : r.grow.part.get v = 0 := Classical.byContradiction fun hn => v3 (if_neg hn)
    refine ⟨v, ?_, v2, ?_⟩
    · rcases Int.lt_or_le v r.rootnum with hlt | hle
      · have := i.root.2 v v1 hlt v2
        rw [hp0] at this; exact absurd this (by decide)
      · exact hle
    · have := (i.pass v ⟨v1, v2⟩).2
      refine Classical.byContradiction fun hn => ?_
      have := this.2 hn
      rw [hp0] at this; exact absurd this (by decide)
  refine (nextRoot_holds hbnd.p1 hbnd.p2 i.root.1 hex hnn).mono ?_
  rintro x ⟨x1, x2, x3, x4⟩
  have hr0 := i.root.1
  have hxv : b.s.Vertex x := ⟨by omega, x2⟩
  have hC := comp_closed hc hxv
  have hx0 : r.grow.part.get x = 0 := by
    rcases i.parts x hxv with a | a
    · exact a
    · exact absurd x3 ((i.pass x hxv).2.1 a)
  have hC0 : ∀ v, Comp b.s x v → r.grow.part.get v = 0 := by
    intro v hv
    induction hv with
    | refl => exact hx0
    | @tail y z hy hyz ih =>
      have hyv := hC.sub y hy
      have hzv := (hc.adj_vertex hyv hyz).1
      rcases i.parts z hzv with a | a
      · exact a
      · have := i.closed z y hzv a (hc.adj_symm hyv hyz)
        rw [ih] at this; exact absurd this (by decide)
  have hCp : ∀ v, Comp b.s x v → r.grow.gp.pass.get v = 0 := by
    intro v hv
    refine Classical.byContradiction fun hn => ?_
    have := (i.pass v (hC.sub v hv)).2.2 hn
    rw [hC0 v hv] at this; exact absurd this (by decide)
  rw [Holds_bind]
  refine (gpPasses_holds (old := r.grow.gp.pass.get) hc ha.graph hC passnbr (s := r.grow.gp) ⟨hbnd, fun v hv => by rw [hCp v hv]; decide, fun v _ => rfl⟩
    Relation.ReflTransGen.refl).mono ?_
  rintro p ⟨p1, p2, p3⟩
  rw [Holds_bind]
  refine (gpStart_holds hc hC p1 p2).mono ?_
  rintro gp ⟨q1, q2, q3, q4⟩
  rw [Holds_bind]
  have hG : Grow b (Comp b.s x) p.passnum r.grow.gp.pass.get r.grow.part.get { r.grow with gp := gp } := by
    refine ⟨q1, i.pbnd, ?_, ?_, ?_, fun _ _ => rfl, i.parts, i.size, i.load, i.extn⟩
    · intro k k1 k2; dsimp only at k2; omega
    · intro k k1 k2; dsimp only at k2; omega
    · intro k k1 k2; dsimp only at k2; omega
  refine (gpGrow_holds hc ha hC hC0 hG q2 q3).mono ?_
  rintro G ⟨g1, g2, g3⟩
  dsimp only at g3
  have hTB := g1.bfs.tail
  have hHL := g1.bfs.head_le hc hC
  -- parts 1 are kept
  have hkeep : ∀ v, r.grow.part.get v = 1 → G.part.get v = 1 := by
    intro v hv
    by_cases hi : ∃ k, 0 ≤ k ∧ k < G.gp.tail ∧ G.gp.queu.get k = v
    · obtain ⟨k, k1, k2, rfl⟩ := hi
      exact g1.into k k1 k2
    · rw [g1.out v (fun k k1 k2 hk => hi ⟨k, k1, k2, hk⟩)]; exact hv
  -- where parts 1 come from
  have hfrom : ∀ v, G.part.get v = 1 → r.grow.part.get v = 1 ∨ ∃ k, 0 ≤ k ∧ k < G.gp.tail ∧ G.gp.queu.get k = v := by
    intro v hv
    by_cases hi : ∃ k, 0 ≤ k ∧ k < G.gp.tail ∧ G.gp.queu.get k = v
    · exact Or.inr hi
    · rw [g1.out v (fun k k1 k2 hk => hi ⟨k, k1, k2, hk⟩)] at hv
      exact Or.inl hv
  have hrest : ∀ k, G.gp.tail ≤ k → k < G.gp.head → Comp b.s x (G.gp.queu.get k) ∧ G.part.get (G.gp.queu.get k) = 0 := by
    intro k k1 k2
    have hm := (g1.bfs.enum.mem (by omega) k2).1
    refine ⟨hm, ?_⟩
    rw [g1.out, hC0 _ hm]
    intro j j1 j2 hj
    have := g1.bfs.enum.2.1 j k j1 (by omega) (by omega) k2 hj
    omega
  -- a vertex of part 0 with a neighbour in part 1 is in the queue
  have hqueue : ∀ v w, b.s.Vertex w → G.part.get v = 0 → G.part.get w = 1 → b.s.Adj w v → ∃ k, G.gp.tail ≤ k ∧ k < G.gp.head ∧ G.gp.queu.get k = v := by
    intro v w hw hv0 hw1 hwv
    rcases hfrom w hw1 with h1 | ⟨k, k1, k2, rfl⟩
    · have := hkeep v (i.closed w v hw h1 hwv)
      rw [hv0] at this; exact absurd this (by decide)
    · have hp := g1.done k k1 k2 v hwv
      have hcv := hC.adj _ v (g1.bfs.enum.mem k1 (by omega)).1 hwv
      obtain ⟨j, j1, j2, j3⟩ := (g1.bfs.enum.2.2 v).1 ⟨hcv, hp⟩
      refine ⟨j, ?_, j2, j3⟩
      rcases Int.lt_or_le j G.gp.tail with hlt | hle
      · have := g1.into j j1 hlt
        rw [j3, hv0] at this; exact absurd this (by decide)
      · exact hle
  by_cases hq : ¬ G.gp.head ≤ G.gp.tail
  · rw [if_pos hq, Holds_bind]
    refine (gpFron_holds (t0 := G.gp.tail) hc ha hC g1.bnd ⟨g1.bfs.bnd.q1, by rw [g1.bfs.bnd.q2]; exact hHL⟩ hrest
      (fun i j i1 i2 j1 j2 h => g1.bfs.enum.2.1 i j (by omega) i2 (by omega) j2 h) hTB.1 (by omega) hHL rfl ⟨g1.bfs.bnd.d1, g1.bfs.bnd.d2⟩ i.fron.1 rfl ?_ i.fron.2.2).mono ?_
    · intro v hv hv1
      dsimp only
      have hd : 0 ≤ G.gp.dist.get v := by
        rcases hfrom v hv1 with h1 | ⟨k, k1, k2, rfl⟩
        · rw [hC0 v hv] at h1; exact absurd h1 (by decide)
        · have := g1.bfs.enum.mem k1 (by omega)
          exact g1.bfs.dist _ this.1 this.2
      omega
    · rintro f ⟨f1, f2, f3, f4⟩
      rw [Holds_pure, Loop.Sat_brk]
      refine ⟨g1.bnd, ⟨f1, f2⟩, g1.parts, g1.size, g1.load, g1.extn, ?_, ?_⟩
      · dsimp only
        rw [f4, sumI_enum G.gp.queu.get (linkTo b.s G.part.get 1) b.s.baseval b.s.vertnnd _ _ (by omega)
          (fun i j i1 i2 j1 j2 h => g1.bfs.enum.2.1 i j (by omega) i2 (by omega) j2 h) (fun k k1 k2 => hC.sub _ (hrest k k1 k2).1)]
        unfold cut over
        apply sumI_congr
        intro v v1 v2
        by_cases hi : ∃ k, G.gp.tail ≤ k ∧ k < G.gp.head ∧ G.gp.queu.get k = v
        · rw [if_pos hi]
          obtain ⟨k, k1, k2, rfl⟩ := hi
          rw [if_pos (hrest k k1 k2).2]
        · rw [if_neg hi]
          split
          · rename_i hv0
            symm
            apply linkTo_zero
            intro w hw hw1
            exact hi (hqueue v w (hc.adj_vertex ⟨v1, v2⟩ hw).1 hv0 hw1 (hc.adj_symm ⟨v1, v2⟩ hw))
          · rfl
      · dsimp only
        refine f3.congr ?_
        intro v
        rw [frontier_adj]
        constructor
        · rintro (⟨k, k1, k2, rfl⟩ | ⟨hv1, k, k1, k2, hk⟩)
          · obtain ⟨j, j1, j2, j3⟩ := g1.par k (by omega) k2
            have hm := hrest k k1 k2
            have hjv := hC.sub _ (g1.bfs.enum.mem j1 (by omega)).1
            refine ⟨hC.sub _ hm.1, G.gp.queu.get j, hc.adj_symm hjv j3, ?_⟩
            rw [hm.2, g1.into j j1 j2]; decide
          · have hm := hrest k k1 k2
            have hkv := hC.sub _ hm.1
            refine ⟨(hc.adj_vertex hkv hk).1, G.gp.queu.get k, hc.adj_symm hkv hk, ?_⟩
            rw [hm.2, hv1]; decide
        · rintro ⟨hv, w, hw, hn⟩
          have hwv := (hc.adj_vertex hv hw).1
          rcases g1.parts v hv with a | a <;> rcases g1.parts w hwv with c | c
          · rw [a, c] at hn; exact absurd rfl hn
          · exact Or.inl (hqueue v w hwv a c (hc.adj_symm hv hw))
          · obtain ⟨k, k1, k2, k3⟩ := hqueue w v hv c a hw
            exact Or.inr ⟨a, k, k1, k2, by rw [k3]; exact hc.adj_symm hv hw⟩
          · rw [a, c] at hn; exact absurd rfl hn
  · rw [if_neg hq, Holds_pure, Loop.Sat_next]
    have hall : ∀ v, Comp b.s x v → G.gp.pass.get v = p.passnum := by
      refine comp_sub hc hxv (Q := fun v => G.gp.pass.get v = p.passnum) ?_ p2 ?_
      · intro v w hv hpv hvw
        obtain ⟨k, k1, k2, k3⟩ := (g1.bfs.enum.2.2 v).1 ⟨hv, hpv⟩
        exact g1.done k k1 (by omega) w (by rw [k3]; exact hvw)
      · have := (g1.bfs.enum.mem (i := 0) (by omega) (by omega)).2
        rw [g3, q4] at this
        exact this
    have hC1 : ∀ v, Comp b.s x v → G.part.get v = 1 := by
      intro v hv
      obtain ⟨k, k1, k2, k3⟩ := (g1.bfs.enum.2.2 v).1 ⟨hv, hall v hv⟩
      rw [← k3]
      exact g1.into k k1 (by omega)
    have hout : ∀ v, ¬ Comp b.s x v → G.part.get v = r.grow.part.get v := by
      intro v hv
      apply g1.out
      intro k k1 k2 hk
      rw [← hk] at hv
      exact hv (g1.bfs.enum.mem k1 (by omega)).1
    refine ⟨⟨g1.bfs.bnd, g1.bnd, g1.parts, ?_, ?_, g1.size, g1.load, g1.extn, ⟨by dsimp only; omega, ?_⟩, i.fron⟩, by dsimp only; omega⟩
    · intro v hv
      dsimp only
      by_cases hcv : Comp b.s x v
      · rw [hall v hcv, hC1 v hcv]
        exact ⟨by omega, fun _ => by omega, fun _ => rfl⟩
      · rw [hout v hcv, g1.bfs.out v hcv]
        exact i.pass v hv
    · intro v w hv hv1 hvw
      dsimp only at hv1 ⊢
      by_cases hcv : Comp b.s x v
      · exact hC1 w (hC.adj v w hcv hvw)
      · rw [hout v hcv] at hv1
        exact hkeep w (i.closed v w hv hv1 hvw)
    · intro v v1 v2 v3
      dsimp only at v2 ⊢
      by_cases hvx : v = x
      · rw [hvx]; exact hC1 x Relation.ReflTransGen.refl
      · apply hkeep
        rcases Int.lt_or_le v r.rootnum with hlt | hle
        · exact i.root.2 v v1 hlt v3
        · exact (i.pass v ⟨v1, v3⟩).2.2 (x4 v hle (by omega))

theorem gpMain_holds (hc : ConsE b.s) (ha : Alloc b) (hav : 0 ≤ b.compload0avg) (hg : b.commgainextn0 = sumI b.s.baseval b.s.vertnnd b.veex) (junk : Int → Int) (passnbr : Int)
    (h0 : ∀ v, b.s.Vertex v → b.part v = 0) (hf : b.fronnbr = 0) : Holds (gpMain junk passnbr b) (fun b' => Valid b' ∧ SameProblem b b') := by
  have hnn := hc.vertnnd
  have hn0 := hc.vertnbr
  unfold gpMain
  dsimp only
  rw [Holds_bind]
  have hp : Parts b.s b.parttax.get := fun v hv => Or.inl (h0 v hv)
  refine (gpRoot_holds hc ha hav passnbr (s := ⟨⟨⟨⟨0, b.s.vertnbr, junk⟩, 0, 0, Arr.const b.s.baseval (b.s.baseval + b.s.vertnbr) 0,
      Arr.const b.s.baseval (b.s.baseval + b.s.vertnbr) 0⟩, b.parttax, b.s.vertnbr,
      b.s.velosum - b.compload0avg, 0⟩, b.frontab, b.fronnbr, 0, b.s.baseval⟩) ?_ rfl).mono ?_
  · refine ⟨⟨rfl, rfl, rfl, hnn.symm, rfl, hnn.symm⟩, ⟨rfl, rfl⟩, hp, ?_, ?_, ?_, ?_, ?_, ⟨Int.le_refl _, fun v h1 h2 => by dsimp only at h2; omega⟩, ⟨rfl, hf, rfl⟩⟩
    · intro v hv
      refine ⟨Int.le_refl 0, ?_⟩
      dsimp only
      have := h0 v hv
      unfold Bgraph.part at this
      rw [this]
      exact ⟨fun h => absurd h (by decide), fun h => absurd rfl h⟩
    · intro v w hv hv1
      have := h0 v hv
      unfold Bgraph.part at this
      dsimp only at hv1
      rw [this] at hv1
      exact absurd hv1 (by decide)
    · dsimp only
      rw [over_congr (g := b.s) (p := b.parttax.get) (q := fun _ => 0) 0 h0 (fun _ _ => rfl), over_const_zero, if_pos rfl, size_eq hc]
    · dsimp only
      rw [over_congr (g := b.s) (p := b.parttax.get) (q := fun _ => 0) 0 h0 (fun _ _ => rfl), over_const_zero, if_pos rfl, hc.velosum]
    · dsimp only
      rw [over_congr (g := b.s) (p := b.parttax.get) (q := fun _ => 0) 1 h0 (fun _ _ => rfl), over_const_zero, if_neg (by decide)]
  · rintro r h
    rw [Holds_pure]
    have h1 := h.load
    have h2 := h.extn
    have h3 := over_add h.parts b.veex
    refine ⟨⟨h.parts, ?_, ?_, h.size, ?_, ?_, h.fron⟩, ⟨rfl, rfl, ⟨h.pbnd.1, h.pbnd.2, h.fbnd.1, h.fbnd.2⟩, ⟨rfl, rfl, rfl⟩, ⟨rfl, rfl⟩, ⟨rfl, rfl, rfl⟩, ⟨rfl, rfl⟩⟩⟩
    · change b.compload0avg + r.grow.compload0dlt = over b.s r.grow.part.get 0 b.s.velo
      omega
    · change r.grow.compload0dlt = b.compload0avg + r.grow.compload0dlt - b.compload0avg
      omega
    · change b.commloadextn0 + r.grow.commloadextn + r.commloadintn * b.domndist = cut b.s r.grow.part.get * b.domndist + b.commloadextn0 + over b.s r.grow.part.get 1 b.veex
      rw [h.cut, h2]; omega
    · change b.commgainextn0 - r.grow.commloadextn * 2 = over b.s r.grow.part.get 0 b.veex - over b.s r.grow.part.get 1 b.veex
      omega

theorem over_pos {g : Graph} {p : Int → Int} {k : Int} {f : Int → Int} {v : Int} (hx : g.Vertex v) (hp : p v = k) (h0 : ∀ w, g.Vertex w → 0 ≤ f w) (hf : 0 < f v) :
    0 < over g p k f := by
  unfold over
  rw [sumI_split (mid := v) hx.1 (by have := hx.2; omega), sumI_split (lo := v) (mid := v + 1) (by omega) (by have := hx.2; omega),
    sumI_succ (Int.le_refl v), sumI_empty (Int.le_refl v), if_pos hp]
  have e1 : 0 ≤ sumI g.baseval v (fun v => if p v = k then f v else 0) :=
    sumI_nonneg (fun i i1 i2 => by have := h0 i ⟨i1, by have := hx.2; omega⟩; split <;> omega)
  have e2 : 0 ≤ sumI (v + 1) g.vertnnd (fun v => if p v = k then f v else 0) :=
    sumI_nonneg (fun i i1 i2 => by have := h0 i ⟨by have := hx.1; omega, i2⟩; split <;> omega)
  omega

/-- If all vertices are counted in part 0, they are in part 0. -/
theorem all_zero (hc : ConsE b.s) (hv : Valid b) (hs : b.compsize0 = b.s.vertnbr) : (∀ v, b.s.Vertex v → b.part v = 0) ∧ b.fronnbr = 0 := by
  have h0 : ∀ v, b.s.Vertex v → b.part v = 0 := by
    intro v hx
    rcases hv.parts v hx with a | a
    · exact a
    · exfalso
      have h1 := hv.size
      have h2 := over_add (g := b.s) hv.parts (fun _ => 1)
      rw [size_eq hc] at h2
      have h3 : 0 < over b.s b.part 1 (fun _ => 1) := by
        unfold over
        rw [sumI_split (mid := v) hx.1 (by have := hx.2; omega), sumI_split (lo := v) (mid := v + 1) (by omega) (by have := hx.2; omega),
          sumI_succ (Int.le_refl v), sumI_empty (Int.le_refl v), if_pos a]
        have e1 : 0 ≤ sumI b.s.baseval v (fun v => if b.part v = 1 then 1 else 0) := sumI_nonneg (fun i _ _ => by split <;> decide)
        have e2 : 0 ≤ sumI (v + 1) b.s.vertnnd (fun v => if b.part v = 1 then 1 else 0) := sumI_nonneg (fun i _ _ => by split <;> decide)
        dsimp only
        omega
      omega
  refine ⟨h0, ?_⟩
  have h1 := hv.fron.1
  rcases Int.lt_or_le 0 b.fronnbr with h | h
  · have := hv.fron.mem (i := 0) (Int.le_refl 0) h
    rw [Frontier_congr hc (q := fun _ => 0) h0] at this
    exact absurd this (Frontier_const _ _)
  · omega

theorem bipartGp_holds (hc : ConsE b.s) (ha : Alloc b) (hav : 0 ≤ b.compload0avg) (hg : b.commgainextn0 = sumI b.s.baseval b.s.vertnnd b.veex)
    (hv : Valid b) (junk : Int → Int) (passnbr : Int) : Holds (bipartGp junk passnbr b) (fun b' => Valid b' ∧ SameProblem b b') := by
  unfold bipartGp
  by_cases hs : b.compsize0 ≠ b.s.vertnbr
  · rw [if_pos hs, Holds_bind]
    refine (zero_holds hc ha).mono ?_
    rintro b' ⟨e1, e2, e3, e4, e5, e6, e7, e8, e9⟩
    have es := e1.s
    have ex : b'.veex = b.veex := by funext v; unfold Bgraph.veex; rw [e1.veextax]
    refine (gpMain_holds (b := b') (by rw [es]; exact hc) (e1.alloc ha) (by rw [e1.limits.2.2]; exact hav) (by rw [e1.extn.2, es, ex]; exact hg) junk passnbr
      (by rw [es]; exact e9) e3).mono ?_
    rintro c ⟨c1, c2⟩
    exact ⟨c1, e1.trans c2⟩
  · rw [if_neg hs]
    obtain ⟨h0, hf⟩ := all_zero hc hv (by omega)
    exact gpMain_holds hc ha hav hg junk passnbr h0 hf

end Scotch.Bipart
