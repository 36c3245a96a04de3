import Verif.HOrder.LemmasGp

/-! # Gibbs-Poole-Stockmeyer ordering: main loops -/

set_option autoImplicit false
set_option linter.unusedSimpArgs false

namespace Scotch.HOrder
open Graph Cblk
open Bipart (Closed Comp comp_closed comp_sub)
variable {h : Hgraph} {C : Int → Prop}

theorem gpPops_holds (hc : HCons h) (ha : HAlloc h) (hC : Closed (unhalo h) C) {D0 : Int → Prop} (hD : ∀ v, D0 v → (unhalo h).Vertex v ∧ ¬ C v) {P ordenum start : Int} (hP : 0 ≤ P) {peri0 : Arr Int} {pass0 : Int → Int}
    (hb : peri0.lo ≤ ordenum ∧ ordenum + h.vnohnbr ≤ peri0.hi) {d : Int} {st0 : GpC} (hI : CI h C D0 P ordenum start peri0 pass0 (fun _ => False) (fun _ => False) st0) (hlt : st0.q.head < st0.q.tail)
    (hd : P ≤ st0.q.pass.get d) :
    Holds (loopM (gpPop h P (h.vnohnbr.toNat + 1)) (h.vnohnbr.toNat + 1) st0) (fun st => CI h C D0 P ordenum start peri0 pass0 (fun _ => False) (fun _ => False) st ∧ st.q.head = st.q.tail ∧ P ≤ st.q.pass.get d) := by
  have hE : ConsE (unhalo h) := consE_iff.2 hc.part
  have hnn : h.vnohnnd = h.s.baseval + h.vnohnbr := hE.vertnnd
  have hn0 : 0 ≤ h.vnohnbr := hE.vertnbr
  refine Holds_loopM (fun st => CI h C D0 P ordenum start peri0 pass0 (fun _ => False) (fun _ => False) st ∧ st.q.head < st.q.tail ∧ P ≤ st.q.pass.get d) (fun st => (h.vnohnbr - st.q.head).toNat) ?_ _ _ ⟨hI, hlt, hd⟩
    (by have := hI.q.head; omega)
  rintro st ⟨hI, hlt, hd⟩
  have htl : st.q.tail ≤ h.vnohnbr := hI.q.tail_le hE hC
  have hh := hI.q.head
  have hbq : st.q.qtab.lo = 0 ∧ st.q.qtab.hi = h.vnohnbr := hI.q.b.bq
  have hbp : st.q.pass.lo = h.s.baseval ∧ st.q.pass.hi = h.s.baseval + h.vnohnbr := hI.q.b.bp
  have hbd : st.q.dist.lo = h.s.baseval ∧ st.q.dist.hi = h.s.baseval + h.vnohnbr := hI.q.b.bd
  unfold gpPop
  rw [Arr.rd_ok _ (by omega) (by omega), ok_bind]
  have hent := hI.q.ent st.q.head hh.1 hlt
  have hpend : ∀ x, C x → st.q.pass.get x = P → x = st.q.qtab.get st.q.head ∨ ∃ i, st.q.head + 1 ≤ i ∧ i < st.q.tail ∧ st.q.qtab.get i = x := by
    intro x hx hp
    rcases hI.q.pend x hx hp with hf | ⟨i, i1, i2, i3⟩
    · exact hf.elim
    · by_cases hi : i = st.q.head
      · left; rw [← i3, hi]
      · exact Or.inr ⟨i, by omega, i2, i3⟩
  generalize st.q.qtab.get st.q.head = v at hent hpend
  obtain ⟨hv, hvp⟩ := hent
  have hvv := hC.sub v hv
  have hv1 : h.s.baseval ≤ v := hvv.1
  have hv2 : v < h.vnohnnd := hvv.2
  dsimp only
  rw [Holds_bind]
  refine Holds.mono (Q := fun s => CI h C D0 P ordenum start peri0 pass0 (fun _ => False) (fun _ => False) s ∧ s.q.head = st.q.head + 1 ∧ P ≤ s.q.pass.get d) ?_ ?_
  · rw [Arr.rd_ok _ (by omega) (by omega), ok_bind]
    by_cases hgt : st.q.pass.get v > P
    · rw [if_pos hgt, Holds_pure]
      refine ⟨⟨⟨⟨hbq, hbp, hbd⟩, hI.q.out, hI.q.rng, by dsimp only; omega, hI.q.ent, hI.q.inj, ?_, hI.q.nb⟩, hI.ord, hI.start⟩, rfl, hd⟩
      intro x hx hp
      dsimp only at hp ⊢
      rcases hpend x hx hp with rfl | hk
      · omega
      · exact Or.inr hk
    · rw [if_neg hgt, Arr.rd_ok _ (by omega) (by omega), ok_bind]
      refine Holds_loopM (fun s : GpC × Int => CI h C D0 P ordenum start peri0 pass0 (· = s.2) (· = s.2) s.1 ∧ C s.2 ∧ s.1.q.pass.get s.2 ≤ P ∧ s.1.q.head = st.q.head + 1 ∧ P ≤ s.1.q.pass.get d)
        (fun s => (ordenum + h.vnohnbr - s.1.ordeval).toNat) ?_ _ _ ?_ ?_
      · rintro ⟨s, u⟩ ⟨s1, s2, s3, s4, s5⟩
        dsimp only at s1 s2 s3 s4 s5
        refine (gpLink_holds hc ha hC hD hP hb s1 s2 s3).mono ?_
        intro r hr
        cases r with
        | next s' =>
          rw [Loop.Sat_next] at hr ⊢
          obtain ⟨y1, y2, y3, y4, y5, y6, y7, y8⟩ := hr
          exact ⟨⟨y1, y2, y3, by omega, y8 d s5⟩, by dsimp only; omega⟩
        | brk s' =>
          rw [Loop.Sat_brk] at hr ⊢
          obtain ⟨y1, y2, y3, y4⟩ := hr
          exact ⟨y1, by omega, y4 d s5⟩
      · refine ⟨⟨⟨⟨hbq, hbp, hbd⟩, hI.q.out, hI.q.rng, by dsimp only; omega, hI.q.ent, hI.q.inj, ?_, ?_⟩, hI.ord, hI.start⟩, hv, by dsimp only; omega, rfl, hd⟩
        · intro x hx hp; exact hpend x hx hp
        · intro u w hu hp hA
          rcases hI.q.nb u w hu hp hA with hk | hk
          · exact Or.inl hk
          · exact hk.elim
      · obtain ⟨π, hen, _⟩ := hI.ord
        have := hen.1
        dsimp only
        omega
  · rintro s ⟨s1, s2, s3⟩
    have := s1.q.head
    by_cases he : s.q.head = s.q.tail
    · rw [if_pos he, Holds_pure, Loop.Sat_brk]
      exact ⟨s1, he, s3⟩
    · rw [if_neg he, Holds_pure, Loop.Sat_next]
      exact ⟨⟨s1, by omega, s3⟩, by omega⟩

/-- State of the loop on components. -/
structure GI (h : Hgraph) (ordenum : Int) (peri0 : Arr Int) (s : GpG) : Prop where
  b : QB (unhalo h) s.c.q
  pos : ∀ v, (unhalo h).Vertex v → 0 ≤ s.c.q.pass.get v
  ord : Ordd h ordenum peri0 (fun v => (unhalo h).Vertex v ∧ s.c.q.pass.get v ≠ 0) s.c.peri s.c.ordeval
  closed : ∀ v w, (unhalo h).Vertex v → s.c.q.pass.get v ≠ 0 → Adj (unhalo h) v w → s.c.q.pass.get w ≠ 0
  root : h.s.baseval ≤ s.root ∧ ∀ v, h.s.baseval ≤ v → v < s.root → s.c.q.pass.get v ≠ 0

theorem gpComps_holds (hc : HCons h) (ha : HAlloc h) {passnbr ordenum : Int} {peri0 : Arr Int} (hb : peri0.lo ≤ ordenum ∧ ordenum + h.vnohnbr ≤ peri0.hi) {s0 : GpG} (hI : GI h ordenum peri0 s0) :
    Holds (loopM (gpComp h passnbr (ordenum + h.vnohnbr) (h.vnohnbr.toNat + 1)) (h.vnohnbr.toNat + 1) s0) (fun s => GI h ordenum peri0 s ∧ s.c.ordeval = ordenum + h.vnohnbr) := by
  have hE : ConsE (unhalo h) := consE_iff.2 hc.part
  have hnn : h.vnohnnd = h.s.baseval + h.vnohnbr := hE.vertnnd
  have hn0 : 0 ≤ h.vnohnbr := hE.vertnbr
  have fuel0 : ∀ s, GI h ordenum peri0 s → (ordenum + h.vnohnbr - s.c.ordeval).toNat < h.vnohnbr.toNat + 1 := by
    intro s hs
    obtain ⟨π, hen, _⟩ := hs.ord
    have := hen.1
    omega
  refine Holds_loopM (GI h ordenum peri0) (fun s => (ordenum + h.vnohnbr - s.c.ordeval).toNat) ?_ _ _ hI (fuel0 _ hI)
  intro s hI
  obtain ⟨π0, hen, hob, hof, hoc⟩ := hI.ord
  have hle := hen.le (lo := h.s.baseval) (hi := h.vnohnnd) (by omega) (fun v hv => hv.1)
  have h0 := hen.1
  have hbq : s.c.q.qtab.lo = 0 ∧ s.c.q.qtab.hi = h.vnohnbr := hI.b.bq
  have hbp : s.c.q.pass.lo = h.s.baseval ∧ s.c.q.pass.hi = h.s.baseval + h.vnohnbr := hI.b.bp
  have hbd : s.c.q.dist.lo = h.s.baseval ∧ s.c.q.dist.hi = h.s.baseval + h.vnohnbr := hI.b.bd
  unfold gpComp
  by_cases hlt : s.c.ordeval < ordenum + h.vnohnbr
  · rw [if_pos hlt, Holds_bind]
    have hex : ∃ v, h.s.baseval ≤ v ∧ v < h.vnohnnd ∧ s.c.q.pass.get v = 0 := by
      apply Classical.byContradiction
      intro hn
      have := enum_ge hen (lo := h.s.baseval) (hi := h.vnohnnd) (by omega) (fun v v1 v2 => ⟨⟨v1, v2⟩, fun hx => hn ⟨v, v1, v2, hx⟩⟩)
      omega
    obtain ⟨v, v1, v2, v3⟩ := hex
    have hvr := hI.root
    have hvv : s.root ≤ v := by
      apply Classical.byContradiction
      intro hx
      exact hvr.2 v v1 (by omega) v3
    refine Holds_loopM (fun x => s.root ≤ x ∧ x ≤ v ∧ ∀ w, h.s.baseval ≤ w → w < x → s.c.q.pass.get w ≠ 0) (fun x => (v - x).toNat) ?_ _ _ ⟨Int.le_refl _, hvv, hvr.2⟩ (by omega)
    rintro x ⟨x1, x2, x3⟩
    unfold gpRoot
    rw [Arr.rd_ok _ (by omega) (by omega), ok_bind]
    by_cases hx : s.c.q.pass.get x ≠ 0
    · rw [if_pos hx, Holds_pure, Loop.Sat_next]
      have : x ≠ v := by rintro rfl; exact hx v3
      refine ⟨⟨by omega, by omega, ?_⟩, by omega⟩
      intro w w1 w2
      by_cases hw : w = x
      · rw [hw]; exact hx
      · exact x3 w w1 (by omega)
    · rw [if_neg hx, Holds_pure, Loop.Sat_brk]
      have hx0 : s.c.q.pass.get x = 0 := by omega
      have hxv : (unhalo h).Vertex x := ⟨by show h.s.baseval ≤ x; omega, by show x < h.vnohnnd; omega⟩
      have hC := comp_closed hE hxv
      have hC0 : ∀ y, Comp (unhalo h) x y → s.c.q.pass.get y = 0 := by
        intro y hy
        induction hy with
        | refl => exact hx0
        | @tail a b hab hb ih =>
          apply Classical.byContradiction
          intro hne
          have hav := hC.sub a hab
          have hbv := (hE.adj_vertex hav hb).1
          exact hI.closed b a hbv hne (hE.adj_symm hav hb) ih
      rw [Holds_bind]
      have hPI : PI (unhalo h) (Comp (unhalo h) x) s.c.q.pass.get ⟨s.c.q, ⟨x, 0, 0, 0⟩, 1⟩ := by
        refine ⟨hI.b, fun _ _ => rfl, ?_, Relation.ReflTransGen.refl, Int.le_refl _⟩
        intro y hy
        dsimp only
        rw [hC0 y hy]
        omega
      refine (gpPasses_holds hE ha.part hC hPI rfl).mono ?_
      intro p hp
      have hpb := hp.b
      have pbq : p.q.qtab.lo = 0 ∧ p.q.qtab.hi = h.vnohnbr := hpb.bq
      have pbp : p.q.pass.lo = h.s.baseval ∧ p.q.pass.hi = h.s.baseval + h.vnohnbr := hpb.bp
      have pbd : p.q.dist.lo = h.s.baseval ∧ p.q.dist.hi = h.s.baseval + h.vnohnbr := hpb.bd
      have hdv := hC.sub _ hp.num
      have hd1 : h.s.baseval ≤ p.d.num := hdv.1
      have hd2 : p.d.num < h.vnohnnd := hdv.2
      have hpos := hp.pos
      unfold GpQ.put
      rw [Arr.wr_ok _ _ (by dsimp only; omega) (by dsimp only; omega), ok_bind, pure_bind]
      dsimp only
      rw [Arr.wr_ok _ _ (by omega) (by omega), ok_bind, Holds_bind]
      have hCI : CI h (Comp (unhalo h) x) (fun v => (unhalo h).Vertex v ∧ s.c.q.pass.get v ≠ 0) p.passnum ordenum s.c.ordeval peri0 s.c.q.pass.get (fun _ => False) (fun _ => False)
          { q := { qtab := p.q.qtab.set 0 p.d.num, head := 0, tail := 0 + 1, pass := p.q.pass.set p.d.num p.passnum, dist := p.q.dist }, peri := s.c.peri, ordeval := s.c.ordeval } := by
        have hno : ∀ y, Comp (unhalo h) x y → (p.q.pass.set p.d.num p.passnum).get y ≠ p.passnum + 1 := by
          intro y hy
          by_cases hyd : y = p.d.num
          · rw [hyd, Arr.set_get_same]; omega
          · rw [Arr.set_get_ne _ _ hyd]; have := hp.rng y hy; omega
        refine ⟨⟨⟨pbq, pbp, pbd⟩, ?_, ?_, ?_, ?_, ?_, ?_, ?_⟩, ?_, ?_⟩
        · intro y hy
          dsimp only
          rw [Arr.set_get_ne _ _ (by rintro rfl; exact hy hp.num)]
          exact hp.out y hy
        · intro y hy
          dsimp only
          by_cases hyd : y = p.d.num
          · rw [hyd, Arr.set_get_same]; omega
          · rw [Arr.set_get_ne _ _ hyd]; have := hp.rng y hy; omega
        · dsimp only; omega
        · intro i i1 i2
          dsimp only at i2 ⊢
          have : i = 0 := by omega
          rw [this, Arr.set_get_same, Arr.set_get_same]
          exact ⟨hp.num, Int.le_refl _⟩
        · intro i j i1 i2 j1 j2 _
          dsimp only at i2 j2
          omega
        · intro y hy hpy
          right
          dsimp only at hpy ⊢
          by_cases hyd : y = p.d.num
          · exact ⟨0, by omega, by omega, by rw [Arr.set_get_same, hyd]⟩
          · rw [Arr.set_get_ne _ _ hyd] at hpy
            have := hp.rng y hy
            omega
        · intro u w hu hpu _
          exact absurd hpu (hno u hu)
        · refine hI.ord.congr ?_
          intro y
          unfold Dn
          exact ⟨fun hy => Or.inl hy, fun hy => hy.elim id (fun hz => absurd hz.2 (hno y hz.1))⟩
        · exact ⟨Int.le_refl _, fun _ => hno⟩
      refine (gpPops_holds hc ha hC (fun y hy => ⟨hy.1, fun hz => hy.2 (hC0 y hz)⟩) (by omega) hb hCI (by dsimp only; omega) (d := p.d.num) (by dsimp only; rw [Arr.set_get_same])).mono ?_
      rintro c ⟨c1, c2, c3⟩
      rw [Holds_pure, Loop.Sat_next]
      have hall : ∀ y, Comp (unhalo h) x y → c.q.pass.get y = p.passnum + 1 := by
        have hup : ∀ y, Comp (unhalo h) x y → p.passnum ≤ c.q.pass.get y → c.q.pass.get y = p.passnum + 1 := by
          intro y hy hge
          have := c1.q.rng y hy
          apply Classical.byContradiction
          intro hne
          rcases c1.q.pend y hy (by omega) with hf | ⟨i, i1, i2, _⟩
          · exact hf
          · omega
        refine comp_sub hE hxv (Q := fun y => c.q.pass.get y = p.passnum + 1) ?_ hp.num (hup _ hp.num c3)
        intro y w hy hpy hA
        rcases c1.q.nb y w hy hpy hA with hk | hk
        · exact hup w (hC.adj y w hy hA) hk
        · exact hk.elim
      have hnz : ∀ y, c.q.pass.get y ≠ 0 ↔ (s.c.q.pass.get y ≠ 0 ∨ Comp (unhalo h) x y) := by
        intro y
        by_cases hy : Comp (unhalo h) x y
        · rw [hall y hy]
          constructor
          · intro _; exact Or.inr hy
          · intro _; omega
        · rw [c1.q.out y hy]
          simp [hy]
      refine ⟨⟨c1.q.b, ?_, ?_, ?_, ?_⟩, ?_⟩
      · intro y hy
        dsimp only
        by_cases hyc : Comp (unhalo h) x y
        · exact (c1.q.rng y hyc).1
        · rw [c1.q.out y hyc]; exact hI.pos y hy
      · refine c1.ord.congr ?_
        intro y
        unfold Dn
        dsimp only
        rw [hnz y]
        constructor
        · rintro (hy | hy)
          · exact ⟨hy.1, Or.inl hy.2⟩
          · exact ⟨hC.sub y hy.1, Or.inr hy.1⟩
        · rintro ⟨hy, hz | hz⟩
          · exact Or.inl ⟨hy, hz⟩
          · exact Or.inr ⟨hz, hall y hz⟩
      · intro y w hy hpy hA
        dsimp only at hpy ⊢
        rw [hnz w]
        rcases (hnz y).1 hpy with hk | hk
        · exact Or.inl (hI.closed y w hy hk hA)
        · exact Or.inr (hC.adj y w hk hA)
      · refine ⟨by dsimp only; omega, ?_⟩
        intro y y1 y2
        exact (hnz y).2 (Or.inl (x3 y y1 y2))
      · have hst := c1.start
        have : c.ordeval ≠ s.c.ordeval := fun he => hst.2 he _ hp.num (hall _ hp.num)
        dsimp only
        omega
  · rw [if_neg hlt, Holds_pure, Loop.Sat_brk]
    exact ⟨hI, by omega⟩

theorem orderGp_orders (env : Env) (passnbr : Int) (cls : Graph → Prop) (tot sure top : Bool) : Orders cls tot sure top (orderGp env passnbr) := by
  intro h ordenum o hc ha hb hn h1 h2 _ _
  refine Meets.of_holds ?_
  have hE : ConsE (unhalo h) := consE_iff.2 hc.part
  have hnn : h.vnohnnd = h.s.baseval + h.vnohnbr := hE.vertnnd
  unfold orderGp
  rw [Holds_bind]
  have hI : GI h ordenum o.peritab ⟨⟨⟨⟨0, h.vnohnbr, env.junk o.tick⟩, 0, 0, Arr.const h.s.baseval (h.s.baseval + h.vnohnbr) 0, Arr.const h.s.baseval (h.s.baseval + h.vnohnbr) 0⟩, o.peritab, ordenum⟩, h.s.baseval⟩ := by
    refine ⟨⟨⟨rfl, rfl⟩, ⟨rfl, rfl⟩, ⟨rfl, rfl⟩⟩, fun _ _ => Int.le_refl _, ?_, fun v w _ hp => absurd rfl hp, Int.le_refl _, fun v v1 v2 => ?_⟩
    · refine ⟨⟨0, 0, fun _ => 0⟩, ?_, ⟨rfl, rfl⟩, fun i _ => rfl, fun i i1 i2 => ?_⟩
      · dsimp only
        rw [Int.sub_self]
        exact (Enum.empty _).congr (fun v => ⟨False.elim, fun hv => hv.2 rfl⟩)
      · dsimp only at i2; omega
    · dsimp only at v2; omega
  refine (gpComps_holds hc ha ⟨h1, h2⟩ hI).mono ?_
  rintro s ⟨hs, he⟩
  rw [Holds_pure]
  refine ⟨fun _ => rfl, fun _ => ?_⟩
  obtain ⟨π, hen, hob, hof, hoc⟩ := hs.ord
  rw [he, show ordenum + h.vnohnbr - ordenum = h.vnohnbr by omega] at hen hoc
  rw [he] at hof
  exact ⟨π.get, placed_leaf hn hob hof (fun i i1 i2 => (hen.mem i1 i2).1) hen.2.1 hoc rfl rfl⟩

end Scotch.HOrder
