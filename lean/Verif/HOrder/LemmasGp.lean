import Verif.HOrder.LemmasCcOrder
import Verif.Bipart.LemmasGpMain

/-! # Gibbs-Poole-Stockmeyer ordering -/

set_option autoImplicit false
set_option linter.unusedSimpArgs false

namespace Scotch.HOrder
open Graph Cblk
open Bipart (Closed Comp comp_closed comp_sub)
variable {h : Hgraph} {g : Graph} {C : Int → Prop}

/-- Bounds of arrays. -/
structure QB (g : Graph) (q : GpQ) : Prop where
  bq : q.qtab.lo = 0 ∧ q.qtab.hi = g.vertnbr
  bp : q.pass.lo = g.baseval ∧ q.pass.hi = g.baseval + g.vertnbr
  bd : q.dist.lo = g.baseval ∧ q.dist.hi = g.baseval + g.vertnbr

/-- Search in a component, for pass `p`. -/
structure BI (g : Graph) (C : Int → Prop) (p : Int) (pass0 : Int → Int) (q : GpQ) : Prop where
  b : QB g q
  out : ∀ v, ¬ C v → q.pass.get v = pass0 v
  rng : ∀ v, C v → 0 ≤ q.pass.get v ∧ q.pass.get v ≤ p
  enum : Enum q.qtab q.tail (fun v => C v ∧ q.pass.get v = p)
  head : 0 ≤ q.head ∧ q.head ≤ q.tail

theorem gpArc_holds (hc : ConsE g) (hC : Closed g C) {p vd e w : Int} {pass0 : Int → Int} {q : GpQ} (hp : 0 ≤ p) (h : BI g C p pass0 q) (hw : C w) :
    Holds (gpArc p vd e w q) (fun q' => BI g C p pass0 q' ∧ q'.head = q.head ∧ q.tail ≤ q'.tail) := by
  have hnn := hc.vertnnd
  have hwv := hC.sub w hw
  obtain ⟨⟨b1, b2, b3⟩, h2, h3, h4, h5⟩ := h
  unfold gpArc
  have hv1 := hwv.1
  have hv2 := hwv.2
  rw [Arr.rd_ok _ (by omega) (by omega), ok_bind]
  by_cases hlt : q.pass.get w < p
  · have hx := h4.lt (lo := g.baseval) (hi := g.vertnnd) (x := w) (fun v hv => hC.sub v hv.1) (fun hv => by omega) hv1 hv2
    have h0 := h4.1
    rw [if_pos hlt]
    unfold GpQ.put
    rw [Arr.wr_ok _ _ (by omega) (by omega), ok_bind, pure_bind, Arr.wr_ok _ _ (by dsimp only; omega) (by dsimp only; omega), ok_bind, Arr.wr_ok _ _ (by dsimp only; omega) (by dsimp only; omega), ok_bind, Holds_pure]
    refine ⟨⟨⟨b1, b2, b3⟩, ?_, ?_, ?_, ?_⟩, rfl, ?_⟩
    · intro v hv
      dsimp only
      rw [Arr.set_get_ne _ _ (by rintro rfl; exact hv hw)]
      exact h2 v hv
    · intro v hv
      dsimp only
      by_cases hx : v = w
      · rw [hx, Arr.set_get_same]; omega
      · rw [Arr.set_get_ne _ _ hx]; exact h3 v hv
    · refine (h4.push (x := w) (fun hv => by omega)).congr ?_
      intro v
      dsimp only
      constructor
      · rintro (⟨hv, hv2⟩ | rfl)
        · refine ⟨hv, ?_⟩
          rw [Arr.set_get_ne _ _ (by rintro rfl; omega)]; exact hv2
        · exact ⟨hw, Arr.set_get_same _ _ _⟩
      · rintro ⟨hv, hv2⟩
        by_cases hx : v = w
        · exact Or.inr hx
        · rw [Arr.set_get_ne _ _ hx] at hv2; exact Or.inl ⟨hv, hv2⟩
    · dsimp only; omega
    · dsimp only; omega
  · rw [if_neg hlt, Holds_pure]
    exact ⟨⟨⟨b1, b2, b3⟩, h2, h3, h4, h5⟩, rfl, Int.le_refl _⟩

theorem rdDegr_holds (ha : Allocated g) {v : Int} (hv : g.Vertex v) : rdDegr g v = .ok (g.vend v - g.vert v) := by
  unfold rdDegr
  rw [rdVend_eq ha hv, ok_bind, rdVert_eq ha hv, ok_bind]
  rfl

theorem gpBest_holds (ha : Allocated g) {v vd : Int} {d : GpD} (hv : g.Vertex v) (hCv : C v) (hd : C d.num) : Holds (gpBest g v vd d) (fun d' => C d'.num) := by
  unfold gpBest
  rw [rdDegr_holds ha hv]
  by_cases h1 : vd > d.dist
  · rw [if_pos h1, ok_bind, Holds_pure]; exact hCv
  · rw [if_neg h1]
    by_cases h2 : vd = d.dist
    · rw [if_pos h2, ok_bind]
      by_cases h3 : g.vend v - g.vert v < d.degr
      · rw [if_pos h3, Holds_pure]; exact hCv
      · rw [if_neg h3, Holds_pure]; exact hd
    · rw [if_neg h2, Holds_pure]; exact hd

theorem gpVisits_holds (hc : ConsE g) (ha : Allocated g) (hC : Closed g C) {p : Int} {pass0 : Int → Int} {s0 : GpQ × GpD} (hp : 0 ≤ p) (h : BI g C p pass0 s0.1) (hd : C s0.2.num) (hlt : s0.1.head < s0.1.tail) :
    Holds (loopM (gpVisit g p) (g.vertnbr.toNat + 1) s0) (fun s => BI g C p pass0 s.1 ∧ C s.2.num) := by
  have hnn := hc.vertnnd
  have hn0 := hc.vertnbr
  refine Holds_loopM (fun s => BI g C p pass0 s.1 ∧ C s.2.num ∧ s.1.head < s.1.tail) (fun s => (g.vertnbr - s.1.head).toNat) ?_ _ _ ⟨h, hd, hlt⟩ (by have := h.head; omega)
  rintro s ⟨h, hd, hlt⟩
  have hle := h.enum.le (lo := g.baseval) (hi := g.vertnnd) (by omega) (fun v hv => hC.sub v hv.1)
  have hb := h.b
  have hbq := hb.bq
  have hbd := hb.bd
  have hh := h.head
  unfold gpVisit
  have hv := (h.enum.mem hh.1 hlt).1
  rw [Arr.rd_ok _ (by omega) (by omega), ok_bind]
  generalize s.1.qtab.get s.1.head = v at hv
  have hvv := hC.sub v hv
  have hv1 := hvv.1
  have hv2 := hvv.2
  rw [Arr.rd_ok _ (by omega) (by omega), ok_bind, Holds_bind]
  refine (gpBest_holds ha hvv hv hd).mono ?_
  intro d' hd'
  rw [Holds_bind]
  refine Holds_forArcs ha hvv (hc.range v hvv).2 (fun e t => BI g C p pass0 t ∧ t.head = s.1.head + 1 ∧ s.1.tail ≤ t.tail) ?_ ?_ ?_
  · exact ⟨⟨⟨hbq, hb.bp, hbd⟩, h.out, h.rng, h.enum, by dsimp only; omega⟩, rfl, Int.le_refl _⟩
  · rintro e t e1 e2 ⟨t1, t2, t3⟩
    refine (gpArc_holds hc hC hp t1 (hC.adj v _ hv ⟨e, e1, e2, rfl⟩)).mono ?_
    rintro t' ⟨y1, y2, y3⟩
    exact ⟨y1, by omega, by omega⟩
  · rintro t ⟨t1, t2, t3⟩
    by_cases he : t.head = t.tail
    · rw [if_pos he, Holds_pure, Loop.Sat_brk]
      exact ⟨t1, hd'⟩
    · rw [if_neg he, Holds_pure, Loop.Sat_next]
      have := t1.head
      exact ⟨⟨t1, hd', by dsimp only; omega⟩, by dsimp only; omega⟩

/-- Between passes. -/
structure PI (g : Graph) (C : Int → Prop) (pass0 : Int → Int) (s : GpP) : Prop where
  b : QB g s.q
  out : ∀ v, ¬ C v → s.q.pass.get v = pass0 v
  rng : ∀ v, C v → 0 ≤ s.q.pass.get v ∧ s.q.pass.get v < s.passnum
  num : C s.d.num
  pos : 1 ≤ s.passnum

theorem gpPasses_holds (hc : ConsE g) (ha : Allocated g) (hC : Closed g C) {pass0 : Int → Int} {passnbr : Int} {s0 : GpP} (h : PI g C pass0 s0) (h1 : s0.passnum = 1) :
    Holds (loopM (gpPass g passnbr (g.vertnbr.toNat + 1)) (passnbr.toNat + 1) s0) (PI g C pass0) := by
  have hnn := hc.vertnnd
  refine Holds_loopM (PI g C pass0) (fun s => (passnbr + 1 - s.passnum).toNat) ?_ _ _ h (by omega)
  intro s h
  unfold gpPass
  by_cases hif : s.d.flag = 0 ∧ s.passnum ≤ passnbr
  · rw [if_pos hif]
    have hpos := h.pos
    have hb := h.b
    have hbq := hb.bq
    have hbp := hb.bp
    have hbd := hb.bd
    have hv := h.num
    have hvv := hC.sub _ hv
    have hv1 := hvv.1
    have hv2 := hvv.2
    unfold GpQ.put
    rw [Arr.wr_ok _ _ (by dsimp only; omega) (by dsimp only; omega), ok_bind, pure_bind]
    dsimp only
    rw [Arr.wr_ok _ _ (by omega) (by omega), ok_bind, Arr.wr_ok _ _ (by omega) (by omega), ok_bind, rdDegr_holds ha hvv, ok_bind, Holds_bind]
    have hB : BI g C s.passnum pass0 { qtab := s.q.qtab.set 0 s.d.num, head := 0, tail := 0 + 1, pass := s.q.pass.set s.d.num s.passnum, dist := s.q.dist.set s.d.num 0 } := by
      refine ⟨⟨hbq, hbp, hbd⟩, ?_, ?_, ?_, ?_⟩
      · intro v hvC
        dsimp only
        rw [Arr.set_get_ne _ _ (by rintro rfl; exact hvC hv)]
        exact h.out v hvC
      · intro v hvC
        dsimp only
        by_cases hx : v = s.d.num
        · rw [hx, Arr.set_get_same]; omega
        · rw [Arr.set_get_ne _ _ hx]; have := h.rng v hvC; omega
      · refine ((Enum.empty s.q.qtab).push (x := s.d.num) (fun hf => hf)).congr ?_
        intro v
        dsimp only
        constructor
        · rintro (hf | rfl)
          · exact hf.elim
          · exact ⟨hv, Arr.set_get_same _ _ _⟩
        · rintro ⟨hvC, hp⟩
          by_cases hx : v = s.d.num
          · exact Or.inr hx
          · rw [Arr.set_get_ne _ _ hx] at hp; have := h.rng v hvC; omega
      · dsimp only; omega
    refine (gpVisits_holds hc ha hC (s0 := (_, ⟨s.d.num, s.d.dist, g.vend s.d.num - g.vert s.d.num, s.d.flag + 1⟩)) (by omega) hB hv (by dsimp only; omega)).mono ?_
    rintro ⟨q, d⟩ ⟨t1, t2⟩
    rw [Holds_pure, Loop.Sat_next]
    refine ⟨⟨t1.b, t1.out, ?_, t2, by dsimp only; omega⟩, by dsimp only; omega⟩
    intro v hvC
    have := t1.rng v hvC
    dsimp only at this ⊢
    omega
  · rw [if_neg hif, Holds_pure, Loop.Sat_brk]
    exact ⟨h.b, h.out, h.rng, h.num, h.pos⟩

/-- Last traversal of a component. Vertices for which `K` holds may be waiting without being in the queue, and vertices for which `L` holds may have been left out of it. -/
structure QI (g : Graph) (C : Int → Prop) (P : Int) (pass0 : Int → Int) (q : GpQ) (K L : Int → Prop) : Prop where
  b : QB g q
  out : ∀ v, ¬ C v → q.pass.get v = pass0 v
  rng : ∀ v, C v → 0 ≤ q.pass.get v ∧ q.pass.get v ≤ P + 1
  head : 0 ≤ q.head ∧ q.head ≤ q.tail
  ent : ∀ i, 0 ≤ i → i < q.tail → C (q.qtab.get i) ∧ P ≤ q.pass.get (q.qtab.get i)
  inj : ∀ i j, 0 ≤ i → i < q.tail → 0 ≤ j → j < q.tail → q.qtab.get i = q.qtab.get j → i = j
  pend : ∀ v, C v → q.pass.get v = P → K v ∨ ∃ i, q.head ≤ i ∧ i < q.tail ∧ q.qtab.get i = v
  nb : ∀ u w, C u → q.pass.get u = P + 1 → Adj g u w → P ≤ q.pass.get w ∨ L w

theorem QI.weak {P : Int} {pass0 : Int → Int} {q : GpQ} {K L K' L' : Int → Prop} (h : QI g C P pass0 q K L) (hK : ∀ v, K v → K' v) (hL : ∀ v, L v → P ≤ q.pass.get v ∨ L' v) : QI g C P pass0 q K' L' := by
  obtain ⟨h1, h2, h3, h4, h5, h6, h7, h8⟩ := h
  refine ⟨h1, h2, h3, h4, h5, h6, ?_, ?_⟩
  · intro v hv hp; exact (h7 v hv hp).imp (hK v) id
  · intro u w hu hp ha
    rcases h8 u w hu hp ha with h | h
    · exact Or.inl h
    · exact hL w h

/-- The vertices put in the queue. -/
theorem QI.enum {P : Int} {pass0 : Int → Int} {q : GpQ} {K L : Int → Prop} (h : QI g C P pass0 q K L) : Enum q.qtab q.tail (fun v => ∃ i, 0 ≤ i ∧ i < q.tail ∧ q.qtab.get i = v) := by
  have := h.head
  exact ⟨by omega, h.inj, fun v => Iff.rfl⟩

theorem QI.tail_le (hc : ConsE g) (hC : Closed g C) {P : Int} {pass0 : Int → Int} {q : GpQ} {K L : Int → Prop} (h : QI g C P pass0 q K L) : q.tail ≤ g.vertnbr := by
  have hnn := hc.vertnnd
  have hn := hc.vertnbr
  have := h.enum.le (lo := g.baseval) (hi := g.vertnnd) (by omega) (by
    rintro v ⟨i, i1, i2, rfl⟩
    exact hC.sub _ (h.ent i i1 i2).1)
  omega

theorem gpChainArc_holds (hc : ConsE g) (hC : Closed g C) {P vd e w : Int} {pass0 : Int → Int} {q : GpQ} {nxt : Option Int} {L : Int → Prop} (hP : 0 ≤ P) (h : QI g C P pass0 q (fun _ => False) (fun v => nxt = some v ∨ L v))
    (hn : ∀ v, nxt = some v → C v ∧ q.pass.get v ≤ P) (hw : C w) :
    Holds (gpChainArc P vd e w (q, nxt)) (fun s => QI g C P pass0 s.1 (fun _ => False) (fun v => s.2 = some v ∨ L v) ∧ (∀ v, s.2 = some v → C v ∧ s.1.pass.get v ≤ P) ∧
      (P ≤ s.1.pass.get w ∨ s.2 = some w) ∧ s.1.head = q.head ∧ q.tail ≤ s.1.tail ∧ (∀ v, s.1.pass.get v = P + 1 ↔ q.pass.get v = P + 1) ∧ ∀ v, P ≤ q.pass.get v → P ≤ s.1.pass.get v) := by
  have hnn := hc.vertnnd
  have hwv := hC.sub w hw
  have hv1 := hwv.1
  have hv2 := hwv.2
  have hb := h.b
  have hbq := hb.bq
  have hbp := hb.bp
  have hbd := hb.bd
  unfold gpChainArc
  rw [Arr.rd_ok _ (by dsimp only; omega) (by dsimp only; omega), ok_bind, Arr.rd_ok _ (by dsimp only; omega) (by dsimp only; omega), ok_bind]
  dsimp only
  by_cases h1 : nxt = none ∧ q.dist.get w = vd ∧ q.pass.get w ≤ P
  · rw [if_pos h1, Holds_pure]
    refine ⟨h.weak (fun v hv => hv) ?_, ?_, Or.inr rfl, rfl, Int.le_refl _, fun v => Iff.rfl, fun v hv => hv⟩
    · rintro v (hv | hv)
      · rw [h1.1] at hv; cases hv
      · exact Or.inr (Or.inr hv)
    · intro v hv
      injection hv with hv
      subst hv
      exact ⟨hw, h1.2.2⟩
  · rw [if_neg h1]
    by_cases h2 : q.pass.get w < P
    · rw [if_pos h2]
      have hnq : ¬ ∃ i, 0 ≤ i ∧ i < q.tail ∧ q.qtab.get i = w := by
        rintro ⟨i, i1, i2, rfl⟩
        have := (h.ent i i1 i2).2
        omega
      have hlt := h.enum.lt (lo := g.baseval) (hi := g.vertnnd) (x := w) (by
        rintro v ⟨i, i1, i2, rfl⟩
        exact hC.sub _ (h.ent i i1 i2).1) hnq hv1 hv2
      have hh := h.head
      unfold GpQ.put
      rw [Arr.wr_ok _ _ (by omega) (by omega), ok_bind, pure_bind, Arr.wr_ok _ _ (by dsimp only; omega) (by dsimp only; omega), ok_bind, Holds_pure]
      have hge : ∀ v, P ≤ q.pass.get v → P ≤ (q.pass.set w P).get v := by
        intro v hv
        by_cases hx : v = w
        · rw [hx, Arr.set_get_same]
        · rw [Arr.set_get_ne _ _ hx]; exact hv
      have hle : ∀ v, (q.pass.set w P).get v = P + 1 ↔ q.pass.get v = P + 1 := by
        intro v
        by_cases hx : v = w
        · rw [hx, Arr.set_get_same]; omega
        · rw [Arr.set_get_ne _ _ hx]
      refine ⟨⟨⟨hbq, hbp, hbd⟩, ?_, ?_, ?_, ?_, ?_, ?_, ?_⟩, ?_, ?_, rfl, ?_, hle, hge⟩
      · intro v hv
        dsimp only
        rw [Arr.set_get_ne _ _ (by rintro rfl; exact hv hw)]
        exact h.out v hv
      · intro v hv
        dsimp only
        by_cases hx : v = w
        · rw [hx, Arr.set_get_same]; omega
        · rw [Arr.set_get_ne _ _ hx]; exact h.rng v hv
      · dsimp only; omega
      · intro i i1 i2
        dsimp only at i2 ⊢
        by_cases hi : i = q.tail
        · rw [hi, Arr.set_get_same, Arr.set_get_same]; exact ⟨hw, Int.le_refl _⟩
        · rw [Arr.set_get_ne q.qtab _ hi]
          have := h.ent i i1 (by omega)
          exact ⟨this.1, hge _ this.2⟩
      · intro i j i1 i2 j1 j2 he
        dsimp only at i2 j2 he
        by_cases hi : i = q.tail
        · by_cases hj : j = q.tail
          · omega
          · rw [hi, Arr.set_get_same, Arr.set_get_ne _ _ hj] at he
            exact absurd ⟨j, j1, by omega, he.symm⟩ hnq
        · by_cases hj : j = q.tail
          · rw [hj, Arr.set_get_same, Arr.set_get_ne _ _ hi] at he
            exact absurd ⟨i, i1, by omega, he⟩ hnq
          · rw [Arr.set_get_ne _ _ hi, Arr.set_get_ne _ _ hj] at he
            exact h.inj i j i1 (by omega) j1 (by omega) he
      · intro v hv hp
        right
        dsimp only at hp ⊢
        by_cases hx : v = w
        · exact ⟨q.tail, by omega, by omega, by rw [Arr.set_get_same, hx]⟩
        · rw [Arr.set_get_ne _ _ hx] at hp
          rcases h.pend v hv hp with hf | ⟨i, i1, i2, i3⟩
          · exact hf.elim
          · exact ⟨i, i1, by omega, by rw [Arr.set_get_ne _ _ (by omega)]; exact i3⟩
      · intro u x hu hp ha
        have := (hle u).1 hp
        exact (h.nb u x hu this ha).imp (hge x) id
      · intro v hv
        have := hn v hv
        refine ⟨this.1, ?_⟩
        dsimp only
        by_cases hx : v = w
        · rw [hx, Arr.set_get_same]
        · rw [Arr.set_get_ne _ _ hx]; exact this.2
      · left; dsimp only; rw [Arr.set_get_same]
      · dsimp only; omega
    · rw [if_neg h2, Holds_pure]
      exact ⟨h, hn, Or.inl (by dsimp only; omega), rfl, Int.le_refl _, fun v => Iff.rfl, fun v hv => hv⟩

/-- The vertices of a set have been ordered. -/
def Ordd (h : Hgraph) (ordenum : Int) (peri0 : Arr Int) (D : Int → Prop) (peri : Arr Int) (ordeval : Int) : Prop :=
  ∃ π : Arr Int, Enum π (ordeval - ordenum) D ∧ (peri.lo = peri0.lo ∧ peri.hi = peri0.hi) ∧ (∀ i, (i < ordenum ∨ ordeval ≤ i) → peri.get i = peri0.get i) ∧
    ∀ i, 0 ≤ i → i < ordeval - ordenum → peri.get (ordenum + i) = onum h.s (π.get i)

theorem Ordd.push {ordenum ordeval : Int} {peri0 peri : Arr Int} {D D' : Int → Prop} (H : Ordd h ordenum peri0 D peri ordeval) {v : Int} (hv : ¬ D v) (hD : ∀ x, (D x ∨ x = v) ↔ D' x) :
    Ordd h ordenum peri0 D' (peri.set ordeval (onum h.s v)) (ordeval + 1) := by
  obtain ⟨π, h1, h2, h3, h4⟩ := H
  have h0 := h1.1
  refine ⟨π.set (ordeval - ordenum) v, ?_, h2, ?_, ?_⟩
  · rw [show ordeval + 1 - ordenum = ordeval - ordenum + 1 by omega]
    exact (h1.push hv).congr hD
  · intro i hi
    rw [Arr.set_get_ne _ _ (by omega)]
    exact h3 i (by omega)
  · intro i i1 i2
    by_cases hi : i = ordeval - ordenum
    · rw [hi, Arr.set_get_same, show ordenum + (ordeval - ordenum) = ordeval by omega, Arr.set_get_same]
    · rw [Arr.set_get_ne _ _ (by omega), Arr.set_get_ne _ _ hi]
      exact h4 i i1 (by omega)

theorem Ordd.congr {ordenum ordeval : Int} {peri0 peri : Arr Int} {D D' : Int → Prop} (H : Ordd h ordenum peri0 D peri ordeval) (hD : ∀ x, D x ↔ D' x) : Ordd h ordenum peri0 D' peri ordeval := by
  obtain ⟨π, h1, h2, h3, h4⟩ := H
  exact ⟨π, h1.congr hD, h2, h3, h4⟩

/-- Vertices ordered before the component, and the ones of the component that are ordered. -/
def Dn (D0 C : Int → Prop) (P : Int) (pass : Arr Int) (v : Int) : Prop := D0 v ∨ (C v ∧ pass.get v = P + 1)

/-- State of the last traversal. -/
structure CI (h : Hgraph) (C D0 : Int → Prop) (P ordenum start : Int) (peri0 : Arr Int) (pass0 : Int → Int) (K L : Int → Prop) (st : GpC) : Prop where
  q : QI (unhalo h) C P pass0 st.q K L
  ord : Ordd h ordenum peri0 (Dn D0 C P st.q.pass) st.peri st.ordeval
  start : start ≤ st.ordeval ∧ (st.ordeval = start → ∀ v, C v → st.q.pass.get v ≠ P + 1)

theorem gpLink_holds (hc : HCons h) (ha : HAlloc h) (hC : Closed (unhalo h) C) {D0 : Int → Prop} (hD : ∀ v, D0 v → (unhalo h).Vertex v ∧ ¬ C v) {P ordenum start : Int} (hP : 0 ≤ P) {peri0 : Arr Int} {pass0 : Int → Int}
    (hb : peri0.lo ≤ ordenum ∧ ordenum + h.vnohnbr ≤ peri0.hi) {vd v : Int} {st : GpC} (hI : CI h C D0 P ordenum start peri0 pass0 (· = v) (· = v) st) (hv : C v) (hp : st.q.pass.get v ≤ P) :
    Holds (gpLink h P vd (st, v)) (fun r => Loop.Sat (fun s : GpC × Int => CI h C D0 P ordenum start peri0 pass0 (· = s.2) (· = s.2) s.1 ∧ C s.2 ∧ s.1.q.pass.get s.2 ≤ P ∧ s.1.q.head = st.q.head ∧ st.q.tail ≤ s.1.q.tail ∧
        s.1.ordeval = st.ordeval + 1 ∧ st.ordeval < ordenum + h.vnohnbr ∧ ∀ x, P ≤ st.q.pass.get x → P ≤ s.1.q.pass.get x)
      (fun s => CI h C D0 P ordenum start peri0 pass0 (fun _ => False) (fun _ => False) s ∧ s.q.head = st.q.head ∧ st.q.tail ≤ s.q.tail ∧ ∀ x, P ≤ st.q.pass.get x → P ≤ s.q.pass.get x) r) := by
  have hE : ConsE (unhalo h) := consE_iff.2 hc.part
  have hnn : h.vnohnnd = h.s.baseval + h.vnohnbr := hE.vertnnd
  have hn0 : 0 ≤ h.vnohnbr := hE.vertnbr
  have hvv := hC.sub v hv
  have hv1 : h.s.baseval ≤ v := hvv.1
  have hv2 : v < h.vnohnnd := hvv.2
  have hnd : ¬ Dn D0 C P st.q.pass v := by
    rintro (hd | hd)
    · exact (hD v hd).2 hv
    · omega
  have hlt : st.ordeval - ordenum < h.vnohnbr ∧ 0 ≤ st.ordeval - ordenum := by
    obtain ⟨π, hen, -⟩ := hI.ord
    have := hen.lt (lo := h.s.baseval) (hi := h.vnohnnd) (x := v) (by
      rintro x (hx | hx)
      · exact (hD x hx).1
      · exact hC.sub x hx.1) hnd hv1 hv2
    exact ⟨by omega, hen.1⟩
  have hpb : st.peri.lo = peri0.lo ∧ st.peri.hi = peri0.hi := by obtain ⟨π, _, hh, _⟩ := hI.ord; exact hh
  have hbq : st.q.qtab.lo = 0 ∧ st.q.qtab.hi = h.vnohnbr := hI.q.b.bq
  have hbp : st.q.pass.lo = h.s.baseval ∧ st.q.pass.hi = h.s.baseval + h.vnohnbr := hI.q.b.bp
  have hbd : st.q.dist.lo = h.s.baseval ∧ st.q.dist.hi = h.s.baseval + h.vnohnbr := hI.q.b.bd
  unfold gpLink
  dsimp only
  rw [rdOnum_eq ha.whole (vertex_of_unhalo hc hvv), ok_bind, Arr.wr_ok _ _ (by omega) (by omega), ok_bind, Arr.wr_ok _ _ (by omega) (by omega), ok_bind, Holds_bind]
  have hge : ∀ x, P ≤ st.q.pass.get x → P ≤ (st.q.pass.set v (P + 1)).get x := by
    intro x hx
    by_cases hxv : x = v
    · rw [hxv, Arr.set_get_same]; omega
    · rw [Arr.set_get_ne _ _ hxv]; exact hx
  have hone : ∀ x, (st.q.pass.set v (P + 1)).get x = P + 1 ↔ (st.q.pass.get x = P + 1 ∨ x = v) := by
    intro x
    by_cases hxv : x = v
    · rw [hxv, Arr.set_get_same]; simp
    · rw [Arr.set_get_ne _ _ hxv]; simp [hxv]
  have hQ0 : QI (unhalo h) C P pass0 { st.q with pass := st.q.pass.set v (P + 1) } (fun _ => False) (fun w => none = some w ∨ ∃ e', (unhalo h).vert v ≤ e' ∧ e' < (unhalo h).vend v ∧ (unhalo h).dest e' = w) := by
    obtain ⟨q1, q2, q3, q4, q5, q6, q7, q8⟩ := hI.q
    refine ⟨⟨hbq, hbp, hbd⟩, ?_, ?_, q4, ?_, q6, ?_, ?_⟩
    · intro x hx
      dsimp only
      rw [Arr.set_get_ne _ _ (by rintro rfl; exact hx hv)]
      exact q2 x hx
    · intro x hx
      dsimp only
      by_cases hxv : x = v
      · rw [hxv, Arr.set_get_same]; omega
      · rw [Arr.set_get_ne _ _ hxv]; exact q3 x hx
    · intro i i1 i2; have := q5 i i1 i2; exact ⟨this.1, hge _ this.2⟩
    · intro x hx hpx
      dsimp only at hpx ⊢
      have hxv : x ≠ v := by rintro rfl; rw [Arr.set_get_same] at hpx; omega
      rw [Arr.set_get_ne _ _ hxv] at hpx
      rcases q7 x hx hpx with hk | hk
      · exact absurd hk hxv
      · exact Or.inr hk
    · intro u w hu hpu hA
      rcases (hone u).1 hpu with hu1 | rfl
      · rcases q8 u w hu hu1 hA with hk | hk
        · exact Or.inl (hge w hk)
        · left; dsimp only; rw [hk, Arr.set_get_same]; omega
      · obtain ⟨e', e1, e2, e3⟩ := hA
        exact Or.inr (Or.inr ⟨e', e1, e2, e3⟩)
  refine Holds_forArcs ha.part hvv (hE.range v hvv).2 (fun e (s : GpQ × Option Int) => QI (unhalo h) C P pass0 s.1 (fun _ => False) (fun w => s.2 = some w ∨ ∃ e', e ≤ e' ∧ e' < (unhalo h).vend v ∧ (unhalo h).dest e' = w) ∧
    (∀ x, s.2 = some x → C x ∧ s.1.pass.get x ≤ P) ∧ s.1.head = st.q.head ∧ st.q.tail ≤ s.1.tail ∧ (∀ x, s.1.pass.get x = P + 1 ↔ (st.q.pass.get x = P + 1 ∨ x = v)) ∧ ∀ x, P ≤ st.q.pass.get x → P ≤ s.1.pass.get x) ?_ ?_ ?_
  · exact ⟨hQ0, fun x hx => (by cases hx), rfl, Int.le_refl _, hone, hge⟩
  · rintro e ⟨q, nxt⟩ e1 e2 ⟨t1, t2, t3, t4, t5, t6⟩
    dsimp only at t1 t2 t3 t4 t5 t6
    refine (gpChainArc_holds (e := e) hE hC hP t1 t2 (hC.adj v _ hv ⟨e, e1, e2, rfl⟩)).mono ?_
    rintro ⟨q', nxt'⟩ ⟨y1, y2, y3, y4, y5, y6, y7⟩
    dsimp only at y1 y2 y3 y4 y5 y6 y7 ⊢
    refine ⟨y1.weak (fun x hx => hx) ?_, y2, by omega, by omega, fun x => (y6 x).trans (t5 x), ?_⟩
    · rintro x (hx | ⟨e', e1', e2', rfl⟩)
      · exact Or.inr (Or.inl hx)
      · by_cases hee : e' = e
        · rw [hee]
          rcases y3 with hy | hy
          · exact Or.inl hy
          · exact Or.inr (Or.inl hy)
        · exact Or.inr (Or.inr ⟨e', by omega, e2', rfl⟩)
    · intro x hx; exact y7 x (t6 x hx)
  · rintro ⟨q, nxt⟩ ⟨t1, t2, t3, t4, t5, t6⟩
    dsimp only at t1 t2 t3 t4 t5 t6 ⊢
    have hO : Ordd h ordenum peri0 (Dn D0 C P q.pass) (st.peri.set st.ordeval (onum h.s v)) (st.ordeval + 1) := by
      refine hI.ord.push hnd ?_
      intro x
      unfold Dn
      rw [t5 x]
      constructor
      · rintro ((hx | hx) | rfl)
        · exact Or.inl hx
        · exact Or.inr ⟨hx.1, Or.inl hx.2⟩
        · exact Or.inr ⟨hv, Or.inr rfl⟩
      · rintro (hx | ⟨hx, hy | hy⟩)
        · exact Or.inl (Or.inl hx)
        · exact Or.inl (Or.inr ⟨hx, hy⟩)
        · exact Or.inr hy
    have hS := hI.start
    cases nxt with
    | none =>
      rw [Holds_pure, Loop.Sat_brk]
      refine ⟨⟨t1.weak (fun x hx => hx) ?_, hO, by dsimp only; omega, by dsimp only; omega⟩, t3, t4, t6⟩
      rintro x (hx | ⟨e', e1', e2', _⟩)
      · cases hx
      · omega
    | some w =>
      rw [Holds_pure, Loop.Sat_next]
      have := t2 w rfl
      refine ⟨⟨t1.weak (fun x hx => hx.elim) ?_, hO, by dsimp only; omega, by dsimp only; omega⟩, this.1, this.2, t3, t4, rfl, by omega, t6⟩
      rintro x (hx | ⟨e', e1', e2', _⟩)
      · injection hx with hx; exact Or.inr hx.symm
      · omega

end Scotch.HOrder
