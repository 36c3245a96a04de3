import Verif.HOrder.LemmasNd
import Mathlib.Data.Finset.Card
import Mathlib.Data.Int.Interval

/-! # Connected components: search -/

set_option autoImplicit false
set_option linter.unusedSimpArgs false

namespace Scotch.HOrder
open Graph Cblk

/-- A set that contains an interval has as many elements. -/
theorem enum_ge {a : Arr Int} {n lo hi : Int} {P : Int → Prop} (h : Enum a n P) (hle : lo ≤ hi) (hp : ∀ v, lo ≤ v → v < hi → P v) : hi - lo ≤ n := by
  obtain ⟨h0, hinj, hmem⟩ := h
  have := Finset.card_le_card_of_surjOn (s := Finset.Ico 0 n) (t := Finset.Ico lo hi) a.get (by
    intro v hv
    simp only [Finset.coe_Ico, Set.mem_Ico] at hv
    obtain ⟨i, i1, i2, i3⟩ := (hmem v).1 (hp v hv.1 hv.2)
    refine ⟨i, ?_, i3⟩
    simp only [Finset.coe_Ico, Set.mem_Ico]
    exact ⟨i1, i2⟩)
  rw [Int.card_Ico, Int.card_Ico] at this
  omega

/-- The vertices of the first cells of the queue have all of their neighbours there. -/
def QClosed (g : Graph) (q : Arr Int) (n : Int) : Prop := ∀ i w, 0 ≤ i → i < n → Adj g (q.get i) w → ∃ j, 0 ≤ j ∧ j < n ∧ q.get j = w

theorem QClosed.agree {g : Graph} {q q' : Arr Int} {n : Int} (h : QClosed g q n) (ha : ∀ i, 0 ≤ i → i < n → q'.get i = q.get i) : QClosed g q' n := by
  intro i w i1 i2 hA
  rw [ha i i1 i2] at hA
  obtain ⟨j, j1, j2, j3⟩ := h i w i1 i2 hA
  exact ⟨j, j1, j2, by rw [ha j j1 j2, j3]⟩

/-- Starts of components, in the queue. -/
structure RootsTo (g : Graph) (q root : Arr Int) (R Q : Int) : Prop where
  size : 0 ≤ R ∧ R ≤ Q
  zero : R = 0 → Q = 0
  first : 0 < R → root.get 0 = 0
  mono : ∀ k, 0 ≤ k → k + 1 < R → root.get k < root.get (k + 1)
  lt : ∀ k, 0 ≤ k → k < R → 0 ≤ root.get k ∧ root.get k < Q
  closed : ∀ k, 0 ≤ k → k < R → QClosed g q (root.get k)

theorem RootsTo.push {g : Graph} {q q' root : Arr Int} {R Q : Int} (h : RootsTo g q root R Q) (hc : QClosed g q Q) (hq : ∀ i, 0 ≤ i → i < Q → q'.get i = q.get i) : RootsTo g q' (root.set R Q) (R + 1) (Q + 1) := by
  obtain ⟨h1, h2, h3, h4, h5, h6⟩ := h
  refine ⟨by omega, by omega, ?_, ?_, ?_, ?_⟩
  · intro _
    by_cases hR : R = 0
    · rw [hR, Arr.set_get_same, h2 hR]
    · rw [Arr.set_get_ne _ _ (by omega)]; exact h3 (by omega)
  · intro k k1 k2
    rw [Arr.set_get_ne _ _ (by omega)]
    by_cases hk : k + 1 = R
    · rw [hk, Arr.set_get_same]; exact (h5 k k1 (by omega)).2
    · rw [Arr.set_get_ne _ _ hk]; exact h4 k k1 (by omega)
  · intro k k1 k2
    by_cases hk : k = R
    · rw [hk, Arr.set_get_same]; omega
    · rw [Arr.set_get_ne _ _ hk]; have := h5 k k1 (by omega); omega
  · intro k k1 k2
    by_cases hk : k = R
    · rw [hk, Arr.set_get_same]; exact hc.agree hq
    · rw [Arr.set_get_ne _ _ hk]; exact (h6 k k1 (by omega)).agree (fun i i1 i2 => hq i i1 (by have := h5 k k1 (by omega); omega))

theorem RootsTo.grow {g : Graph} {q q' root : Arr Int} {R Q Q' : Int} (h : RootsTo g q root R Q) (hR : 0 < R) (hq : ∀ i, 0 ≤ i → i < Q → q'.get i = q.get i) (hQ : Q ≤ Q') : RootsTo g q' root R Q' := by
  obtain ⟨h1, h2, h3, h4, h5, h6⟩ := h
  refine ⟨by omega, by omega, h3, h4, ?_, ?_⟩
  · intro k k1 k2; have := h5 k k1 k2; omega
  · intro k k1 k2; exact (h6 k k1 k2).agree (fun i i1 i2 => hq i i1 (by have := h5 k k1 k2; omega))

/-- Search of a component; `R` components have been started. -/
structure CcI (g : Graph) (R : Int) (s : CcS) : Prop where
  qb : s.queu.lo = 0 ∧ s.queu.hi = g.vertnbr
  fb : s.flag.lo = g.baseval ∧ s.flag.hi = g.baseval + g.vertnbr
  rb : s.root.lo = 0 ∧ s.root.hi = g.vertnbr + 1
  rn : 0 ≤ s.rootnbr
  enum : Enum s.queu s.qtal (fun v => g.Vertex v ∧ 0 ≤ s.flag.get v)
  head : 0 ≤ s.qhed ∧ s.qhed ≤ s.qtal
  done : ∀ i w, 0 ≤ i → i < s.qhed → Adj g (s.queu.get i) w → 0 ≤ s.flag.get w
  roots : RootsTo g s.queu s.root R s.qtal
  vrot : g.baseval ≤ s.vrot ∧ ∀ v, g.baseval ≤ v → v < s.vrot → 0 ≤ s.flag.get v

variable {g : Graph}

/-- A new vertex. -/
theorem CcI.add (hc : ConsE g) {R w : Int} {s : CcS} (h : CcI g R s) (hw : g.Vertex w) (hf : s.flag.get w < 0) (hR : 0 < R) :
    s.qtal < g.vertnbr ∧ 0 ≤ s.qtal ∧ CcI g R { s with flag := s.flag.set w s.rootnbr, queu := s.queu.set s.qtal w, qtal := s.qtal + 1 } := by
  have hnn := hc.vertnnd
  obtain ⟨h1, h2, h3, h4, h5, h6, h7, h8, h9⟩ := h
  have hlt := h5.lt (lo := g.baseval) (hi := g.vertnnd) (x := w) (fun v hv => hv.1) (fun hv => by omega) hw.1 hw.2
  have keep : ∀ v, 0 ≤ s.flag.get v → 0 ≤ (s.flag.set w s.rootnbr).get v := by
    intro v hv
    by_cases hx : v = w
    · rw [hx, Arr.set_get_same]; exact h4
    · rw [Arr.set_get_ne _ _ hx]; exact hv
  refine ⟨by omega, h5.1, h1, h2, h3, h4, ?_, ?_, ?_, ?_, h9.1, ?_⟩
  · refine (h5.push (x := w) (fun hv => by omega)).congr ?_
    intro v
    dsimp only
    constructor
    · rintro (⟨hv, hv2⟩ | rfl)
      · exact ⟨hv, keep v hv2⟩
      · exact ⟨hw, by rw [Arr.set_get_same]; exact h4⟩
    · rintro ⟨hv, hv2⟩
      by_cases hx : v = w
      · exact Or.inr hx
      · rw [Arr.set_get_ne _ _ hx] at hv2; exact Or.inl ⟨hv, hv2⟩
  · dsimp only; omega
  · intro i v i1 i2 hA
    dsimp only at i2 hA ⊢
    rw [Arr.set_get_ne _ _ (by omega)] at hA
    exact keep v (h7 i v i1 i2 hA)
  · exact h8.grow hR (fun i i1 i2 => Arr.set_get_ne _ _ (by omega)) (by dsimp only; omega)
  · intro v v1 v2; exact keep v (h9.2 v v1 v2)

theorem ccArc_holds (hc : ConsE g) {R w e : Int} {s : CcS} (h : CcI g R s) (hw : g.Vertex w) (hR : 0 < R) :
    Holds (ccArc e w s) (fun s' => CcI g R s' ∧ s'.qhed = s.qhed ∧ s'.rootnbr = s.rootnbr ∧ 0 ≤ s'.flag.get w ∧ (∀ v, 0 ≤ s.flag.get v → 0 ≤ s'.flag.get v) ∧ ∀ i, 0 ≤ i → i < s.qtal → s'.queu.get i = s.queu.get i) := by
  have hnn := hc.vertnnd
  unfold ccArc
  have hb := h.fb
  have hqb := h.qb
  rw [Arr.rd_ok _ (by rw [hb.1]; exact hw.1) (by have := hw.2; omega), ok_bind]
  by_cases hf : s.flag.get w < 0
  · obtain ⟨a1, a2, a3⟩ := h.add hc hw hf hR
    rw [if_pos hf, Arr.wr_ok _ _ (by rw [hb.1]; exact hw.1) (by have := hw.2; omega), ok_bind, Arr.wr_ok _ _ (by omega) (by omega), ok_bind, Holds_pure]
    refine ⟨a3, rfl, rfl, ?_, ?_, ?_⟩
    · dsimp only; rw [Arr.set_get_same]; exact h.rn
    · intro v hv
      dsimp only
      by_cases hx : v = w
      · rw [hx, Arr.set_get_same]; exact h.rn
      · rw [Arr.set_get_ne _ _ hx]; exact hv
    · intro i i1 i2; exact Arr.set_get_ne _ _ (by omega)
  · rw [if_neg hf, Holds_pure]
    exact ⟨h, rfl, rfl, by omega, fun v hv => hv, fun i _ _ => rfl⟩

/-- A whole component has been found. -/
theorem ccVisits_holds (hc : ConsE g) (ha : Allocated g) {R : Int} {s0 : CcS} (h : CcI g R s0) (hR : 0 < R) {fuel : Nat} (hf : g.vertnbr.toNat < fuel) :
    Holds (loopM (ccVisit g) fuel s0) (fun s => CcI g R s ∧ s.rootnbr = s0.rootnbr ∧ s0.qtal ≤ s.qtal ∧ s.qhed = s.qtal) := by
  have hnn := hc.vertnnd
  have hn0 := hc.vertnbr
  refine Holds_loopM (fun s => CcI g R s ∧ s.rootnbr = s0.rootnbr ∧ s0.qtal ≤ s.qtal) (fun s => (g.vertnbr - s.qhed).toNat) ?_ _ _ ⟨h, rfl, Int.le_refl _⟩ (by have := h.head; omega)
  rintro s ⟨h, hrn, hq0⟩
  have hh := h.head
  have hqb := h.qb
  have hle := h.enum.le (lo := g.baseval) (hi := g.vertnnd) (by omega) (fun v hv => hv.1)
  unfold ccVisit
  by_cases hlt : s.qhed < s.qtal
  · rw [if_pos hlt, Arr.rd_ok _ (by omega) (by omega), ok_bind, Holds_bind]
    have hv := (h.enum.mem hh.1 hlt).1
    generalize hv' : s.queu.get s.qhed = v at hv
    refine Holds_forArcs ha hv (hc.range v hv).2 (fun e t => t.qhed = s.qhed + 1 ∧ t.rootnbr = s0.rootnbr ∧ s.qtal ≤ t.qtal ∧ t.queu.get s.qhed = v ∧ CcI g R { t with qhed := s.qhed } ∧
      ∀ e', g.vert v ≤ e' → e' < e → 0 ≤ t.flag.get (g.dest e')) ?_ ?_ ?_
    · exact ⟨rfl, hrn, Int.le_refl _, hv', h, fun e' e1 e2 => by omega⟩
    · rintro e t e1 e2 ⟨t1, t2, t3, t4, t5, t6⟩
      have hw := (hc.inside v e hv e1 e2).1
      have hx := ccArc_holds (e := e) hc t5 hw hR
      unfold ccArc at hx ⊢
      dsimp only at hx
      obtain ⟨x, hxe⟩ : ∃ x, t.flag.rd (g.dest e) = .ok x := ⟨_, Arr.rd_ok _ (by have := t5.fb.1; dsimp only at this; rw [this]; exact hw.1) (by have := t5.fb.2; dsimp only at this; have := hw.2; omega)⟩
      rw [hxe, ok_bind] at hx ⊢
      by_cases hxx : x < 0
      · rw [if_pos hxx] at hx ⊢
        rw [Holds_bind] at hx ⊢
        refine hx.mono ?_
        intro fl hx
        rw [Holds_bind] at hx ⊢
        refine hx.mono ?_
        intro qu hx
        rw [Holds_pure] at hx ⊢
        obtain ⟨y1, y2, y3, y4, y5, y6⟩ := hx
        refine ⟨t1, t2, ?_, ?_, y1, ?_⟩
        · dsimp only; omega
        · have := y6 s.qhed (by omega) (by omega)
          dsimp only at this ⊢
          rw [this, t4]
        · intro e' e1' e2'
          by_cases hee : e' = e
          · rw [hee]; exact y4
          · exact y5 _ (t6 e' e1' (by omega))
      · rw [if_neg hxx, Holds_pure] at hx ⊢
        obtain ⟨y1, y2, y3, y4, y5, y6⟩ := hx
        refine ⟨t1, t2, t3, t4, y1, ?_⟩
        intro e' e1' e2'
        by_cases hee : e' = e
        · rw [hee]; exact y4
        · exact y5 _ (t6 e' e1' (by omega))
    · rintro t ⟨t1, t2, t3, t4, t5, t6⟩
      rw [Holds_pure, Loop.Sat_next]
      refine ⟨⟨⟨t5.qb, t5.fb, t5.rb, t5.rn, t5.enum, by omega, ?_, t5.roots, t5.vrot⟩, t2, by omega⟩, by omega⟩
      intro i w i1 i2 hA
      by_cases hi : i = s.qhed
      · rw [hi, t4] at hA
        obtain ⟨e', e1, e2, e3⟩ := hA
        rw [← e3]
        exact t6 e' e1 e2
      · exact t5.done i w i1 (by dsimp only; omega) hA
  · rw [if_neg hlt, Holds_pure, Loop.Sat_brk]
    exact ⟨h, hrn, hq0, by omega⟩

theorem CcI.closed (hc : ConsE g) {R : Int} {s : CcS} (h : CcI g R s) (hq : s.qhed = s.qtal) : QClosed g s.queu s.qtal := by
  intro i w i1 i2 hA
  have hf := h.done i w i1 (by omega) hA
  have hv := (h.enum.mem i1 i2).1
  exact (h.enum.2.2 w).1 ⟨(hc.adj_vertex hv hA).1, hf⟩

/-- All components. -/
theorem ccComps_holds (hc : ConsE g) (ha : Allocated g) {s0 : CcS} (h : CcI g 0 s0) (hq : s0.qhed = s0.qtal) (hr : s0.rootnbr = 0) :
    Holds (loopM (ccComp g (g.vertnbr.toNat + 1)) (g.vertnbr.toNat + 1) s0) (fun s => CcI g s.rootnbr s ∧ s.qtal = g.vertnbr ∧ QClosed g s.queu s.qtal) := by
  have hnn := hc.vertnnd
  have hn0 := hc.vertnbr
  refine Holds_loopM (fun s => CcI g s.rootnbr s ∧ s.qhed = s.qtal) (fun s => (g.vertnbr - s.qtal).toNat) ?_ _ _ ⟨by rw [hr]; exact h, hq⟩ (by have := h.enum.1; omega)
  rintro s ⟨h, hq⟩
  have hle := h.enum.le (lo := g.baseval) (hi := g.vertnnd) (by omega) (fun v hv => hv.1)
  have h0 := h.enum.1
  have hqb := h.qb
  have hfb := h.fb
  have hrb := h.rb
  have hcl := h.closed hc hq
  have hsz := h.roots.size
  unfold ccComp
  by_cases hlt : s.qtal < g.vertnbr
  · rw [if_pos hlt, Holds_bind]
    have hex : ∃ v, g.baseval ≤ v ∧ v < g.vertnnd ∧ s.flag.get v < 0 := by
      apply Classical.byContradiction
      intro hn
      have := enum_ge h.enum (lo := g.baseval) (hi := g.vertnnd) (by omega) (fun v v1 v2 => ⟨⟨v1, v2⟩, by
        apply Classical.byContradiction
        intro hx
        exact hn ⟨v, v1, v2, by omega⟩⟩)
      omega
    obtain ⟨v, v1, v2, v3⟩ := hex
    have hvr := h.vrot
    have hvv : s.vrot ≤ v := by
      apply Classical.byContradiction
      intro hx
      have := hvr.2 v v1 (by omega)
      omega
    refine Holds_loopM (fun x => s.vrot ≤ x ∧ x ≤ v ∧ ∀ w, g.baseval ≤ w → w < x → 0 ≤ s.flag.get w) (fun x => (v - x).toNat) ?_ _ _ ⟨Int.le_refl _, hvv, hvr.2⟩ (by omega)
    rintro x ⟨x1, x2, x3⟩
    unfold ccRoot
    rw [Arr.rd_ok _ (by omega) (by omega), ok_bind]
    by_cases hx : s.flag.get x ≥ 0
    · rw [if_pos hx, Holds_pure, Loop.Sat_next]
      have : x ≠ v := by rintro rfl; omega
      refine ⟨⟨by omega, by omega, ?_⟩, by omega⟩
      intro w w1 w2
      by_cases hw : w = x
      · rw [hw]; exact hx
      · exact x3 w w1 (by omega)
    · rw [if_neg hx, Holds_pure, Loop.Sat_brk]
      have hxv : g.Vertex x := ⟨by omega, by omega⟩
      rw [Arr.wr_ok _ _ (by omega) (by omega), ok_bind, Arr.wr_ok _ _ (by omega) (by omega), ok_bind, Arr.wr_ok _ _ (by omega) (by omega), ok_bind, Holds_bind]
      have hI : CcI g (s.rootnbr + 1) { s with vrot := x, root := s.root.set s.rootnbr s.qtal, flag := s.flag.set x s.rootnbr, queu := s.queu.set s.qtal x, qtal := s.qtal + 1 } := by
        have keep : ∀ v, 0 ≤ s.flag.get v → 0 ≤ (s.flag.set x s.rootnbr).get v := by
          intro v hv
          by_cases hx : v = x
          · rw [hx, Arr.set_get_same]; exact h.rn
          · rw [Arr.set_get_ne _ _ hx]; exact hv
        refine ⟨hqb, hfb, hrb, h.rn, ?_, ?_, ?_, ?_, by dsimp only; omega, ?_⟩
        · refine (h.enum.push (x := x) (fun hv => hx hv.2)).congr ?_
          intro u
          dsimp only
          constructor
          · rintro (⟨hu, hu2⟩ | rfl)
            · exact ⟨hu, keep u hu2⟩
            · exact ⟨hxv, by rw [Arr.set_get_same]; exact h.rn⟩
          · rintro ⟨hu, hu2⟩
            by_cases hux : u = x
            · exact Or.inr hux
            · rw [Arr.set_get_ne _ _ hux] at hu2; exact Or.inl ⟨hu, hu2⟩
        · have := h.head; dsimp only; omega
        · intro i u i1 i2 hA
          dsimp only at i2 hA ⊢
          rw [Arr.set_get_ne _ _ (by omega)] at hA
          exact keep u (h.done i u i1 i2 hA)
        · exact h.roots.push hcl (fun i i1 i2 => Arr.set_get_ne _ _ (by omega))
        · intro u u1 u2; exact keep u (x3 u u1 u2)
      refine (ccVisits_holds hc ha hI (by omega) (by omega)).mono ?_
      rintro t ⟨t1, t2, t3, t4⟩
      rw [Holds_pure, Loop.Sat_next]
      dsimp only at t2 t3 ⊢
      refine ⟨⟨?_, t4⟩, by omega⟩
      rw [t2]
      exact ⟨t1.qb, t1.fb, t1.rb, by dsimp only; omega, t1.enum, t1.head, t1.done, t1.roots, t1.vrot⟩
  · rw [if_neg hlt, Holds_pure, Loop.Sat_brk]
    exact ⟨h, by omega, hcl⟩

end Scotch.HOrder
