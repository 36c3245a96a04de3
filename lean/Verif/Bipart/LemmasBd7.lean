import Verif.Bipart.LemmasBd6

/-! # Bipartition of band graphs: the bipartition is brought back -/

set_option autoImplicit false
set_option linter.unusedSimpArgs false

namespace Scotch.Bipart
open Graph

variable {b : Bgraph} {s : BdSt} {vlvl : Int} {queu : Arr Int} {cb cb' : Bgraph}

/-- Part of a vertex, after a bipartition of the band graph. -/
def bP (b : Bgraph) (s : BdSt) (cb' : Bgraph) (v : Int) : Int := cb'.part (bφ b s v)

/-- Facts about a bipartition of the band graph. -/
structure BdNew (b : Bgraph) (vlvl : Int) (s : BdSt) (queu : Arr Int) (cb cb' : Bgraph) : Prop where
  bip : BdBip b vlvl s cb
  queu : BdQueu b s queu
  same : SameProblem cb cb'
  valid : Valid cb'
  diff : cb'.part (bN b s) ≠ cb'.part (bN b s + 1)

theorem BdNew.vx (N : BdNew b vlvl s queu cb cb') (v : Int) : cb'.s.Vertex v ↔ b.s.baseval ≤ v ∧ v < bN b s + 2 := by
  obtain ⟨e1, e2, e3⟩ := N.bip.shape
  unfold Graph.Vertex; rw [N.same.s, e1, e3]

theorem BdNew.cons (N : BdNew b vlvl s queu cb cb') : ConsE cb'.s := by rw [N.same.s]; exact consE_iff.2 N.bip.quot.consistent

theorem BdNew.alloc (N : BdNew b vlvl s queu cb cb') : Alloc cb' := by
  have h := N.same
  have A := N.bip.alloc
  have hb := h.bounds
  exact ⟨by rw [h.s]; exact A.graph, by rw [h.s]; have := A.part; omega, by rw [h.s]; have := A.fron; omega, by rw [h.s, h.veextax]; exact A.veex⟩

theorem BdNew.rdPart (N : BdNew b vlvl s queu cb cb') {u : Int} (u1 : b.s.baseval ≤ u) (u2 : u < bN b s + 2) : cb'.parttax.rd u = .ok (cb'.part u) := by
  have A := N.alloc.part
  have hs := N.bip.shape
  rw [N.same.s] at A
  exact Arr.rd_ok _ (by omega) (by omega)

theorem BdNew.parts (N : BdNew b vlvl s queu cb cb') : Parts b.s (bP b s cb') := fun _ hv => N.valid.parts _ ((N.vx _).2 (N.bip.ctx.φ_range hv))

theorem BdNew.rdQueu (N : BdNew b vlvl s queu cb cb') {u : Int} (u1 : b.s.baseval ≤ u) (u2 : u < bN b s) : queu.rd (u - b.s.baseval) = .ok (bq b s u) := by
  have hh := N.bip.ctx.head_le
  have hq := N.queu.bnd
  rw [Arr.rd_ok _ (by omega) (by omega), N.queu.old _ (by omega) (by omega)]
  rfl

/-- Parts of the vertices. -/
theorem BdNew.part (N : BdNew b vlvl s queu cb cb') :
    Holds (bdSwap b (cb'.part (bN b s)) >>= fun part => forUp b.s.baseval (b.s.baseval + s.head) part fun u a => do a.wr (← queu.rd (u - b.s.baseval)) (← cb'.parttax.rd u))
      (fun a => (a.lo = b.parttax.lo ∧ a.hi = b.parttax.hi) ∧ ∀ v, b.s.Vertex v → a.get v = bP b s cb' v) := by
  have C := N.bip.ctx
  have hh := C.head_le
  have hap := C.alloc.part
  have h0 := N.valid.parts (bN b s) ((N.vx _).2 ⟨by omega, by omega⟩)
  have h1 := N.valid.parts (bN b s + 1) ((N.vx _).2 ⟨by omega, by omega⟩)
  have hd := N.diff
  rw [Holds_bind]
  have hsw : Holds (bdSwap b (cb'.part (bN b s))) (fun a => (a.lo = b.parttax.lo ∧ a.hi = b.parttax.hi) ∧ ∀ v, b.s.Vertex v → a.get v = cb'.part (bN b s + b.part v)) := by
    unfold bdSwap
    by_cases hp : cb'.part (bN b s) ≠ 0
    · rw [if_pos hp]
      refine Holds_forUp (fun i (a : Arr Int) => (a.lo = b.parttax.lo ∧ a.hi = b.parttax.hi) ∧ (∀ v, b.s.baseval ≤ v → v < i → a.get v = cb'.part (bN b s + b.part v)) ∧ ∀ v, i ≤ v → a.get v = b.part v) (by omega) ?_ ?_ ?_
      · exact ⟨⟨rfl, rfl⟩, fun v v1 v2 => by omega, fun v _ => rfl⟩
      · rintro i a i1 i2 ⟨a1, a2, a3⟩
        have hpi := C.valid.parts i ⟨i1, i2⟩
        rw [Arr.rd_ok _ (by omega) (by omega), ok_bind, Arr.wr_ok _ _ (by omega) (by omega), Holds_ok, a3 i (Int.le_refl _), xorP_eq hpi (Or.inr rfl)]
        refine ⟨a1, ?_, ?_⟩
        · intro v v1 v2
          by_cases e : v = i
          · rw [e, Arr.set_get_same]
            rcases hpi with k | k
            · rw [k, if_neg (by decide), Int.add_zero]; omega
            · rw [k, if_pos rfl]; omega
          · rw [Arr.set_get_ne _ _ e]; exact a2 v v1 (by omega)
        · intro v v1
          rw [Arr.set_get_ne _ _ (by omega)]; exact a3 v (by omega)
      · rintro a ⟨a1, a2, -⟩
        exact ⟨a1, fun v hv => a2 v hv.1 hv.2⟩
    · rw [if_neg hp, Holds_pure]
      refine ⟨⟨rfl, rfl⟩, fun v hv => ?_⟩
      show b.part v = _
      rcases C.valid.parts v hv with k | k
      · rw [k, Int.add_zero]; omega
      · rw [k]; omega
  refine hsw.mono ?_
  rintro part ⟨pb, pv⟩
  refine Holds_forUp (fun u (a : Arr Int) => (a.lo = part.lo ∧ a.hi = part.hi) ∧ (∀ w, b.s.baseval ≤ w → w < u → a.get (bq b s w) = cb'.part w) ∧ ∀ v, (∀ w, b.s.baseval ≤ w → w < u → bq b s w ≠ v) → a.get v = part.get v) (by omega) ?_ ?_ ?_
  · exact ⟨⟨rfl, rfl⟩, fun w w1 w2 => by omega, fun v _ => rfl⟩
  · rintro u a u1 u2 ⟨a1, a3, a4⟩
    obtain ⟨m1, m2⟩ := C.bq_mem u1 u2
    have v1 := m1.1
    have v2 := m1.2
    rw [N.rdQueu u1 u2, ok_bind, N.rdPart u1 (by omega), ok_bind, Arr.wr_ok _ _ (by omega) (by omega), Holds_ok]
    refine ⟨a1, ?_, ?_⟩
    · intro w w1 w2
      by_cases e : w = u
      · rw [e, Arr.set_get_same]
      · rw [Arr.set_get_ne _ _ (fun e' => e (C.bq_inj w1 (by omega) u1 u2 e'))]
        exact a3 w w1 (by omega)
    · intro v hv
      rw [Arr.set_get_ne _ _ (fun e => hv u u1 (by omega) e.symm)]
      exact a4 v (fun w w1 w2 => hv w w1 (by omega))
  · rintro a ⟨a1, a3, a4⟩
    refine ⟨by omega, fun v hv => ?_⟩
    unfold bP
    by_cases h : s.idx.get v = -1
    · rw [C.φ_out h, a4 v, pv v hv]
      rintro w w1 w2 rfl
      exact C.bq_ne w1 w2 h
    · obtain ⟨j1, j2, j3⟩ := C.idx_in hv h
      rw [C.φ_in h, ← a3 _ j1 j2, j3]

/-- Vertices of the band that are in the frontier. -/
def bF0 (b : Bgraph) (s : BdSt) (cb' : Bgraph) (v : Int) : Prop := b.s.Vertex v ∧ s.idx.get v ≠ -1 ∧ Frontier b.s (bP b s cb') v

theorem BdNew.front (N : BdNew b vlvl s queu cb cb') (c : Int) : Frontier cb'.s cb'.part c ↔ ∃ v, b.s.Vertex v ∧ bφ b s v = c ∧ Frontier b.s (bP b s cb') v := by
  have := frontier_quot (consE_iff.1 N.bip.ctx.cons) N.bip.quot (q := cb'.part) (c := c)
  rw [N.same.s]
  exact this

/-- The vertices of the frontier of the band graph are split. -/
theorem BdNew.split (N : BdNew b vlvl s queu cb cb') :
    Holds (forUp 0 cb'.fronnbr (b.frontab, 0, cb'.frontab, 0) (bdFron queu b.s.baseval))
      (fun r => (r.1.lo = b.frontab.lo ∧ r.1.hi = b.frontab.hi) ∧ (r.2.2.1.lo = cb'.frontab.lo ∧ r.2.2.1.hi = cb'.frontab.hi) ∧ Enum r.1 r.2.1 (bF0 b s cb') ∧ Enum r.2.2.1 r.2.2.2 (fun x => bN b s ≤ x ∧ Frontier cb'.s cb'.part x) ∧ r.2.2.2 ≤ s.head + 2) := by
  have C := N.bip.ctx
  have hh := C.head_le
  have hq := N.queu.bnd
  have haf := C.alloc.fron
  have hroom := N.bip.room
  have A' := N.alloc.fron
  have hs := N.bip.shape
  have hn' := N.cons.vertnnd
  rw [N.same.s] at A' hn'
  have hf := N.valid.fron
  have hfl := hf.le (lo := b.s.baseval) (hi := bN b s + 2) (by omega) (fun v hv => (N.vx v).1 hv.1)
  refine Holds_forUp (fun i (r : Arr Int × Int × Arr Int × Int) => (r.1.lo = b.frontab.lo ∧ r.1.hi = b.frontab.hi) ∧ (r.2.2.1.lo = cb'.frontab.lo ∧ r.2.2.1.hi = cb'.frontab.hi) ∧ (r.2.1 ≤ i ∧ r.2.2.2 ≤ i) ∧ (∀ j, i ≤ j → r.2.2.1.get j = cb'.frontab.get j) ∧
      Enum r.1 r.2.1 (fun v => ∃ j, 0 ≤ j ∧ j < i ∧ cb'.frontab.get j < bN b s ∧ bq b s (cb'.frontab.get j) = v) ∧ Enum r.2.2.1 r.2.2.2 (fun x => bN b s ≤ x ∧ ∃ j, 0 ≤ j ∧ j < i ∧ cb'.frontab.get j = x)) hf.1 ?_ ?_ ?_
  · refine ⟨⟨rfl, rfl⟩, ⟨rfl, rfl⟩, ⟨Int.le_refl _, Int.le_refl _⟩, fun _ _ => rfl, (Enum.empty _).congr ?_, (Enum.empty _).congr ?_⟩
    · intro v
      constructor
      · exact False.elim
      · rintro ⟨j, j1, j2, -⟩; omega
    · intro v
      constructor
      · exact False.elim
      · rintro ⟨-, j, j1, j2, -⟩; omega
  · rintro i ⟨fr, n, cf, m⟩ i1 i2 ⟨k1, k2, k3, k4, k5, k6⟩
    dsimp only at k1 k2 k3 k4 k5 k6
    unfold bdFron
    dsimp only
    have hu := hf.mem i1 i2
    obtain ⟨u1, u2⟩ := (N.vx _).1 hu.1
    rw [Arr.rd_ok _ (by omega) (by omega), ok_bind, k4 i (Int.le_refl _)]
    have hrd : queu.rd (cb'.frontab.get i - b.s.baseval) = .ok (queu.get (cb'.frontab.get i - b.s.baseval)) := Arr.rd_ok _ (by omega) (by omega)
    rw [hrd, ok_bind]
    by_cases hin : cb'.frontab.get i < bN b s
    · have e : queu.get (cb'.frontab.get i - b.s.baseval) = bq b s (cb'.frontab.get i) := N.queu.old _ (by omega) (by omega)
      have hv := (C.bq_mem u1 hin).1
      have := hv.1
      have := C.base
      rw [e, if_pos (by omega), Arr.wr_ok _ _ (by have := k5.1; omega) (by omega), ok_bind, Holds_pure]
      refine ⟨k1, k2, ⟨by dsimp only; omega, by dsimp only; omega⟩, (fun j hj => k4 j (by omega)), (k5.push ?_).congr ?_, k6.congr ?_⟩
      · rintro ⟨j, j1, j2, j3, j4⟩
        have hj := hf.mem j1 (by omega : j < cb'.fronnbr)
        have := C.bq_inj ((N.vx _).1 hj.1).1 j3 u1 hin j4
        have := hf.2.1 j i j1 (by omega) i1 i2 this
        omega
      · intro v
        constructor
        · rintro (⟨j, j1, j2, j3, j4⟩ | rfl)
          · exact ⟨j, j1, by omega, j3, j4⟩
          · exact ⟨i, i1, by omega, hin, rfl⟩
        · rintro ⟨j, j1, j2, j3, j4⟩
          by_cases ej : j = i
          · right; rw [← j4, ej]
          · exact Or.inl ⟨j, j1, by omega, j3, j4⟩
      · intro x
        constructor
        · rintro ⟨x1, j, j1, j2, j3⟩; exact ⟨x1, j, j1, by omega, j3⟩
        · rintro ⟨x1, j, j1, j2, j3⟩
          refine ⟨x1, j, j1, ?_, j3⟩
          have : j ≠ i := by rintro rfl; omega
          omega
    · have e : queu.get (cb'.frontab.get i - b.s.baseval) = -1 := by
        by_cases e0 : cb'.frontab.get i = bN b s
        · rw [e0, show bN b s - b.s.baseval = s.head by omega]; exact N.queu.anch.1
        · rw [show cb'.frontab.get i - b.s.baseval = s.head + 1 by omega]; exact N.queu.anch.2
      rw [e, if_neg (fun h => h rfl), Arr.wr_ok _ _ (by have := k6.1; omega) (by omega), ok_bind, Holds_pure]
      refine ⟨k1, k2, ⟨by dsimp only; omega, by dsimp only; omega⟩, ?_, k5.congr ?_, (k6.push ?_).congr ?_⟩
      · intro j hj
        dsimp only
        rw [Arr.set_get_ne _ _ (by omega)]; exact k4 j (by omega)
      · intro v
        constructor
        · rintro ⟨j, j1, j2, j3⟩; exact ⟨j, j1, by omega, j3⟩
        · rintro ⟨j, j1, j2, j3, j4⟩
          have : j ≠ i := by rintro rfl; omega
          exact ⟨j, j1, by omega, j3, j4⟩
      · rintro ⟨-, j, j1, j2, j3⟩
        have := hf.2.1 j i j1 (by omega) i1 i2 j3
        omega
      · intro x
        constructor
        · rintro (⟨x1, j, j1, j2, j3⟩ | rfl)
          · exact ⟨x1, j, j1, by omega, j3⟩
          · exact ⟨by omega, i, i1, by omega, rfl⟩
        · rintro ⟨x1, j, j1, j2, j3⟩
          by_cases ej : j = i
          · right; rw [← j3, ej]
          · exact Or.inl ⟨x1, j, j1, by omega, j3⟩
  · rintro ⟨fr, n, cf, m⟩ ⟨k1, k2, k3, k4, k5, k6⟩
    dsimp only at k1 k2 k3 k4 k5 k6 ⊢
    refine ⟨k1, k2, k5.congr ?_, k6.congr ?_, by omega⟩
    · intro v
      constructor
      · rintro ⟨j, j1, j2, j3, rfl⟩
        have hj := hf.mem j1 j2
        obtain ⟨u1, u2⟩ := (N.vx _).1 hj.1
        obtain ⟨w, w1, w2, w3⟩ := (N.front _).1 hj
        obtain ⟨w4, rfl⟩ := C.φ_eq w1 j3 w2
        exact ⟨w1, w4, w3⟩
      · rintro ⟨hv, h1, h2⟩
        obtain ⟨j, j1, j2, j3⟩ := (hf.2.2 _).1 ((N.front (bφ b s v)).2 ⟨v, hv, rfl, h2⟩)
        rw [C.φ_in h1] at j3
        obtain ⟨l1, l2, l3⟩ := C.idx_in hv h1
        exact ⟨j, j1, j2, by omega, by rw [j3]; exact l3⟩
    · intro x
      constructor
      · rintro ⟨x1, j, j1, j2, rfl⟩; exact ⟨x1, hf.mem j1 j2⟩
      · rintro ⟨x1, hx⟩; exact ⟨x1, (hf.2.2 _).1 hx⟩

/-! ## Vertices out of the band -/

/-- Vertices out of the band that have been put in the frontier. -/
structure BdOutI (b : Bgraph) (s : BdSt) (cb' : Bgraph) (r : Arr Int × Int × Arr Int) : Prop where
  bnd : r.1.lo = b.frontab.lo ∧ r.1.hi = b.frontab.hi
  ibnd : r.2.2.lo = s.idx.lo ∧ r.2.2.hi = s.idx.hi
  mark : ∀ v, r.2.2.get v = s.idx.get v ∨ (s.idx.get v = -1 ∧ r.2.2.get v = 0)
  enum : Enum r.1 r.2.1 (fun v => bF0 b s cb' v ∨ (b.s.Vertex v ∧ s.idx.get v = -1 ∧ r.2.2.get v = 0))
  good : ∀ v, b.s.Vertex v → s.idx.get v = -1 → r.2.2.get v = 0 → Frontier b.s (bP b s cb') v

/-- Vertices that have been put in the frontier remain in it. -/
def BdMore (r r' : Arr Int × Int × Arr Int) : Prop := ∀ v, r.2.2.get v = 0 → r'.2.2.get v = 0

theorem BdNew.outer (N : BdNew b vlvl s queu cb cb') {r : Arr Int × Int × Arr Int} (I : BdOutI b s cb' r) {v : Int} (hv : b.s.Vertex v) (hg : ∀ w, b.s.Adj v w → s.idx.get w = -1 → Frontier b.s (bP b s cb') w) :
    Holds (b.s.forArcs v r bdOuter) (fun r' => BdOutI b s cb' r' ∧ BdMore r r' ∧ ∀ w, b.s.Adj v w → s.idx.get w = -1 → r'.2.2.get w = 0) := by
  have C := N.bip.ctx
  have hh := C.head_le
  have haf := C.alloc.fron
  have hb := C.found.bnd
  refine Holds_forArcs C.alloc.graph hv (C.cons.range v hv).2 (fun e r' => BdOutI b s cb' r' ∧ BdMore r r' ∧ ∀ x, b.s.vert v ≤ x → x < e → s.idx.get (b.s.dest x) = -1 → r'.2.2.get (b.s.dest x) = 0) ?_ ?_ ?_
  · exact ⟨I, fun _ h => h, fun x x1 x2 => by omega⟩
  · rintro e ⟨fr, n, ix⟩ e1 e2 ⟨J, K, L⟩
    have hw := (C.cons.inside v e hv e1 e2).1
    have w1 := hw.1
    have w2 := hw.2
    have hbn := J.bnd
    have hib := J.ibnd
    have hmk := J.mark
    have hen := J.enum
    have hgd := J.good
    dsimp only at hbn hib hmk hen hgd L
    unfold bdOuter
    dsimp only
    rw [Arr.rd_ok _ (by omega) (by omega), ok_bind]
    by_cases hx : ix.get (b.s.dest e) = -1
    · have hi : s.idx.get (b.s.dest e) = -1 := by
        rcases hmk (b.s.dest e) with h | h
        · rw [← h]; exact hx
        · exact h.1
      have hni : ¬ (bF0 b s cb' (b.s.dest e) ∨ (b.s.Vertex (b.s.dest e) ∧ s.idx.get (b.s.dest e) = -1 ∧ ix.get (b.s.dest e) = 0)) := by
        rintro (h | h)
        · exact h.2.1 hi
        · omega
      have hlt := hen.lt (lo := b.s.baseval) (hi := b.s.vertnnd) (by rintro u (h | h); exact h.1; exact h.1) hni w1 w2
      have h0 := hen.1
      rw [if_pos hx, Arr.wr_ok _ _ (by omega) (by omega), ok_bind, Arr.wr_ok _ _ (by omega) (by omega), ok_bind, Holds_pure]
      refine ⟨⟨hbn, hib, ?_, (hen.push hni).congr ?_, ?_⟩, ?_, ?_⟩
      · intro u
        dsimp only
        by_cases eu : u = b.s.dest e
        · rw [eu, Arr.set_get_same]; exact Or.inr ⟨hi, rfl⟩
        · rw [Arr.set_get_ne _ _ eu]; exact hmk u
      · intro u
        dsimp only
        by_cases eu : u = b.s.dest e
        · rw [eu, Arr.set_get_same]
          exact ⟨fun _ => Or.inr ⟨hw, hi, rfl⟩, fun _ => Or.inr rfl⟩
        · rw [Arr.set_get_ne _ _ eu]
          exact ⟨fun h => h.resolve_right eu, Or.inl⟩
      · intro u hu1 hu2 hu3
        dsimp only at hu3
        by_cases eu : u = b.s.dest e
        · rw [eu] at hu2 ⊢; exact hg _ ⟨e, e1, e2, rfl⟩ hu2
        · rw [Arr.set_get_ne _ _ eu] at hu3; exact hgd u hu1 hu2 hu3
      · intro u hu
        dsimp only
        by_cases eu : u = b.s.dest e
        · rw [eu, Arr.set_get_same]
        · rw [Arr.set_get_ne _ _ eu]; exact K u hu
      · intro x x1 x2 x3
        dsimp only
        by_cases eu : b.s.dest x = b.s.dest e
        · rw [eu, Arr.set_get_same]
        · rw [Arr.set_get_ne _ _ eu]
          have : x ≠ e := by rintro rfl; exact eu rfl
          exact L x x1 (by omega) x3
    · rw [if_neg hx, Holds_pure]
      refine ⟨J, K, ?_⟩
      intro x x1 x2 x3
      by_cases ex : x = e
      · rw [ex] at x3 ⊢
        rcases hmk (b.s.dest e) with h | h
        · omega
        · exact h.2
      · exact L x x1 (by omega) x3
  · rintro r' ⟨J, K, L⟩
    refine ⟨J, K, ?_⟩
    rintro w ⟨e, e1, e2, rfl⟩ hw
    exact L e e1 e2 hw

theorem BdMore.trans {r r' r'' : Arr Int × Int × Arr Int} (h : BdMore r r') (k : BdMore r' r'') : BdMore r r'' := fun v hv => k v (h v hv)

/-- Neighbours, out of the band, of the vertices that are linked to an anchor vertex. -/
theorem BdNew.ancFron (N : BdNew b vlvl s queu cb cb') {r : Arr Int × Int × Arr Int} (I : BdOutI b s cb' r) {k : Int} (hk : k = 0 ∨ k = 1) :
    Holds (cb'.s.forArcs (bN b s + k) r (bdAncArc b cb' queu (cb'.part (bN b s + k)))) (fun r' => BdOutI b s cb' r' ∧ BdMore r r' ∧ ∀ w, b.s.Vertex w → s.idx.get w = -1 → b.part w = k → Frontier b.s (bP b s cb') w → r'.2.2.get w = 0) := by
  have C := N.bip.ctx
  have hh := C.head_le
  have hx := (N.vx (bN b s + k)).2 ⟨by omega, by omega⟩
  have hadj : ∀ u, cb'.s.Adj (bN b s + k) u ↔ b.s.baseval ≤ u ∧ u < bN b s ∧ 0 < ancL b s u ∧ b.part (bq b s u) = k := by
    intro u
    have hx' := hx
    rw [N.same.s] at hx' ⊢
    rw [N.bip.adj _ u hx']
    constructor
    · rintro ⟨l, hl⟩
      rw [C.adj_anc hk, mem_bFrom] at hl
      exact ⟨hl.1, hl.2.1, hl.2.2.1, hl.2.2.2.1⟩
    · rintro ⟨h1, h2, h3, h4⟩
      exact ⟨ancL b s u, by rw [C.adj_anc hk, mem_bFrom]; exact ⟨h1, h2, h3, h4, rfl⟩⟩
  refine Holds_forArcs N.alloc.graph hx (N.cons.range _ hx).2 (fun e r' => BdOutI b s cb' r' ∧ BdMore r r' ∧
    ∀ x, cb'.s.vert (bN b s + k) ≤ x → x < e → cb'.part (cb'.s.dest x) ≠ cb'.part (bN b s + k) → ∀ w, b.s.Adj (bq b s (cb'.s.dest x)) w → s.idx.get w = -1 → r'.2.2.get w = 0) ?_ ?_ ?_
  · exact ⟨I, fun _ h => h, fun x x1 x2 => by omega⟩
  · rintro e r1 e1 e2 ⟨J, K, L⟩
    obtain ⟨u1, u2, u3, u4⟩ := (hadj _).1 ⟨e, e1, e2, rfl⟩
    obtain ⟨m1, m2⟩ := C.bq_mem u1 u2
    unfold bdAncArc
    rw [N.rdPart u1 (by omega), ok_bind]
    by_cases hp : cb'.part (cb'.s.dest e) = cb'.part (bN b s + k)
    · rw [if_pos hp, Holds_pure]
      refine ⟨J, K, fun x x1 x2 x3 => ?_⟩
      have : x ≠ e := by rintro rfl; exact x3 hp
      exact L x x1 (by omega) x3
    · rw [if_neg hp, N.rdQueu u1 u2, ok_bind]
      refine (N.outer J m1 ?_).mono ?_
      · intro w hw hi
        have hvw := (C.cons.adj_vertex m1 hw).1
        have hsy := C.cons.adj_symm m1 hw
        have e3 := C.out_part hvw hi hsy
        refine frontier_adj.2 ⟨hvw, _, hsy, ?_⟩
        unfold bP
        rw [C.φ_out hi, C.φ_bq u1 u2, ← e3, u4]
        exact hp
      · rintro r2 ⟨J2, K2, L2⟩
        refine ⟨J2, K.trans K2, fun x x1 x2 x3 w hw hi => ?_⟩
        by_cases ex : x = e
        · rw [ex] at hw; exact L2 w hw hi
        · exact K2 w (L x x1 (by omega) x3 w hw hi)
  · rintro r' ⟨J, K, L⟩
    refine ⟨J, K, ?_⟩
    intro w hw hi hpw hfr
    obtain ⟨-, v, hv, hne⟩ := frontier_adj.1 hfr
    have hvv := (C.cons.adj_vertex hw hv).1
    have e3 := C.out_part hw hi hv
    have hsy := C.cons.adj_symm hw hv
    have hiv : s.idx.get v ≠ -1 := by
      intro h
      apply hne
      unfold bP
      rw [C.φ_out h, C.φ_out hi, e3]
    obtain ⟨j1, j2, j3⟩ := C.idx_in hvv hiv
    have ha : cb'.s.Adj (bN b s + k) (s.idx.get v) := (hadj _).2 ⟨j1, j2, (C.ancL_pos j1 j2).2 ⟨w, by rw [j3]; exact hsy, hi⟩, by rw [j3]; omega⟩
    obtain ⟨e, e1, e2, e4⟩ := ha
    refine L e e1 e2 ?_ w ?_ hi
    · unfold bP at hne
      rw [C.φ_in hiv, C.φ_out hi, hpw] at hne
      rw [e4]; exact hne
    · rw [e4, j3]; exact hsy

/-- The bipartition is brought back. -/
theorem BdNew.bring (N : BdNew b vlvl s queu cb cb') : Holds (bdBring b s queu cb') (fun b' => SameProblem b b' ∧ Valid b') := by
  have C := N.bip.ctx
  have hh := C.head_le
  have K := N.bip.quot
  have hsh := N.bip.shape
  have h0 := N.valid.parts (bN b s) ((N.vx _).2 ⟨by omega, by omega⟩)
  have h1 := N.valid.parts (bN b s + 1) ((N.vx _).2 ⟨by omega, by omega⟩)
  have hd := N.diff
  have V' := N.valid
  unfold bdBring
  dsimp only
  rw [← hh.2.2.2.2.2, N.rdPart (by omega) (by omega), ok_bind]
  have hpart := N.part
  rw [Holds_bind] at hpart ⊢
  refine hpart.mono ?_
  intro part hpart
  rw [Holds_bind]
  rw [← hh.2.2.2.2.2] at hpart
  refine hpart.mono ?_
  rintro part ⟨pb, pv⟩
  rw [Holds_bind]
  refine N.split.mono ?_
  rintro ⟨fr, n, cf, m⟩ ⟨s1, s2, s3, s4, s5⟩
  dsimp only at s1 s2 s3 s4 s5 ⊢
  have A' := N.alloc.fron
  rw [N.same.s] at A'
  have hi0 : ∀ v, s.idx.get v = -1 → s.idx.get v = 0 → False := fun v h k => by omega
  have I0 : BdOutI b s cb' (fr, n, s.idx) := ⟨s1, ⟨rfl, rfl⟩, fun _ => Or.inl rfl, s3.congr (fun v => ⟨Or.inl, fun h => h.resolve_right (fun k => hi0 v k.2.1 k.2.2)⟩), fun v _ k1 k2 => (hi0 v k1 k2).elim⟩
  rw [Holds_bind]
  refine Holds_forUp (fun i (r : Arr Int × Int × Arr Int) => BdOutI b s cb' r ∧ ∀ j, 0 ≤ j → j < i → ∀ w, b.s.Vertex w → s.idx.get w = -1 → bN b s + b.part w = cf.get (m - 1 - j) → Frontier b.s (bP b s cb') w → r.2.2.get w = 0) s4.1 ⟨I0, fun j j1 j2 => by omega⟩ ?_ ?_
  · rintro i r i1 i2 ⟨J, L⟩
    unfold bdAncFron
    have hx := s4.mem (i := m - 1 - i) (by omega) (by omega)
    obtain ⟨x1, x2⟩ := hx
    have x3 := (N.vx _).1 x2.1
    rw [Arr.rd_ok _ (by omega) (by omega), ok_bind]
    generalize hxe : cf.get (m - 1 - i) = x at *
    obtain ⟨k, hk, rfl⟩ : ∃ k, (k = 0 ∨ k = 1) ∧ x = bN b s + k := ⟨x - bN b s, by omega, by omega⟩
    rw [N.rdPart (by omega) (by omega), ok_bind]
    refine (N.ancFron J hk).mono ?_
    rintro r' ⟨J', K', L'⟩
    refine ⟨J', fun j j1 j2 w w1 w2 w3 w4 => ?_⟩
    by_cases ej : j = i
    · rw [ej, hxe] at w3
      exact L' w w1 w2 (by omega) w4
    · exact K' w (L j j1 (by omega) w w1 w2 w3 w4)
  rintro ⟨fr', n', ix⟩ ⟨J, L⟩
  dsimp only at L ⊢
  have hbn := J.bnd
  have hen := J.enum
  have hgd := J.good
  dsimp only at hbn hen hgd
  rw [Holds_pure]
  have ho : ∀ k f, over b.s part.get k f = over b.s (fun v => cb'.part (bφ b s v)) k f := fun k f => over_congr k (fun v hv => pv v hv) (fun _ _ => rfl)
  have hP' : Parts cb.s cb'.part := by have := V'.parts; rw [N.same.s] at this; exact this
  have hvx : ∀ k, over cb'.s cb'.part k cb'.veex = over b.s part.get k b.veex := by
    intro k
    have e : ∀ c, cb.s.Vertex c → cb'.veex c = sumI b.s.baseval b.s.vertnnd (fun v => if bφ b s v = c then b.veex v else 0) := by
      intro c hc
      rw [show cb'.veex c = cb.veex c by unfold Bgraph.veex; rw [N.same.veextax]]
      exact N.bip.veex c hc
    rw [ho, N.same.s, over_quot K k e]
  refine ⟨⟨rfl, rfl, ⟨pb.1, pb.2, hbn.1, hbn.2⟩, ⟨rfl, rfl, rfl⟩, ⟨rfl, rfl⟩, ⟨rfl, rfl, rfl⟩, ⟨rfl, rfl⟩⟩, ⟨?_, ?_, ?_, ?_, ?_, ?_, ?_⟩⟩
  · intro v hv
    show part.get v = 0 ∨ part.get v = 1
    rw [pv v hv]; exact N.parts v hv
  · show cb'.compload0 = over b.s part.get 0 b.s.velo
    rw [ho, ← over_quot K 0 (f' := cb.s.velo) (fun c hc => K.merged.velo c hc), V'.load, N.same.s]
  · show cb'.compload0dlt = cb'.compload0 - b.compload0avg
    rw [V'.delta, N.same.limits.2.2, N.bip.limits]
  · show bdSize b s (cb'.part (bN b s)) cb'.compsize0 = over b.s part.get 0 (fun _ => 1)
    obtain ⟨-, -, o3, o4⟩ := C.outer
    have e1 : over b.s part.get 0 (fun _ => 1) = sumI b.s.baseval (bN b s) (fun u => if cb'.part u = 0 then 1 else 0) + fib b s (fun _ => 1) (bN b s) * (if cb'.part (bN b s) = 0 then 1 else 0) + fib b s (fun _ => 1) (bN b s + 1) * (if cb'.part (bN b s + 1) = 0 then 1 else 0) := by
      rw [ho]
      have := C.fib_sum (fun _ => 1) (fun c => if cb'.part c = 0 then 1 else 0)
      simp only [Int.one_mul] at this
      exact this
    have e2 : cb'.compsize0 = sumI b.s.baseval (bN b s) (fun u => if cb'.part u = 0 then 1 else 0) + (if cb'.part (bN b s) = 0 then 1 else 0) + (if cb'.part (bN b s + 1) = 0 then 1 else 0) := by
      rw [V'.size]
      unfold over
      rw [N.same.s, hsh.1, hsh.2.2, show bN b s + 2 = bN b s + 1 + 1 by omega, sumI_succ (by omega), sumI_succ (by omega)]
    rw [e1, e2]
    unfold bdSize
    by_cases hp : cb'.part (bN b s) = 0
    · rw [if_neg (fun k => k hp), if_pos hp, if_neg (by omega)]; omega
    · rw [if_pos hp, if_neg hp, if_pos (by omega)]; omega
  · show cb'.commload = cut b.s part.get * b.domndist + b.commloadextn0 + over b.s part.get 1 b.veex
    rw [cut_congr C.cons (fun v hv => pv v hv), ← hvx, V'.comm, N.same.extn.1, N.bip.extn.1, N.same.domn.1, N.bip.domn, N.same.s, cut_quot (consE_iff.1 C.cons) K hP']
    rfl
  · show cb'.commgainextn = over b.s part.get 0 b.veex - over b.s part.get 1 b.veex
    rw [← hvx, ← hvx]; exact V'.gain
  · show Enum fr' n' (Frontier b.s part.get)
    refine hen.congr fun v => ?_
    rw [Frontier_congr C.cons (fun v hv => pv v hv)]
    constructor
    · rintro (h | h)
      · exact h.2.2
      · exact hgd v h.1 h.2.1 h.2.2
    · intro h
      by_cases k : s.idx.get v = -1
      · right
        refine ⟨h.1, k, ?_⟩
        have hfr : Frontier cb'.s cb'.part (bφ b s v) := (N.front _).2 ⟨v, h.1, rfl, h⟩
        rw [C.φ_out k] at hfr
        obtain ⟨i, i1, i2, i3⟩ := (s4.2.2 (bN b s + b.part v)).1 ⟨by have := C.valid.parts v h.1; omega, hfr⟩
        refine L (m - 1 - i) (by omega) (by omega) v h.1 k ?_ h
        rw [show m - 1 - (m - 1 - i) = i by omega, i3]
      · exact Or.inl ⟨h.1, k, h⟩

end Scotch.Bipart
