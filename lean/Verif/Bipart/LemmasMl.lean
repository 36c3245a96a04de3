import Verif.Bipart.ModelSt
import Verif.Bipart.LemmasCut
import Verif.Bipart.LemmasBasic
import Verif.Coarsen.Use
import Verif.Graph.Access

/-! # Multilevel bipartition: uncoarsening -/

set_option autoImplicit false
set_option linter.unusedSimpArgs false

namespace Scotch.Bipart
open Graph Coarsen

variable {b cb : Bgraph} {mate : Int → Int} {r : Result}

/-- What a coarse bipartition graph has in common with the fine one. -/
structure MlRel (b : Bgraph) (r : Result) (cb : Bgraph) : Prop where
  s : cb.s = r.graph
  veex : ∀ c, r.graph.Vertex c → cb.veex c = sumI b.s.baseval b.s.vertnnd (fun v => if r.coar.get v = c then b.veex v else 0)
  part : cb.parttax.lo ≤ cb.s.baseval ∧ cb.s.vertnnd ≤ cb.parttax.hi
  fron : cb.frontab.lo = b.frontab.lo ∧ cb.frontab.hi = b.frontab.hi
  avg : cb.compload0avg = b.compload0avg
  extn : cb.commloadextn0 = b.commloadextn0
  dist : cb.domndist = b.domndist

/-- Parts of the fine vertices. -/
theorem mlPart_holds (P : Pairing b.s mate) (K : Contracted b.s mate r) (A : Alloc b) (R : MlRel b r cb) (size : Int) :
    Holds (forUp cb.s.baseval cb.s.vertnnd (b.parttax, size) (mlPartStep r.mult cb.parttax)) (fun s => s.1.lo = b.parttax.lo ∧ s.1.hi = b.parttax.hi ∧
      (∀ v, b.s.Vertex v → s.1.get v = cb.part (r.coar.get v)) ∧
      s.2 = size + sumI r.graph.baseval r.graph.vertnnd (fun c => if (r.mult.get c).1 ≠ (r.mult.get c).2 then cb.part c else 0)) := by
  have hle : r.graph.baseval ≤ r.graph.vertnnd := by have := K.consistent.vertnbr; have := K.consistent.vertnnd; omega
  have hp := R.part
  have hroom := K.room
  have ha := A.part
  rw [R.s] at hp ⊢
  refine Holds_forUp (fun c s => s.1.lo = b.parttax.lo ∧ s.1.hi = b.parttax.hi ∧ (∀ v, b.s.Vertex v → r.coar.get v < c → s.1.get v = cb.part (r.coar.get v)) ∧
    s.2 = size + sumI r.graph.baseval c (fun c => if (r.mult.get c).1 ≠ (r.mult.get c).2 then cb.part c else 0)) hle ?_ ?_ ?_
  · refine ⟨rfl, rfl, ?_, ?_⟩
    · intro v hv h
      have := (K.inside v hv).1
      omega
    · dsimp only; rw [sumI_empty (Int.le_refl _)]; omega
  · rintro c ⟨part, n⟩ c1 c2 ⟨i1, i2, i3, i4⟩
    dsimp only at i1 i2 i3 i4
    have hc : r.graph.Vertex c := ⟨c1, c2⟩
    obtain ⟨p1, p2⟩ := (K.fib P).pair c ((K.vertex_iff c).1 hc).1 ((K.vertex_iff c).1 hc).2
    have hf := (K.fib P).fiber c
    have hf' : ∀ v, b.s.Vertex v → (r.coar.get v = c ↔ v = (r.mult.get c).1 ∨ v = (r.mult.get c).2) := fun v hv => hf v ((K.vertex_iff c).1 hc).1 ((K.vertex_iff c).1 hc).2 hv
    unfold mlPartStep
    rw [Arr.rd_ok r.mult (by omega) (by omega), ok_bind]
    generalize hm : r.mult.get c = m at *
    obtain ⟨v0, v1⟩ := m
    dsimp only at p1 p2 hf' ⊢
    have := p1.1; have := p1.2; have := p2.1; have := p2.2
    rw [Arr.rd_ok cb.parttax (by omega) (by omega), ok_bind, Arr.wr_ok _ _ (by omega) (by omega), ok_bind]
    rw [sumI_succ c1, hm]
    dsimp only
    have hpc : cb.parttax.get c = cb.part c := rfl
    by_cases hne : v0 ≠ v1
    · rw [if_pos hne, if_pos hne, Arr.wr_ok _ _ (by rw [Arr.set_lo]; omega) (by rw [Arr.set_hi]; omega), ok_bind, Holds_pure]
      refine ⟨i1, i2, ?_, by dsimp only; rw [hpc]; omega⟩
      intro v hv hlt
      dsimp only
      by_cases h1 : v = v1
      · rw [h1, Arr.set_get_same _ _ _, (hf' v1 p2).2 (Or.inr rfl), hpc]
      · rw [Arr.set_get_ne _ _ h1]
        by_cases h0 : v = v0
        · rw [h0, Arr.set_get_same _ _ _, (hf' v0 p1).2 (Or.inl rfl), hpc]
        · rw [Arr.set_get_ne _ _ h0]
          apply i3 v hv
          have : r.coar.get v ≠ c := fun h => by rcases (hf' v hv).1 h with h | h <;> contradiction
          omega
    · rw [if_neg hne, if_neg hne, Holds_pure]
      refine ⟨i1, i2, ?_, by dsimp only; omega⟩
      intro v hv hlt
      dsimp only
      by_cases h0 : v = v0
      · rw [h0, Arr.set_get_same _ _ _, (hf' v0 p1).2 (Or.inl rfl), hpc]
      · rw [Arr.set_get_ne _ _ h0]
        apply i3 v hv
        have : r.coar.get v ≠ c := fun h => by rcases (hf' v hv).1 h with h | h <;> omega
        omega
  · rintro s ⟨i1, i2, i3, i4⟩
    exact ⟨i1, i2, fun v hv => i3 v hv (K.inside v hv).2, i4⟩

/-- Search for a neighbour in another part. -/
theorem mlCuts_holds {g : Graph} (hE : ConsE g) (A : g.Allocated) {part : Arr Int} (hp : part.lo ≤ g.baseval ∧ g.vertnnd ≤ part.hi) {v : Int} (hv : g.Vertex v) (x : Int) :
    Holds (mlCuts g part v x) (fun t => t = true ↔ ∃ w, g.Adj v w ∧ part.get w ≠ x) := by
  unfold mlCuts
  rw [rdVert_eq A hv, ok_bind, rdVend_eq A hv, ok_bind, Holds_bind]
  refine Holds_forUpB (fun e _ => ∀ e', g.vert v ≤ e' → e' < e → part.get (g.dest e') = x) (fun _ => ∃ w, g.Adj v w ∧ part.get w ≠ x) (hE.range v hv).2 ?_ ?_ ?_ ?_
  · intro e' h1 h2; omega
  · intro e _ h1 h2 ih
    have hd := (hE.inside v e hv h1 h2).1
    rw [rdEdge_eq A hv h1 h2, ok_bind, Arr.rd_ok part (Int.le_trans hp.1 hd.1) (Int.lt_of_lt_of_le hd.2 hp.2), ok_bind, Holds_ite]
    refine ⟨fun h => ?_, fun h => ?_⟩
    · rw [Holds_pure, Loop.Sat_brk]
      exact ⟨g.dest e, ⟨e, h1, h2, rfl⟩, h⟩
    · rw [Holds_pure, Loop.Sat_next]
      intro e' k1 k2
      by_cases he : e' = e
      · rw [he]; exact Classical.not_not.1 h
      · exact ih e' k1 (by omega)
  · intro _ h
    dsimp only
    rw [Holds_pure]
    constructor
    · intro h'; exact absurd h' Bool.false_ne_true
    · rintro ⟨w, ⟨e, e1, e2, rfl⟩, hw⟩
      exact absurd (h e e1 e2) hw
  · intro _ h
    dsimp only
    rw [Holds_pure]
    exact ⟨fun _ => h, fun _ => rfl⟩

/-! ## Frontier -/

/-- Vertices listed after the first `i` coarse frontier vertices have been handled: the fine frontier vertices of these, and the first vertices of the others. -/
def MlSeen (b : Bgraph) (r : Result) (p : Int → Int) (a0 : Arr Int) (cn i v : Int) : Prop :=
  b.s.Vertex v ∧ ∃ j, 0 ≤ j ∧ j < cn ∧ r.coar.get v = a0.get j ∧ (j < i → Frontier b.s p v) ∧ (i ≤ j → v = (r.mult.get (a0.get j)).1)

/-- Array of the vertices listed. -/
def mlView (r : Result) (a : Arr Int) (cn i : Int) : Arr Int := ⟨0, 0, fun j => if j < i ∨ cn ≤ j then a.get j else (r.mult.get (a.get j)).1⟩

structure MlFron (b : Bgraph) (r : Result) (p : Int → Int) (a0 : Arr Int) (cn i : Int) (s : Arr Int × Int) : Prop where
  lo : s.1.lo = a0.lo
  hi : s.1.hi = a0.hi
  le : cn ≤ s.2
  rest : ∀ j, i ≤ j → j < cn → s.1.get j = a0.get j
  enum : Enum (mlView r s.1 cn i) s.2 (MlSeen b r p a0 cn i)

theorem mlFron_holds (C : b.s.Consistent) (P : Pairing b.s mate) (K : Contracted b.s mate r) (A : Alloc b) (R : MlRel b r cb) (V : Valid cb) {part : Arr Int}
    (hb : part.lo ≤ b.s.baseval ∧ b.s.vertnnd ≤ part.hi) (hp : ∀ v, b.s.Vertex v → part.get v = cb.part (r.coar.get v)) :
    Holds (forUp 0 cb.fronnbr (cb.frontab, cb.fronnbr) (mlFronStep b.s r.mult cb.parttax part)) (fun s => s.1.lo = b.frontab.lo ∧ s.1.hi = b.frontab.hi ∧
      Enum s.1 s.2 (Frontier b.s part.get)) := by
  have hE := consE_iff.2 C
  have hn := C.vertnnd
  have hfr := A.fron
  have hroom := K.room
  have hpr := R.part
  rw [R.s] at hpr
  obtain ⟨n0, inj, mem⟩ := V.fron
  have mem' : ∀ c, Frontier r.graph cb.part c ↔ ∃ i, 0 ≤ i ∧ i < cb.fronnbr ∧ cb.frontab.get i = c := by
    intro c; rw [← mem c, R.s]
  have nle : cb.fronnbr ≤ b.s.vertnbr := by
    have h1 := V.fron.le (lo := r.graph.baseval) (hi := r.graph.vertnnd) (by have := K.consistent.vertnbr; have := K.consistent.vertnnd; omega) (fun v hv => by rw [R.s] at hv; exact hv.1)
    have h2 := K.merged.baseval
    have h3 := K.consistent.vertnnd
    have h4 := K.vertnbr
    have h5 : pairs b.s mate ≤ b.s.vertnbr := by
      have : pairs b.s mate ≤ sumI b.s.baseval b.s.vertnnd (fun _ => 1) := by
        apply sumI_mono
        intro i _ _
        split <;> omega
      rw [sumI_const (by have := C.vertnbr; omega)] at this
      omega
    omega
  -- frontier of coarse and fine vertices
  have fr1 : ∀ v, Frontier b.s part.get v → Frontier r.graph cb.part (r.coar.get v) := by
    intro v hv
    obtain ⟨v1, w, ha, hw⟩ := frontier_adj.1 hv
    have hw1 := (hE.adj_vertex v1 ha).1
    rw [hp v v1, hp w hw1] at hw
    refine frontier_adj.2 ⟨K.inside v v1, r.coar.get w, (K.adj_coarse (K.inside v v1)).2 ⟨fun e => hw (by rw [e]), v, w, v1, rfl, ha, rfl⟩, hw⟩
  have fr2 : ∀ c, Frontier r.graph cb.part c → Frontier b.s part.get (r.mult.get c).1 ∨ Frontier b.s part.get (r.mult.get c).2 := by
    intro c hc
    obtain ⟨c1, d, ha, hw⟩ := frontier_adj.1 hc
    obtain ⟨-, v, w, k1, k2, k3, k4⟩ := (K.adj_coarse c1).1 ha
    have hw1 := (hE.adj_vertex k1 k3).1
    have hfv : Frontier b.s part.get v := frontier_adj.2 ⟨k1, w, k3, by rw [hp v k1, hp w hw1, k2, k4]; exact hw⟩
    obtain ⟨x1, x2⟩ := (K.vertex_iff c).1 c1
    rcases ((K.fib P).fiber c v x1 x2 k1).1 k2 with h | h
    · left; rw [← h]; exact hfv
    · right; rw [← h]; exact hfv
  refine Holds_forUp (fun i s => MlFron b r part.get cb.frontab cb.fronnbr i s) n0 ?_ ?_ ?_
  · refine ⟨rfl, rfl, Int.le_refl _, fun _ _ _ => rfl, n0, ?_, ?_⟩
    · intro i j i1 i2 j1 j2 he
      unfold mlView at he
      dsimp only at he i2 j2
      rw [if_neg (by omega), if_neg (by omega)] at he
      have h1 := ((mem' _).2 ⟨i, i1, i2, rfl⟩).1
      have h2 := ((mem' _).2 ⟨j, j1, j2, rfl⟩).1
      refine inj i j i1 i2 j1 j2 ?_
      rw [← (K.mult _ h1).2.1, ← (K.mult _ h2).2.1, he]
    · intro v
      constructor
      · rintro ⟨_, j, j1, j2, j3, _, j5⟩
        refine ⟨j, j1, j2, ?_⟩
        unfold mlView
        dsimp only
        rw [if_neg (by omega)]
        exact (j5 j1).symm
      · rintro ⟨j, j1, j2, rfl⟩
        unfold mlView
        dsimp only at j2 ⊢
        rw [if_neg (by omega)]
        have h1 := ((mem' _).2 ⟨j, j1, j2, rfl⟩).1
        exact ⟨(K.mult _ h1).1, j, j1, j2, (K.mult _ h1).2.1, fun h => by omega, fun _ => rfl⟩
  · rintro i ⟨a, fn⟩ i1 i2 ⟨l1, l2, l3, l4, l5⟩
    dsimp only at l1 l2 l3 l4 l5
    have hc : Frontier r.graph cb.part (cb.frontab.get i) := (mem' _).2 ⟨i, i1, i2, rfl⟩
    unfold mlFronStep
    have hb1 := R.fron
    dsimp only
    rw [Arr.rd_ok a (by omega) (by omega), ok_bind, l4 i (Int.le_refl _) i2]
    generalize hcd : cb.frontab.get i = c at *
    obtain ⟨x1, x2⟩ := (K.vertex_iff c).1 hc.1
    obtain ⟨c1, c2⟩ := hc.1
    obtain ⟨p1, p2⟩ := (K.fib P).pair c x1 x2
    have hf : ∀ v, b.s.Vertex v → (r.coar.get v = c ↔ v = (r.mult.get c).1 ∨ v = (r.mult.get c).2) := fun v hv => (K.fib P).fiber c v x1 x2 hv
    have hfr2 := fr2 c hc
    rw [Arr.rd_ok r.mult (by omega) (by omega), ok_bind]
    have hm0 : (r.mult.get c).1 = (r.mult.get (cb.frontab.get i)).1 := by rw [hcd]
    generalize hm : r.mult.get c = m at *
    obtain ⟨v0, v1⟩ := m
    dsimp only at p1 p2 hf hfr2 hm0 ⊢
    have k0 : r.coar.get v0 = c := (hf v0 p1).2 (Or.inl rfl)
    have k1 : r.coar.get v1 = c := (hf v1 p2).2 (Or.inr rfl)
    have uniq : ∀ j, 0 ≤ j → j < cb.fronnbr → cb.frontab.get j = c → j = i := fun j j1 j2 e => inj j i j1 j2 i1 i2 (by rw [e, hcd])
    have cutIff : ∀ v, b.s.Vertex v → r.coar.get v = c → ((∃ w, b.s.Adj v w ∧ part.get w ≠ cb.parttax.get c) ↔ Frontier b.s part.get v) := by
      intro v hv e
      rw [frontier_adj, hp v hv, e]
      exact ⟨fun h => ⟨hv, h⟩, fun h => h.2⟩
    -- when the slot keeps the first vertex
    have keep : Frontier b.s part.get v0 → (v1 = v0 ∨ ¬ Frontier b.s part.get v1) → MlFron b r part.get cb.frontab cb.fronnbr (i + 1) (a.set i v0, fn) := by
      intro f0 f1
      refine ⟨l1, l2, l3, ?_, ?_⟩
      · intro j j1 j2
        dsimp only
        rw [Arr.set_get_ne _ _ (by omega)]
        exact l4 j (by omega) j2
      · refine Enum.agree (Enum.congr l5 ?_) ?_
        · intro v
          constructor
          · rintro ⟨y1, j, y2, y3, y4, y5, y6⟩
            refine ⟨y1, j, y2, y3, y4, ?_, fun h => y6 (by omega)⟩
            intro h
            by_cases hj : j = i
            · rw [y6 (by omega), hj, ← hm0]; exact f0
            · exact y5 (by omega)
          · rintro ⟨y1, j, y2, y3, y4, y5, y6⟩
            refine ⟨y1, j, y2, y3, y4, fun h => y5 (by omega), ?_⟩
            intro h
            by_cases hj : j = i
            · have hvf := y5 (by omega)
              rw [hj, hcd] at y4
              rw [hj, ← hm0]
              rcases (hf v y1).1 y4 with e | e
              · exact e
              · rcases f1 with f1 | f1
                · rw [e, f1]
                · exact absurd (e ▸ hvf) f1
            · exact y6 (by omega)
        · intro j j1 j2
          unfold mlView
          dsimp only
          by_cases hj : j = i
          · rw [hj, if_pos (Or.inl (by omega)), if_neg (by omega), Arr.set_get_same _ _ _, l4 i (Int.le_refl _) i2]
            exact hm0
          · rw [Arr.set_get_ne _ _ hj]
            by_cases h1 : j < i ∨ cb.fronnbr ≤ j
            · rw [if_pos h1, if_pos (by omega)]
            · rw [if_neg h1, if_neg (by omega)]
    have notSeen : v0 ≠ v1 → ¬ MlSeen b r part.get cb.frontab cb.fronnbr i v1 := by
      rintro hne ⟨y1, j, y2, y3, y4, y5, y6⟩
      rw [k1] at y4
      have hj := uniq j y2 y3 y4.symm
      have := y6 (by omega)
      rw [hj, ← hm0] at this
      exact hne this.symm
    by_cases hne : v0 ≠ v1
    · rw [if_pos hne, Arr.rd_ok cb.parttax (by omega) (by omega), ok_bind, Holds_bind]
      refine (mlCuts_holds hE A.graph hb p1 _).mono ?_
      intro t ht
      rw [cutIff v0 p1 k0] at ht
      cases t with
      | true =>
        have f0 := ht.1 rfl
        rw [if_pos rfl, Arr.wr_ok _ _ (by omega) (by omega), ok_bind, Holds_bind]
        refine (mlCuts_holds hE A.graph hb p2 _).mono ?_
        intro t ht
        rw [cutIff v1 p2 k1] at ht
        cases t with
        | true =>
          have f1 := ht.1 rfl
          have hlt := l5.lt (lo := b.s.baseval) (hi := b.s.vertnnd) (fun v hv => hv.1) (notSeen hne) p2.1 p2.2
          rw [if_pos rfl, Arr.wr_ok _ _ (by rw [Arr.set_lo]; omega) (by rw [Arr.set_hi]; omega), ok_bind, Holds_pure]
          refine ⟨l1, l2, by dsimp only; omega, ?_, ?_⟩
          · intro j j1 j2
            dsimp only
            rw [Arr.set_get_ne _ _ (by omega), Arr.set_get_ne _ _ (by omega)]
            exact l4 j (by omega) j2
          · refine Enum.agree (Enum.congr (l5.push (notSeen hne)) ?_) ?_
            · intro v
              constructor
              · rintro (⟨y1, j, y2, y3, y4, y5, y6⟩ | rfl)
                · refine ⟨y1, j, y2, y3, y4, ?_, fun h => y6 (by omega)⟩
                  intro h
                  by_cases hj : j = i
                  · rw [y6 (by omega), hj, ← hm0]; exact f0
                  · exact y5 (by omega)
                · exact ⟨p2, i, i1, i2, by rw [k1, hcd], fun _ => f1, fun h => by omega⟩
              · rintro ⟨y1, j, y2, y3, y4, y5, y6⟩
                by_cases hj : j = i
                · rw [hj, hcd] at y4
                  rcases (hf v y1).1 y4 with e | e
                  · left
                    exact ⟨y1, i, i1, i2, by rw [y4, hcd], fun h => by omega, fun _ => by rw [e]; exact hm0⟩
                  · right; exact e
                · left; exact ⟨y1, j, y2, y3, y4, fun h => y5 (by omega), fun h => y6 (by omega)⟩
            · intro j j1 j2
              unfold mlView
              dsimp only
              by_cases hj : j = fn
              · rw [hj, if_pos (Or.inr l3), Arr.set_get_same _ _ _, Arr.set_get_same _ _ _]
              · rw [Arr.set_get_ne _ _ hj, Arr.set_get_ne _ _ hj]
                dsimp only
                by_cases hj : j = i
                · rw [hj, if_pos (Or.inl (by omega)), if_neg (by omega), Arr.set_get_same _ _ _, l4 i (Int.le_refl _) i2]
                  exact hm0
                · rw [Arr.set_get_ne _ _ hj]
                  by_cases h1 : j < i ∨ cb.fronnbr ≤ j
                  · rw [if_pos h1, if_pos (by omega)]
                  · rw [if_neg h1, if_neg (by omega)]
        | false =>
          rw [if_neg Bool.false_ne_true, Holds_pure]
          exact keep f0 (Or.inr (fun h => Bool.false_ne_true (ht.2 h)))
      | false =>
        have f0 : ¬ Frontier b.s part.get v0 := fun h => Bool.false_ne_true (ht.2 h)
        have f1 : Frontier b.s part.get v1 := hfr2.resolve_left f0
        rw [if_neg Bool.false_ne_true, Arr.wr_ok _ _ (by omega) (by omega), ok_bind, Holds_pure]
        have hvi : (mlView r a cb.fronnbr i).get i = v0 := by
          unfold mlView
          dsimp only
          rw [if_neg (by omega), l4 i (Int.le_refl _) i2]
          exact hm0.symm
        refine ⟨l1, l2, l3, ?_, ?_⟩
        · intro j j1 j2
          dsimp only
          rw [Arr.set_get_ne _ _ (by omega)]
          exact l4 j (by omega) j2
        · refine Enum.agree (Enum.congr (l5.replace i1 (by omega) (notSeen hne)) ?_) ?_
          · intro v
            rw [hvi]
            constructor
            · rintro (⟨⟨y1, j, y2, y3, y4, y5, y6⟩, yn⟩ | rfl)
              · refine ⟨y1, j, y2, y3, y4, ?_, fun h => y6 (by omega)⟩
                intro h
                by_cases hj : j = i
                · exfalso
                  have := y6 (by omega)
                  rw [hj, ← hm0] at this
                  exact yn this
                · exact y5 (by omega)
              · exact ⟨p2, i, i1, i2, by rw [k1, hcd], fun _ => f1, fun h => by omega⟩
            · rintro ⟨y1, j, y2, y3, y4, y5, y6⟩
              by_cases hj : j = i
              · rw [hj, hcd] at y4
                have hvf := y5 (by omega)
                rcases (hf v y1).1 y4 with e | e
                · exact absurd (e ▸ hvf) f0
                · right; exact e
              · left
                refine ⟨⟨y1, j, y2, y3, y4, fun h => y5 (by omega), fun h => y6 (by omega)⟩, ?_⟩
                intro e
                rw [e, k0] at y4
                exact hj (uniq j y2 y3 y4.symm)
          · intro j j1 j2
            by_cases hj : j = i
            · rw [hj]
              unfold mlView
              dsimp only
              rw [if_pos (Or.inl (by omega)), Arr.set_get_same _ _ _, Arr.set_get_same _ _ _]
            · rw [Arr.set_get_ne _ _ hj]
              unfold mlView
              dsimp only
              rw [Arr.set_get_ne _ _ hj]
              by_cases h1 : j < i ∨ cb.fronnbr ≤ j
              · rw [if_pos h1, if_pos (by omega)]
              · rw [if_neg h1, if_neg (by omega)]
    · have hev : v0 = v1 := Classical.not_not.1 hne
      rw [if_neg hne, Arr.wr_ok _ _ (by omega) (by omega), ok_bind, Holds_pure]
      have f0 : Frontier b.s part.get v0 := by
        rcases hfr2 with h | h
        · exact h
        · rw [hev]; exact h
      exact keep f0 (Or.inl hev.symm)
  · rintro ⟨a, fn⟩ ⟨l1, l2, l3, l4, l5⟩
    dsimp only at l1 l2 l3 l4 l5 ⊢
    refine ⟨l1.trans R.fron.1, l2.trans R.fron.2, Enum.agree (Enum.congr l5 ?_) ?_⟩
    · intro v
      constructor
      · rintro ⟨y1, j, y2, y3, y4, y5, y6⟩
        exact y5 y3
      · intro hv
        obtain ⟨j, j1, j2, j3⟩ := (mem' _).1 (fr1 v hv)
        exact ⟨hv.1, j, j1, j2, j3.symm, fun _ => hv, fun h => by omega⟩
    · intro j j1 j2
      unfold mlView
      dsimp only
      rw [if_pos (by omega)]

/-! ## Loads -/

theorem over_coarse {g : Graph} (K : Contracted g mate r) {q : Int → Int} (k : Int) {f f' : Int → Int}
    (hf : ∀ c, r.graph.Vertex c → f' c = sumI g.baseval g.vertnnd (fun v => if r.coar.get v = c then f v else 0)) :
    over r.graph q k f' = over g (fun v => q (r.coar.get v)) k f := by
  unfold over
  have h := K.push_sum f (fun c => if q c = k then 1 else 0)
  have e1 : sumI g.baseval g.vertnnd (fun v => if q (r.coar.get v) = k then f v else 0) = sumI g.baseval g.vertnnd (fun v => f v * (fun c => if q c = k then (1 : Int) else 0) (r.coar.get v)) := by
    apply sumI_congr
    intro v _ _
    dsimp only
    split <;> simp
  rw [e1, ← h]
  apply sumI_congr
  intro c c1 c2
  rw [← hf c ⟨c1, c2⟩]
  split <;> simp

theorem cut_coarse (C : b.s.Consistent) (K : Contracted b.s mate r) {q : Int → Int} (hq : Parts r.graph q) : cut r.graph q = cut b.s (fun v => q (r.coar.get v)) := by
  have hq' : Parts b.s (fun v => q (r.coar.get v)) := fun v hv => hq _ (K.inside v hv)
  rw [cut_sum (consE_iff.2 K.consistent) hq, cut_sum (consE_iff.2 C) hq']
  have e1 : ∀ c, r.graph.Vertex c → ∀ d, r.graph.Vertex d → (1 - q c) * q d = if q c = 0 ∧ q d = 1 then 1 else 0 := by
    intro c hc d hd
    rcases hq c hc with h | h <;> rcases hq d hd with h' | h' <;> rw [h, h'] <;> rfl
  have h := K.push_wgt C (fun c d => if q c = 0 ∧ q d = 1 then 1 else 0) (fun c => if_neg (by omega))
  rw [sumI_congr (fun c c1 c2 => sumI_congr (fun d d1 d2 => by rw [e1 c ⟨c1, c2⟩ d ⟨d1, d2⟩])), h]
  apply sumI_congr
  intro v v1 v2
  apply sumI_congr
  intro w w1 w2
  rw [e1 _ (K.inside v ⟨v1, v2⟩) _ (K.inside w ⟨w1, w2⟩)]

/-- Uncoarsening a valid bipartition gives a valid one. -/
theorem mlUncoarsen_holds (C : b.s.Consistent) (P : Pairing b.s mate) (K : Contracted b.s mate r) (A : Alloc b) (R : MlRel b r cb) (V : Valid cb) :
    Holds (mlUncoarsen b cb r.mult) (fun b' => Valid b' ∧ SameProblem b b' ∧ ∀ v, b.s.Vertex v → b'.part v = cb.part (r.coar.get v)) := by
  have hE := consE_iff.2 C
  have ha := A.part
  have hq : Parts r.graph cb.part := fun c hc => V.parts c (by rw [R.s]; exact hc)
  have hq' : Parts b.s (fun v => cb.part (r.coar.get v)) := fun v hv => hq _ (K.inside v hv)
  unfold mlUncoarsen
  rw [Holds_bind]
  refine (mlPart_holds P K A R _).mono ?_
  rintro ⟨part, size1⟩ ⟨q1, q2, q3, q4⟩
  dsimp only at q1 q2 q3 q4 ⊢
  rw [Holds_bind]
  refine (mlFron_holds C P K A R V (part := part) (by omega) q3).mono ?_
  rintro ⟨frontab, fronnbr⟩ ⟨f1, f2, f3⟩
  dsimp only at f1 f2 f3 ⊢
  rw [Holds_pure]
  have ovr : ∀ k (f f' : Int → Int), (∀ c, r.graph.Vertex c → f' c = sumI b.s.baseval b.s.vertnnd (fun v => if r.coar.get v = c then f v else 0)) →
      over cb.s cb.part k f' = over b.s part.get k f := by
    intro k f f' hf
    rw [R.s, over_coarse K k hf]
    exact over_congr k (fun v hv => (q3 v hv).symm) (fun _ _ => rfl)
  have vload := K.merged.velo
  have hcut : cut cb.s cb.part = cut b.s part.get := by
    rw [R.s, cut_coarse C K hq]
    exact cut_congr hE (fun v hv => (q3 v hv).symm)
  refine ⟨⟨?_, ?_, ?_, ?_, ?_, ?_, f3⟩, ⟨rfl, rfl, ⟨q1, q2, f1, f2⟩, ⟨rfl, rfl, rfl⟩, ⟨rfl, rfl⟩, ⟨rfl, rfl, rfl⟩, ⟨rfl, rfl⟩⟩, q3⟩
  · intro v hv
    change part.get v = 0 ∨ part.get v = 1
    rw [q3 v hv]; exact hq' v hv
  · change cb.compload0 = over b.s part.get 0 b.s.velo
    rw [V.load, ← ovr 0 b.s.velo cb.s.velo (fun c hc => by rw [R.s]; exact vload c hc)]
  · change cb.compload0dlt = cb.compload0 - b.compload0avg
    rw [V.delta, R.avg]
  · change b.s.vertnbr - size1 = over b.s part.get 0 (fun _ => 1)
    have e1 : over b.s part.get 0 (fun _ => 1) + over b.s part.get 1 (fun _ => 1) = b.s.vertnbr := by
      rw [over_add (fun v hv => by rw [q3 v hv]; exact hq' v hv), size_eq hE]
    have e2 : over r.graph cb.part 0 (fun _ => 1) + over r.graph cb.part 1 (fun _ => 1) = r.graph.vertnbr := by
      rw [over_add hq]
      have h1 := K.consistent.vertnnd
      have h2 := K.consistent.vertnbr
      rw [sumI_const (by omega)]
      omega
    have e3 : over b.s part.get 1 (fun _ => 1) = over r.graph cb.part 1 (fun c => sumI b.s.baseval b.s.vertnnd (fun v => if r.coar.get v = c then (fun _ => 1) v else 0)) := by
      rw [← R.s, ovr 1 (fun _ => 1)]
      intro c _; rfl
    rw [over_one hq] at e3
    have e4 : sumI r.graph.baseval r.graph.vertnnd (fun c => cb.part c * sumI b.s.baseval b.s.vertnnd (fun v => if r.coar.get v = c then (fun _ => 1) v else 0))
        = sumI r.graph.baseval r.graph.vertnnd (fun c => cb.part c * 1) + sumI r.graph.baseval r.graph.vertnnd (fun c => if (r.mult.get c).1 ≠ (r.mult.get c).2 then cb.part c else 0) := by
      rw [← sumI_add_dist]
      apply sumI_congr
      intro c c1 c2
      rw [K.pair_sum P ⟨c1, c2⟩]
      split <;> omega
    have e5 := over_one hq (fun _ => 1)
    have e6 := V.size
    rw [R.s] at e6 q4
    omega
  · change cb.commload = cut b.s part.get * b.domndist + b.commloadextn0 + over b.s part.get 1 b.veex
    rw [V.comm, hcut, R.dist, R.extn, ovr 1 b.veex cb.veex R.veex]
  · change cb.commgainextn = over b.s part.get 0 b.veex - over b.s part.get 1 b.veex
    rw [V.gain, ovr 0 b.veex cb.veex R.veex, ovr 1 b.veex cb.veex R.veex]

/-! ## Coarsening -/

theorem mlCoarsen_holds (env : BEnv) (p : Path) (P : Pairing b.s mate) (K : Contracted b.s mate r) (A : Alloc b) :
    Holds (mlCoarsen env p b r) (fun cb => MlRel b r cb ∧ (∀ a, cb.veextax = some a → a.lo ≤ cb.s.baseval ∧ cb.s.vertnnd ≤ a.hi) ∧
      cb.vfixload0 = b.vfixload0 ∧ cb.vfixload1 = b.vfixload1 ∧ cb.commgainextn0 = b.commgainextn0) := by
  have h1 := K.consistent.vertnnd
  have h2 := K.consistent.vertnbr
  have hroom := K.room
  unfold mlCoarsen
  rw [Holds_bind]
  refine Holds.mono (Q := fun x => match b.veextax with
    | none => x = none
    | some f => ∃ a, x = some a ∧ a.lo = r.graph.baseval ∧ a.hi = r.graph.vertnnd ∧ ∀ c, r.graph.Vertex c → a.get c = sumI b.s.baseval b.s.vertnnd (fun v => if r.coar.get v = c then f.get v else 0)) ?_ ?_
  · unfold mlVeex
    cases hv : b.veextax with
    | none => dsimp only; rw [Holds_pure]
    | some f =>
      dsimp only
      have hf := A.veex f hv
      rw [Holds_bind]
      refine Holds_forUp (fun i (a : Arr Int) => a.lo = 0 ∧ a.hi = r.graph.vertnbr ∧ ∀ j, 0 ≤ j → j < i → a.get j = sumI b.s.baseval b.s.vertnnd (fun v => if r.coar.get v = r.graph.baseval + j then f.get v else 0)) h2 ?_ ?_ ?_
      · exact ⟨rfl, rfl, fun j j1 j2 => by omega⟩
      · rintro i a i1 i2 ⟨a1, a2, a3⟩
        have hc : r.graph.Vertex (r.graph.baseval + i) := ⟨by omega, by omega⟩
        have hs := K.pair_sum P hc f.get
        obtain ⟨x1, x2⟩ := (K.vertex_iff _).1 hc
        obtain ⟨p1, p2⟩ := (K.fib P).pair _ x1 x2
        unfold mlVeexStep
        rw [Arr.rd_ok r.mult (by omega) (by omega), ok_bind]
        generalize r.mult.get (r.graph.baseval + i) = m at *
        obtain ⟨v0, v1⟩ := m
        dsimp only at p1 p2 hs ⊢
        have := p1.1; have := p1.2; have := p2.1; have := p2.2
        have fin : ∀ x, x = f.get v0 + (if v0 ≠ v1 then f.get v1 else 0) → (a.set i x).lo = 0 ∧ (a.set i x).hi = r.graph.vertnbr ∧
            ∀ j, 0 ≤ j → j < i + 1 → (a.set i x).get j = sumI b.s.baseval b.s.vertnnd (fun v => if r.coar.get v = r.graph.baseval + j then f.get v else 0) := by
          intro x hx
          refine ⟨a1, a2, ?_⟩
          intro j j1 j2
          by_cases hj : j = i
          · rw [hj, Arr.set_get_same _ _ _, hs, hx]
          · rw [Arr.set_get_ne _ _ hj]; exact a3 j j1 (by omega)
        by_cases hne : v0 ≠ v1
        · rw [if_pos hne, Arr.rd_ok f (by omega) (by omega), ok_bind, Arr.rd_ok f (by omega) (by omega), ok_bind, Arr.wr_ok _ _ (by omega) (by omega), Holds_ok]
          exact fin _ (by rw [if_pos hne])
        · rw [if_neg hne, Arr.rd_ok f (by omega) (by omega), ok_bind, Arr.wr_ok _ _ (by omega) (by omega), Holds_ok]
          exact fin _ (by rw [if_neg hne]; omega)
      · rintro a ⟨a1, a2, a3⟩
        rw [Holds_pure]
        refine ⟨_, rfl, ?_, ?_, ?_⟩
        · unfold Arr.shift; dsimp only; omega
        · unfold Arr.shift; dsimp only; omega
        · intro c hc
          have := hc.1
          have := hc.2
          unfold Arr.shift
          dsimp only
          rw [a3 (c - r.graph.baseval) (by omega) (by omega)]
          apply sumI_congr
          intro v _ _
          rw [show r.graph.baseval + (c - r.graph.baseval) = c by omega]
  · intro x hx
    rw [Holds_pure]
    refine ⟨⟨rfl, ?_, ?_, ⟨rfl, rfl⟩, rfl, rfl, rfl⟩, ?_, rfl, rfl, rfl⟩
    · intro c hc
      cases hv : b.veextax with
      | none =>
        rw [hv] at hx
        dsimp only at hx
        subst hx
        unfold Bgraph.veex
        dsimp only
        rw [hv]
        dsimp only
        rw [eq_comm]
        apply sumI_eq_zero
        intro v _ _
        split <;> rfl
      | some f =>
        rw [hv] at hx
        obtain ⟨a, rfl, -, -, h⟩ := hx
        unfold Bgraph.veex
        dsimp only
        rw [hv]
        exact h c hc
    · dsimp only; omega
    · intro a e
      dsimp only at e ⊢
      subst e
      cases hv : b.veextax with
      | none => rw [hv] at hx; cases hx
      | some f =>
        rw [hv] at hx
        obtain ⟨a', e, k1, k2, -⟩ := hx
        cases e
        omega

end Scotch.Bipart
