import Verif.Separ.LemmasBasic
import Verif.Bipart.LemmasMl

/-! # Multilevel separation: uncoarsening -/

set_option autoImplicit false
set_option linter.unusedSimpArgs false

namespace Scotch.Separ
open Graph Coarsen
open Bipart (over)

variable {b cb : Vgraph} {mate : Int → Int} {r : Result}

/-- What a coarse separation graph has in common with the fine one. -/
structure MlRel (b : Vgraph) (r : Result) (cb : Vgraph) : Prop where
  s : cb.s = r.graph
  part : cb.parttax.lo ≤ cb.s.baseval ∧ cb.s.vertnnd ≤ cb.parttax.hi
  fron : cb.frontab.lo = b.frontab.lo ∧ cb.frontab.hi = b.frontab.hi
  dwgt : cb.dwgt0 = b.dwgt0 ∧ cb.dwgt1 = b.dwgt1

/-- State of the loop after the coarse vertices below `c`. -/
structure MlInv (b : Vgraph) (r : Result) (cb : Vgraph) (c : Int) (s : MlState) : Prop where
  plo : s.part.lo = b.parttax.lo ∧ s.part.hi = b.parttax.hi
  flo : s.fron.lo = b.frontab.lo ∧ s.fron.hi = b.frontab.hi
  part : ∀ v, b.s.Vertex v → r.coar.get v < c → s.part.get v = cb.part (r.coar.get v)
  fron : Enum s.fron s.nbr (fun v => b.s.Vertex v ∧ r.coar.get v < c ∧ cb.part (r.coar.get v) = 2)
  size : s.size1 = cb.compsize1 + sumI r.graph.baseval c (fun c => if (r.mult.get c).1 ≠ (r.mult.get c).2 ∧ cb.part c = 1 then 1 else 0)

theorem mlLoop_holds (C : b.s.Consistent) (P : Pairing b.s mate) (K : Contracted b.s mate r) (A : Alloc b) (R : MlRel b r cb) (V : Valid cb) :
    Holds (forUp cb.s.baseval cb.s.vertnnd ⟨b.parttax, cb.frontab, 0, cb.compsize1⟩ (mlStep r.mult cb.parttax)) (MlInv b r cb r.graph.vertnnd) := by
  have hle : r.graph.baseval ≤ r.graph.vertnnd := by have := K.consistent.vertnbr; have := K.consistent.vertnnd; omega
  have hp := R.part
  have hroom := K.room
  have ha := A.part
  have hfr := A.fron
  have hn := C.vertnnd
  have hparts : ∀ c, r.graph.Vertex c → cb.part c = 0 ∨ cb.part c = 1 ∨ cb.part c = 2 := fun c hc => V.parts c (by rw [R.s]; exact hc)
  rw [R.s] at hp ⊢
  refine Holds_forUp (fun c s => MlInv b r cb c s) hle ?_ ?_ (fun _ h => h)
  · refine ⟨⟨rfl, rfl⟩, R.fron, ?_, ?_, ?_⟩
    · intro v hv h
      have := (K.inside v hv).1
      omega
    · refine (Enum.empty _).congr ?_
      intro v
      refine ⟨False.elim, ?_⟩
      rintro ⟨hv, h, -⟩
      have := (K.inside v hv).1
      omega
    · dsimp only; rw [sumI_empty (Int.le_refl _)]; omega
  · rintro c ⟨part, fron, n, size⟩ c1 c2 ⟨i1, i2, i3, i4, i5⟩
    dsimp only at i1 i2 i3 i4 i5
    have hc : r.graph.Vertex c := ⟨c1, c2⟩
    obtain ⟨p1, p2⟩ := (K.fib P).pair c ((K.vertex_iff c).1 hc).1 ((K.vertex_iff c).1 hc).2
    have hf : ∀ v, b.s.Vertex v → (r.coar.get v = c ↔ v = (r.mult.get c).1 ∨ v = (r.mult.get c).2) := fun v hv => (K.fib P).fiber c v ((K.vertex_iff c).1 hc).1 ((K.vertex_iff c).1 hc).2 hv
    unfold mlStep
    rw [Arr.rd_ok r.mult (by omega) (by omega), ok_bind]
    have hs := sumI_succ c1 (f := fun c => if (r.mult.get c).1 ≠ (r.mult.get c).2 ∧ cb.part c = 1 then (1 : Int) else 0)
    generalize hm : r.mult.get c = m at *
    obtain ⟨v0, v1⟩ := m
    dsimp only at p1 p2 hf hs ⊢
    have := p1.1; have := p1.2; have := p2.1; have := p2.2
    have k0 : r.coar.get v0 = c := (hf v0 p1).2 (Or.inl rfl)
    have k1 : r.coar.get v1 = c := (hf v1 p2).2 (Or.inr rfl)
    have hpc : cb.parttax.get c = cb.part c := rfl
    have hpart := hparts c hc
    rw [Arr.rd_ok cb.parttax (by omega) (by omega), ok_bind, Arr.wr_ok _ _ (by omega) (by omega), ok_bind, hpc]
    -- parts after the step
    have two : ∀ v, b.s.Vertex v → r.coar.get v < c + 1 → ((part.set v0 (cb.part c)).set v1 (cb.part c)).get v = cb.part (r.coar.get v) := by
      intro v hv hlt
      by_cases h1 : v = v1
      · rw [h1, Arr.set_get_same _ _ _, k1]
      · rw [Arr.set_get_ne _ _ h1]
        by_cases h0 : v = v0
        · rw [h0, Arr.set_get_same _ _ _, k0]
        · rw [Arr.set_get_ne _ _ h0]
          apply i3 v hv
          have : r.coar.get v ≠ c := fun h => by rcases (hf v hv).1 h with h | h <;> contradiction
          omega
    have one : v0 = v1 → ∀ v, b.s.Vertex v → r.coar.get v < c + 1 → (part.set v0 (cb.part c)).get v = cb.part (r.coar.get v) := by
      intro he v hv hlt
      by_cases h0 : v = v0
      · rw [h0, Arr.set_get_same _ _ _, k0]
      · rw [Arr.set_get_ne _ _ h0]
        apply i3 v hv
        have : r.coar.get v ≠ c := fun h => by rcases (hf v hv).1 h with h | h <;> omega
        omega
    rw [Holds_ite]
    refine ⟨fun h2 => ?_, fun h2 => ?_⟩
    · have en : Enum fron n (fun v => b.s.Vertex v ∧ r.coar.get v < c + 1 ∧ cb.part (r.coar.get v) = 2) := by
        refine i4.congr ?_
        intro v
        constructor
        · rintro ⟨a1, a2, a3⟩; exact ⟨a1, by omega, a3⟩
        · rintro ⟨a1, a2, a3⟩
          refine ⟨a1, ?_, a3⟩
          have : r.coar.get v ≠ c := by intro h; rw [h] at a3; exact h2 a3
          omega
      rw [Holds_ite]
      refine ⟨fun hne => ?_, fun he => ?_⟩
      · rw [Arr.wr_ok _ _ (by rw [Arr.set_lo]; omega) (by rw [Arr.set_hi]; omega), ok_bind, Holds_pure]
        refine ⟨i1, i2, two, en, ?_⟩
        show size + cb.part c = _
        rw [hs, i5]
        rcases hpart with h | h | h
        · rw [if_neg (fun hh => by omega)]; omega
        · rw [if_pos ⟨hne, h⟩]; omega
        · exact absurd h h2
      · rw [Holds_pure]
        refine ⟨i1, i2, one (Classical.not_not.1 he), en, ?_⟩
        show size = _
        rw [hs, i5, if_neg (fun h => he h.1)]; omega
    · have h2' : cb.part c = 2 := Classical.not_not.1 h2
      have nin : ∀ v, r.coar.get v = c → ¬ (b.s.Vertex v ∧ r.coar.get v < c ∧ cb.part (r.coar.get v) = 2) := by
        rintro v hv ⟨-, h, -⟩
        omega
      have lt0 := i4.lt (lo := b.s.baseval) (hi := b.s.vertnnd) (x := v0) (fun v hv => hv.1) (nin v0 k0) p1.1 p1.2
      have n0 := i4.1
      have e0 := i4.push (nin v0 k0)
      rw [Arr.wr_ok _ _ (by omega) (by omega), ok_bind, Holds_ite]
      have hsize : size = cb.compsize1 + sumI r.graph.baseval (c + 1) (fun c => if (r.mult.get c).1 ≠ (r.mult.get c).2 ∧ cb.part c = 1 then 1 else 0) := by
        rw [hs, i5, if_neg (fun h => by omega)]; omega
      refine ⟨fun hne => ?_, fun he => ?_⟩
      · have nin1 : ¬ ((b.s.Vertex v1 ∧ r.coar.get v1 < c ∧ cb.part (r.coar.get v1) = 2) ∨ v1 = v0) := by
          rintro (h | h)
          · exact nin v1 k1 h
          · exact hne h.symm
        have lt1 := e0.lt (lo := b.s.baseval) (hi := b.s.vertnnd) (x := v1) (by rintro v (hv | rfl); exacts [hv.1, p1]) nin1 p2.1 p2.2
        have e1 := e0.push nin1
        rw [Arr.wr_ok (part.set v0 _) _ (by rw [Arr.set_lo]; omega) (by rw [Arr.set_hi]; omega), ok_bind, Arr.wr_ok _ _ (by rw [Arr.set_lo]; omega) (by rw [Arr.set_hi]; omega), ok_bind, Holds_pure]
        refine ⟨i1, i2, two, ?_, hsize⟩
        have e2 : n + 2 = n + 1 + 1 := by omega
        show Enum ((fron.set n v0).set (n + 1) v1) (n + 2) _
        rw [e2]
        refine e1.congr ?_
        intro v
        constructor
        · rintro ((⟨a1, a2, a3⟩ | rfl) | rfl)
          · exact ⟨a1, by omega, a3⟩
          · exact ⟨p1, by omega, by rw [k0]; exact h2'⟩
          · exact ⟨p2, by omega, by rw [k1]; exact h2'⟩
        · rintro ⟨a1, a2, a3⟩
          by_cases hvc : r.coar.get v = c
          · rcases (hf v a1).1 hvc with h | h
            · exact Or.inl (Or.inr h)
            · exact Or.inr h
          · exact Or.inl (Or.inl ⟨a1, by omega, a3⟩)
      · have he' : v0 = v1 := Classical.not_not.1 he
        rw [Holds_pure]
        refine ⟨i1, i2, one he', ?_, hsize⟩
        show Enum (fron.set n v0) (n + 1) _
        refine e0.congr ?_
        intro v
        constructor
        · rintro (⟨a1, a2, a3⟩ | rfl)
          · exact ⟨a1, by omega, a3⟩
          · exact ⟨p1, by omega, by rw [k0]; exact h2'⟩
        · rintro ⟨a1, a2, a3⟩
          by_cases hvc : r.coar.get v = c
          · right
            rcases (hf v a1).1 hvc with h | h
            · exact h
            · exact h.trans he'.symm
          · exact Or.inl ⟨a1, by omega, a3⟩

/-- Uncoarsening a valid separation gives a valid one, with the same parts and loads. -/
theorem mlUncoarsen_holds (C : b.s.Consistent) (P : Pairing b.s mate) (K : Contracted b.s mate r) (A : Alloc b) (R : MlRel b r cb) (V : Valid cb) :
    Holds (mlUncoarsen b cb r.mult) (fun b' => Valid b' ∧ SameProblem b b' ∧ (∀ v, b.s.Vertex v → b'.part v = cb.part (r.coar.get v)) ∧
      b'.compload0 = cb.compload0 ∧ b'.compload1 = cb.compload1 ∧ b'.compload2 = cb.compload2) := by
  have hE := consE_iff.2 C
  have hq : ∀ c, r.graph.Vertex c → cb.part c = 0 ∨ cb.part c = 1 ∨ cb.part c = 2 := fun c hc => V.parts c (by rw [R.s]; exact hc)
  unfold mlUncoarsen
  rw [Holds_bind]
  refine (mlLoop_holds C P K A R V).mono ?_
  rintro ⟨part, fron, n, size⟩ ⟨i1, i2, i3, i4, i5⟩
  dsimp only at i1 i2 i3 i4 i5
  rw [Holds_pure]
  have q3 : ∀ v, b.s.Vertex v → part.get v = cb.part (r.coar.get v) := fun v hv => i3 v hv (K.inside v hv).2
  have ovr : ∀ k (f f' : Int → Int), (∀ c, r.graph.Vertex c → f' c = sumI b.s.baseval b.s.vertnnd (fun v => if r.coar.get v = c then f v else 0)) →
      over cb.s cb.part k f' = over b.s part.get k f := by
    intro k f f' hf
    rw [R.s, Bipart.over_coarse K k hf]
    refine Bipart.over_congr (g := b.s) k ?_ (fun _ _ => rfl)
    intro v hv
    exact (q3 v hv).symm
  have vload : ∀ k, over cb.s cb.part k cb.s.velo = over b.s part.get k b.s.velo := fun k => ovr k b.s.velo cb.s.velo (fun c hc => by rw [R.s]; exact K.merged.velo c hc)
  have hparts : Parts b.s part.get := fun v hv => by rw [q3 v hv]; exact hq _ (K.inside v hv)
  have fron2 : Enum fron n (fun v => b.s.Vertex v ∧ part.get v = 2) := by
    refine i4.congr ?_
    intro v
    constructor
    · rintro ⟨a1, a2, a3⟩; exact ⟨a1, by rw [q3 v a1]; exact a3⟩
    · rintro ⟨a1, a2⟩; exact ⟨a1, (K.inside v a1).2, by rw [← q3 v a1]; exact a2⟩
  have size2 := enum_size hE fron2
  have size1 : size = over b.s part.get 1 (fun _ => 1) := by
    have e1 := V.size1
    rw [R.s] at e1
    have e3 := ovr 1 (fun _ => 1) (fun c => sumI b.s.baseval b.s.vertnnd (fun v => if r.coar.get v = c then (fun _ => 1) v else 0)) (fun _ _ => rfl)
    rw [i5, e1, ← e3, R.s]
    unfold over
    rw [← sumI_add_dist]
    apply sumI_congr
    intro c c1 c2
    have hps := K.pair_sum P ⟨c1, c2⟩ (fun _ => 1)
    dsimp only at hps ⊢
    rw [hps]
    by_cases h1 : cb.part c = 1
    · by_cases h2 : (r.mult.get c).1 ≠ (r.mult.get c).2
      · rw [if_pos h1, if_pos h1, if_pos ⟨h2, h1⟩, if_pos h2]
      · rw [if_pos h1, if_pos h1, if_neg (fun h => h2 h.1), if_neg h2]
    · rw [if_neg h1, if_neg h1, if_neg (fun h => h1 h.2)]; rfl
  have tot := over_total hparts (fun _ => 1)
  rw [size_total hE] at tot
  refine ⟨⟨⟨hparts, ?_, ?_, size1, size2, ?_, ?_, ?_, ?_⟩, fron2⟩, ⟨rfl, ⟨i1.1, i1.2, i2.1, i2.2⟩, ⟨rfl, rfl⟩⟩, q3, rfl, rfl, rfl⟩
  · refine sep_adj.2 ?_
    intro v w hv haw
    change b.s.Adj v w at haw
    have hw := (hE.adj_vertex hv haw).1
    have hs := sep_adj.1 V.sep
    rw [R.s] at hs
    change ¬ (part.get v = 0 ∧ part.get w = 1) ∧ ¬ (part.get v = 1 ∧ part.get w = 0)
    rw [q3 v hv, q3 w hw]
    by_cases he : r.coar.get w = r.coar.get v
    · rw [he]; constructor <;> (rintro ⟨h1, h2⟩; omega)
    · exact hs _ _ (K.inside v hv) ((K.adj_coarse (K.inside v hv)).2 ⟨he, v, w, hv, rfl, haw, rfl⟩)
  · change b.s.vertnbr - n - size = over b.s part.get 0 (fun _ => 1)
    omega
  · change cb.compload0 = _
    rw [V.load0, vload]; rfl
  · change cb.compload1 = _
    rw [V.load1, vload]; rfl
  · change cb.compload2 = _
    rw [V.load2, vload]; rfl
  · change cb.comploaddlt = cb.compload0 * b.dwgt1 - cb.compload1 * b.dwgt0
    rw [V.delta, R.dwgt.1, R.dwgt.2]

/-- A level of the multilevel method: contraction, separation of the coarse graph, refinement. -/
structure PreReady (b : Vgraph) : Prop where
  cons : b.s.Consistent
  alloc : Alloc b
  base : 0 ≤ b.s.baseval
  size : 1 ≤ b.s.vertnbr
  dwgt : 0 ≤ b.dwgt0 ∧ b.dwgt0 + b.dwgt1 ≠ 0

theorem Ready.pre {b : Vgraph} (R : Ready b) : PreReady b := ⟨R.cons, R.alloc, R.base, R.size, R.dwgt⟩

theorem PreReady.ready {b c : Vgraph} (R : PreReady b) (h : SameProblem b c) (V : Valid c) : Ready c :=
  ⟨by rw [h.s]; exact R.cons, h.alloc R.alloc, V, by rw [h.s]; exact R.base, by rw [h.s]; exact R.size, by rw [h.dwgt.1, h.dwgt.2]; exact R.dwgt⟩

theorem separateMl2_meets {cls : Graph → Prop} {tot sure : Bool} {env : SEnv} (he : env.Ok cls) {asc low : SMethod} (ha : ∀ p, SepMethod cls tot sure (asc p)) (hl : ∀ p, SepMethod cls tot sure (low p)) :
    ∀ (n : Nat) (p : Path) (b : Vgraph), PreReady b → cls b.s → b.s.vertnbr < n →
      Meets tot (separateMl2 env asc low n p b) (fun r => SameProblem b r.2 ∧ (sure = true → r.1 = 0) ∧ (r.1 = 0 → Valid r.2)) := by
  intro n
  induction n with
  | zero => intro p b R _ h; have := R.size; simp at h; omega
  | succ n ih =>
    intro p b R hcls hn
    rw [separateMl2, Meets_bind]
    refine (Meets.of_holds (he.coarsen p b.s R.cons R.alloc.graph R.base hcls)).mono ?_
    rintro o ⟨hsh, hco⟩
    cases o with
    | none =>
      dsimp only
      rw [Meets_bind]
      refine (Meets.of_holds (zero_holds (consE_iff.2 R.cons) R.alloc)).mono ?_
      rintro b1 ⟨S1, V1, -⟩
      refine (hl (5 :: p) b1 (R.ready S1 V1) (by rw [S1.s]; exact hcls)).mono ?_
      rintro r ⟨k1, k2, k3⟩
      exact ⟨S1.trans k1, k2, k3⟩
    | some r =>
      obtain ⟨mate, P, K, hlt⟩ := hsh r rfl
      dsimp only
      have hnn := K.consistent.vertnnd
      have hfr := R.alloc.fron
      rw [Meets_bind]
      have hRc : PreReady (mlCoarsen env p b r) := by
        refine ⟨K.consistent, ⟨K.allocated, ⟨Int.le_refl _, Int.le_of_eq hnn⟩, ?_⟩, ?_, ?_, R.dwgt⟩
        · refine ⟨hfr.1, ?_⟩
          change r.graph.vertnbr ≤ b.frontab.hi
          omega
        · change 0 ≤ r.graph.baseval
          rw [K.merged.baseval]; exact R.base
        · have := K.size_pos R.cons (by have := R.size; omega)
          change 1 ≤ r.graph.vertnbr
          omega
      have hn' : r.graph.vertnbr < n := by push_cast at hn; omega
      refine (ih (3 :: p) (mlCoarsen env p b r) hRc (hco r rfl) hn').mono ?_
      rintro ⟨o, cb⟩ ⟨S1, k2, k3⟩
      dsimp only at S1 k2 k3 ⊢
      unfold mlUp
      by_cases ho : o = 0
      · rw [if_pos ho, Meets_bind]
        have Rel : MlRel b r cb := by
          refine ⟨S1.s, ?_, ⟨S1.bounds.2.2.1, S1.bounds.2.2.2⟩, S1.dwgt⟩
          have := S1.bounds.1; have := S1.bounds.2.1
          rw [S1.s]
          change cb.parttax.lo ≤ r.graph.baseval ∧ r.graph.vertnnd ≤ cb.parttax.hi
          rw [S1.bounds.1, S1.bounds.2.1]
          exact ⟨Int.le_refl _, Int.le_of_eq hnn⟩
        refine (Meets.of_holds (mlUncoarsen_holds R.cons P K R.alloc Rel (k3 ho))).mono ?_
        rintro b1 ⟨V1, S2, -⟩
        refine (ha (4 :: p) b1 (R.ready S2 V1) (by rw [S2.s]; exact hcls)).mono ?_
        rintro x ⟨m1, m2, m3⟩
        exact ⟨S2.trans m1, m2, m3⟩
      · rw [if_neg ho, Meets_pure]
        exact ⟨⟨rfl, ⟨rfl, rfl, S1.bounds.2.2.1, S1.bounds.2.2.2⟩, ⟨rfl, rfl⟩⟩, k2, fun h => absurd h ho⟩

end Scotch.Separ
