import Verif.Separ.ModelDf
import Verif.Separ.LemmasBasic
import Verif.Separ.LemmasEs9

/-! # Separation by diffusion: lemmas -/

set_option autoImplicit false
set_option linter.unusedSimpArgs false

namespace Scotch.Separ
open Graph
open Bipart (over)

variable {env : SdEnv} {b : Vgraph}

/-- Bounds of the arrays. -/
def SdArr {α : Type} (g : Graph) (a : Arr α) : Prop := a.lo = g.baseval ∧ a.hi = g.baseval + g.vertnbr

/-! ## Diffusion -/

theorem sdEdls_holds (hc : ConsE b.s) (ha : Alloc b) : Holds (sdEdls env b) (SdArr b.s) := by
  have hnn := hc.vertnnd
  have hn := hc.vertnbr
  unfold sdEdls
  refine Holds_forUp (fun _ a => SdArr b.s a) (by omega) ⟨rfl, rfl⟩ ?_ (fun _ h => h)
  rintro v a v1 v2 ⟨a1, a2⟩
  have hv : b.s.Vertex v := ⟨v1, v2⟩
  rw [Holds_bind]
  refine Holds_forArcs ha.graph hv (hc.range v hv).2 (fun _ _ => True) trivial ?_ ?_
  · intro e s e1 e2 _
    rw [rdEdlo_eq ha.graph hv e1 e2, ok_bind, Holds_pure]; trivial
  · intro s _
    rw [Arr.wr_ok _ _ (by omega) (by omega), Holds_ok]
    exact ⟨a1, a2⟩

theorem sdInit_holds (hc : ConsE b.s) (h2 : 2 ≤ b.s.vertnbr) {edls difo : Arr env.flo.F} (E : SdArr b.s edls) (D : SdArr b.s difo) (vanc : env.flo.F × env.flo.F) : Holds (sdInit env b edls vanc difo) (SdArr b.s) := by
  have hnn := hc.vertnnd
  obtain ⟨e1, e2⟩ := E
  unfold sdInit
  rw [Holds_bind]
  refine Holds_forUp (fun _ a => SdArr b.s a) (by omega) D ?_ ?_
  · rintro v a v1 v2 ⟨a1, a2⟩
    rw [Arr.wr_ok _ _ (by omega) (by omega), Holds_ok]
    exact ⟨a1, a2⟩
  · rintro a ⟨a1, a2⟩
    rw [Arr.rd_ok _ (by omega) (by omega), ok_bind, Arr.wr_ok _ _ (by omega) (by omega), ok_bind, Arr.rd_ok _ (by omega) (by omega), ok_bind,
      Arr.wr_ok _ _ (by dsimp only [Arr.set]; omega) (by dsimp only [Arr.set]; omega), Holds_ok]
    exact ⟨a1, a2⟩

theorem sdDiff_holds (hc : ConsE b.s) (ha : Alloc b) {v : Int} (hv : b.s.Vertex v) {edls difo : Arr env.flo.F} (E : SdArr b.s edls) (D : SdArr b.s difo) : Holds (sdDiff env b edls difo v) (fun _ => True) := by
  have hnn := hc.vertnnd
  obtain ⟨d1, d2⟩ := D
  obtain ⟨e1, e2⟩ := E
  obtain ⟨v1, v2⟩ := id hv
  unfold sdDiff
  dsimp only
  rw [Holds_bind]
  refine Holds_forArcs ha.graph hv (hc.range v hv).2 (fun _ _ => True) trivial ?_ ?_
  · intro e s e1 e2 _
    obtain ⟨w1, w2⟩ := (hc.inside v e hv e1 e2).1
    rw [Arr.rd_ok _ (by omega) (by omega), ok_bind]
    cases hx : b.s.edlotax with
    | none => trivial
    | some a =>
      have h := rdEdlo_eq ha.graph hv e1 e2
      unfold Graph.rdEdlo at h
      rw [hx] at h
      dsimp only at h ⊢
      rw [h, ok_bind, Holds_pure]; trivial
  · intro s _
    rw [rdVelo_eq ha.graph hv, ok_bind, Arr.rd_ok _ (by omega) (by omega), ok_bind, Arr.rd_ok _ (by omega) (by omega), ok_bind, Holds_pure]; trivial

theorem sdMoves_holds (hc : ConsE b.s) (ha : Alloc b) {edls : Arr env.flo.F} (E : SdArr b.s edls) (movenbr : Int) {s : Arr env.flo.F × Arr env.flo.F} (D : SdArr b.s s.1 ∧ SdArr b.s s.2) :
    Holds (sdMoves env b edls movenbr s) (fun s => SdArr b.s s.1 ∧ SdArr b.s s.2) := by
  have hnn := hc.vertnnd
  have hn := hc.vertnbr
  unfold sdMoves
  rw [Holds_bind]
  refine Holds_forUpB' (fun _ (s : Arr env.flo.F × Arr env.flo.F) => SdArr b.s s.1 ∧ SdArr b.s s.2) (fun s => SdArr b.s s.1 ∧ SdArr b.s s.2) D ?_ (fun _ h => h) (fun _ h => h)
  rintro k ⟨difo, difn⟩ - - ⟨D1, D2⟩
  dsimp only at D1 D2 ⊢
  rw [Holds_bind]
  refine Holds.mono (Q := fun o => Loop.Sat (SdArr b.s) (SdArr b.s) o) ?_ ?_
  · unfold sdMove
    refine Holds_forUpB (fun _ a => SdArr b.s a) (SdArr b.s) (by omega) D2 ?_ (fun _ h => h) (fun _ h => h)
    rintro v a v1 v2 ⟨a1, a2⟩
    obtain ⟨e1, e2⟩ := id E
    rw [Holds_bind]
    refine (sdDiff_holds hc ha ⟨v1, v2⟩ E D1).mono ?_
    intro d _
    rw [Holds_ite]
    refine ⟨fun _ => ⟨a1, a2⟩, fun _ => ?_⟩
    rw [Arr.rd_ok _ (by omega) (by omega), ok_bind, Arr.wr_ok _ _ (by omega) (by omega), ok_bind, Holds_pure]
    exact ⟨a1, a2⟩
  · intro o ho
    cases o with
    | next a => exact ⟨ho, D1⟩
    | brk a => exact ⟨D1, ho⟩

theorem sdParts_holds (hc : ConsE b.s) (ha : Alloc b) {difo : Arr env.flo.F} (D : SdArr b.s difo) :
    Holds (sdParts env b difo) (fun p => p.lo = b.parttax.lo ∧ p.hi = b.parttax.hi ∧ Bipart.Parts b.s p.get) := by
  have hnn := hc.vertnnd
  have hn := hc.vertnbr
  obtain ⟨p1, p2⟩ := ha.part
  obtain ⟨d1, d2⟩ := D
  unfold sdParts
  refine Holds_forUp (fun x (p : Arr Int) => p.lo = b.parttax.lo ∧ p.hi = b.parttax.hi ∧ ∀ v, b.s.baseval ≤ v → v < x → p.get v = 0 ∨ p.get v = 1) (by omega) ⟨rfl, rfl, fun v v1 v2 => by omega⟩ ?_ ?_
  · rintro x p x1 x2 ⟨j1, j2, j3⟩
    rw [Arr.rd_ok _ (by omega) (by omega), ok_bind, Arr.wr_ok _ _ (by omega) (by omega), Holds_ok]
    refine ⟨j1, j2, ?_⟩
    intro v v1 v2
    by_cases hv : v = x
    · subst hv
      rw [Arr.set_get_same]
      split <;> simp
    · rw [Arr.set_get_ne _ _ hv]
      exact j3 v v1 (by omega)
  · rintro p ⟨i1, i2, i3⟩
    exact ⟨i1, i2, fun v hv => i3 v hv.1 hv.2⟩

/-! ## Separator -/

/-- Vertices of the root part that are put in the separator. -/
def SdSep (g : Graph) (p : Int → Int) (r v : Int) : Prop := g.Vertex v ∧ p v = r ∧ ∃ w, g.Adj v w ∧ p w = 1 - r

open Classical in
/-- Parts after the separator has been set. -/
noncomputable def sdPart (g : Graph) (p : Int → Int) (r v : Int) : Int := if SdSep g p r v then 2 else p v

theorem sdNear_holds {g : Graph} (hE : ConsE g) (A : g.Allocated) {part : Arr Int} (hp : part.lo ≤ g.baseval ∧ g.vertnnd ≤ part.hi) {v : Int} (hv : g.Vertex v) (x : Int) :
    Holds (sdNear g part v x) (fun t => t = true ↔ ∃ w, g.Adj v w ∧ part.get w = x) := by
  unfold sdNear
  rw [rdVert_eq A hv, ok_bind, rdVend_eq A hv, ok_bind, Holds_bind]
  refine Holds_forUpB (fun e _ => ∀ e', g.vert v ≤ e' → e' < e → part.get (g.dest e') ≠ x) (fun _ => ∃ w, g.Adj v w ∧ part.get w = x) (hE.range v hv).2 ?_ ?_ ?_ ?_
  · intro e' h1 h2; omega
  · intro e _ h1 h2 ih
    have hd := (hE.inside v e hv h1 h2).1
    rw [rdEdge_eq A hv h1 h2, ok_bind, Arr.rd_ok part (Int.le_trans hp.1 hd.1) (Int.lt_of_lt_of_le hd.2 hp.2), ok_bind, Holds_ite]
    refine ⟨fun h => ?_, fun h => ?_⟩
    · rw [Holds_pure, Loop.Sat_brk]
      exact ⟨g.dest e, ⟨e, h1, h2, rfl⟩, h⟩
    · rw [Holds_pure, Loop.Sat_next]
      intro e' k1 k2
      by_cases he : e' = e
      · rw [he]; exact h
      · exact ih e' k1 (by omega)
  · intro _ h
    dsimp only
    rw [Holds_pure]
    constructor
    · intro h'; exact absurd h' Bool.false_ne_true
    · rintro ⟨w, ⟨e, e1, e2, rfl⟩, hw⟩
      exact absurd hw (h e e1 e2)
  · intro _ h
    dsimp only
    rw [Holds_pure]
    exact ⟨fun _ => h, fun _ => rfl⟩

open Classical in
/-- Loop on vertices: what is known before vertex `v`. -/
structure SdInv (b : Vgraph) (p : Int → Int) (lo hi : Int) (r v : Int) (s : SdState) : Prop where
  bnd : s.part.lo = lo ∧ s.part.hi = hi ∧ s.fron.lo = b.frontab.lo ∧ s.fron.hi = b.frontab.hi
  done : ∀ w, b.s.Vertex w → w < v → s.part.get w = sdPart b.s p r w
  todo : ∀ w, b.s.Vertex w → v ≤ w → s.part.get w = p w
  fron : Enum s.fron s.nbr (fun w => w < v ∧ SdSep b.s p r w)
  size1 : s.size1 = sumI b.s.baseval v p
  load1 : s.load1 = sumI b.s.baseval v (fun w => p w * b.s.velo w)
  load2 : s.load2 = sumI b.s.baseval v (fun w => if SdSep b.s p r w then b.s.velo w else 0)

theorem sdVert_holds (hc : ConsE b.s) (ha : Alloc b) {p : Int → Int} {lo hi : Int} (hb : lo ≤ b.s.baseval ∧ b.s.vertnnd ≤ hi) {r : Int} (hr : r = 0 ∨ r = 1) {v : Int} (hv : b.s.Vertex v) {s : SdState}
    (I : SdInv b p lo hi r v s) : Holds (sdVert b r v s) (SdInv b p lo hi r (v + 1)) := by
  classical
  obtain ⟨b1, b2, b3, b4⟩ := I.bnd
  obtain ⟨v1, v2⟩ := id hv
  obtain ⟨f1, f2⟩ := ha.fron
  have hnn := hc.vertnnd
  have ev := I.todo v hv (Int.le_refl v)
  unfold sdVert
  rw [Arr.rd_ok _ (by omega) (by omega), ok_bind, rdVelo_eq ha.graph hv, ok_bind, ev]
  dsimp only
  have S1 : s.size1 + p v = sumI b.s.baseval (v + 1) p := by rw [sumI_succ v1, I.size1]
  have L1 : s.load1 + p v * b.s.velo v = sumI b.s.baseval (v + 1) (fun w => p w * b.s.velo w) := by rw [sumI_succ v1, I.load1]
  have no : ¬ SdSep b.s p r v → SdInv b p lo hi r (v + 1) { s with size1 := s.size1 + p v, load1 := s.load1 + p v * b.s.velo v } := by
    intro hn
    refine ⟨⟨b1, b2, b3, b4⟩, ?_, ?_, ?_, S1, L1, ?_⟩
    · intro w hw hlt
      by_cases e : w = v
      · subst e
        rw [ev]; unfold sdPart; rw [if_neg hn]
      · exact I.done w hw (by omega)
    · intro w hw hle
      exact I.todo w hw (by omega)
    · refine I.fron.congr fun w => ⟨fun h => ⟨by omega, h.2⟩, fun h => ⟨?_, h.2⟩⟩
      by_contra hh
      have : w = v := by omega
      subst this
      exact hn h.2
    · rw [sumI_succ v1, if_neg hn, I.load2, Int.add_zero]
  by_cases hpr : p v = r
  · rw [if_pos hpr, Holds_bind]
    have ex : Bipart.xorP (p v) 1 = 1 - r := by
      rw [hpr]; rcases hr with rfl | rfl <;> decide
    rw [ex]
    refine (sdNear_holds hc ha.graph (part := s.part) ⟨by omega, by omega⟩ hv (1 - r)).mono ?_
    intro t ht
    have key : (∃ w, b.s.Adj v w ∧ s.part.get w = 1 - r) ↔ SdSep b.s p r v := by
      have same : ∀ w, b.s.Vertex w → (s.part.get w = 1 - r ↔ p w = 1 - r) := by
        intro w hw
        by_cases hlt : w < v
        · rw [I.done w hw hlt]
          unfold sdPart
          by_cases hs : SdSep b.s p r w
          · rw [if_pos hs, hs.2.1]; omega
          · rw [if_neg hs]
        · rw [I.todo w hw (by omega)]
      constructor
      · rintro ⟨w, a1, a2⟩
        exact ⟨hv, hpr, w, a1, (same w (hc.adj_vertex hv a1).1).1 a2⟩
      · rintro ⟨-, -, w, a1, a2⟩
        exact ⟨w, a1, (same w (hc.adj_vertex hv a1).1).2 a2⟩
    rw [key] at ht
    cases t with
    | true =>
      have hs := ht.1 rfl
      have hlt := I.fron.lt (lo := b.s.baseval) (hi := b.s.vertnnd) (x := v) (fun w hw => hw.2.1) (fun h => by omega) v1 v2
      have h0 := I.fron.1
      rw [if_pos rfl, Arr.wr_ok _ _ (by omega) (by omega), ok_bind, Arr.wr_ok _ _ (by omega) (by omega), ok_bind, Holds_pure]
      refine ⟨⟨b1, b2, b3, b4⟩, ?_, ?_, ?_, S1, L1, ?_⟩
      · intro w hw hlt
        dsimp only
        by_cases e : w = v
        · subst e
          rw [Arr.set_get_same]; unfold sdPart; rw [if_pos hs]
        · rw [Arr.set_get_ne _ _ e]
          exact I.done w hw (by omega)
      · intro w hw hle
        dsimp only
        rw [Arr.set_get_ne _ _ (by omega)]
        exact I.todo w hw (by omega)
      · refine (I.fron.push (x := v) (fun h => by omega)).congr fun w => ⟨?_, fun h => ?_⟩
        · rintro (h | rfl)
          · exact ⟨by omega, h.2⟩
          · exact ⟨by omega, hs⟩
        · by_cases e : w = v
          · exact Or.inr e
          · exact Or.inl ⟨by omega, h.2⟩
      · dsimp only
        rw [sumI_succ v1, if_pos hs, I.load2]
    | false =>
      rw [if_neg (by decide), Holds_pure]
      exact no (fun h => Bool.false_ne_true (ht.2 h))
  · rw [if_neg hpr, Holds_pure]
    exact no (fun h => hpr h.2.1)

theorem sdPassEnd_holds (hc : ConsE b.s) (ha : Alloc b) {r : Int} (hr : r = 0 ∨ r = 1) {part : Arr Int} (h1 : part.lo = b.parttax.lo) (h2 : part.hi = b.parttax.hi) (hp : Bipart.Parts b.s part.get) :
    Holds (sdPassEnd b r part) (fun b' => SameProblem b b' ∧ Valid b') := by
  classical
  have hnn := hc.vertnnd
  have hn := hc.vertnbr
  obtain ⟨p1, p2⟩ := ha.part
  unfold sdPassEnd
  rw [Holds_bind]
  refine Holds_forUp (fun v s => SdInv b part.get part.lo part.hi r v s) (by omega) ?_ (fun v s v1 v2 I => sdVert_holds hc ha ⟨by omega, by omega⟩ hr ⟨v1, v2⟩ I) ?_
  · refine ⟨⟨rfl, rfl, rfl, rfl⟩, fun w hw hlt => ?_, fun _ _ _ => rfl, ?_, ?_, ?_, ?_⟩
    · have := hw.1; omega
    · exact (Enum.empty _).congr (fun w => ⟨False.elim, fun h => by have := h.2.1.1; omega⟩)
    · rw [sumI_empty (Int.le_refl _)]
    · rw [sumI_empty (Int.le_refl _)]
    · rw [sumI_empty (Int.le_refl _)]
  · intro s I
    obtain ⟨b1, b2, b3, b4⟩ := I.bnd
    rw [Holds_pure]
    have hq : ∀ v, b.s.Vertex v → s.part.get v = sdPart b.s part.get r v := fun v hv => I.done v hv hv.2
    have T2 : ∀ f : Int → Int, over b.s s.part.get 2 f = sumI b.s.baseval b.s.vertnnd (fun v => if SdSep b.s part.get r v then f v else 0) := by
      intro f
      unfold over
      refine sumI_congr fun v v1 v2 => ?_
      have hv : b.s.Vertex v := ⟨v1, v2⟩
      rw [hq v hv]
      unfold sdPart
      by_cases hs : SdSep b.s part.get r v
      · rw [if_pos hs, if_pos hs, if_pos rfl]
      · rw [if_neg hs, if_neg hs, if_neg]
        rcases hp v hv with h | h <;> omega
    have Tk : ∀ (k : Int) (f : Int → Int), k = 0 ∨ k = 1 → over b.s s.part.get k f = over b.s part.get k f - (if k = r then over b.s s.part.get 2 f else 0) := by
      intro k f hk
      rw [T2]
      by_cases hkr : k = r
      · rw [if_pos hkr]
        unfold over
        rw [← sumI_sub_dist]
        refine sumI_congr fun v v1 v2 => ?_
        have hv : b.s.Vertex v := ⟨v1, v2⟩
        rw [hq v hv]
        unfold sdPart
        by_cases hs : SdSep b.s part.get r v
        · rw [if_pos hs, if_pos hs, if_neg (by omega), if_pos (by rw [hs.2.1, hkr])]; omega
        · rw [if_neg hs, if_neg hs]; omega
      · rw [if_neg hkr, Int.sub_zero]
        unfold over
        refine sumI_congr fun v v1 v2 => ?_
        have hv : b.s.Vertex v := ⟨v1, v2⟩
        rw [hq v hv]
        unfold sdPart
        by_cases hs : SdSep b.s part.get r v
        · rw [if_pos hs, if_neg (by omega), if_neg (by rw [hs.2.1]; exact fun h => hkr h.symm)]
        · rw [if_neg hs]
    have O1 : ∀ f : Int → Int, over b.s part.get 1 f = sumI b.s.baseval b.s.vertnnd (fun v => part.get v * f v) := fun f => Bipart.over_one hp f
    have A0 := Bipart.over_add hp b.s.velo
    have A1 := Bipart.over_add hp (fun _ => 1)
    rw [size_total hc] at A1
    rw [← hc.velosum] at A0
    have eL1 : s.load1 = over b.s part.get 1 b.s.velo := by rw [O1, I.load1]
    have eS1 : s.size1 = over b.s part.get 1 (fun _ => 1) := by
      rw [O1, I.size1]
      exact sumI_congr fun v _ _ => (Int.mul_one _).symm
    have eL2 : s.load2 = over b.s s.part.get 2 b.s.velo := by rw [T2, I.load2]
    have hF : Enum s.fron s.nbr (fun v => b.s.Vertex v ∧ s.part.get v = 2) := by
      refine I.fron.congr fun v => ⟨fun h => ⟨h.2.1, ?_⟩, fun h => ⟨h.1.2, ?_⟩⟩
      · rw [hq v h.2.1]; unfold sdPart; rw [if_pos h.2]
      · have := h.2
        rw [hq v h.1] at this
        unfold sdPart at this
        by_contra hs
        rw [if_neg hs] at this
        rcases hp v h.1 with h | h <;> omega
    have eN : s.nbr = over b.s s.part.get 2 (fun _ => 1) := (over_sep hc hF (fun _ h => h.1) (fun v hv => ⟨fun h => ⟨hv, h⟩, fun h => h.2⟩)).symm
    have k0 := Tk 0 b.s.velo (Or.inl rfl)
    have k1 := Tk 1 b.s.velo (Or.inr rfl)
    have j0 := Tk 0 (fun _ => 1) (Or.inl rfl)
    have j1 := Tk 1 (fun _ => 1) (Or.inr rfl)
    have hsep : ∀ v w, b.s.Vertex v → b.s.Adj v w → ¬ (s.part.get v = 0 ∧ s.part.get w = 1) := by
      rintro v w hv a1 ⟨e1, e2⟩
      have hw := (hc.adj_vertex hv a1).1
      rw [hq v hv] at e1
      rw [hq w hw] at e2
      unfold sdPart at e1 e2
      by_cases s1 : SdSep b.s part.get r v
      · rw [if_pos s1] at e1; omega
      by_cases s2 : SdSep b.s part.get r w
      · rw [if_pos s2] at e2; omega
      rw [if_neg s1] at e1
      rw [if_neg s2] at e2
      rcases hr with rfl | rfl
      · exact s1 ⟨hv, e1, w, a1, by rw [e2]; rfl⟩
      · exact s2 ⟨hw, e2, v, hc.adj_symm hv a1, by rw [e1]; rfl⟩
    refine ⟨⟨rfl, ⟨b1.trans h1, b2.trans h2, b3, b4⟩, ⟨rfl, rfl⟩⟩, ⟨⟨?_, ?_, ?_, ?_, eN, ?_, ?_, eL2, rfl⟩, hF⟩⟩
    · intro v hv
      change s.part.get v = 0 ∨ s.part.get v = 1 ∨ s.part.get v = 2
      rw [hq v hv]
      unfold sdPart
      by_cases hs : SdSep b.s part.get r v
      · rw [if_pos hs]; exact Or.inr (Or.inr rfl)
      · rw [if_neg hs]; rcases hp v hv with h | h
        · exact Or.inl h
        · exact Or.inr (Or.inl h)
    · intro v x hv hx
      have a1 : b.s.Adj v x.1 := (adj_iff v x.1).2 ⟨x, hx, rfl⟩
      refine ⟨hsep v x.1 hv a1, fun h => hsep x.1 v (hc.adj_vertex hv a1).1 (hc.adj_symm hv a1) ⟨h.2, h.1⟩⟩
    · change (if r = 0 then _ else _) = over b.s s.part.get 0 (fun _ => 1)
      rcases hr with rfl | rfl
      · rw [if_pos rfl]; rw [if_pos rfl] at j0; omega
      · rw [if_neg (by decide)]; rw [if_neg (by decide)] at j0; omega
    · change (if r = 0 then _ else _) = over b.s s.part.get 1 (fun _ => 1)
      rcases hr with rfl | rfl
      · rw [if_pos rfl]; rw [if_neg (by decide)] at j1; omega
      · rw [if_neg (by decide)]; rw [if_pos rfl] at j1; omega
    · change (if r = 0 then _ else _) = over b.s s.part.get 0 b.s.velo
      rcases hr with rfl | rfl
      · rw [if_pos rfl]; rw [if_pos rfl] at k0; omega
      · rw [if_neg (by decide)]; rw [if_neg (by decide)] at k0; omega
    · change (if r = 0 then _ else _) = over b.s s.part.get 1 b.s.velo
      rcases hr with rfl | rfl
      · rw [if_pos rfl]; rw [if_neg (by decide)] at k1; omega
      · rw [if_neg (by decide)]; rw [if_pos rfl] at k1; omega

theorem separateDf_holds (hc : ConsE b.s) (ha : Alloc b) (h2 : 2 ≤ b.s.vertnbr) (env : SdEnv) (para : SdParam) : Holds (separateDf env para b) (fun b' => SameProblem b b' ∧ Valid b') := by
  unfold separateDf
  rw [Holds_bind]
  refine (sdEdls_holds hc ha).mono ?_
  intro edls E
  dsimp only
  rw [Holds_bind]
  refine Holds_forUp (fun k (s : Vgraph × Arr env.flo.F × Arr env.flo.F) => SameProblem b s.1 ∧ (1 ≤ k → Valid s.1) ∧ SdArr b.s s.2.1 ∧ SdArr b.s s.2.2) (by omega) ⟨SameProblem.refl b, fun h => by omega, ⟨rfl, rfl⟩, ⟨rfl, rfl⟩⟩ ?_ ?_
  · rintro k ⟨c, difo, difn⟩ - - ⟨i1, -, i2, i3⟩
    dsimp only at i1 i2 i3
    have hc' : ConsE c.s := by rw [i1.s]; exact hc
    have ha' := i1.alloc ha
    rw [← i1.s] at i2 i3 E
    unfold sdPass
    dsimp only
    rw [Holds_bind]
    refine (sdInit_holds hc' (by rw [i1.s]; exact h2) E i2 _).mono ?_
    intro difo D
    rw [Holds_bind]
    refine (sdMoves_holds hc' ha' E para.movenbr (s := (difo, difn)) ⟨D, i3⟩).mono ?_
    rintro ⟨difo, difn⟩ ⟨D1, D2⟩
    dsimp only at D1 D2 ⊢
    rw [Holds_bind]
    refine (sdParts_holds hc' ha' D1).mono ?_
    rintro part ⟨p1, p2, p3⟩
    rw [Holds_bind]
    refine (sdPassEnd_holds hc' ha' (r := (para.partval + k) % 2) (by omega) p1 p2 p3).mono ?_
    rintro c' ⟨q1, q2⟩
    rw [Holds_pure]
    rw [i1.s] at D1 D2
    exact ⟨i1.trans q1, fun _ => q2, D1, D2⟩
  · rintro s ⟨i1, i2, -⟩
    rw [Holds_pure]
    exact ⟨i1, i2 (by omega)⟩

end Scotch.Separ
