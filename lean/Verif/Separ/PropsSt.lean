import Verif.Separ.LemmasSel
import Verif.Separ.Props
import Verif.Separ.PropsFm
import Verif.Bipart.PropsSt

/-! # C29: separation strategies -/

set_option autoImplicit false

namespace Scotch.Separ
open Graph

/-- Whatever the strategy, made of the modelled methods and of methods that are known to be right, the separation that is obtained when no error is reported is valid, and the graph is not changed.

The class of graphs must contain the graph and the coarse graphs of the multilevel methods; it gives the conditions under which the methods that are used are right: see `Fine` for refinement, and `C28_coarsen` for coarsening. If `tot`, the strategy
always ends: it may not use refinement, which may run forever on separations that are not balanced (see `C29_fm`). -/
theorem C29_strategy (cls : Graph → Prop) (tot : Bool) (env : SEnv) (he : env.Ok cls) (fuel : Nat) (sure : Bool) (s : SStrat) (hg : SGood cls tot sure s) (p : Path) : SepMethod cls tot sure (separateSt env fuel s p) :=
  separateSt_meets he fuel s hg p

/-- A selection always succeeds, and its separator is not heavier than those of the two strategies; if one of them fails, it is not heavier than the initial one. The second strategy starts from the same parts as the first one. -/
theorem C29_select (cls : Graph → Prop) (tot : Bool) (env : SEnv) (he : env.Ok cls) (fuel : Nat) (s t : SStrat) (gs : SGood cls tot false s) (gt : SGood cls tot false t) (p : Path) (b : Vgraph) (R : Ready b) (hcls : cls b.s) :
    Meets tot (separateSt env fuel (.select s t) p b) (fun r => r.1 = 0 ∧ ∃ r1 b2 r2, separateSt env fuel s (1 :: p) b = .ok r1 ∧ SameProblem b b2 ∧ Valid b2 ∧ (∀ v, b.s.Vertex v → b2.part v = b.part v) ∧
      separateSt env fuel t (2 :: p) b2 = .ok r2 ∧ (r1.1 = 0 → r.2.compload2 ≤ r1.2.compload2) ∧ (r2.1 = 0 → r.2.compload2 ≤ r2.2.compload2) ∧ (r1.1 ≠ 0 ∨ r2.1 ≠ 0 → r.2.compload2 ≤ b.compload2)) :=
  select_meets he fuel gs gt p R hcls

/-- Multilevel: a valid separation of a contracted graph gives a valid separation of the graph, where the vertices of a pair are in the part of the pair; the loads of the parts and of the separator are the same. -/
theorem C29_ml_level (b cb : Vgraph) (C : b.s.Consistent) (A : Alloc b) (mate : Int → Int) (r : Coarsen.Result) (P : Coarsen.Pairing b.s mate) (K : Coarsen.Contracted b.s mate r) (hs : cb.s = r.graph)
    (hp : cb.parttax.lo ≤ cb.s.baseval ∧ cb.s.vertnnd ≤ cb.parttax.hi) (hf : cb.frontab.lo = b.frontab.lo ∧ cb.frontab.hi = b.frontab.hi) (hd : cb.dwgt0 = b.dwgt0 ∧ cb.dwgt1 = b.dwgt1) (V : Valid cb) :
    Holds (mlUncoarsen b cb r.mult) (fun b' => Valid b' ∧ SameProblem b b' ∧ (∀ v, b.s.Vertex v → b'.part v = cb.part (r.coar.get v)) ∧
      b'.compload0 = cb.compload0 ∧ b'.compload1 = cb.compload1 ∧ b'.compload2 = cb.compload2) :=
  mlUncoarsen_holds C P K A ⟨hs, hp, hf, hd⟩ V

/-- Multilevel: whatever the coarsenings, which may stop at any level, the separation is valid if no error is reported by the strategies that are used on the coarsest graph and at each level. -/
theorem C29_ml (cls : Graph → Prop) (tot sure : Bool) (env : SEnv) (he : env.Ok cls) (asc low : SMethod) (ha : ∀ p, SepMethod cls tot sure (asc p)) (hl : ∀ p, SepMethod cls tot sure (low p)) (p : Path) :
    SepMethod cls tot sure (fun b => separateMl2 env asc low (b.s.vertnbr.toNat + 1) p b) := by
  intro b R hcls
  have := R.size
  exact separateMl2_meets he ha hl _ p b R.pre hcls (by push_cast; omega)

/-- Band: whatever the width, a separation that is refined on the graph of the vertices that are close to the separator, where two anchor vertices stand for the other vertices of each part, is valid when it is brought back, if the strategies that are
used on the band graph and on the graph are right. The graph on which the first strategy is run is not larger than the graph. -/
theorem C29_band (cls cls' : Graph → Prop) (tot sure : Bool) (bnd org : Vgraph → M (Int × Vgraph)) (hb : SepMethod cls' tot sure bnd) (ho : SepMethod cls tot sure org) (hc : ∀ g g', cls g → Narrower g g' → cls' g') (junk : BdJunk) (distmax : Int) :
    SepMethod cls tot sure (separateBd junk bnd org distmax) :=
  separateBd_meets hb ho hc junk distmax

/-- Diffusion: whatever the floating-point operations, the parameters and the initial separation, the separation that is obtained is valid, if the graph has at least two vertices. -/
theorem C29_df (b : Vgraph) (C : b.s.Consistent) (A : Alloc b) (h2 : 2 ≤ b.s.vertnbr) (env : SdEnv) (para : SdParam) : Holds (separateDf env para b) (fun b' => SameProblem b b' ∧ Valid b') :=
  separateDf_holds (Graph.consE_iff.2 C) A h2 env para

/-- Contraction keeps loads positive. -/
theorem C29_coarse_velo (g : Graph) (mate : Int → Int) (r : Coarsen.Result) (P : Coarsen.Pairing g mate) (K : Coarsen.Contracted g mate r) (h : ∀ v, g.Vertex v → 0 < g.velo v) :
    ∀ c, r.graph.Vertex c → 0 < r.graph.velo c := by
  intro c hc
  rw [K.merged.velo c hc, K.pair_sum P hc]
  obtain ⟨a1, -, a3, -⟩ := K.mult c hc
  have h1 := h _ a1
  have h2 := h _ (P.inside _ a1)
  rw [← a3] at h2
  split <;> omega

/-! ## Cases -/

/-- Graphs with positive loads, and vertex numbers below 100. -/
def exCls (g : Graph) : Prop := g.vertnnd ≤ 100 ∧ (0 ≤ g.baseval ∧ g.vertnnd = g.baseval + g.vertnbr) ∧ ∀ v, g.Vertex v → 0 < g.velo v

theorem exCls_fine (g : Graph) (h : exCls g) : Fine g := by
  refine ⟨h.2.2, fun k hk => ?_⟩
  have h1 : (1 : Int) ≤ 2 ^ k := one_le_pow₀ (by decide)
  have := h.1
  have := h.2.1
  omega

/-- Memory filled with 7. -/
def exCJ : Coarsen.Junk := ⟨fun _ => 7, fun _ => 7, fun _ => 7, fun _ => 7, fun _ => 7, fun _ => (7, 7)⟩

/-- Diffusion of numbers with three decimal places, half of which goes to the neighbours. -/
def exSd : SdEnv := ⟨Bipart.exFlo, (500 : Int), (500 : Int), fun _ => (7 : Int), fun _ => (7 : Int), fun _ => (7 : Int)⟩

/-- Legal draws. Graphs are coarsened while there are more than three vertices. -/
def exS : SEnv :=
  { junk := fun _ _ => 7, store := fun _ => ⟨0, 0, 0, 0, 0, Arr.ofList 0 [], Arr.ofList 0 []⟩,
    gg := fun _ b _ => ⟨fun _ => 0, 0, ⟨0, b.s.vertnbr, fun i => b.s.vertnnd - 1 - i⟩, fun x => x.natAbs⟩, absI := fun x => x.natAbs,
    fmJunk := fun _ => exEnv.junk, order := fun _ => exOrder, mat := fun _ _ => 1, coarsen := fun _ g => Coarsen.coarsen 1000000 8 (fun _ => (7, 7)) exCJ ⟨g, false, none, none, false⟩ 3 g.vertnbr, blank := fun _ => exB, df := fun _ => exSd }

theorem exS_ok : exS.Ok exCls := by
  refine ⟨?_, fun _ => exOrder_ok, ?_⟩
  · intro p b k h
    have h1 := h.size
    have h2 := h.cons.vertnnd
    refine ⟨⟨Int.le_refl 0, ?_⟩, ⟨Int.le_refl 0, Int.le_refl _⟩, ?_⟩
    · show (0 : Int) < b.s.vertnbr
      omega
    · intro i hi1 hi2
      show b.s.baseval ≤ b.s.vertnnd - 1 - i ∧ b.s.vertnnd - 1 - i < b.s.vertnnd
      omega
  · intro p g C A hb hc
    refine (Bipart.C28_coarsen 1000000 100 8 (by decide) (by decide) (fun _ => (7, 7)) exCJ false 3 g.vertnbr g C A hb hc.1 (Int.le_refl _)).mono ?_
    intro o ho
    refine ⟨ho, ?_⟩
    intro r hr
    obtain ⟨mate, P, K, hlt⟩ := ho r hr
    have h1 := K.consistent.vertnnd
    have h2 := K.merged.baseval
    obtain ⟨c1, c2, c3⟩ := hc
    exact ⟨by omega, ⟨by omega, h1⟩, C29_coarse_velo g mate r P K c3⟩

example : Ready exB ∧ exCls exB.s := ⟨⟨exG_cons, exB_alloc, exB_valid, by decide, by decide, by decide, by decide⟩, by decide, by decide, exB_fm.velo⟩

/-- Selection between two greedy growings, if the graph has several vertices. -/
def exSt : SStrat := .cond (fun _ b => some (decide (1 < b.s.vertnbr))) (.concat .zr (.select (.gp 2) (.gg 1))) .empty

example : SGood exCls true true exSt := ⟨fun _ _ _ => by simp, ⟨trivial, trivial, trivial⟩, trivial⟩
example : (separateSt exS 0 exSt [] exB).map (fun r => (r.1, show' r.2)) = .ok (0, [0, 2, 1, 1, 1, 1, 2, 2, 4, 1, 0]) := by decide +kernel

theorem exCls_band (g g' : Graph) (h : exCls g) (n : Narrower g g') : exCls g' := by
  obtain ⟨c1, ⟨c2, c3⟩, c4⟩ := h
  have := n.base
  have := n.size
  have := n.nnd
  exact ⟨by omega, ⟨by omega, by omega⟩, n.velo c4⟩

/-- Path of seven vertices; the one in the middle is heavy. -/
def exG7 : Graph :=
  { baseval := 0, vertnbr := 7, vertnnd := 7, verttax := Arr.ofList 0 [0, 1, 3, 5, 7, 9, 11, 12], vendtax := none, velotax := some (Arr.ofList 0 [4, 2, 1, 5, 1, 1, 1]), velosum := 15, vnumtax := none, vlbltax := none,
    edgenbr := 12, edgetax := Arr.ofList 0 [1, 0, 2, 1, 3, 2, 4, 3, 5, 4, 6, 5], edlotax := none, edlosum := 12, degrmax := 2 }

/-- The vertex in the middle is the separator. -/
def exB7 : Vgraph :=
  { s := exG7, parttax := Arr.ofList 0 [0, 0, 0, 2, 1, 1, 1], frontab := Arr.ofList 0 [3, 9, 9, 9, 9, 9, 9], fronnbr := 1, compsize0 := 3, compsize1 := 3, compload0 := 7, compload1 := 3, compload2 := 5,
    comploaddlt := 4, dwgt0 := 1, dwgt1 := 1 }

theorem exB7_ready : Ready exB7 := by
  have C : exG7.Consistent := Graph.consB_sound (by decide +kernel)
  have A : Alloc exB7 := ⟨Graph.allocB_sound (by decide +kernel), by decide, by decide⟩
  have hp : ∀ v, exG7.Vertex v → 0 ≤ exB7.part v := by
    rintro v ⟨h1, h2⟩
    change 0 ≤ v at h1
    change v < 7 at h2
    rcases (by omega : v = 0 ∨ v = 1 ∨ v = 2 ∨ v = 3 ∨ v = 4 ∨ v = 5 ∨ v = 6) with rfl | rfl | rfl | rfl | rfl | rfl | rfl <;> decide
  have h := C29_check_partial exB7 C A hp (fun i j i1 i2 j1 j2 _ => by change i < 1 at i2; change j < 1 at j2; omega)
  exact ⟨C, A, (Holds.elim h (by decide +kernel : check exB7 = .ok true)).1 rfl, by decide, by decide, by decide, by decide⟩

example : exCls exB7.s := by
  refine ⟨by decide, by decide, ?_⟩
  rintro v ⟨h1, h2⟩
  change 0 ≤ v at h1
  change v < 7 at h2
  rcases (by omega : v = 0 ∨ v = 1 ∨ v = 2 ∨ v = 3 ∨ v = 4 ∨ v = 5 ∨ v = 6) with rfl | rfl | rfl | rfl | rfl | rfl | rfl <;> decide

/-- Refinement of a band of width 1: the separator moves to a vertex of load 1, which is in the band. -/
def exSb : SStrat := .bd 1 (.fm ⟨10, 5⟩) (.gp 2)

example : SGood exCls false true exSb := ⟨⟨rfl, (by decide : (0 : Int) ≤ 10), exCls_fine⟩, trivial, exCls_band⟩
set_option maxRecDepth 100000 in
example : (separateSt exS 20 exSb [] exB7).map (fun r => (r.1, show' r.2)) = .ok (0, [0, 0, 2, 1, 1, 1, 1, 1, 2, 4, 6, 8, 1, -2]) := by decide +kernel

/-- Default strategy of nested dissection: multilevel, growing on the coarsest graph, and refinement of bands. -/
example : SGood exCls false true (.ml (.bd 3 (.fm ⟨200, 1000⟩) (.concat (.select .empty (.gg 10)) (.fm ⟨200, 1000⟩))) (.gg 10)) :=
  ⟨⟨⟨rfl, (by decide : (0 : Int) ≤ 200), exCls_fine⟩, ⟨⟨trivial, trivial⟩, rfl, (by decide : (0 : Int) ≤ 200), exCls_fine⟩, exCls_band⟩, trivial⟩

/-- Diffusion on bands, in a multilevel method. -/
example : SGood exCls false true (.ml (.bd 3 (.concat (.df ⟨1, 50, 0⟩) (.fm ⟨200, 1000⟩)) .empty) (.gg 10)) :=
  ⟨⟨⟨Or.inl rfl, rfl, (by decide : (0 : Int) ≤ 200), exCls_fine⟩, trivial, exCls_band⟩, trivial⟩

set_option maxRecDepth 100000 in
example : (separateSt exS 20 (.df ⟨1, 5, 0⟩) [] exB7).map (fun r => (r.1, show' r.2)) = .ok (0, [1, 2, 0, 0, 0, 0, 0, 1, 5, 1, 9, 4, 2, 5]) := by decide +kernel

/-- A single vertex, in part 0. -/
def exB1 : Vgraph :=
  { s := { baseval := 0, vertnbr := 1, vertnnd := 1, verttax := Arr.ofList 0 [0, 0], vendtax := none, velotax := none, velosum := 1, vnumtax := none, vlbltax := none, edgenbr := 0, edgetax := Arr.ofList 0 [], edlotax := none, edlosum := 0, degrmax := 0 },
    parttax := Arr.ofList 0 [0], frontab := Arr.ofList 0 [9], fronnbr := 0, compsize0 := 1, compsize1 := 0, compload0 := 1, compload1 := 0, compload2 := 0, comploaddlt := 1, dwgt0 := 1, dwgt1 := 1 }

/-- Diffusion accesses memory out of its arrays on a graph that has a single vertex (vgraph_separate_df.c:173). The size that is given to `memSet` just before (171) is negative, too. -/
theorem C29_df_wrong : ∃ b, Ready b ∧ separateDf exSd ⟨1, 5, 0⟩ b = .error .oob := by
  have C : exB1.s.Consistent := Graph.consB_sound (by decide +kernel)
  have A : Alloc exB1 := ⟨Graph.allocB_sound (by decide +kernel), by decide, by decide⟩
  have hp : ∀ v, exB1.s.Vertex v → 0 ≤ exB1.part v := by
    rintro v ⟨h1, h2⟩
    change 0 ≤ v at h1
    change v < 1 at h2
    obtain rfl : v = 0 := by omega
    decide
  have h := C29_check_partial exB1 C A hp (fun i j i1 i2 j1 j2 _ => by change i < 0 at i2; omega)
  exact ⟨exB1, ⟨C, A, (Holds.elim h (by decide +kernel : check exB1 = .ok true)).1 rfl, by decide, by decide, by decide, by decide⟩, by decide +kernel⟩

/-- Multilevel, with growing and refinement. The coarse graph has two vertices, one of which is the separator; on the fine graph, the load of the separator goes from 3 to 1. -/
def exSm : SStrat := .ml (.fm ⟨10, 5⟩) (.gp 2)

example : SGood exCls false true exSm := ⟨⟨rfl, (by decide : (0 : Int) ≤ 10), exCls_fine⟩, trivial⟩
set_option maxRecDepth 100000 in
example : (separateSt exS 20 exSm [] exB).map (fun r => (r.1, show' r.2)) = .ok (0, [0, 2, 1, 1, 1, 1, 2, 2, 4, 1, 0]) := by decide +kernel

end Scotch.Separ
