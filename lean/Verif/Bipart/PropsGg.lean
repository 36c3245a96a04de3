import Verif.Bipart.LemmasGg2
import Verif.Bipart.PropsFm

/-!
# C28 — greedy graph growing

Part 1 grows from a random vertex, by the vertex that changes the communication load most favourably, until the parts are balanced. The best of several passes is kept. What the gain table returns, the random draws and the values of
`abs` are arbitrary: `GgOracle.Ok`, in `Verif.Bipart.LemmasGg`, only asks that draws are in range.

The property does not hold when no pass is asked for (`C28_gg_pass_wrong`), nor on graphs without vertices (`C28_gg_empty_wrong`).
-/

set_option autoImplicit false

namespace Scotch.Bipart

/-! ## Theorems -/

/-- When at least one pass is done on a graph that has vertices, greedy graph growing ends without fault and gives a valid bipartition. -/
theorem C28_gg_partial (b : Bgraph) (C : b.s.Consistent) (A : Alloc b) (hn : 0 < b.s.vertnbr) (hg : b.commgainextn0 = sumI b.s.baseval b.s.vertnnd b.veex) (junk : Int → Int)
    (o : Int → GgOracle) (ho : ∀ i, (o i).Ok b.s) (passnbr : Int) (hp : 0 < passnbr) : Holds (bipartGg junk o passnbr b) (fun b' => Valid b' ∧ SameProblem b b') :=
  bipartGg_holds (Graph.consE_iff.2 C) A hn hg junk ho hp

/-- Fiduccia-Mattheyses refinement, which calls greedy graph growing with four passes when there is no frontier (bgraph_bipart_fm.c:300–316), ends without fault and gives a valid bipartition of the same problem, which is not worse when
the imbalance that was given is in the range that is asked for. -/
theorem C28_fm_gg (b : Bgraph) (C : b.s.Consistent) (A : Alloc b) (V : Valid b) (hn : 0 < b.s.vertnbr) (hb : 0 ≤ b.s.baseval) (hd : 0 ≤ b.domndist)
    (hg : b.commgainextn0 = sumI b.s.baseval b.s.vertnnd b.veex) (junk : Int → FmSave) (order : Nat → Arr FmSlot → List (Int × Int)) (hor : OrderOk order) (ggJunk : Int → Int) (o : Int → GgOracle)
    (ho : ∀ i, (o i).Ok b.s) (para : FmParam) (hm : 0 ≤ para.movenbr) (dltmat : Int) :
    ∃ n, ∀ fuel, n ≤ fuel → Holds (bipartFm junk (fmTablGet order) (bipartGg ggJunk o 4) para dltmat fuel b) (fun b' => Valid b' ∧ SameProblem b b' ∧
      (imbMin b dltmat ≤ b.compload0dlt → b.compload0dlt ≤ imbMax b dltmat → NotWorse b b')) := by
  obtain ⟨n, h⟩ := C28_fm_partial b C A V hb hd junk _ (C28_fm_pick order hor) (bipartGg ggJunk o 4) (C28_gg_partial b C A hn hg ggJunk o ho 4 (by decide)) para hm dltmat
  refine ⟨n, fun fuel hf => (h fuel hf).mono ?_⟩
  rintro b' ⟨h1, h2, h3, -⟩
  exact ⟨h1, h2, fun a c => (h3 a c).1⟩

/-! ## Cases -/

/-- The permutation is the identity; the root of each pass is the last vertex. -/
def exO : Int → GgOracle := fun _ => ⟨fun _ => 0, 3, Arr.ofList 0 [1, 2, 3, 4], fun x => |x|⟩

theorem exO_ok : ∀ i, (exO i).Ok exB.s := by
  intro i
  show (exO 0).Ok exB.s
  refine ⟨by decide, by decide, ?_⟩
  intro k h1 h2
  change k < 4 at h2
  rcases (by omega : k = 0 ∨ k = 1 ∨ k = 2 ∨ k = 3) with rfl | rfl | rfl | rfl <;> decide

example : exB.s.Consistent ∧ Alloc exB ∧ Valid exB ∧ 0 < exB.s.vertnbr ∧ 0 ≤ exB.s.baseval ∧ 0 ≤ exB.domndist ∧ exB.commgainextn0 = sumI exB.s.baseval exB.s.vertnnd exB.veex ∧ OrderOk exOrder ∧
    ∀ i, (exO i).Ok exB.s :=
  ⟨exG_cons, exB_alloc, exB_valid, by decide, by decide, by decide, by decide +kernel, exOrder_ok, exO_ok⟩

example : (bipartGg (fun _ => 0) exO 4 exB).map show' = .ok [0, 0, 1, 1, 2, 3, 0, 2, 26, -5] := by decide +kernel

/-! ## Disagreements -/

/-- Without any pass, the parts are kept, but the frontier is computed as if they were marked, and is empty (bgraph_bipart_gg.c:203, 307–337). -/
theorem C28_gg_pass_wrong : ∃ b : Bgraph, b.s.Consistent ∧ Alloc b ∧ Valid b ∧ ∃ b', bipartGg (fun _ => 0) exO 0 b = .ok b' ∧ ¬ Valid b' := by
  refine ⟨exB, exG_cons, exB_alloc, exB_valid, ?_⟩
  have h : (bipartGg (fun _ => 0) exO 0 exB).map (fun b' => (show' b', decide (b'.s.vertnbr = 4))) = .ok ([0, 1, 1, 0, 0, 5, 2, 2, 32, 7], true) := by decide +kernel
  have hs : (bipartGg (fun _ => 0) exO 0 exB).map (fun b' => b'.fronnbr) = .ok 0 := by decide +kernel
  have hk : (bipartGg (fun _ => 0) exO 0 exB).map (fun b' => decide (b'.s.nbrs 1 = [(2, 5)] ∧ b'.part 1 = 0 ∧ b'.part 2 = 1 ∧ b'.s.baseval = 1 ∧ b'.s.vertnnd = 5)) = .ok true := by decide +kernel
  clear h
  generalize bipartGg (fun _ => 0) exO 0 exB = x at hs hk
  cases x with
  | error e => cases hs
  | ok b' =>
    refine ⟨b', rfl, ?_⟩
    have hs' : b'.fronnbr = 0 := by injection hs
    have hk' : decide (b'.s.nbrs 1 = [(2, 5)] ∧ b'.part 1 = 0 ∧ b'.part 2 = 1 ∧ b'.s.baseval = 1 ∧ b'.s.vertnnd = 5) = true := by injection hk
    obtain ⟨k1, k2, k3, k4, k5⟩ := of_decide_eq_true hk'
    intro V
    have hf : Frontier b'.s b'.part 1 := by
      refine ⟨⟨by omega, by omega⟩, (2, 5), by rw [k1]; exact List.mem_singleton.2 rfl, ?_⟩
      change b'.part 2 ≠ b'.part 1
      rw [k2, k3]; decide
    obtain ⟨i, i1, i2, -⟩ := (V.fron.2.2 1).1 hf
    omega

/-- A graph without vertices. -/
def exE : Bgraph :=
  { exF with
    s := { exF.s with vertnbr := 0, vertnnd := 0, verttax := Arr.ofList 0 [0], velosum := 0 }, parttax := Arr.ofList 0 [], frontab := Arr.ofList 0 [], compload0 := 0, compload0dlt := 0, compsize0 := 0,
    vfixload0 := 0 }

/-- On a graph without vertices, the draw of the root divides by zero (bgraph_bipart_gg.c:215, common_integer.c). -/
theorem C28_gg_empty_wrong : ∃ b : Bgraph, b.s.Consistent ∧ Alloc b ∧ Valid b ∧ ∀ junk o, bipartGg junk o 1 b = .error .divZero := by
  have hcs : exE.s.Consistent := Graph.consB_sound (by decide +kernel)
  have A : Alloc exE := ⟨Graph.allocB_sound (by decide +kernel), by decide, by decide, fun a h => by cases h⟩
  refine ⟨exE, hcs, A, ?_, fun junk o => by rfl⟩
  have h := C28_check exAvg exE hcs A ?_
  · exact ((Holds.elim h (a := true) (by decide +kernel)).1 rfl).1
  · rintro v ⟨h1, h2⟩
    change 0 ≤ v at h1
    change v < 0 at h2
    omega

end Scotch.Bipart
