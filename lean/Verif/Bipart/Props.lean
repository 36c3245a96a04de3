import Verif.Bipart.LemmasGpMain
import Verif.Bipart.LemmasCheck
import Verif.Graph.Decide

/-!
# C28 — the values recorded by a bipartition match its part array

`Valid b`, in `Verif.Bipart.Spec`, says that the recorded loads, sizes, communication load, external gain and frontier are the ones of the part array. `SameProblem b b'` says that nothing else has changed.

The property does not hold in full. When some vertices are fixed in other parts of the mapping, `bgraphZero` and `bgraphSwal` record wrong loads (`C28_zero_wrong`, `C28_swal_wrong`), and `bgraphBipartGp` may read
out of its arrays when the average load is negative (`C28_gp_wrong`). `bgraphBipartZr` may leave vertices in part 1 (`C28_zr_wrong`).
-/

set_option autoImplicit false

namespace Scotch.Bipart

/-! ## Theorems -/

/-- A new bipartition is valid, with all vertices in part 0. -/
theorem C28_init (avgOf : Int → Int → Int → Int) (junkPart junkFron : Int → Int) (g : Graph) (C : g.Consistent) (A : g.Allocated) (b : Bgraph) (d w0 w1 f0 f1 : Int) :
    Holds (init avgOf junkPart junkFron b g d w0 w1 f0 f1) (fun b' => Valid b' ∧ Alloc b' ∧ b'.s = { g with vlbltax := none } ∧
      b'.compload0avg = avgOf (g.velosum + f0 + f1) w0 w1 - f0 ∧ b'.domndist = d ∧ ∀ v, g.Vertex v → b'.part v = 0) := by
  refine (init_holds avgOf junkPart junkFron (Graph.consE_iff.2 C) A b d w0 w1 f0 f1).mono ?_
  rintro b' ⟨h1, h2, h3, h4, h5, _, _, _, _, _, h6⟩
  exact ⟨h1, h2, h3, h4, h5, h6⟩

/-- Whatever the state of the recorded values, computing them from scratch makes the bipartition valid, and keeps its parts. -/
theorem C28_cost (b : Bgraph) (C : b.s.Consistent) (A : Alloc b) (hp : ∀ v, b.s.Vertex v → b.part v = 0 ∨ b.part v = 1) :
    Holds (cost b) (fun b' => Valid b' ∧ SameProblem b b' ∧ b'.parttax = b.parttax) :=
  cost_valid (Graph.consE_iff.2 C) A hp

/-- The consistency check accepts exactly the valid bipartitions whose average load is the expected one. Parts, which are unsigned bytes, are never negative. -/
theorem C28_check (avgOf : Int → Int → Int → Int) (b : Bgraph) (C : b.s.Consistent) (A : Alloc b) (h0 : ∀ v, b.s.Vertex v → 0 ≤ b.part v) :
    Holds (check avgOf b) (fun r => r = true ↔ Valid b ∧
      b.compload0avg = avgOf (b.s.velosum + b.vfixload0 + b.vfixload1) b.domnwght0 b.domnwght1 - b.vfixload0) :=
  check_spec avgOf (Graph.consE_iff.2 C) A h0

/-- Saving a valid bipartition, then restoring it after any changes to the parts, the frontier and the recorded values, gives back a valid bipartition with the same parts and the same recorded values. -/
theorem C28_store (b : Bgraph) (C : b.s.Consistent) (A : Alloc b) (V : Valid b) (jf jp : Int → Int) (st : Store) :
    Holds (storeSave b (storeInit b jf jp st)) (fun st' => ∀ c, SameProblem b c →
      Holds (storeUpdt c st') (fun c' => Valid c' ∧ SameProblem b c' ∧ (∀ v, b.s.Vertex v → c'.part v = b.part v) ∧ c'.compload0 = b.compload0 ∧ c'.compsize0 = b.compsize0 ∧
        c'.commload = b.commload ∧ c'.commgainextn = b.commgainextn ∧ ∀ v, (∃ i, 0 ≤ i ∧ i < c'.fronnbr ∧ c'.frontab.get i = v) ↔ ∃ i, 0 ≤ i ∧ i < b.fronnbr ∧ b.frontab.get i = v)) := by
  have hc := Graph.consE_iff.2 C
  have hn := hc.vertnbr
  have hnn := hc.vertnnd
  refine (storeSave_holds hc A V (st := storeInit b jf jp st) (by unfold storeInit; dsimp only; omega) (by unfold storeInit; dsimp only; omega)).mono ?_
  intro st' hs c hsame
  refine (storeUpdt_holds hc A V hs hsame).mono ?_
  rintro c' ⟨h1, h2, h3⟩
  have es := h2.s
  have ex : c'.veex = b.veex := by funext v; unfold Bgraph.veex; rw [h2.veextax]
  have ov : ∀ k f, over c'.s c'.part k f = over b.s b.part k f := by
    intro k f; rw [es]; exact over_congr (g := b.s) k h3 (fun _ _ => rfl)
  refine ⟨h1, h2, h3, ?_, ?_, ?_, ?_, ?_⟩
  · rw [h1.load, V.load, ov, es]
  · rw [h1.size, V.size, ov]
  · rw [h1.comm, V.comm, ov, ex, es, h2.domn.1, h2.extn.1, cut_congr hc h3]
  · rw [h1.gain, V.gain, ov, ov, ex]
  · intro v
    rw [← h1.fron.2.2 v, ← V.fron.2.2 v, es, Frontier_congr hc h3]

/-- When no load is fixed in part 0 out of the graph, putting all vertices back in part 0 gives a valid bipartition. -/
theorem C28_zero_partial (b : Bgraph) (C : b.s.Consistent) (A : Alloc b) (hv : b.vfixload0 = 0) (hg : b.commgainextn0 = sumI b.s.baseval b.s.vertnnd b.veex) :
    Holds (zero b) (fun b' => Valid b' ∧ SameProblem b b' ∧ ∀ v, b.s.Vertex v → b'.part v = 0) :=
  zero_valid (Graph.consE_iff.2 C) A hv hg

/-- When no load is fixed out of the graph, swapping all vertices of a valid bipartition gives a valid bipartition. -/
theorem C28_swal_partial (b : Bgraph) (C : b.s.Consistent) (A : Alloc b) (V : Valid b) (hx : b.vfixload0 + b.vfixload1 = 0) :
    Holds (swal b) (fun b' => Valid b' ∧ SameProblem b b' ∧ ∀ v, b.s.Vertex v → b'.part v = 1 - b.part v) :=
  swal_valid (Graph.consE_iff.2 C) A V hx

/-- When all vertices have positive loads and no load is fixed in part 0 out of the graph, the method that puts all vertices in part 0 does so, and keeps the bipartition valid. -/
theorem C28_zr_partial (b : Bgraph) (C : b.s.Consistent) (A : Alloc b) (V : Valid b) (hv : b.vfixload0 = 0) (hg : b.commgainextn0 = sumI b.s.baseval b.s.vertnnd b.veex)
    (hp : ∀ v, b.s.Vertex v → 0 < b.s.velo v) : Holds (bipartZr b) (fun b' => Valid b' ∧ SameProblem b b' ∧ ∀ v, b.s.Vertex v → b'.part v = 0) := by
  have hc := Graph.consE_iff.2 C
  unfold bipartZr
  by_cases h : b.compload0 ≠ b.s.velosum
  · rw [if_pos h]; exact zero_valid hc A hv hg
  · rw [if_neg h, Holds_pure]
    refine ⟨V, SameProblem.refl b, ?_⟩
    intro v hx
    rcases V.parts v hx with a | a
    · exact a
    · exfalso
      have h1 := V.load
      have h2 := over_add (g := b.s) V.parts b.s.velo
      have h3 := hc.velosum
      have h4 : 0 < over b.s b.part 1 b.s.velo := over_pos hx a (fun w hw => Int.le_of_lt (hp w hw)) (hp v hx)
      omega

/-- Whatever the number of passes, the Gibbs-Poole-Stockmeyer method terminates without fault and gives a valid bipartition, if the average load is not negative. -/
theorem C28_gp_partial (b : Bgraph) (C : b.s.Consistent) (A : Alloc b) (V : Valid b) (hav : 0 ≤ b.compload0avg) (hg : b.commgainextn0 = sumI b.s.baseval b.s.vertnnd b.veex)
    (junk : Int → Int) (passnbr : Int) : Holds (bipartGp junk passnbr b) (fun b' => Valid b' ∧ SameProblem b b') :=
  bipartGp_holds (Graph.consE_iff.2 C) A hav hg V junk passnbr

/-! ## Cases -/

/-- Path 1 – 2 – 3 – 4 with vertex and edge loads. -/
def exG : Graph :=
  { baseval := 1, vertnbr := 4, vertnnd := 5, verttax := Arr.ofList 1 [1, 2, 4, 6, 7], vendtax := none, velotax := some (Arr.ofList 1 [2, 1, 1, 3]), velosum := 7, vnumtax := none, vlbltax := none,
    edgenbr := 6, edgetax := Arr.ofList 1 [2, 1, 3, 2, 4, 3], edlotax := some (Arr.ofList 1 [5, 5, 6, 6, 7, 7]), edlosum := 36, degrmax := 2 }

theorem exG_cons : exG.Consistent := Graph.consB_sound (by decide +kernel)
theorem exG_alloc : exG.Allocated := Graph.allocB_sound (by decide +kernel)

/-- Integer average. -/
def exAvg (s w0 w1 : Int) : Int := s * w0 / (w0 + w1)

/-- Parts 0, 1, 1, 0, with external gains. -/
def exB : Bgraph :=
  { s := exG, veextax := some (Arr.ofList 1 [1, -2, 0, 4]), parttax := Arr.ofList 1 [0, 1, 1, 0], frontab := Arr.ofList 0 [4, 1, 2, 3], fronnbr := 4, compload0min := 0, compload0max := 7,
    compload0avg := 3, compload0dlt := 2, compload0 := 5, compsize0 := 2, commload := 12 * 2 + 10 - 2, commloadextn0 := 10, commgainextn0 := 3, commgainextn := 7, domndist := 2, domnwght0 := 1,
    domnwght1 := 1, vfixload0 := 0, vfixload1 := 0 }

theorem exB_alloc : Alloc exB := by
  refine ⟨exG_alloc, by decide, by decide, ?_⟩
  intro a h
  cases h
  decide

theorem exB_parts : ∀ v, exG.Vertex v → exB.part v = 0 ∨ exB.part v = 1 := by
  rintro v ⟨h1, h2⟩
  change 1 ≤ v at h1
  change v < 5 at h2
  rcases (by omega : v = 1 ∨ v = 2 ∨ v = 3 ∨ v = 4) with rfl | rfl | rfl | rfl <;> decide

theorem exB_check : check exAvg exB = .ok true := by decide +kernel

theorem exB_valid : Valid exB := by
  have h := C28_check exAvg exB exG_cons exB_alloc (fun v hv => by rcases exB_parts v hv with a | a <;> rw [a] <;> decide)
  exact ((Holds.elim h exB_check).1 rfl).1

example : exB.s.Consistent ∧ Alloc exB ∧ Valid exB ∧ exB.vfixload0 = 0 ∧ exB.vfixload0 + exB.vfixload1 = 0 ∧ 0 ≤ exB.compload0avg ∧ exB.commgainextn0 = sumI exB.s.baseval exB.s.vertnnd exB.veex :=
  ⟨exG_cons, exB_alloc, exB_valid, rfl, rfl, by decide, by decide +kernel⟩

/-- What is shown of a bipartition. -/
def show' (b : Bgraph) : List Int :=
  b.parttax.toList ++ [b.fronnbr, b.compload0, b.compload0dlt, b.compsize0, b.commload, b.commgainextn]

example : (swal exB).map show' = .ok [1, 0, 0, 1, 4, 2, -1, 2, 39, -7] := by decide +kernel
example : (bipartGp (fun _ => 0) 3 exB).map show' = .ok [0, 0, 1, 1, 2, 3, 0, 2, 26, -5] := by decide +kernel

/-! ## Disagreements -/

/-- Two isolated vertices, and a load of 2 fixed in part 0 out of the graph. -/
def exF : Bgraph :=
  { s := { baseval := 0, vertnbr := 2, vertnnd := 2, verttax := Arr.ofList 0 [0, 0, 0], vendtax := none, velotax := none, velosum := 2, vnumtax := none, vlbltax := none, edgenbr := 0,
           edgetax := Arr.ofList 0 [], edlotax := none, edlosum := 0, degrmax := 0 },
    veextax := none, parttax := Arr.ofList 0 [0, 0], frontab := Arr.ofList 0 [0, 0], fronnbr := 0, compload0min := 0, compload0max := 2, compload0avg := 0, compload0dlt := 2, compload0 := 2,
    compsize0 := 2, commload := 0, commloadextn0 := 0, commgainextn0 := 0, commgainextn := 0, domndist := 1, domnwght0 := 1, domnwght1 := 1, vfixload0 := 2, vfixload1 := 0 }

theorem exF_cons : exF.s.Consistent := Graph.consB_sound (by decide +kernel)

theorem exF_alloc : Alloc exF := ⟨Graph.allocB_sound (by decide +kernel), by decide, by decide, fun a h => by cases h⟩

theorem exF_parts : ∀ v, exF.s.Vertex v → exF.part v = 0 := by
  rintro v ⟨h1, h2⟩
  change 0 ≤ v at h1
  change v < 2 at h2
  rcases (by omega : v = 0 ∨ v = 1) with rfl | rfl <;> decide

theorem exF_valid : Valid exF := by
  have h := C28_check exAvg exF exF_cons exF_alloc (fun v hv => by rw [exF_parts v hv])
  exact ((Holds.elim h (a := true) (by decide +kernel)).1 rfl).1

/-- `bgraphZero` adds the load that is fixed out of the graph to the load of part 0, unlike `bgraphInit2`, `bgraphCost` and `bgraphCheck`, which also removes it from the average. -/
theorem C28_zero_wrong : ∃ b : Bgraph, b.s.Consistent ∧ Alloc b ∧ Valid b ∧ ∃ b', zero b = .ok b' ∧ ¬ Valid b' := by
  refine ⟨exF, exF_cons, exF_alloc, exF_valid, ?_⟩
  have h := zero_holds (Graph.consE_iff.2 exF_cons) exF_alloc
  obtain ⟨b', e, hs, -, -, h4, -, -, -, -, h9⟩ := Holds_iff_exists.1 h
  refine ⟨b', e, ?_⟩
  intro V
  have h1 := V.load
  rw [h4, hs.s, over_congr (g := exF.s) (q := fun _ => 0) 0 h9 (fun _ _ => rfl)] at h1
  revert h1
  decide +kernel

/-- `bgraphSwal` does so too. -/
theorem C28_swal_wrong : ∃ b : Bgraph, b.s.Consistent ∧ Alloc b ∧ Valid b ∧ ∃ b', swal b = .ok b' ∧ ¬ Valid b' := by
  refine ⟨exF, exF_cons, exF_alloc, exF_valid, ?_⟩
  have h := swal_holds (Graph.consE_iff.2 exF_cons) exF_alloc exF_valid.parts
  obtain ⟨b', e, hs, -, -, h4, -, -, -, -, h9⟩ := Holds_iff_exists.1 h
  refine ⟨b', e, ?_⟩
  intro V
  have h1 := V.load
  rw [h4, hs.s, over_congr (g := exF.s) (q := fun _ => 1) 0 (fun v hv => by rw [h9 v hv, exF_parts v hv]; decide) (fun _ _ => rfl)] at h1
  revert h1
  decide +kernel

/-- Two neighbours, and a load of 6 fixed in part 0 out of the graph: the average is negative. -/
def exN : Bgraph :=
  { exF with
    s := { exF.s with verttax := Arr.ofList 0 [0, 1, 2], edgenbr := 2, edgetax := Arr.ofList 0 [1, 0], edlosum := 2, degrmax := 1 }, compload0avg := -2, compload0dlt := 4, vfixload0 := 6 }

/-- When the average load of part 0 is negative, `bgraphBipartGp` runs out of vertices while it searches for a root. -/
theorem C28_gp_wrong : ∃ b : Bgraph, b.s.Consistent ∧ Alloc b ∧ Valid b ∧ b.commgainextn0 = sumI b.s.baseval b.s.vertnnd b.veex ∧ ∀ junk, ∃ e, bipartGp junk 2 b = .error e := by
  have A : Alloc exN := ⟨Graph.allocB_sound (by decide +kernel), by decide, by decide, fun a h => by cases h⟩
  have hcs : exN.s.Consistent := Graph.consB_sound (by decide +kernel)
  refine ⟨exN, hcs, A, ?_, rfl, ?_⟩
  · have h := C28_check exAvg exN hcs A (fun v hv => by have := exF_parts v hv; change exN.part v = 0 at this; rw [this])
    exact ((Holds.elim h (a := true) (by decide +kernel)).1 rfl).1
  · intro junk
    exact ⟨.oob, by rfl⟩

/-- Two isolated vertices of loads 1 and 0. -/
def exZ : Bgraph :=
  { exF with
    s := { exF.s with velotax := some (Arr.ofList 0 [1, 0]), velosum := 1 }, parttax := Arr.ofList 0 [0, 1], compload0 := 1, compload0dlt := 1, compload0avg := 0, compsize0 := 1, vfixload0 := 0 }

/-- `bgraphBipartZr` compares loads, so that vertices without load stay in part 1. -/
theorem C28_zr_wrong : ∃ b : Bgraph, b.s.Consistent ∧ Alloc b ∧ Valid b ∧ b.vfixload0 = 0 ∧ ∃ b', bipartZr b = .ok b' ∧ ∃ v, b.s.Vertex v ∧ b'.part v = 1 := by
  have hcs : exZ.s.Consistent := Graph.consB_sound (by decide +kernel)
  have A : Alloc exZ := ⟨Graph.allocB_sound (by decide +kernel), by decide, by decide, fun a h => by cases h⟩
  refine ⟨exZ, hcs, A, ?_, rfl, exZ, by rfl, 1, by decide +kernel, by decide +kernel⟩
  have h := C28_check exAvg exZ hcs A ?_
  · exact ((Holds.elim h (a := true) (by decide +kernel)).1 rfl).1
  · rintro v ⟨h1, h2⟩
    change 0 ≤ v at h1
    change v < 2 at h2
    rcases (by omega : v = 0 ∨ v = 1) with rfl | rfl <;> decide

end Scotch.Bipart
