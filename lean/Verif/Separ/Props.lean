import Verif.Separ.LemmasGg
import Verif.Separ.LemmasCheck
import Verif.Graph.Decide

/-!
# C29 — vertex separators are kept consistent

`Valid b`, in `Verif.Separ.Spec`, says that no arc joins the two separated parts, that the frontier array lists the vertices of the separator, once each, and that recorded sizes and loads are the ones of the part array.
`SameProblem b b'` says that nothing else has changed.

The consistency check of the code is weaker: it accepts a frontier array with duplicates (`C29_check_dup`). Greedy growing divides by zero on an empty graph (`C29_gg_empty`), and both growing methods do if the two parts
have opposite weights (`C29_gp_weights`).
-/

set_option autoImplicit false

namespace Scotch.Separ

/-! ## Theorems -/

/-- Putting all vertices in part 0 gives a valid separation, whatever the state before. -/
theorem C29_zero (b : Vgraph) (C : b.s.Consistent) (A : Alloc b) : Holds (zero b) (fun b' => SameProblem b b' ∧ Valid b' ∧ ∀ v, b.s.Vertex v → b'.part v = 0) :=
  (zero_holds (Graph.consE_iff.2 C) A).mono fun _ h => ⟨h.1, h.2.1, h.2.2.1⟩

/-- The method that puts all vertices in part 0 does so, even if it does nothing when it finds that part 0 has all vertices already. -/
theorem C29_zr (b : Vgraph) (C : b.s.Consistent) (A : Alloc b) (V : Valid b) : Holds (separateZr b) (fun b' => SameProblem b b' ∧ Valid b' ∧ ∀ v, b.s.Vertex v → b'.part v = 0) :=
  zr_holds (Graph.consE_iff.2 C) A V

/-- The consistency check accepts exactly the separations whose recorded values are right and whose frontier array holds vertices of the separator only. Parts, which are unsigned bytes, are never negative. -/
theorem C29_check (b : Vgraph) (C : b.s.Consistent) (A : Alloc b) (h0 : ∀ v, b.s.Vertex v → 0 ≤ b.part v) :
    Holds (check b) (fun r => r = true ↔ Sound b ∧ ∀ i, 0 ≤ i → i < b.fronnbr → b.s.Vertex (b.frontab.get i) ∧ b.part (b.frontab.get i) = 2) :=
  check_spec (Graph.consE_iff.2 C) A h0

/-- The check accepts all valid separations and, among frontier arrays without duplicates, accepts only these. -/
theorem C29_check_partial (b : Vgraph) (C : b.s.Consistent) (A : Alloc b) (h0 : ∀ v, b.s.Vertex v → 0 ≤ b.part v)
    (hi : ∀ i j, 0 ≤ i → i < b.fronnbr → 0 ≤ j → j < b.fronnbr → b.frontab.get i = b.frontab.get j → i = j) : Holds (check b) (fun r => r = true ↔ Valid b) :=
  (check_spec (Graph.consE_iff.2 C) A h0).mono fun _ h => ⟨fun e => valid_of (Graph.consE_iff.2 C) (h.1 e).1 (h.1 e).2 hi, fun V => h.2 ⟨V.toSound, V.fronIn⟩⟩

/-- Saving a valid separation, then restoring it after any changes to the parts, the frontier and the recorded values, gives back a valid separation with the same parts and the same recorded values. -/
theorem C29_store (b : Vgraph) (C : b.s.Consistent) (A : Alloc b) (V : Valid b) (jf jp : Int → Int) (st : Store) :
    Holds (storeSave b (storeInit b jf jp st)) (fun st' => ∀ c, SameProblem b c →
      Holds (storeUpdt c st') (fun c' => Valid c' ∧ SameProblem b c' ∧ (∀ v, b.s.Vertex v → c'.part v = b.part v) ∧ c'.fronnbr = b.fronnbr ∧ c'.compsize0 = b.compsize0 ∧ c'.compsize1 = b.compsize1 ∧
        c'.compload0 = b.compload0 ∧ c'.compload1 = b.compload1 ∧ c'.compload2 = b.compload2 ∧ c'.comploaddlt = b.comploaddlt)) := by
  have hc := Graph.consE_iff.2 C
  have hn := hc.vertnbr
  have hnn := hc.vertnnd
  refine (storeSave_holds hc A V (st := storeInit b jf jp st) (by unfold storeInit; dsimp only; omega) (by unfold storeInit; dsimp only; omega)).mono ?_
  intro st' hs c hsame
  refine (storeUpdt_holds hc A V hs hsame).mono ?_
  rintro c' ⟨h1, h2, h3⟩
  have es := h2.s
  have ov : ∀ k f, Bipart.over c'.s c'.part k f = Bipart.over b.s b.part k f := by
    intro k f; rw [es]; exact Bipart.over_congr (g := b.s) k h3 (fun _ _ => rfl)
  have e0 : c'.compload0 = b.compload0 := by rw [h1.load0, V.load0, ov, es]
  have e1 : c'.compload1 = b.compload1 := by rw [h1.load1, V.load1, ov, es]
  refine ⟨h1, h2, h3, ?_, ?_, ?_, e0, e1, ?_, ?_⟩
  · rw [h1.size2, V.size2, ov]
  · rw [h1.size0, V.size0, ov]
  · rw [h1.size1, V.size1, ov]
  · rw [h1.load2, V.load2, ov, es]
  · rw [h1.delta, V.delta, e0, e1, h2.dwgt.1, h2.dwgt.2]

/-- Thinning terminates and keeps the separation valid. It only moves vertices out of the separator, and the separator that is left is minimal: each of its vertices has neighbours in both parts. -/
theorem C29_thin (b : Vgraph) (C : b.s.Consistent) (A : Alloc b) (V : Valid b) : Holds (separateTh b) (fun b' => SameProblem b b' ∧ Valid b' ∧
    (∀ v, b.s.Vertex v → b.part v ≠ 2 → b'.part v = b.part v) ∧
    ∀ v, b.s.Vertex v → b'.part v = 2 → (∃ p ∈ b.s.nbrs v, b'.part p.1 = 0) ∧ ∃ p ∈ b.s.nbrs v, b'.part p.1 = 1) := by
  refine (th_holds (Graph.consE_iff.2 C) A V).mono ?_
  rintro b' ⟨h1, h2, h3, h4⟩
  refine ⟨h1, h2, h3, ?_⟩
  intro v hv h
  obtain ⟨⟨w, k1, k2⟩, x, k3, k4⟩ := h4 v hv h
  obtain ⟨p, p1, p2⟩ := (Graph.adj_iff v w).1 k1
  obtain ⟨q, q1, q2⟩ := (Graph.adj_iff v x).1 k3
  exact ⟨⟨p, p1, by rw [p2]; exact k2⟩, q, q1, by rw [q2]; exact k4⟩

/-- Whatever the number of passes, the Gibbs-Poole-Stockmeyer method terminates without fault and gives a valid separation. -/
theorem C29_gp (b : Vgraph) (C : b.s.Consistent) (A : Alloc b) (V : Valid b) (hw0 : 0 ≤ b.dwgt0) (hw : b.dwgt0 + b.dwgt1 ≠ 0) (junk : Int → Int) (passnbr : Int) :
    Holds (separateGp junk passnbr b) (fun b' => SameProblem b b' ∧ Valid b') :=
  gp_holds (Graph.consE_iff.2 C) A V hw0 hw junk passnbr

/-- Whatever the number of passes, the random draws and the order in which vertices of equal gain are taken, greedy growing terminates without fault and gives a valid separation. -/
theorem C29_gg (b : Vgraph) (C : b.s.Consistent) (A : Alloc b) (V : Valid b) (hw : b.dwgt0 + b.dwgt1 ≠ 0) (hn : 0 < b.s.vertnbr) (o : Int → GgOracle) (passnbr : Int)
    (ho : ∀ p, 0 ≤ p → p < passnbr → (o p).Ok b) : Holds (separateGg o passnbr b) (fun b' => SameProblem b b' ∧ Valid b') :=
  gg_holds (Graph.consE_iff.2 C) A V hw passnbr (fun _ => hn) ho

/-! ## Cases -/

/-- Path 1 – 2 – 3 – 4 with vertex loads. -/
def exG : Graph :=
  { baseval := 1, vertnbr := 4, vertnnd := 5, verttax := Arr.ofList 1 [1, 2, 4, 6, 7], vendtax := none, velotax := some (Arr.ofList 1 [2, 1, 1, 3]), velosum := 7, vnumtax := none, vlbltax := none,
    edgenbr := 6, edgetax := Arr.ofList 1 [2, 1, 3, 2, 4, 3], edlotax := none, edlosum := 6, degrmax := 2 }

theorem exG_cons : exG.Consistent := Graph.consB_sound (by decide +kernel)
theorem exG_alloc : exG.Allocated := Graph.allocB_sound (by decide +kernel)

/-- Separator of two vertices, one of which is not necessary; the parts have weights 1 and 2. -/
def exB : Vgraph :=
  { s := exG, parttax := Arr.ofList 1 [0, 2, 2, 1], frontab := Arr.ofList 0 [3, 2, 0, 0], fronnbr := 2, compsize0 := 1, compsize1 := 1, compload0 := 2, compload1 := 3, compload2 := 2, comploaddlt := 1,
    dwgt0 := 1, dwgt1 := 2 }

theorem exB_alloc : Alloc exB := ⟨exG_alloc, by decide, by decide⟩

theorem exB_parts : ∀ v, exG.Vertex v → 0 ≤ exB.part v := by
  rintro v ⟨h1, h2⟩
  change 1 ≤ v at h1
  change v < 5 at h2
  rcases (by omega : v = 1 ∨ v = 2 ∨ v = 3 ∨ v = 4) with rfl | rfl | rfl | rfl <;> decide

theorem exB_check : check exB = .ok true := by decide +kernel

theorem exB_inj : ∀ i j, 0 ≤ i → i < exB.fronnbr → 0 ≤ j → j < exB.fronnbr → exB.frontab.get i = exB.frontab.get j → i = j := by
  intro i j i1 i2 j1 j2 h
  change i < 2 at i2
  change j < 2 at j2
  rcases (by omega : i = 0 ∨ i = 1) with rfl | rfl <;> rcases (by omega : j = 0 ∨ j = 1) with rfl | rfl <;> first | rfl | exact absurd h (by decide)

theorem exB_valid : Valid exB := by
  have h := C29_check_partial exB exG_cons exB_alloc exB_parts exB_inj
  exact (Holds.elim h exB_check).1 rfl

example : exB.s.Consistent ∧ Alloc exB ∧ Valid exB ∧ 0 ≤ exB.dwgt0 ∧ exB.dwgt0 + exB.dwgt1 ≠ 0 ∧ 0 < exB.s.vertnbr :=
  ⟨exG_cons, exB_alloc, exB_valid, by decide, by decide, by decide⟩

/-- What is shown of a separation. -/
def show' (b : Vgraph) : List Int :=
  b.parttax.toList ++ [b.fronnbr, b.compsize0, b.compsize1, b.compload0, b.compload1, b.compload2, b.comploaddlt]

example : (separateTh exB).map show' = .ok [0, 2, 1, 1, 1, 1, 2, 2, 4, 1, 0] := by decide +kernel
example : (separateGp (fun _ => 0) 2 exB).map show' = .ok [0, 2, 1, 1, 1, 1, 2, 2, 4, 1, 0] := by decide +kernel

/-- Draws that start from the last vertex. -/
def exO : GgOracle := { pick := fun _ => 0, root := 3, perm := Arr.ofList 0 [2, 1, 4, 3], absI := fun x => x.natAbs }

theorem exO_ok : exO.Ok exB := by
  refine ⟨by decide, by decide, ?_⟩
  intro i h1 h2
  change i < 4 at h2
  rcases (by omega : i = 0 ∨ i = 1 ∨ i = 2 ∨ i = 3) with rfl | rfl | rfl | rfl <;> decide

example : (separateGg (fun _ => exO) 1 exB).map show' = .ok [0, 2, 1, 1, 1, 1, 2, 2, 4, 1, 0] := by decide +kernel

/-! ## Disagreements -/

/-- Same separation, with the same vertex twice in the frontier array. -/
def exD : Vgraph := { exB with frontab := Arr.ofList 0 [3, 3, 0, 0] }

/-- `vgraphCheck` accepts a frontier array that has a vertex of the separator twice and another one not at all. -/
theorem C29_check_dup : ∃ b : Vgraph, b.s.Consistent ∧ Alloc b ∧ check b = .ok true ∧ ¬ Valid b := by
  refine ⟨exD, exG_cons, ⟨exG_alloc, by decide, by decide⟩, by decide +kernel, ?_⟩
  intro V
  exact absurd (V.fron.2.1 0 1 (by decide) (by decide) (by decide) (by decide) (by decide)) (by decide)

/-- Empty graph. -/
def exE : Vgraph :=
  { s := { baseval := 0, vertnbr := 0, vertnnd := 0, verttax := Arr.ofList 0 [0], vendtax := none, velotax := none, velosum := 0, vnumtax := none, vlbltax := none, edgenbr := 0,
           edgetax := Arr.ofList 0 [], edlotax := none, edlosum := 0, degrmax := 0 },
    parttax := Arr.ofList 0 [], frontab := Arr.ofList 0 [], fronnbr := 0, compsize0 := 0, compsize1 := 0, compload0 := 0, compload1 := 0, compload2 := 0, comploaddlt := 0, dwgt0 := 1, dwgt1 := 1 }

/-- `vgraphSeparateGg` draws a number modulo the number of vertices. -/
theorem C29_gg_empty : ∃ b : Vgraph, b.s.Consistent ∧ Alloc b ∧ check b = .ok true ∧ ∀ o, separateGg o 1 b = .error .divZero :=
  ⟨exE, Graph.consB_sound (by decide +kernel), ⟨Graph.allocB_sound (by decide +kernel), by decide, by decide⟩, by decide +kernel, fun _ => by rfl⟩

/-- Weights 1 and -1. -/
def exW : Vgraph := { exE with dwgt1 := -1 }

/-- `vgraphSeparateGp` divides by the sum of the weights of the parts. -/
theorem C29_gp_weights : ∃ b : Vgraph, b.s.Consistent ∧ Alloc b ∧ check b = .ok true ∧ ∀ junk, separateGp junk 1 b = .error .divZero :=
  ⟨exW, Graph.consB_sound (by decide +kernel), ⟨Graph.allocB_sound (by decide +kernel), by decide, by decide⟩, by decide +kernel, fun _ => by rfl⟩

end Scotch.Separ
