import Verif.Band.Lemmas
import Verif.Band.LemmasDiam
import Verif.Graph.Decide

/-!
# C40 — band graphs and pseudo-diameters are exact

`Band.Exact`, in `Verif.Band.Spec`, says which vertices are kept, and how they are numbered. `Diam.Dist`, in `Verif.Band.SpecDiam`, is the length of a shortest walk.

Two disagreements: the start of the last level is not written if the distance is not positive (`C40_lvl_unset`), and distances may overflow on graphs that the consistency check accepts, because it bounds the sum of vertex
loads and the sum of arc loads separately (`C40_diam_overflow`).
-/

set_option autoImplicit false

namespace Scotch.Band
open Scotch.Diam

/-- The band holds exactly the vertices within the given distance of the given set, numbered by increasing distances, and its sizes are right. -/
theorem C40_band (g : Graph) (C : g.Consistent) (hb : 0 ≤ g.baseval) (F : Int → Prop) (queunbr : Int) (queu : Arr Int) (pfix : Option (Arr Int)) (hi : Input g F queunbr queu pfix) (distmax lvl : Int) :
    Holds (band g queunbr queu distmax pfix lvl) (Exact g F distmax.toNat pfix) :=
  band_holds (Graph.consE_iff.2 C) hb hi distmax lvl

/-- The value returned by the pseudo-diameter search is 0 on an empty graph, the largest integer on a graph that is not connected and, otherwise, the distance between two vertices, such that no vertex is farther from
any of the two. -/
theorem C40_diam (g : Graph) (C : g.Consistent) (A : g.Allocated) (numMax : Int) (hK : g.velosum + g.edlosum < numMax) (pick : Nat → Int) (root : Int)
    (hroot : 0 < g.vertnbr → 0 ≤ root ∧ root < g.vertnbr) :
    Holds (diamPV g numMax pick root) (fun d => (g.vertnbr = 0 ∧ d = 0) ∨ (¬ Connected g ∧ d = numMax) ∨
      (Connected g ∧ ∃ u v, g.Vertex u ∧ g.Vertex v ∧ Dist g u v d ∧ ∀ w d', (Dist g u w d' → d' ≤ d) ∧ (Dist g v w d' → d' ≤ d))) :=
  diam_holds (Graph.consE_iff.2 C) A hK pick hroot

/-! ## Examples -/

/-- A path of 5 vertices, with loads. -/
def exG : Graph :=
  { baseval := 1, vertnbr := 5, vertnnd := 6, verttax := Arr.ofList 1 [1, 2, 4, 6, 8, 9], vendtax := none, velotax := some (Arr.ofList 1 [2, 1, 1, 3, 1]), velosum := 8, vnumtax := none, vlbltax := none,
    edgenbr := 8, edgetax := Arr.ofList 1 [2, 1, 3, 2, 4, 3, 5, 4], edlotax := none, edlosum := 8, degrmax := 2 }

theorem exG_cons : exG.Consistent := Graph.consB_sound (by decide +kernel)
theorem exG_alloc : exG.Allocated := Graph.allocB_sound (by decide +kernel)

/-- The frontier is vertex 2 and vertex 1 is fixed. -/
theorem exI : Input exG (fun v => v = 2) 1 (Arr.ofList 0 [2, 0, 0, 0, 0]) (some (Arr.ofList 1 [0, -1, -1, -1, -1])) := by
  refine ⟨exG_alloc, ?_, ?_, by decide, ?_⟩
  · rintro v rfl; exact ⟨by decide, by decide⟩
  · refine ⟨by decide, ?_, ?_⟩
    · intro i j h1 h2 h3 h4 _; omega
    · intro v
      constructor
      · rintro rfl; exact ⟨0, by decide, by decide, by decide⟩
      · rintro ⟨i, h1, h2, h3⟩
        rw [show i = 0 by omega] at h3
        exact h3.symm
  · rintro a h; cases h; exact ⟨by decide, by decide⟩

example : exG.Consistent ∧ 0 ≤ exG.baseval ∧ Input exG (fun v => v = 2) 1 (Arr.ofList 0 [2, 0, 0, 0, 0]) (some (Arr.ofList 1 [0, -1, -1, -1, -1])) := ⟨exG_cons, by decide, exI⟩

example : (band exG 1 (Arr.ofList 0 [2, 0, 0, 0, 0]) 2 (some (Arr.ofList 1 [0, -1, -1, -1, -1])) 77).map (fun r => (r.vnum.toList, r.lvl, r.vertnbr, r.edgenbr, r.vfixnbr)) =
    .ok ([-2, 1, 2, 3, -1], 3, 3, 7, 1) := by decide +kernel

example : exG.Consistent ∧ exG.Allocated ∧ exG.velosum + exG.edlosum < 2 ^ 31 - 1 ∧ (0 < exG.vertnbr → 0 ≤ (2 : Int) ∧ 2 < exG.vertnbr) := ⟨exG_cons, exG_alloc, by decide, by decide⟩

/-- From one end to the other: 4 arcs, and the loads of all vertices but the last. -/
example : diamPV exG 1000 (fun _ => 0) 2 = .ok 11 := by decide +kernel

/-! ## Disagreements -/

/-- The start of the last level is left as it was. -/
theorem C40_lvl_unset : ∃ (g : Graph) (F : Int → Prop) (queunbr : Int) (queu : Arr Int) (pfix : Option (Arr Int)), g.Consistent ∧ 0 ≤ g.baseval ∧ Input g F queunbr queu pfix ∧
    ∀ lvl, Holds (band g queunbr queu 0 pfix lvl) (fun r => r.lvl = lvl) := by
  refine ⟨exG, _, 1, _, _, exG_cons, by decide, exI, ?_⟩
  intro lvl
  exact rfl

/-- Two vertices, with large loads. -/
def exO : Graph :=
  { baseval := 0, vertnbr := 2, vertnnd := 2, verttax := Arr.ofList 0 [0, 1, 2], vendtax := none, velotax := some (Arr.ofList 0 [1000000000, 1000000000]), velosum := 2000000000, vnumtax := none, vlbltax := none,
    edgenbr := 2, edgetax := Arr.ofList 0 [1, 0], edlotax := some (Arr.ofList 0 [1000000000, 1000000000]), edlosum := 2000000000, degrmax := 1 }

/-- Distances may overflow although all sums of loads fit. -/
theorem C40_diam_overflow : ∃ g : Graph, g.Consistent ∧ g.Allocated ∧ g.velosum ≤ 2 ^ 31 - 1 ∧ g.edlosum ≤ 2 ^ 31 - 1 ∧
    diamPV g (2 ^ 31 - 1) (fun _ => 0) 0 = .error .overflow :=
  ⟨exO, Graph.consB_sound (by decide +kernel), Graph.allocB_sound (by decide +kernel), by decide, by decide, by
    have h : loopM (sweep exO 2147483647 (fun _ => 0)) (2147483646 + 1 + 1) (0, 0, 0) = .error .overflow := by
      unfold loopM
      rw [show sweep exO 2147483647 (fun _ => 0) (0, 0, 0) = .error .overflow by decide +kernel]
      rfl
    unfold diamPV
    rw [if_neg (by decide)]
    exact h⟩

end Scotch.Band
