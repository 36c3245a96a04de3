import Verif.Coarsen.LemmasFinal
import Verif.Graph.Decide
import Verif.Match.Props

/-!
# Coarse graph building: property C19
-/

set_option autoImplicit false

namespace Scotch.Coarsen

/-- **C19**, one thread. Whatever the consistent graph and the mating (each vertex has a mate, which is a vertex whose mate it is), whatever the previous contents of memory, coarse graph building
ends without fault and yields the contraction of the graph: coarse vertices are the pairs and the single vertices, in order; their loads are the sums of the loads of their vertices; a coarse vertex has
one arc, and only one, to each other coarse vertex of which it contains a neighbour, the load of which is the sum of the loads of the arcs between them; the coarse graph is consistent.
Precondition: the hash function does not overflow, that is, vertex numbers are at most 1/1049th of the largest integer. -/
theorem C19_sequential (numMax : Int) (g : Graph) (mate : Arr Int) (J : Junk) (hc : g.Consistent) (ha : g.Allocated) (hb : 0 ≤ g.baseval) (hov : (g.vertnnd - 1) * 1049 ≤ numMax)
    (hm : Pairing g mate.get) (m1 : mate.lo ≤ g.baseval) (m2 : g.vertnnd ≤ mate.hi) :
    Holds (buildSeq numMax g mate (pairs g mate.get) J) (Contracted g mate.get) :=
  buildSeq_holds hm hc ha hb hov m1 m2 J

/-- **C19**, any number of threads, whatever the way fine and coarse vertices are shared among them, in compact or non-compact form. -/
theorem C19_threads (numMax : Int) (g : Graph) (mate : Arr Int) (J : Junk) (compact : Bool) (n : Nat) (fbas cbas : Nat → Int) (hc : g.Consistent) (ha : g.Allocated) (hb : 0 ≤ g.baseval)
    (hov : (g.vertnnd - 1) * 1049 ≤ numMax) (hm : Pairing g mate.get) (m1 : mate.lo ≤ g.baseval) (m2 : g.vertnnd ≤ mate.hi) (R : Bounds g.baseval g.vertnnd n fbas)
    (R' : Bounds g.baseval (g.baseval + pairs g mate.get) n cbas) :
    Holds (buildThr numMax g mate (pairs g mate.get) J compact n fbas cbas) (Contracted g mate.get) :=
  buildThr_holds hm hc ha hb hov m1 m2 J compact R R'

/-- **C19** and **C20**: sequential matching followed by building is a contraction of the graph. -/
theorem C19_coarsening (numMax : Int) (E : Match.Env) (V : Match.Valid E) (bits : Nat) (junk : Int → Int × Int) (J : Junk) (hbits : E.g.vertnbr < 2 ^ bits) (hov : (E.g.vertnnd - 1) * 1049 ≤ numMax) :
    Holds (do let r ← Match.matchSeq E bits junk; buildSeq numMax E.g r.1 r.2 J) (fun r => ∃ mate, Match.Mating E mate ∧ Contracted E.g mate r) := by
  rw [Holds_bind]
  refine (Match.matchSeq_holds V bits junk hbits).mono ?_
  rintro ⟨m, n⟩ ⟨h0, h1, h2⟩
  dsimp only at h1 h2 ⊢
  rw [h2]
  refine (C19_sequential numMax E.g m J V.cons V.alloc V.base hov ⟨h1.inside, h1.recip⟩ h0.1 h0.2).mono ?_
  intro r hr
  exact ⟨m.get, h1, hr⟩

/-- Loads are conserved: the total vertex load is unchanged. -/
theorem C19_conserves (g : Graph) (mate : Int → Int) (r : Result) (h : Contracted g mate r) : sumI r.graph.baseval r.graph.vertnnd r.graph.velo = g.velosum := by
  rw [← h.consistent.velosum, h.merged.velosum]

/-! ## Cases -/

/-- Cycle 0 – 1 – 2 – 3 with a diagonal 0 – 2 of load 5. -/
def exG : Graph :=
  { baseval := 0, vertnbr := 4, vertnnd := 4, verttax := Arr.ofList 0 [0, 3, 5, 8, 10], vendtax := none, velotax := some (Arr.ofList 0 [1, 2, 3, 4]), velosum := 10, vnumtax := none, vlbltax := none,
    edgenbr := 10, edgetax := Arr.ofList 0 [1, 2, 3, 0, 2, 1, 0, 3, 2, 0], edlotax := some (Arr.ofList 0 [1, 5, 1, 1, 2, 2, 5, 3, 3, 1]), edlosum := 24, degrmax := 3 }

def exJ : Junk := ⟨fun _ => 7, fun _ => 7, fun _ => 7, fun _ => 7, fun _ => 7, fun _ => (7, 7)⟩

-- The hypotheses are met, with mates 0 ↔ 1 and 2 ↔ 3.
example : exG.Consistent ∧ exG.Allocated ∧ Pairing exG (Arr.ofList 0 [1, 0, 3, 2] : Arr Int).get :=
  ⟨Graph.consB_sound (by decide +kernel), Graph.allocB_sound (by decide +kernel), by
    refine ⟨?_, ?_⟩ <;> rw [show exG.Vertex = fun v => 0 ≤ v ∧ v < 4 from rfl] <;> rintro v ⟨h1, h2⟩ <;>
      rcases (by omega : v = 0 ∨ v = 1 ∨ v = 2 ∨ v = 3) with rfl | rfl | rfl | rfl <;> decide +kernel⟩

example : Bounds exG.baseval exG.vertnnd 2 (fun i => 2 * i) ∧ Bounds exG.baseval (exG.baseval + 2) 2 (fun i => i) := ⟨⟨rfl, rfl, fun i _ => by omega⟩, ⟨rfl, rfl, fun i _ => by omega⟩⟩

/-- What is shown of a result. -/
def show' (r : Result) : List (List Int) :=
  [[r.graph.vertnbr, r.graph.edgenbr, r.graph.edlosum, r.graph.degrmax], [r.graph.velo 0, r.graph.velo 1], (r.graph.nbrs 0).flatMap fun p => [p.1, p.2], (r.graph.nbrs 1).flatMap fun p => [p.1, p.2],
    r.coar.toList, r.mult.toList.flatMap fun p => [p.1, p.2]]

example : (buildSeq 2147483647 exG (Arr.ofList 0 [1, 0, 3, 2]) 2 exJ).map show' = .ok [[2, 2, 16, 1], [3, 7], [1, 8], [0, 8], [0, 0, 1, 1], [0, 1, 2, 3]] := by decide +kernel

example : (buildThr 2147483647 exG (Arr.ofList 0 [1, 0, 3, 2]) 2 exJ false 2 (fun i => 2 * i) (fun i => i)).map show' =
    .ok [[2, 2, 16, 1], [3, 7], [1, 8], [0, 8], [0, 0, 1, 1], [0, 1, 2, 3]] := by decide +kernel

/-! ## Disagreements -/

/-- Two neighbours numbered from 3 000 000 on. -/
def exBig : Graph :=
  { baseval := 3000000, vertnbr := 2, vertnnd := 3000002, verttax := Arr.ofList 3000000 [3000000, 3000001, 3000002], vendtax := none, velotax := none, velosum := 2, vnumtax := none, vlbltax := none,
    edgenbr := 2, edgetax := Arr.ofList 3000000 [3000001, 3000000], edlotax := none, edlosum := 2, degrmax := 1 }

/-- Without the precondition on vertex numbers, the property does not hold: with 32-bit integers, the product of the hash function overflows on valid graphs that have more than about two million vertices (here, to
keep the witness small, on a graph of two vertices with a large base value). -/
theorem C19_hash_overflow : ∃ (g : Graph) (mate : Arr Int) (J : Junk), g.Consistent ∧ g.Allocated ∧ 0 ≤ g.baseval ∧ Pairing g mate.get ∧ mate.lo ≤ g.baseval ∧ g.vertnnd ≤ mate.hi ∧
    (buildSeq 2147483647 g mate (pairs g mate.get) J).map show' = .error .overflow := by
  refine ⟨exBig, Arr.ofList 3000000 [3000000, 3000001], exJ, Graph.consB_sound (by decide +kernel), Graph.allocB_sound (by decide +kernel), by decide +kernel, ?_, by decide +kernel, by decide +kernel,
    by decide +kernel⟩
  refine ⟨?_, ?_⟩ <;> rw [show exBig.Vertex = fun v => 3000000 ≤ v ∧ v < 3000002 from rfl] <;> rintro v ⟨h1, h2⟩ <;>
    rcases (by omega : v = 3000000 ∨ v = 3000001) with rfl | rfl <;> decide +kernel

/-- The number of coarse vertices given by the user to `SCOTCH_graphCoarsenBuild` is not verified: when it is too small, writes fall outside of the arrays. -/
theorem C19_wrong_count : (buildSeq 2147483647 exG (Arr.ofList 0 [1, 0, 3, 2]) 1 exJ).map show' = .error .oob := by decide +kernel

end Scotch.Coarsen
