import Verif.HOrder.LemmasCheck
import Verif.Graph.Decide
import Verif.Graph.Props

/-!
# C68: check of halo graphs

When the library is compiled for it, halo graphs of nested dissection are checked: `Checked`, in `HOrder/ModelCheck.lean`, says what the check finds out, and `HCons`, in `HOrder/Spec.lean`, what halo graphs must be.
-/

set_option autoImplicit false

namespace Scotch.HOrder
open Graph

/-- A halo graph that the check accepts is a consistent graph, its last vertices are the halo, which are not adjacent to one another, ends of arcs without the halo are within ends of arcs, and the sum of loads of arcs without the halo is right, given their
number if arcs have no loads.

What is missing: that the check returns without access out of arrays; that arcs to the halo come last, and numbers of arcs and loads of vertices without the halo, which are not checked: see `C68_check_wrong`. -/
theorem C68_check_partial (numMax : Int) (h : Hgraph) (hr : hcheck numMax h = .ok true) : Checked h := by
  have P : Post (hcheck numMax h) (fun r => r = true → Checked h) := by
    unfold hcheck
    rw [Post_bind]
    refine check_sound.mono fun r hr => ?_
    cases r with
    | false => show Post (pure false) _; rw [Post_pure]; simp
    | true => exact hcheckRest_post h (hr rfl)
  exact Post_iff.1 P true hr rfl

/-- Halo graphs that are right are accepted, without access out of arrays, if arcs have no loads. -/
theorem C68_accept_partial (numMax : Int) (h : Hgraph) (H : HCons h) (A : HAlloc h) (hv : h.s.velosum ≤ numMax) (he : h.s.edlosum ≤ numMax) : hcheck numMax h = .ok true := by
  unfold hcheck
  rw [C14_check_complete h.s numMax H.whole A.whole hv he]
  exact hcheckRest_ok h H A

/-! ## Cases -/

/-- Two adjacent vertices; the second one is the halo. -/
def exPair : Hgraph where
  s := { baseval := 0, vertnbr := 2, vertnnd := 2, verttax := Arr.ofList 0 [0, 1], vendtax := some (Arr.ofList 0 [1, 2]), velotax := none, velosum := 2, vnumtax := none, vlbltax := none, edgenbr := 2, edgetax := Arr.ofList 0 [1, 0], edlotax := none, edlosum := 2, degrmax := 1 }
  vnohnbr := 1
  vnohnnd := 1
  vnhdtax := some (Arr.ofList 0 [0])
  vnlosum := 1
  enohnbr := 0
  enlosum := 0
  levlnum := 0

example := C68_check_partial 2147483647 exPair (by decide +kernel)

theorem exPair_cons : HCons exPair := by
  refine ⟨consB_sound (by decide +kernel), consB_sound (by decide +kernel), by decide, fun v hv => ?_, fun v p hv v1 hp => ?_, rfl⟩
  · have a : (0 : Int) ≤ v := hv.1
    have b : v < 1 := hv.2
    obtain rfl : v = 0 := by omega
    refine ⟨by decide, fun e e1 e2 => ?_⟩
    have a : (0 : Int) ≤ e := e1
    have b : e < 1 := e2
    obtain rfl : e = 0 := by omega
    decide
  · have a : (1 : Int) ≤ v := v1
    have b : v < 2 := hv.2
    obtain rfl : v = 1 := by omega
    revert p
    decide +kernel

theorem exPair_alloc : HAlloc exPair := ⟨allocB_sound (by decide +kernel), allocB_sound (by decide +kernel)⟩

example := C68_accept_partial 2147483647 exPair exPair_cons exPair_alloc (by decide) (by decide)

/-- The same, in which the arc to the halo is said not to be. -/
def exPairBad : Hgraph := { exPair with vnhdtax := some (Arr.ofList 0 [1]), enohnbr := 1, enlosum := 1 }

/-- The check accepts halo graphs whose part without the halo is not a consistent graph. -/
theorem C68_check_wrong : ∃ h : Hgraph, hcheck 2147483647 h = .ok true ∧ ¬ HCons h := by
  refine ⟨exPairBad, by decide +kernel, fun H => ?_⟩
  have C := consE_iff.2 H.part
  have := (C.inside 0 0 ⟨by decide, by decide⟩ (by decide) (by decide)).1.2
  revert this
  decide

end Scotch.HOrder
