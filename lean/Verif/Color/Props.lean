import Verif.Color.Lemmas
import Verif.Graph.Decide

/-!
# C21 — graph colouring

The property does not hold in full: two neighbours may have the same colour (`C21_not_proper`). `C21_partial` says what holds, for all graphs and all random values; what is missing is that neighbours `v < w`
such that the random value of `v` is greater than that of `w` have different colours.
-/

set_option autoImplicit false

namespace Scotch.Color

/-- Whatever the random values, the colouring terminates without fault, gives each vertex a colour between 0 and the number of colours, uses all of the colours, and gives different colours to two neighbours
unless the one of smallest number has the greatest random value. -/
theorem C21_partial (g : Graph) (rand : Arr Int) (qjunk : Int → Int) (C : g.Consistent) (A : g.Allocated) (h1 : rand.lo ≤ g.baseval) (h2 : g.vertnnd ≤ rand.hi) :
    Holds (colorWith g rand qjunk) (fun r => Coloured g r.1.get r.2 ∧ ∀ v w, g.Vertex v → Adj g v w → v < w → rand.get v ≤ rand.get w → r.1.get v ≠ r.1.get w) := by
  refine (colorWith_holds ⟨C, A, h1, h2⟩ qjunk).mono ?_
  rintro r ⟨h1, h2⟩
  refine ⟨h1, ?_⟩
  intro v w hv hw hlt hr he
  have := h2 v w hv hw hlt he
  omega

/-- With the generator of the library, whatever its state. -/
theorem C21_generator_partial (w : Nat) (g : Graph) (rjunk qjunk : Int → Int) (c : Rand.Ctx) (C : g.Consistent) (A : g.Allocated) :
    Holds (graphColor w g rjunk qjunk c) (fun r => Coloured g r.1.get r.2) := by
  have h1 := C.vertnbr
  have h2 := C.vertnnd
  unfold graphColor
  rw [Holds_bind]
  refine (drawAll_holds w g (by omega) rjunk c).mono ?_
  rintro r ⟨r1, r2⟩
  exact (C21_partial g r.1 qjunk C A (by omega) (by omega)).mono fun _ h => h.1

/-- If the random values never decrease with vertex numbers, for instance if they are all equal, then the colouring is proper. -/
theorem C21_monotone (g : Graph) (rand : Arr Int) (qjunk : Int → Int) (C : g.Consistent) (A : g.Allocated) (h1 : rand.lo ≤ g.baseval) (h2 : g.vertnnd ≤ rand.hi) (hm : ∀ v w, v ≤ w → rand.get v ≤ rand.get w) :
    Holds (colorWith g rand qjunk) (fun r => Coloured g r.1.get r.2 ∧ Proper g r.1.get) := by
  refine (C21_partial g rand qjunk C A h1 h2).mono ?_
  rintro r ⟨h1, h2⟩
  refine ⟨h1, ?_⟩
  intro v w hv hw
  obtain ⟨w1, w2⟩ := hw.inside C hv
  rcases Int.lt_or_gt_of_ne w2 with h | h
  · exact (h2 w v w1 (hw.symm C hv) h (hm _ _ (by omega))).symm
  · exact h2 v w hv hw h (hm _ _ (by omega))

/-! ## Cases -/

/-- Path 0 – 1 – 2 – 3. -/
def exG : Graph :=
  { baseval := 0, vertnbr := 4, vertnnd := 4, verttax := Arr.ofList 0 [0, 1, 3, 5, 6], vendtax := none, velotax := none, velosum := 4, vnumtax := none, vlbltax := none,
    edgenbr := 6, edgetax := Arr.ofList 0 [1, 0, 2, 1, 3, 2], edlotax := none, edlosum := 6, degrmax := 2 }

theorem exG_cons : exG.Consistent := Graph.consB_sound (by decide +kernel)
theorem exG_alloc : exG.Allocated := Graph.allocB_sound (by decide +kernel)

example : exG.Consistent ∧ exG.Allocated := ⟨exG_cons, exG_alloc⟩

/-- What is shown of a result. -/
def show' (r : Arr Int × Int) : List Int := r.2 :: r.1.toList

example : (colorWith exG (Arr.ofList 0 [5, 5, 5, 5]) (fun _ => 7)).map show' = .ok [4, 3, 2, 1, 0] := by decide +kernel

/-! ## Disagreement -/

/-- Ten vertices, of which only 8 and 9 are neighbours. -/
def exBad : Graph :=
  { baseval := 0, vertnbr := 10, vertnnd := 10, verttax := Arr.ofList 0 [0, 0, 0, 0, 0, 0, 0, 0, 0, 1, 2], vendtax := none, velotax := none, velosum := 10, vnumtax := none, vlbltax := none,
    edgenbr := 2, edgetax := Arr.ofList 0 [9, 8], edlotax := none, edlosum := 2, degrmax := 1 }

/-- Colouring is not always proper, even with the generator in its initial state of fixed seed: in this graph, neighbours 8 and 9 have the same colour. A vertex is compared only with its neighbours that have no
colour yet, so that one of them that has just received the current colour is ignored. -/
theorem C21_not_proper : ∃ g : Graph, g.Consistent ∧ g.Allocated ∧ ∃ r, graphColor 64 g (fun _ => 0) (fun _ => 0) (Rand.init 64 1 ⟨0, 0, 0, ⟨0, 0⟩⟩) = .ok r ∧ ¬ Proper g r.1.get := by
  refine ⟨exBad, Graph.consB_sound (by decide +kernel), Graph.allocB_sound (by decide +kernel), ?_⟩
  have h : (graphColor 64 exBad (fun _ => 0) (fun _ => 0) (Rand.init 64 1 ⟨0, 0, 0, ⟨0, 0⟩⟩)).map (fun r => [r.1.get 8, r.1.get 9]) = .ok [0, 0] := by decide +kernel
  cases hr : graphColor 64 exBad (fun _ => 0) (fun _ => 0) (Rand.init 64 1 ⟨0, 0, 0, ⟨0, 0⟩⟩) with
  | error e => rw [hr] at h; cases h
  | ok r =>
    rw [hr] at h
    have h' : [r.1.get 8, r.1.get 9] = [0, 0] := Except.ok.inj h
    refine ⟨r, rfl, ?_⟩
    intro hp
    refine hp 8 9 ⟨by decide +kernel, by decide +kernel⟩ ⟨1, by decide +kernel⟩ ?_
    rw [(List.cons.inj h').1, (List.cons.inj (List.cons.inj h').2).1]

end Scotch.Color
