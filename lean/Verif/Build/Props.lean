import Verif.Build.Lemmas
import Verif.Graph.Decide

/-!
# C54 — Building graphs from arrays

`SCOTCH_graphBuild` gives the graph that its arrays describe, whatever the base value, with or without optional arrays; the graph is consistent if and only if the arrays meet the requirements of the manual. Arrays given back by
`SCOTCH_graphData` describe the same graph.
-/

set_option autoImplicit false

namespace Scotch

open Build

/-- C54. Building a graph from arrays that are large enough ends without any access outside of them. The graph is the one that the arrays describe, with right sums of loads and the right maximum degree. It is consistent if
and only if the contents of the arrays are what the manual requires. -/
theorem C54_build {x : Args} (S : x.Sized) : Holds (graphBuild x) (fun g => g.Allocated ∧ x.Represents g ∧ (g.Consistent ↔ x.Legal)) :=
  Holds.mono (graphBuild_holds S) fun _ h => ⟨h.1, h.2, Build.Represents.consistent S.vertnbr h.2⟩

section
variable {g : Graph}

theorem data_first (g : Graph) (i : Int) : (graphData g).first i = g.vert (g.baseval + i) - g.baseval := by
  show g.verttax.get (i + g.baseval) - g.baseval = g.verttax.get (g.baseval + i) - g.baseval
  rw [Int.add_comm]

theorem data_last (g : Graph) (i : Int) : (graphData g).last i = g.vend (g.baseval + i) - g.baseval := by
  unfold Args.last Graph.vend graphData
  cases g.vendtax with
  | none =>
    show g.verttax.get (i + (g.baseval + 1)) - g.baseval = g.verttax.get (g.baseval + i + 1) - g.baseval
    rw [show i + (g.baseval + 1) = g.baseval + i + 1 by omega]
  | some a =>
    show a.get (i + g.baseval) - g.baseval = a.get (g.baseval + i) - g.baseval
    rw [Int.add_comm]

theorem data_nbrs (g : Graph) (i : Int) : (graphData g).nbrs i = g.nbrs (g.baseval + i) := by
  unfold Args.nbrs Graph.nbrs Graph.arcs
  rw [List.map_map, data_first, data_last, show g.vend (g.baseval + i) - g.baseval - (g.vert (g.baseval + i) - g.baseval) = g.vend (g.baseval + i) - g.vert (g.baseval + i) by omega]
  refine List.map_congr_left fun k _ => ?_
  show (g.edgetax.get (g.vert (g.baseval + i) - g.baseval + (k : Int) + g.baseval), _) = (g.dest (g.vert (g.baseval + i) + (k : Int)), g.edlo (g.vert (g.baseval + i) + (k : Int)))
  unfold Graph.edlo graphData
  cases g.edlotax with
  | none =>
    rw [show g.vert (g.baseval + i) - g.baseval + (k : Int) + g.baseval = g.vert (g.baseval + i) + (k : Int) by omega]
    rfl
  | some a =>
    show (_, a.get (g.vert (g.baseval + i) - g.baseval + (k : Int) + g.baseval)) = _
    rw [show g.vert (g.baseval + i) - g.baseval + (k : Int) + g.baseval = g.vert (g.baseval + i) + (k : Int) by omega]
    rfl

theorem data_velo (g : Graph) (i : Int) : (graphData g).velo i = g.velo (g.baseval + i) := by
  unfold Args.velo Graph.velo graphData
  cases g.velotax with
  | none => rfl
  | some a =>
    show a.get (i + g.baseval) = a.get (g.baseval + i)
    rw [Int.add_comm]

theorem data_vlbl (g : Graph) (i : Int) : (graphData g).vlbl i = g.vlbl (g.baseval + i) := by
  unfold Args.vlbl Graph.vlbl graphData
  cases g.vlbltax with
  | none => rfl
  | some a =>
    show a.get (i + g.baseval) = a.get (g.baseval + i)
    rw [Int.add_comm]

theorem data_sized (C : g.Consistent) (A : g.Allocated) : (graphData g).Sized := by
  have hn := C.vertnnd
  have ho : ∀ (o : Option (Arr Int)), (∀ a, o = some a → a.lo ≤ g.baseval ∧ g.vertnnd ≤ a.hi) → ∀ a, o.map (unbased g.baseval) = some a → a.lo ≤ 0 ∧ g.vertnbr ≤ a.hi := by
    intro o h a ha
    cases o with
    | none => cases ha
    | some c =>
      obtain rfl : unbased g.baseval c = a := Option.some.inj ha
      have := h c rfl
      exact ⟨show c.lo - g.baseval ≤ 0 by omega, show g.vertnbr ≤ c.hi - g.baseval by omega⟩
  have hv : ∀ {i}, 0 ≤ i → i < g.vertnbr → g.Vertex (g.baseval + i) := fun h1 h2 => ⟨by omega, by omega⟩
  have a1 := A.vlo
  have a2 := A.vhi
  refine ⟨C.vertnbr, ⟨show g.verttax.lo - g.baseval ≤ 0 by omega, show g.vertnbr ≤ g.verttax.hi - g.baseval by omega⟩, (fun h => by cases h), ?_, ho _ A.velo, ho _ A.vlbl, ?_, ?_⟩
  · intro a ha
    obtain rfl := Option.some.inj ha
    cases h : g.vendtax with
    | none =>
      have := A.vhi' h
      exact ⟨show g.verttax.lo - (g.baseval + 1) ≤ 0 by omega, show g.vertnbr ≤ g.verttax.hi - (g.baseval + 1) by omega⟩
    | some a =>
      have := A.ends a h
      exact ⟨show a.lo - g.baseval ≤ 0 by omega, show g.vertnbr ≤ a.hi - g.baseval by omega⟩
  · intro i i1 i2 h
    rw [data_first, data_last] at h ⊢
    have := A.edge _ (hv i1 i2) (by omega)
    exact ⟨show g.edgetax.lo - g.baseval ≤ _ by omega, show _ ≤ g.edgetax.hi - g.baseval by omega⟩
  · intro a ha i i1 i2 h
    obtain ⟨c, hc, rfl⟩ := Option.map_eq_some_iff.1 ha
    rw [data_first, data_last] at h ⊢
    have := A.edlo c hc _ (hv i1 i2) (by omega)
    exact ⟨show c.lo - g.baseval ≤ _ by omega, show _ ≤ c.hi - g.baseval by omega⟩

end

/-- C54. Building a graph from the arrays that are given back for a consistent graph gives the same graph again: vertices, neighbours, loads, labels and sums. Its maximum degree is the right one, even if the one of the first
graph was only an upper bound. -/
theorem C54_data {g : Graph} (C : g.Consistent) (A : g.Allocated) : Holds (graphBuild (graphData g)) (fun g' => g'.Consistent ∧ g'.Allocated ∧
    g'.baseval = g.baseval ∧ g'.vertnbr = g.vertnbr ∧ g'.vertnnd = g.vertnnd ∧ g'.edgenbr = g.edgenbr ∧ g'.velosum = g.velosum ∧ g'.edlosum = g.edlosum ∧ g'.degrmax ≤ g.degrmax ∧
    ∀ v, g.Vertex v → g'.nbrs v = g.nbrs v ∧ g'.velo v = g.velo v ∧ g'.vlbl v = g.vlbl v) := by
  refine Holds.mono (C54_build (data_sized C A)) ?_
  rintro g' ⟨A', R, hc⟩
  have hn := C.vertnnd
  have hnd : g'.vertnnd = g.vertnnd := R.vertnnd.trans hn.symm
  have hb : g'.baseval = g.baseval := R.baseval
  have hsame : ∀ v, g.Vertex v → g'.nbrs v = g.nbrs v ∧ g'.velo v = g.velo v ∧ g'.vlbl v = g.vlbl v := by
    intro v hv
    have h1 := hv.1
    have h2 := hv.2
    have hi1 : 0 ≤ v - g.baseval := by omega
    have hi2 : v - g.baseval < (graphData g).vertnbr := show v - g.baseval < g.vertnbr by omega
    have he : (graphData g).baseval + (v - g.baseval) = v := show g.baseval + (v - g.baseval) = v by omega
    have e1 := R.nbrs _ hi1 hi2
    have e2 := R.velo _ hi1 hi2
    have e3 := R.vlbl _ hi1 hi2
    have he' : g.baseval + (v - g.baseval) = v := by omega
    rw [he, data_nbrs, he'] at e1
    rw [he, data_velo, he'] at e2
    rw [he, data_vlbl, he'] at e3
    exact ⟨e1, e2, e3⟩
  have hw : g'.velosum = g.velosum := by
    rw [R.velosum, C.velosum, hn, Int.add_comm g.baseval, sumI_shift]
    exact sumI_congr fun i _ _ => data_velo g i
  have hE : sumI 0 g.vertnbr (fun i => (((graphData g).nbrs i).map Prod.snd).sum) = g.edlosum := by
    rw [C.edlosum, hn, Int.add_comm g.baseval, sumI_shift]
    exact sumI_congr fun i _ _ => by rw [data_nbrs]
  have hL : (graphData g).Legal := by
    have hV : ∀ {i}, 0 ≤ i → i < g.vertnbr → g.Vertex (g.baseval + i) := fun h1 h2 => ⟨by omega, by omega⟩
    refine ⟨?_, ?_, ?_, ?_, ?_, ?_, ?_⟩
    · intro i i1 i2
      rw [data_first, data_last]
      have := C.range _ (hV i1 i2)
      omega
    · intro i p i1 i2 hp
      rw [data_nbrs] at hp
      have h := C.inside _ p (hV i1 i2) hp
      have h1 := h.1.1
      have h2 := h.1.2
      exact ⟨h1, show p.1 < g.baseval + g.vertnbr by omega, h.2⟩
    · intro i p i1 i2 hp
      rw [data_nbrs] at hp ⊢
      rw [show g.baseval + (p.1 - (graphData g).baseval) = p.1 from show g.baseval + (p.1 - g.baseval) = p.1 by omega]
      exact C.symm _ p (hV i1 i2) hp
    · intro i i1 i2
      rw [data_nbrs]
      exact C.simple _ (hV i1 i2)
    · show g.edgenbr = sumI 0 g.vertnbr _
      rw [C.edgenbr, hn, Int.add_comm g.baseval, sumI_shift]
      exact sumI_congr fun i _ _ => by rw [data_nbrs]
    · intro i i1 i2
      rw [data_velo]
      exact C.velo _ (hV i1 i2)
    · intro i p i1 i2 hp
      rw [data_nbrs] at hp
      exact C.edlo _ p (hV i1 i2) hp
  have C' := hc.2 hL
  refine ⟨C', A', hb, R.vertnbr, hnd, R.edgenbr, hw, ?_, ?_, hsame⟩
  · rw [C'.edlosum, C.edlosum, hb, hnd]
    exact sumI_congr fun v h1 h2 => by rw [(hsame v ⟨h1, h2⟩).1]
  · rcases R.degrmax.2.2 with h | ⟨i, i1, i2, h⟩
    · rw [h]; exact C.degrmax.1
    · rw [← h, data_nbrs]
      have i2 : i < g.vertnbr := i2
      exact C.degrmax.2 _ ⟨by omega, by omega⟩

/-! ## Examples -/

/-- A path of three vertices, numbered from 1, with loads and an array of ends: the edge array has an unused cell. -/
def bldX : Args := ⟨1, 3, Arr.ofList 0 [1, 3, 5], some (Arr.ofList 0 [2, 5, 6]), some (Arr.ofList 0 [4, 5, 6]), none, 4, Arr.ofList 0 [2, 9, 1, 3, 2], some (Arr.ofList 0 [7, 0, 7, 8, 8])⟩

theorem bldX_sized : bldX.Sized := by
  have h3 : ∀ i : Int, 0 ≤ i → i < bldX.vertnbr → i = 0 ∨ i = 1 ∨ i = 2 := by
    intro i h1 h2
    have h2 : i < 3 := h2
    omega
  refine ⟨by decide, by decide, (fun h => by cases h), ?_, ?_, (fun a h => by cases h), ?_, ?_⟩
  · intro a h; obtain rfl := Option.some.inj h; decide
  · intro a h; obtain rfl := Option.some.inj h; decide
  · intro i h1 h2 _
    rcases h3 i h1 h2 with rfl | rfl | rfl <;> decide
  · intro a h i h1 h2 _
    obtain rfl := Option.some.inj h
    rcases h3 i h1 h2 with rfl | rfl | rfl <;> decide

theorem bldX_legal : bldX.Legal := by
  have h3 : ∀ i : Int, 0 ≤ i → i < bldX.vertnbr → i = 0 ∨ i = 1 ∨ i = 2 := by
    intro i h1 h2
    have h2 : i < 3 := h2
    omega
  refine ⟨?_, ?_, ?_, ?_, by decide, ?_, ?_⟩
  · intro i h1 h2
    rcases h3 i h1 h2 with rfl | rfl | rfl <;> decide
  · intro i p h1 h2
    rcases h3 i h1 h2 with rfl | rfl | rfl
    · exact (by decide : ∀ p ∈ bldX.nbrs 0, bldX.baseval ≤ p.1 ∧ p.1 < bldX.baseval + bldX.vertnbr ∧ p.1 ≠ bldX.baseval + 0) p
    · exact (by decide : ∀ p ∈ bldX.nbrs 1, bldX.baseval ≤ p.1 ∧ p.1 < bldX.baseval + bldX.vertnbr ∧ p.1 ≠ bldX.baseval + 1) p
    · exact (by decide : ∀ p ∈ bldX.nbrs 2, bldX.baseval ≤ p.1 ∧ p.1 < bldX.baseval + bldX.vertnbr ∧ p.1 ≠ bldX.baseval + 2) p
  · intro i p h1 h2
    rcases h3 i h1 h2 with rfl | rfl | rfl
    · exact (by decide : ∀ p ∈ bldX.nbrs 0, (bldX.baseval + 0, p.2) ∈ bldX.nbrs (p.1 - bldX.baseval)) p
    · exact (by decide : ∀ p ∈ bldX.nbrs 1, (bldX.baseval + 1, p.2) ∈ bldX.nbrs (p.1 - bldX.baseval)) p
    · exact (by decide : ∀ p ∈ bldX.nbrs 2, (bldX.baseval + 2, p.2) ∈ bldX.nbrs (p.1 - bldX.baseval)) p
  · intro i h1 h2
    rcases h3 i h1 h2 with rfl | rfl | rfl <;> decide
  · intro i h1 h2
    rcases h3 i h1 h2 with rfl | rfl | rfl <;> decide
  · intro i p h1 h2
    rcases h3 i h1 h2 with rfl | rfl | rfl
    · exact (by decide : ∀ p ∈ bldX.nbrs 0, 0 ≤ p.2) p
    · exact (by decide : ∀ p ∈ bldX.nbrs 1, 0 ≤ p.2) p
    · exact (by decide : ∀ p ∈ bldX.nbrs 2, 0 ≤ p.2) p

/-- The graph that is built is consistent. -/
example : Holds (graphBuild bldX) Graph.Consistent := Holds.mono (C54_build bldX_sized) fun _ h => h.2.2.2 bldX_legal

/-- Its sums and maximum degree. -/
example : (do let g ← graphBuild bldX; pure (g.velosum, g.edlosum, g.degrmax, g.nbrs 2)) = .ok (15, 30, 2, [(1, 7), (3, 8)]) := by decide

/-- An array that lacks the reverse of an arc is accepted by `SCOTCH_graphBuild`, and the graph is not consistent. -/
example : Holds (graphBuild { bldX with edgetab := Arr.ofList 0 [2, 9, 1, 3, 1] }) (fun g => ¬ g.Consistent) := by
  refine Holds.mono (C54_build ⟨bldX_sized.vertnbr, bldX_sized.vert, bldX_sized.vert', bldX_sized.vend, bldX_sized.velo, bldX_sized.vlbl, bldX_sized.edge, bldX_sized.edlo⟩) ?_
  intro g h C
  have := (h.2.2.1 C).symm 1 (3, 8) (by decide) (by decide) (by decide)
  revert this
  decide

end Scotch
