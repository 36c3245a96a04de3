import Verif.Bipart.PropsSt

/-!
# C28 — band graphs

`BipMethod lim sure f` says that `f` turns valid bipartitions into valid bipartitions, or reports an error. With `lim.pos` set, it is only asked for on graphs whose edge loads are positive (`Loaded`); with `lim.anch` set, it is only asked for on graphs
that have at least two vertices, which is the case of band graphs.
-/

set_option autoImplicit false

namespace Scotch.Bipart
open Graph

/-! ## Theorems -/

/-- When the edge loads of the graph are positive, and the methods that are used on the band graph and on the original graph are right, refining a bipartition on a band graph is right: it ends without fault, the problem is not
changed, and the bipartition that is obtained is valid. -/
theorem C28_band_partial (lim : Lim) (hpos : lim.pos = true) (sure : Bool) (bnd org : Nat → BMethod) (hb : BipMethod { lim with anch := true } sure bnd) (ho : BipMethod lim sure org) (junk : BdJunk) (distmax : Int) :
    BipMethod lim sure (fun n p => bipartBd junk (bnd n (1 :: p)) (org n (2 :: p)) distmax) :=
  fun p _ R V => bipartBd_holds hpos hb ho junk distmax (1 :: p) (2 :: p) R V

/-! ## Cases -/

/-- Vertex 4 has three neighbours, 3, 5 and 9, that are linked by other vertices to vertices 1, 6 and 7; `a` is the load of the edge between vertices 1 and 2. -/
def exP (a : Int) : Graph :=
  { baseval := 1, vertnbr := 9, vertnnd := 10, verttax := Arr.ofList 1 [1, 2, 4, 6, 9, 11, 12, 13, 15, 17], vendtax := none, velotax := none, velosum := 9, vnumtax := none, vlbltax := none, edgenbr := 16,
    edgetax := Arr.ofList 1 [2, 1, 3, 2, 4, 3, 5, 9, 4, 6, 5, 8, 7, 9, 8, 4], edlotax := some (Arr.ofList 1 [a, a, 3, 3, 6, 6, 8, 1, 8, 7, 7, 9, 9, 9, 9, 1]), edlosum := 2 * a + 86, degrmax := 3 }

/-- Vertices 4, 5 and 6 are in part 1. -/
def exH (a : Int) : Bgraph :=
  { s := exP a, veextax := none, parttax := Arr.ofList 1 [0, 0, 0, 1, 1, 1, 0, 0, 0], frontab := Arr.ofList 0 [3, 4, 9, 0, 0, 0, 0, 0, 0], fronnbr := 3, compload0min := 2, compload0max := 7,
    compload0avg := 4, compload0dlt := 2, compload0 := 6, compsize0 := 6, commload := 14, commloadextn0 := 0, commgainextn0 := 0, commgainextn := 0, domndist := 2, domnwght0 := 1, domnwght1 := 1, vfixload0 := 0,
    vfixload1 := 0 }

theorem exH_alloc (a : Int) (h : (exP a).Allocated) : Alloc (exH a) := ⟨h, ⟨Int.le_refl 1, Int.le_refl 10⟩, ⟨Int.le_refl 0, Int.le_refl 9⟩, fun _ h => by cases h⟩

theorem exH_valid (a : Int) (hc : (exP a).Consistent) (ha : (exP a).Allocated) (h : check exAvg (exH a) = .ok true) : Valid (exH a) := by
  have hk := C28_check exAvg (exH a) hc (exH_alloc a ha) ?_
  · exact ((Holds.elim hk h).1 rfl).1
  · rintro v ⟨h1, h2⟩
    change 1 ≤ v at h1
    change v < 10 at h2
    rcases (by omega : v = 1 ∨ v = 2 ∨ v = 3 ∨ v = 4 ∨ v = 5 ∨ v = 6 ∨ v = 7 ∨ v = 8 ∨ v = 9) with rfl | rfl | rfl | rfl | rfl | rfl | rfl | rfl | rfl <;> simp [exH, Bgraph.part, Arr.ofList]

theorem exP1_loaded : Loaded (exP 1) := by
  rintro v e ⟨h1, h2⟩ h3 h4
  change 1 ≤ v at h1
  change v < 10 at h2
  have e1 : 1 ≤ (exP 1).vert v ∧ (exP 1).vend v ≤ 17 := by
    rcases (by omega : v = 1 ∨ v = 2 ∨ v = 3 ∨ v = 4 ∨ v = 5 ∨ v = 6 ∨ v = 7 ∨ v = 8 ∨ v = 9) with rfl | rfl | rfl | rfl | rfl | rfl | rfl | rfl | rfl <;> decide
  rcases (by omega : e = 1 ∨ e = 2 ∨ e = 3 ∨ e = 4 ∨ e = 5 ∨ e = 6 ∨ e = 7 ∨ e = 8 ∨ e = 9 ∨ e = 10 ∨ e = 11 ∨ e = 12 ∨ e = 13 ∨ e = 14 ∨ e = 15 ∨ e = 16) with
    rfl | rfl | rfl | rfl | rfl | rfl | rfl | rfl | rfl | rfl | rfl | rfl | rfl | rfl | rfl | rfl <;> decide

/-- Gain table that lists all linked slots in decreasing order of their numbers. -/
def exRev (n : Nat) (hash : Arr FmSlot) : List (Int × Int) := (exOrder n hash).reverse

theorem exRev_ok : OrderOk exRev := fun n hash x hx => exOrder_ok n hash x (List.mem_reverse.1 hx)

def exEnvR : BEnv := { exEnv with pick := fun _ => fmTablGet exRev }

theorem exEnvR_ok (pos anch : Bool) : exEnvR.Ok ⟨100, pos, anch⟩ := ⟨fun _ => C28_fm_pick exRev exRev_ok, (exEnv_ok pos anch).gg, (exEnv_ok pos anch).coarsen, (exEnv_ok pos anch).df⟩

/-- Refinement on the vertices at distance at most 1 of the frontier. -/
def exBd : BStrat := .bd 1 (.fm ⟨10, -1⟩) .empty

example : exEnvR.Ok ⟨100, true, false⟩ ∧ Ready ⟨100, true, false⟩ (exH 1) ∧ Valid (exH 1) ∧ BGood ⟨100, true, false⟩ true exBd :=
  ⟨exEnvR_ok true false,
    ⟨consB_sound (by decide +kernel), exH_alloc 1 (allocB_sound (by decide +kernel)), by decide, by decide, by decide, by decide, by decide +kernel, rfl, by decide, fun _ => exP1_loaded, fun h => by cases h⟩,
    exH_valid 1 (consB_sound (by decide +kernel)) (allocB_sound (by decide +kernel)) (by decide +kernel), rfl, (by decide : (0 : Int) ≤ 10), trivial⟩

set_option maxRecDepth 100000 in
/-- Vertices 2 and 3 change part. The communication load goes from 14 to 4. -/
example : (bipartSt exEnvR 30 exBd [] (exH 1)).map (fun r => (r.1, show' r.2)) = .ok (0, [0, 1, 1, 1, 1, 1, 0, 0, 0, 4, 4, 0, 4, 4, 0]) := by decide +kernel

/-! ## Disagreement -/

set_option maxRecDepth 100000 in
/-- When an edge has load zero, which graphs may have, the frontier that is brought back may miss vertices: an edge between the band and the rest of the graph is only represented in the band graph when the sum of the loads of such
edges is positive (bgraph_bipart_bd.c:361–366). No error is reported. -/
theorem C28_band_wrong : ∃ (b : Bgraph) (s : BStrat), exEnvR.Ok ⟨100, true, false⟩ ∧ BGood ⟨100, true, false⟩ true s ∧ Ready ⟨100, false, false⟩ b ∧ Valid b ∧ ∃ b', bipartSt exEnvR 30 s [] b = .ok (0, b') ∧ ¬ Valid b' := by
  refine ⟨exH 0, exBd, exEnvR_ok true false, ⟨rfl, (by decide : (0 : Int) ≤ 10), trivial⟩, ?_, ?_, ?_⟩
  · exact ⟨consB_sound (by decide +kernel), exH_alloc 0 (allocB_sound (by decide +kernel)), by decide, by decide, by decide, by decide, by decide +kernel, rfl, by decide, (fun h => by cases h), (fun h => by cases h)⟩
  · exact exH_valid 0 (consB_sound (by decide +kernel)) (allocB_sound (by decide +kernel)) (by decide +kernel)
  · have h : (bipartSt exEnvR 30 exBd [] (exH 0)).map (fun r => decide (r.1 = 0 ∧ r.2.fronnbr = 2 ∧ r.2.frontab.get 0 ≠ 1 ∧ r.2.frontab.get 1 ≠ 1 ∧ r.2.s.nbrs 1 = [(2, 0)] ∧ r.2.part 1 = 1 ∧ r.2.part 2 = 0 ∧ r.2.s.baseval = 1 ∧ r.2.s.vertnnd = 10)) = .ok true := by
      decide +kernel
    generalize bipartSt exEnvR 30 exBd [] (exH 0) = x at h
    cases x with
    | error e => cases h
    | ok r =>
      obtain ⟨o, b'⟩ := r
      have h' := of_decide_eq_true (by injection h : decide _ = true)
      dsimp only at h'
      obtain ⟨rfl, h1, h2, h3, h4, h5, h6, h7, h8⟩ := h'
      refine ⟨b', rfl, fun V => ?_⟩
      have hf : Frontier b'.s b'.part 1 := by
        refine ⟨⟨by omega, by omega⟩, (2, 0), by rw [h4]; exact List.mem_singleton.2 rfl, ?_⟩
        change b'.part 2 ≠ b'.part 1
        rw [h5, h6]; decide
      obtain ⟨i, i1, i2, i3⟩ := (V.fron.2.2 1).1 hf
      rcases (by omega : i = 0 ∨ i = 1) with rfl | rfl
      · exact h2 i3
      · exact h3 i3

end Scotch.Bipart
