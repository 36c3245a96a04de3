import Verif.Msep.LemmasChk
import Verif.Mesh.Props

/-!
# C64: node separators of meshes

A separation of a mesh sorts nodes into part 0, part 1 and the separator, and elements into part 0 and part 1, so that no element has nodes in both parts: `Valid`, in `Msep/Model.lean`.
-/

set_option autoImplicit false

namespace Scotch.Msep
open Separ (Vgraph)

/-- The initial separation, and the one of the method that moves everything to part 0, are valid, whatever memory holds; all of the load is in part 0. -/
theorem C64_zero (b : Vmesh) (C : b.m.Consistent) (A : Alloc b) :
    Holds (zero b) (fun b' => b'.m = b.m ∧ Alloc b' ∧ Valid b' ∧ ∀ v, b.m.Elem v ∨ b.m.Node v → b'.part v = 0) ∧
    (Valid b → Holds (separateZr b) (fun b' => b'.m = b.m ∧ Alloc b' ∧ Valid b' ∧ b'.ncmpload0 = b.m.vnlosum)) := by
  refine ⟨zero_holds C A, fun V => ?_⟩
  unfold separateZr
  rw [Holds_ite]
  refine ⟨fun _ => ?_, fun h => ⟨rfl, A, V, Classical.not_not.1 h⟩⟩
  refine (zero_holds C A).mono ?_
  rintro b' ⟨e, A', V', h⟩
  refine ⟨e, A', V', ?_⟩
  rw [V'.load0, C.vnlosum]
  unfold nodeSum
  rw [e]
  refine sumI_congr fun n n1 n2 => ?_
  rw [if_pos (h n (Or.inr ⟨n1, n2⟩))]

/-- Separation of a mesh by a strategy for graphs, which is applied to the graph of the nodes, where two nodes are linked if they belong to a same element: if the strategy is right on such graphs, then the method does not change the mesh and, when it
reports success, the separation is valid; it succeeds if the strategy always does, and ends if the strategy does.

What is missing: the weights of the two parts, which the strategy uses, are not set by the method. It is assumed here that memory holds equal weights; see `C64_separate_wrong`. -/
theorem C64_separate_partial (numMax : Int) (J : Mesh.Junk) (cls : Graph → Prop) (tot sure : Bool) (sep : Vgraph → M (Int × Vgraph)) (hsep : Separ.SepMethod cls tot sure sep) (b : Vmesh) (C : b.m.Consistent) (A : Alloc b) (V : Valid b)
    (hb : 0 ≤ b.m.baseval) (hn : 1 ≤ b.m.vnodnbr) (hd : b.m.degrmax * b.m.degrmax * 4 ≤ numMax) (hk : ∀ v, b.m.Elem v ∨ b.m.Node v → v * 37 ≤ numMax) (hc : ∀ g, Mesh.NodeGraph b.m g → cls g) :
    Meets tot (separateGr numMax J 1 1 sep b) (fun r => r.2.m = b.m ∧ Alloc r.2 ∧ (sure = true → r.1 = 0) ∧ (r.1 = 0 → Valid r.2)) :=
  separateGr_meets hsep ⟨C, A.mesh, hb, hd, hk⟩ A V hn hc J

/-- The check of a separation accepts exactly the valid ones, without a fault, whatever the arrays hold, as long as the part of each node is 0, 1 or 2.

What is missing: parts of nodes are used as indices before they are checked; see `C64_check_wrong`. -/
theorem C64_check_partial (b : Vmesh) (C : b.m.Consistent) (A : Alloc b) (hb : 0 ≤ b.m.baseval) (hn : ∀ n, b.m.Node n → b.part n = 0 ∨ b.part n = 1 ∨ b.part n = 2) : ∃ r, check b = .ok r ∧ (r = true ↔ Valid b) := by
  have P : Mesh.Pre (max (b.m.degrmax * b.m.degrmax * 4) (b.parttax.hi * 37)) b.m := by
    refine ⟨C, A.mesh, hb, by omega, fun v hv => ?_⟩
    have := A.rd C hv
    show v * 37 ≤ _
    omega
  have h := check_holds P A hn
  cases hr : check b with
  | error e => rw [hr] at h; exact False.elim h
  | ok r => rw [hr] at h; exact ⟨r, rfl, h⟩

/-! ## Cases -/

/-- Two triangles that share an edge, which is the separator: nodes 3 and 4. -/
def exSep : Vmesh :=
  { m := Mesh.exMesh, parttax := Arr.ofList 0 [0, 1, 0, 2, 2, 1], frontab := Arr.ofList 0 [4, 3, 9, 9], fronnbr := 2, ecmpsize0 := 1, ecmpsize1 := 1, ncmpsize0 := 1, ncmpsize1 := 1, ncmpload0 := 1, ncmpload1 := 4, ncmpload2 := 5, ncmploaddlt := -3 }

theorem exSep_alloc : Alloc exSep := ⟨Mesh.exMesh_alloc, by decide, by decide⟩

theorem exSep_parts (b : Vmesh) (hm : b.m = Mesh.exMesh) (h : (seg b.parttax.get 2 6).all (fun p => decide (p = 0 ∨ p = 1 ∨ p = 2)) = true) (n : Int) (hn : b.m.Node n) : b.part n = 0 ∨ b.part n = 1 ∨ b.part n = 2 := by
  rw [hm] at hn
  exact of_decide_eq_true (List.all_eq_true.1 h _ ((mem_seg _ _ _ _).2 ⟨n, hn.1, hn.2, rfl⟩))

theorem exSep_valid : Valid exSep := by
  obtain ⟨r, h1, h2⟩ := C64_check_partial exSep Mesh.exMesh_cons exSep_alloc (by decide) (exSep_parts _ rfl (by decide +kernel))
  have : check exSep = .ok true := by decide +kernel
  rw [this] at h1
  exact h2.1 (Except.ok.inj h1).symm

example := C64_zero exSep Mesh.exMesh_cons exSep_alloc
example := (C64_zero exSep Mesh.exMesh_cons exSep_alloc).2 exSep_valid

/-- The method that does nothing. -/
theorem empty_sep : Separ.SepMethod (fun _ => True) true true (fun v => return (0, v)) := fun b R _ => ⟨Separ.SameProblem.refl b, fun _ => rfl, fun _ => R.valid⟩

example (J : Mesh.Junk) := C64_separate_partial 2147483647 J _ _ _ _ empty_sep exSep Mesh.exMesh_cons exSep_alloc exSep_valid (by decide) (by decide) (by decide +kernel) Mesh.exMesh_keys (fun _ _ => trivial)

/-- Elements are given their parts back. -/
example : (separateGr 2147483647 ⟨fun _ => 7, fun _ => 8⟩ 1 1 (fun v => return (0, v)) { exSep with parttax := Arr.ofList 0 [5, 5, 0, 2, 2, 1] }).map (fun r => (r.2.parttax.toList, seg r.2.frontab.get 0 2, [r.2.ecmpsize0, r.2.ecmpsize1])) =
    .ok ([0, 1, 0, 2, 2, 1], [4, 3], [1, 1]) := by decide +kernel

/-- Separations that are refused: an element in the wrong part, a node listed twice, a node that should be in the separator, a wrong load. -/
example : check { exSep with parttax := Arr.ofList 0 [1, 1, 0, 2, 2, 1], ecmpsize0 := 0, ecmpsize1 := 2 } = .ok false := by decide +kernel
example : check { exSep with frontab := Arr.ofList 0 [4, 4, 9, 9] } = .ok false := by decide +kernel
example : check { exSep with parttax := Arr.ofList 0 [0, 1, 0, 0, 2, 1], fronnbr := 1, ncmpsize0 := 2, ncmpload0 := 3, ncmpload2 := 3, ncmploaddlt := -1 } = .ok false := by decide +kernel
example : check { exSep with ncmpload2 := 6 } = .ok false := by decide +kernel

/-! ## Disagreements -/

/-- The weights of parts that the method leaves unset are used: if memory holds 2 and 3, the separation that is obtained when all vertices are moved to part 0 is not valid, although the method reports success. The load imbalance is not the difference
of the loads of the parts. -/
theorem C64_separate_wrong : ∃ b : Vmesh, b.m.Consistent ∧ Alloc b ∧ Valid b ∧ ∃ J r, separateGr 2147483647 J 2 3 (fun v => do return (0, ← Separ.separateZr v)) b = .ok r ∧ r.1 = 0 ∧ ¬ Valid r.2 := by
  refine ⟨exSep, Mesh.exMesh_cons, exSep_alloc, exSep_valid, ⟨fun _ => 0, fun _ => 0⟩, ?_⟩
  have h : (separateGr 2147483647 ⟨fun _ => 0, fun _ => 0⟩ 2 3 (fun v => do return (0, ← Separ.separateZr v)) exSep).map (fun r => [r.1, r.2.ncmploaddlt, r.2.ncmpload0 - r.2.ncmpload1]) = .ok [0, 30, 10] := by decide +kernel
  cases hr : separateGr 2147483647 ⟨fun _ => 0, fun _ => 0⟩ 2 3 (fun v => do return (0, ← Separ.separateZr v)) exSep with
  | error e => rw [hr] at h; cases h
  | ok r =>
    rw [hr] at h
    have h' : [r.1, r.2.ncmploaddlt, r.2.ncmpload0 - r.2.ncmpload1] = [0, 30, 10] := Except.ok.inj h
    simp only [List.cons.injEq, and_true] at h'
    refine ⟨r, rfl, h'.1, fun V => ?_⟩
    have := V.delta
    omega

/-- Instead of refusing a node in part 3, the check writes out of an array. -/
theorem C64_check_wrong : ∃ b : Vmesh, b.m.Consistent ∧ Alloc b ∧ check b = .error .oob :=
  ⟨{ exSep with parttax := Arr.ofList 0 [0, 1, 3, 2, 2, 1] }, Mesh.exMesh_cons, ⟨Mesh.exMesh_alloc, by decide, by decide⟩, by decide +kernel⟩

end Scotch.Msep
