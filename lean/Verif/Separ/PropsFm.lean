import Verif.Separ.LemmasFm8
import Verif.Separ.Props

/-!
# C29 — Fiduccia-Mattheyses refinement of separators

The refinement moves vertices of the separator to one of the two parts, one at a time; the neighbours of the vertex in the other part enter the separator. It may go through worse separators, and comes back to the best one that it has met. The
vertices that it has met are in a hash table that grows while it runs, together with the gains of the vertices of the separator.

`C29_fm_partial` says that whatever the time it is given, the refinement does not meet any fault, and that the recorded values match the parts that it returns. `C29_fm` says that it ends, with a separator that is not worse, if the separator that
it is given is balanced.

These theorems ask that all vertex loads are positive (see `C29_fm_load_wrong`), and that the number of vertices is not one of those for which the hash table can be full when its size changes (see `C29_fm_full_wrong`).
-/

set_option autoImplicit false

namespace Scotch.Separ
open Bipart (FmSlot FmSave)

/-! ## Specification -/

/-- The separator of `b'` is lighter than the one of `b`, or they have the same load and `b'` is not less balanced. -/
def NotWorse (b b' : Vgraph) : Prop :=
  b'.compload2 < b.compload2 ∨ (b'.compload2 = b.compload2 ∧ |b'.comploaddlt| ≤ |b.comploaddlt|)

/-! ## Theorems -/

/-- Whatever the order of the gain table, the function that is used for absolute values, the parameters, and the time it is given, the refinement does not meet any fault. If it ends, it gives a valid separation of the same problem.

`gg` is the greedy graph growing method, which is called when there is no separator and the imbalance `|comploaddlt|` exceeds `mat`, the imbalance that is asked for.

Partial: the refinement may run forever, with a negative number of passes, when the first separator is not balanced. Out of the model: overflows of loads and gains. -/
theorem C29_fm_partial (b : Vgraph) (R : FmReady b) (env : SfEnv) (ho : GainsOk env.order) (gg : Vgraph → M Vgraph) (hgg : Holds (gg b) (fun b' => SameProblem b b' ∧ Valid b')) (para : SfParam) (hm : 0 ≤ para.movenbr)
    (mat : Int) (fuel : Nat) : OrFuel (separateFm env gg para mat fuel b) (fun b' => SameProblem b b' ∧ Valid b') :=
  separateFm_orFuel R ho hgg hm mat fuel

/-- If the imbalance of the separation that is given is not larger than the one that is asked for, the refinement ends, gives a valid separation of the same problem, whose imbalance is not larger than the one that is asked for either, and whose
separator is not worse. If there is no separator, nothing changes. -/
theorem C29_fm (b : Vgraph) (R : FmReady b) (env : SfEnv) (ho : GainsOk env.order) (habs : ∀ x, env.absI x = |x|) (gg : Vgraph → M Vgraph) (para : SfParam) (hm : 0 ≤ para.movenbr) (mat : Int) (hbal : |b.comploaddlt| ≤ mat) :
    Ends (fun fuel => separateFm env gg para mat fuel b) (fun b' => SameProblem b b' ∧ Valid b' ∧ |b'.comploaddlt| ≤ mat ∧ NotWorse b b' ∧ (b.fronnbr = 0 → b' = b)) := by
  by_cases h0 : b.fronnbr = 0
  · refine ⟨b, ⟨SameProblem.refl b, R.valid, hbal, Or.inr ⟨rfl, Int.le_refl _⟩, fun _ => rfl⟩, 0, fun fuel _ => ?_⟩
    show separateFm env gg para mat fuel b = .ok b
    unfold separateFm
    rw [if_pos h0, if_pos (by rw [habs]; exact hbal)]
    rfl
  · obtain ⟨r, ⟨q1, q2, q3⟩, n, hn⟩ := sfMain_ends R.valid R.dwgt (R.hyp ho) habs hm R.full mat hbal
    obtain ⟨q4, q5⟩ := q3 habs hbal
    refine ⟨r, ⟨q1, q2, q4, q5, fun h => absurd h h0⟩, n, fun fuel hf => ?_⟩
    show separateFm env gg para mat fuel b = .ok r
    unfold separateFm
    rw [if_neg h0]
    exact hn fuel hf

/-! ## Cases -/

/-- Gain table that lists all linked slots in the order of their numbers. -/
def exOrder (_ : Nat) (hash : Arr FmSlot) : List (Int × Int × Int) :=
  ((List.range hash.hi.toNat).filter fun (h : Nat) => decide (hash.lo ≤ (h : Int) ∧ (hash.get (h : Int)).vertnum ≠ -1 ∧ (hash.get (h : Int)).st = .link)).flatMap fun (h : Nat) => [((0 : Int), (h : Int), (0 : Int)), ((0 : Int), (h : Int), (1 : Int))]

theorem exOrder_ok : GainsOk exOrder := by
  intro n hash x hx
  unfold exOrder at hx
  rw [List.mem_flatMap] at hx
  obtain ⟨k, hk, hx⟩ := hx
  rw [List.mem_filter, List.mem_range, decide_eq_true_eq] at hk
  obtain ⟨h1, h2, h3, h4⟩ := hk
  rw [List.mem_cons, List.mem_singleton] at hx
  rcases hx with rfl | rfl
  · exact ⟨⟨h2, by show (k : Int) < hash.hi; omega⟩, h3, h4, Or.inl rfl⟩
  · exact ⟨⟨h2, by show (k : Int) < hash.hi; omega⟩, h3, h4, Or.inr rfl⟩

def exEnv : SfEnv := ⟨fun _ => ⟨0, ⟨0, 0, 0, 0⟩⟩, exOrder, fun x => |x|⟩

theorem not_512 {n : Int} (h : n < 512) (k : Nat) : n ≠ 512 * 2 ^ k := by
  have : (1 : Int) ≤ 2 ^ k := one_le_pow₀ (by decide)
  omega

theorem exB_fm : FmReady exB := by
  refine ⟨exG_cons, exB_alloc, exB_valid, by decide, by decide, ?_, not_512 (by decide)⟩
  rintro v ⟨h1, h2⟩
  change 1 ≤ v at h1
  change v < 5 at h2
  rcases (by omega : v = 1 ∨ v = 2 ∨ v = 3 ∨ v = 4) with rfl | rfl | rfl | rfl <;> decide

example : FmReady exB ∧ GainsOk exEnv.order ∧ (∀ x, exEnv.absI x = |x|) ∧ |exB.comploaddlt| ≤ 2 := ⟨exB_fm, exOrder_ok, fun _ => rfl, by decide⟩

set_option maxRecDepth 100000 in
/-- The load of the separator goes from 2 to 1, and the imbalance from 1 to 0. -/
example : (separateFm exEnv (fun b => .ok b) ⟨10, -1⟩ 2 6 exB).map show' = .ok [0, 2, 1, 1, 1, 1, 2, 2, 4, 1, 0] := by decide +kernel

/-! ## Disagreements -/

/-- The separation `exB`, where the load of vertex 2, which is in the separator, is zero. -/
def exZ : Vgraph :=
  { exB with s := { exG with velotax := some (Arr.ofList 1 [2, 0, 1, 3]), velosum := 6 }, compload2 := 1 }

set_option maxRecDepth 100000 in
/-- `vgraphSeparateFm` finds the slot of a link from the sign of the opposite of the load of its vertex (vgraph_separate_fm.c:121–126). If the load is zero, which is a legal load, it uses a slot that does not exist. -/
theorem C29_fm_load_wrong : ∃ b : Vgraph, b.s.Consistent ∧ Alloc b ∧ Valid b ∧ separateFm exEnv (fun b => .ok b) ⟨10, -1⟩ 2 6 b = .error .oob := by
  have hc : exZ.s.Consistent := Graph.consB_sound (by decide +kernel)
  have ha : Alloc exZ := ⟨Graph.allocB_sound (by decide +kernel), by decide, by decide⟩
  refine ⟨exZ, hc, ha, ?_, by rfl⟩
  exact (Holds.elim (C29_check_partial exZ hc ha exB_parts exB_inj) (show check exZ = .ok true by decide +kernel)).1 rfl

/-- 512 vertices without neighbours, all of which are in the separator. -/
def exF : Vgraph :=
  { s := { baseval := 0, vertnbr := 512, vertnnd := 512, verttax := Arr.const 0 513 0, vendtax := none, velotax := none, velosum := 512, vnumtax := none, vlbltax := none, edgenbr := 0,
           edgetax := Arr.ofList 0 [], edlotax := none, edlosum := 0, degrmax := 0 },
    parttax := Arr.const 0 512 2, frontab := ⟨0, 512, fun i => i⟩, fronnbr := 512, compsize0 := 0, compsize1 := 0, compload0 := 0, compload1 := 0, compload2 := 512, comploaddlt := 0, dwgt0 := 1, dwgt1 := 1 }

/-- The computation reads or writes out of an array. -/
def isOob {α : Type} : M α → Bool
  | .error .oob => true
  | _ => false

theorem isOob_eq {α : Type} {x : M α} (h : isOob x = true) : x = .error .oob := by
  unfold isOob at h
  split at h
  · rfl
  · cases h

set_option maxRecDepth 1000000 in
theorem exF_run : separateFm exEnv (fun b => .ok b) ⟨10, -1⟩ 2 6 exF = .error .oob := isOob_eq (by decide +kernel)

set_option maxRecDepth 1000000 in
/-- When the hash table has too many vertices, `vgraphSeparateFmResize` first looks for a free slot, from the end of the table (vgraph_separate_fm.c:757). If the table is full, it goes on before its beginning. The size of the table is at least the
number of vertices, but may be equal to it. -/
theorem C29_fm_full_wrong : ∃ b : Vgraph, b.s.Consistent ∧ Alloc b ∧ Valid b ∧ (∀ v, b.s.Vertex v → 0 < b.s.velo v) ∧ separateFm exEnv (fun b => .ok b) ⟨10, -1⟩ 2 6 b = .error .oob := by
  have hc : exF.s.Consistent := Graph.consB_sound (by decide +kernel)
  have ha : Alloc exF := ⟨Graph.allocB_sound (by decide +kernel), by decide, by decide⟩
  refine ⟨exF, hc, ha, ?_, fun v _ => (by decide : (0 : Int) < 1), exF_run⟩
  exact (Holds.elim (C29_check_partial exF hc ha (fun _ _ => (by decide : (0 : Int) ≤ 2)) (fun i j _ _ _ _ h => h)) (show check exF = .ok true by decide +kernel)).1 rfl

end Scotch.Separ
