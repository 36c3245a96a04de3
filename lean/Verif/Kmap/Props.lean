import Verif.Kmap.LemmasTop
import Verif.Kmap.LemmasGp
import Verif.Graph.Decide
import Verif.Arch.Props

/-!
# C31, C56: static mapping by recursive bipartitioning

`graphMap`, `graphMapFixed`, `graphPart` and `graphPartFixed` are the user routines, when the strategy is recursive bipartitioning; `mapRb` is the method itself. `MapOk`,
`Follows`, `Exact`, `TieOk`, `Env.Ok` and `Mappable` are defined in `Kmap/Spec.lean`, and the laws of architectures in `Arch/Spec.lean`; they are proved for all classes of architectures by C06 to C10.
The bipartitioning method is arbitrary.
-/

set_option autoImplicit false

namespace Scotch.Kmap
open Arch

variable {D : Type} {o : ArchOps D} {n : Int} {w : Int → Int} {Valid : D → Prop} {Has : D → Int → Prop}

/-! ## C31: processors are valid, and are those decided by the bipartitions -/

/-- **C31.** Mapping a graph onto any architecture succeeds, puts every vertex on a processor of the architecture, namely the only one allowed by all the bipartitions computed on the way, whatever they are, and
writes nothing else in the user's array. -/
theorem C31_map (hA : ArchLaws o n w Valid Has) {f : Int → Int → Int} (hD : DistLaw o n f) (h00 : ∀ k, 0 ≤ k → k < n → f k k = 0) (env : Env D) (he : env.Ok) (fl : Flags) (apart : Bool) (hfl : TieOk fl apart n) (g : Graph) (hg : Mappable g)
    (junk avg : Int → Int) (parttab : Arr Int) (a1 : parttab.lo ≤ g.baseval) (a2 : g.vertnnd ≤ parttab.hi) :
    Holds (graphMap o env fl apart junk avg g parttab) fun r => r.1 = 0 ∧ MapOk o Has n env g (fun _ => -1) r.2.2 parttab r.2.1 :=
  compute_free hA hD h00 he hfl hg junk avg a1 a2 (fun _ _ => (by omega))

/-- **C31.** With fixed vertices: these keep their processors, and the others are mapped as above. Every value of the array must be `-1` or a processor; if there are both fixed and free vertices, some
fixed vertex must have a load which is not zero; there are less than `2 ^ 27` processors. -/
theorem C31_mapFixed_partial (hA : ArchLaws o n w Valid Has) (hn : n < 2 ^ 27) {f : Int → Int → Int} (hD : DistLaw o n f) (h00 : ∀ k, 0 ≤ k → k < n → f k k = 0) (env : Env D) (he : env.Ok) (fl : Flags) (apart : Bool) (hfl : TieOk fl apart n)
    (g : Graph) (hg : Mappable g) (junk avg : Int → Int) (parttab : Arr Int) (a1 : parttab.lo ≤ g.baseval) (a2 : g.vertnnd ≤ parttab.hi) (hp : ∀ v, g.Vertex v → -1 ≤ parttab.get v ∧ parttab.get v < n)
    (hld : (∀ v, g.Vertex v → 0 ≤ parttab.get v) ∨ (∀ v, g.Vertex v → parttab.get v = -1) ∨ ∃ v, g.Vertex v ∧ 0 ≤ parttab.get v ∧ g.velo v ≠ 0) :
    Holds (graphMapFixed o env fl apart junk avg g parttab) fun r => r.1 = 0 ∧ MapOk o Has n env g parttab.get r.2.2 parttab r.2.1 :=
  graphMapFixed_holds hA hn hD h00 he hfl hg junk avg a1 a2 hp hld

/-- **C31.** Partitioning a graph into `n` parts: every vertex is given a part of `[0, n)`. -/
theorem C31_part (n : Int) (hn : 1 ≤ n) (env : Env Cmplt.Dom) (he : env.Ok) (fl : Flags) (g : Graph) (hg : Mappable g) (junk avg : Int → Int) (parttab : Arr Int) (a1 : parttab.lo ≤ g.baseval) (a2 : g.vertnnd ≤ parttab.hi) :
    Holds (graphPart env fl junk avg g n parttab) fun r => r.1 = 0 ∧ MapOk (Cmplt.ops n) Cmplt.Has n env g (fun _ => -1) r.2.2 parttab r.2.1 :=
  C31_map (C06_cmplt n hn).1 (Cmplt.dist_spec n hn) (fun _ _ _ => if_pos rfl) env he fl true (Or.inl rfl) g hg junk avg parttab a1 a2

/-- **C31.** Partitioning with fixed vertices. -/
theorem C31_partFixed_partial (n : Int) (hn : 1 ≤ n) (hn2 : n < 2 ^ 27) (env : Env Cmplt.Dom) (he : env.Ok) (fl : Flags) (g : Graph) (hg : Mappable g) (junk avg : Int → Int) (parttab : Arr Int) (a1 : parttab.lo ≤ g.baseval) (a2 : g.vertnnd ≤ parttab.hi)
    (hp : ∀ v, g.Vertex v → -1 ≤ parttab.get v ∧ parttab.get v < n)
    (hld : (∀ v, g.Vertex v → 0 ≤ parttab.get v) ∨ (∀ v, g.Vertex v → parttab.get v = -1) ∨ ∃ v, g.Vertex v ∧ 0 ≤ parttab.get v ∧ g.velo v ≠ 0) :
    Holds (graphPartFixed env fl junk avg g n parttab) fun r => r.1 = 0 ∧ MapOk (Cmplt.ops n) Cmplt.Has n env g parttab.get r.2.2 parttab r.2.1 :=
  C31_mapFixed_partial (C06_cmplt n hn).1 hn2 (Cmplt.dist_spec n hn) (fun _ _ _ => if_pos rfl) env he fl true (Or.inl rfl) g hg junk avg parttab a1 a2 hp hld

/-- **C31.** With the greedy graph growing method, there is nothing to suppose about bipartitions: every consistent graph is partitioned into parts of `[0, n)`. -/
theorem C31_part_gp (n : Int) (hn : 1 ≤ n) (avgOf : Int → Int → Int → Int) (hav : ∀ s w0 w1, 0 ≤ s → 0 ≤ avgOf s w0 w1) (junk avg : Int → Int) (b : Bipart.Bgraph) (passnbr : Int) (mem : List Nat → Graph.IndMem) (al : Int) (hal : al = 1 ∨ al = 2)
    (jd : Int → Cmplt.Dom) (seq : List Nat → Bool) (pick : Nat → Nat) (order : List (Split Cmplt.Dom) → List (Split Cmplt.Dom)) (hord : ∀ l, (order l).Perm l) (fl : Flags) (g : Graph) (hg : Mappable g) (parttab : Arr Int)
    (a1 : parttab.lo ≤ g.baseval) (a2 : g.vertnnd ≤ parttab.hi) :
    Holds (graphPart ⟨gpBip (Cmplt.ops n) avgOf junk b passnbr, mem, al, jd, seq, order, pick⟩ fl junk avg g n parttab) fun r => r.1 = 0 ∧ (∀ v, g.Vertex v → 0 ≤ r.2.1.get v ∧ r.2.1.get v < n) ∧ ∀ v, ¬ g.Vertex v → r.2.1.get v = parttab.get v := by
  refine (C31_part n hn _ ⟨?_, hal, hord⟩ fl g hg junk avg parttab a1 a2).mono ?_
  · exact gpBip_ok _ (fun d0 d1 => by trivial) (fun d => by trivial) avgOf hav junk b passnbr
  · rintro r ⟨h, m⟩
    exact ⟨h, m.range, m.rest⟩

/-! ## C56: frontier and cost of a mapping -/

/-- **C56.** After recursive bipartitioning, vertices are in the same part if and only if they are on the same processor; the communication cost is the sum over pairs of vertices of the load of the edge between them times the distance between
their processors; the frontier lists, once each, the vertices that have a neighbour on another processor; the imbalance of each part is the sum of the loads of its vertices minus the requested load. -/
theorem C56_cost (hA : ArchLaws o n w Valid Has) {f : Int → Int → Int} (hD : DistLaw o n f) (h00 : ∀ k, 0 ≤ k → k < n → f k k = 0) (env : Env D) (he : env.Ok) (fl : Flags) (apart : Bool) (hfl : TieOk fl apart n) (fuel : Nat) (hf : 4 * n ≤ fuel)
    (g : Graph) (hg : Mappable g) (junk avg : Int → Int) : Holds (do
      let domnorg ← o.frst
      mapRb o env fl apart fuel junk avg g domnorg 0 none) fun r => r.1 = 0 ∧ ∃ proc, Exact Has f g avg proc r.2.1 ∧ ∀ v, g.Vertex v → 0 ≤ proc v ∧ proc v < n ∧ Follows Has n r.2.2 v (proc v) := by
  rw [Holds_bind]
  refine hA.frst.mono ?_
  rintro d ⟨d1, d2⟩
  refine (mapRb_free hA hD h00 he hfl hf hg.cons hg.alloc hg.base hg.vnum d1 d2 junk avg).mono ?_
  rintro r ⟨h, proc, p1, -, p2⟩
  exact ⟨h, proc, p1, p2⟩

/-- **C56.** The same with fixed vertices. -/
theorem C56_costFixed_partial (hA : ArchLaws o n w Valid Has) (hn : n < 2 ^ 27) {f : Int → Int → Int} (hD : DistLaw o n f) (h00 : ∀ k, 0 ≤ k → k < n → f k k = 0) (env : Env D) (he : env.Ok) (fl : Flags) (apart : Bool) (hfl : TieOk fl apart n) (fuel : Nat) (hf : 4 * n ≤ fuel)
    (g : Graph) (hg : Mappable g) (junk avg : Int → Int) (pfix : Arr Int) (p1 : pfix.lo ≤ g.baseval) (p2 : g.vertnnd ≤ pfix.hi) (hp : ∀ v, g.Vertex v → pfix.get v < n) (hld : ∃ v, g.Vertex v ∧ 0 ≤ pfix.get v ∧ g.velo v ≠ 0) : Holds (do
      let domnorg ← o.frst
      mapRb o env fl apart fuel junk avg g domnorg (fixedNbr g pfix.get) (some pfix)) fun r => r.1 = 0 ∧ ∃ proc, Exact Has f g avg proc r.2.1 ∧
        (∀ v, g.Vertex v → pfix.get v < 0 → 0 ≤ proc v ∧ proc v < n ∧ Follows Has n r.2.2 v (proc v)) ∧ ∀ v, g.Vertex v → 0 ≤ pfix.get v → proc v = pfix.get v := by
  rw [Holds_bind]
  refine hA.frst.mono ?_
  rintro d ⟨d1, d2⟩
  refine (mapRb_fixed hA hn hD h00 he hfl hf hg.cons hg.alloc hg.base hg.vnum d1 d2 junk avg p1 p2 hp hld).mono ?_
  rintro r ⟨h, proc, q1, -, q2, q3⟩
  exact ⟨h, proc, q1, q2, q3⟩

/-! ## Cases -/

/-- A bipartitioning method that puts one vertex out of two in part 1. -/
def altBip {D : Type} (_ : List Nat) (g : Graph) (_ _ : D) : M (Option (Arr Int × Int)) :=
  let part : Arr Int := ⟨g.baseval, g.vertnnd, fun v => (v - g.baseval) % 2⟩
  return some (part, ((ofPart g part 0).length : Int))

theorem altBip_ok {D : Type} : BipOk (D := D) altBip := by
  intro p g d0 d1 hc ha hb
  refine ⟨_, _, rfl, Int.le_refl _, Int.le_refl _, ?_, rfl⟩
  intro v hv
  show (v - g.baseval) % 2 = 0 ∨ (v - g.baseval) % 2 = 1
  omega

/-- Memory filled with zeros; terminal domains are recorded in reverse order. -/
def exEnv : Env Cmplt.Dom := ⟨altBip, fun _ => ⟨fun _ => 0, fun _ => 0, fun _ => 0, fun _ => 0⟩, 1, fun _ => ⟨7, 9⟩, fun _ => true, fun l => l.reverse, fun k => k⟩

theorem exEnv_ok : exEnv.Ok := ⟨altBip_ok, Or.inl rfl, fun l => l.reverse_perm⟩

/-- Path 1 – 2 – 3 – 4. -/
def exP : Graph := ⟨1, 4, 5, Arr.ofList 1 [1, 2, 4, 6, 7], none, none, 4, none, none, 6, Arr.ofList 1 [2, 1, 3, 2, 4, 3], none, 6, 2⟩

theorem exP_ok : Mappable exP := ⟨Graph.consB_sound (by decide +kernel), Graph.allocB_sound (by decide +kernel), by decide, rfl⟩

/-- Error code and contents of the array. -/
def out {D : Type} (r : M (Int × Arr Int × List (Cut D))) : M (Int × List Int) := r.map fun x => (x.1, x.2.1.toList)

/-- Hypotheses of `C31_map`, on a two-dimensional mesh. -/
example : ArchLaws (Mesh.ops2 2 3) (Mesh.total [2, 3]) (fun _ => 1) (Mesh.Valid [2, 3]) (Mesh.Has [2, 3]) ∧ TieOk ⟨true, true⟩ false (Mesh.total [2, 3]) ∧ exEnv.Ok ∧ Mappable exP :=
  ⟨(C08_mesh2 2 3 (by decide) (by decide)).1, Or.inr (Or.inl rfl), exEnv_ok, exP_ok⟩

example : out (graphPart exEnv ⟨true, true⟩ (fun _ => 99) (fun _ => 0) exP 3 (Arr.ofList 1 [8, 8, 8, 8])) = .ok (0, [0, 1, 0, 2]) := by decide +kernel
example : out (graphMap (Cmplt.ops 3) exEnv ⟨true, false⟩ false (fun _ => 99) (fun _ => 0) exP (Arr.ofList 1 [8, 8, 8, 8])) = .ok (0, [0, 1, 0, 2]) := by decide +kernel
example : out (graphMap (Cmplt.ops 3) exEnv ⟨false, true⟩ false (fun _ => 99) (fun _ => 0) exP (Arr.ofList 1 [8, 8, 8, 8])) = .ok (0, [0, 1, 0, 2]) := by decide +kernel
example : out (graphPartFixed exEnv ⟨true, true⟩ (fun _ => 99) (fun _ => 0) exP 3 (Arr.ofList 1 [-1, -1, 1, 2])) = .ok (0, [0, 1, 1, 2]) := by decide +kernel

/-- Cost and frontier of this mapping: the edge 1 – 2 and the edge 3 – 4 and the edge 2 – 3 are cut. -/
example : (mapRb (Cmplt.ops 3) exEnv ⟨true, true⟩ true 16 (fun _ => 99) (fun _ => 0) exP ⟨0, 3⟩ 0 none).map (fun r => (r.2.1.commload, r.2.1.fronnbr)) = .ok (3, 4) := by decide +kernel

/-! ## What goes wrong -/

/-- When neither the pools nor the maps are tied (`job=u,map=u`), the domains of the mapping are not all updated: vertices are put on processors that do not exist. -/
theorem C31_untied : ∃ a : Arr Int, out (graphMap (Cmplt.ops 3) exEnv ⟨false, false⟩ false (fun _ => 99) (fun _ => 0) exP a) = .ok (0, [7, 1, 7, 2]) :=
  ⟨Arr.ofList 1 [8, 8, 8, 8], by decide +kernel⟩

/-- When maps are not tied (`map=u`) and there is only one processor, the domain that is read has never been written. -/
theorem C31_untied_one : ∀ k : Int, graphMap (Cmplt.ops 1) { exEnv with junk := fun _ => ⟨k, 1⟩ } ⟨true, false⟩ false (fun _ => 99) (fun _ => 0) exP (Arr.ofList 1 [8, 8, 8, 8]) >>= (fun r => r.2.1.rd 1) = .ok k := by
  intro k
  rfl

/-- Ten vertices without edges, the first of which has load 1 and the others load 0. -/
def exZ : Graph := ⟨0, 10, 10, ⟨0, 11, fun _ => 0⟩, none, some (Arr.ofList 0 [1, 0, 0, 0, 0, 0, 0, 0, 0, 0]), 1, none, none, 0, Arr.ofList 0 [], none, 0, 0⟩

/-- When all fixed vertices have zero loads, the hash table of their processors may be too small: the search in it does not end. -/
theorem C31_fixed_loops : Mappable exZ ∧ graphPartFixed exEnv ⟨true, true⟩ (fun _ => 99) (fun _ => 0) exZ 9 (Arr.ofList 0 [-1, 0, 1, 2, 3, 4, 5, 6, 7, 8]) = .error .fuel := by
  refine ⟨⟨Graph.consB_sound (by decide +kernel), Graph.allocB_sound (by decide +kernel), by decide, rfl⟩, ?_⟩
  have h : out (graphPartFixed exEnv ⟨true, true⟩ (fun _ => 99) (fun _ => 0) exZ 9 (Arr.ofList 0 [-1, 0, 1, 2, 3, 4, 5, 6, 7, 8])) = .error .fuel := by decide +kernel
  unfold out at h
  cases hr : graphPartFixed exEnv ⟨true, true⟩ (fun _ => 99) (fun _ => 0) exZ 9 (Arr.ofList 0 [-1, 0, 1, 2, 3, 4, 5, 6, 7, 8]) with
  | ok x => rw [hr] at h; cases h
  | error e => rw [hr] at h; injection h with h; rw [h]

/-- Any value that is not `-1` counts as that of a fixed vertex, but only non-negative ones are processed as such: a value of `-2` makes the number of free vertices wrong, hence a write out of the bounds of the subgraph. -/
theorem C31_fixed_negative : out (graphPartFixed exEnv ⟨true, true⟩ (fun _ => 99) (fun _ => 0) exP 3 (Arr.ofList 1 [-1, -2, -1, 2])) = .error .oob := by decide +kernel

/-- When a bipartition fails, the mapping is used all the same although it has not been computed. -/
theorem C31_failure_oob : out (graphPart { exEnv with bip := fun _ _ _ _ => .ok none } ⟨true, true⟩ (fun _ => 99) (fun _ => 0) exP 3 (Arr.ofList 1 [8, 8, 8, 8])) = .error .oob := by decide +kernel

/-- A graph that is a subgraph of another one, as made by `SCOTCH_graphInducePart`, is mapped according to vertex numbers in the other graph: out of bounds, … -/
theorem C31_subgraph_oob : out (graphPart exEnv ⟨true, true⟩ (fun _ => 99) (fun _ => 0) { exP with vnumtax := some (Arr.ofList 1 [7, 8, 9, 10]) } 3 (Arr.ofList 1 [8, 8, 8, 8])) = .error .oob := by decide +kernel

/-- … or with the parts of other vertices. -/
theorem C31_subgraph_wrong : out (graphPart exEnv ⟨true, true⟩ (fun _ => 0) (fun _ => 0) { exP with vnumtax := some (Arr.ofList 1 [4, 3, 2, 1]) } 3 (Arr.ofList 1 [8, 8, 8, 8])) = .ok (0, [2, 0, 1, 0]) := by decide +kernel

end Scotch.Kmap
