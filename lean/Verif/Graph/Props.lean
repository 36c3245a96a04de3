import Verif.Graph.LemmasCheck
import Verif.Graph.LemmasEven
import Verif.Graph.LemmasCheckSafe
import Verif.Graph.LemmasBase
import Verif.Graph.LemmasInduce3

/-!
# Graphs: properties C13 to C16

`Consistent` (Spec.lean) is what the manual requires of a graph; `Allocated` says that the arrays of the graph cover its
vertices and arcs; `nbrs` is the list of neighbours of a vertex, with edge loads.
-/

set_option autoImplicit false

namespace Scotch.Graph

/-! ### C13, C14: the checker decides consistency -/

/-- C13: a graph accepted by the checker is consistent. No hypothesis on the graph. -/
theorem C13_check_sound (g : Graph) (numMax : Int) (h : g.check numMax = .ok true) : Consistent g := by
  have := check_sound (g := g) (numMax := numMax)
  rw [h] at this
  exact consE_iff.1 (this rfl)

/-- C13, memory: the checker never reads outside of the arrays of a graph, consistent or not, provided that the ranges of
arcs of its vertices are within its arrays; its only possible fault is the overflow of a sum of loads. -/
theorem C13_check_safe (g : Graph) (numMax : Int) (ha : Allocated g) :
    (∃ b, g.check numMax = .ok b) ∨ g.check numMax = .error .overflow := by
  have := check_safe (numMax := numMax) ha
  generalize g.check numMax = x at this
  cases x with
  | ok b => exact Or.inl ⟨b, rfl⟩
  | error e => exact Or.inr (by rw [show e = .overflow from this])

/-- C14: all consistent graphs are accepted, whatever the type of integers, provided that the sums of loads
can be represented. In particular the checker neither reads out of bounds nor overflows on them. -/
theorem C14_check_complete (g : Graph) (numMax : Int) (hc : Consistent g) (ha : Allocated g) (hv : g.velosum ≤ numMax)
    (he : g.edlosum ≤ numMax) : g.check numMax = .ok true :=
  check_complete (consE_iff.2 hc) (consE_iff.2 hc).even ha hv he

/-- C13 and C14 together: on graphs in memory whose sums fit, the checker never fails, and its verdict is
consistency. -/
theorem C14_check_iff (g : Graph) (numMax : Int) (ha : Allocated g) (hv : g.velosum ≤ numMax) (he : g.edlosum ≤ numMax) :
    g.check numMax = .ok true ↔ Consistent g :=
  ⟨C13_check_sound g numMax, fun hc => C14_check_complete g numMax hc ha hv he⟩

/-- Path 1–2–3 with loads, of base 1, the arcs of vertex 3 being stored first, with a hole. -/
def exPath : Graph where
  baseval := 1
  vertnbr := 3
  vertnnd := 4
  verttax := Arr.ofList 1 [3, 4, 1]
  vendtax := some (Arr.ofList 1 [4, 6, 2])
  velotax := some (Arr.ofList 1 [5, 0, 7])
  velosum := 12
  vnumtax := none
  vlbltax := some (Arr.ofList 1 [10, 20, 30])
  edgenbr := 4
  edgetax := Arr.ofList 1 [2, 99, 2, 3, 1]
  edlotax := some (Arr.ofList 1 [8, 99, 6, 8, 6])
  edlosum := 28
  degrmax := 2

theorem exPath_check : exPath.check 2147483647 = .ok true := by decide +kernel

theorem exPath_cons : Consistent exPath := C13_check_sound _ _ exPath_check

theorem exPath_alloc : Allocated exPath := by
  refine ⟨by decide, by decide, fun h => (by cases h), ?_, ?_, ?_, ?_, ?_, ?_⟩
  · rintro a ⟨⟩; decide
  · rintro a ⟨⟩; decide
  · rintro a ⟨⟩
  · rintro a ⟨⟩; decide
  · rintro v ⟨h1, h2⟩ _
    have h1 : 1 ≤ v := h1
    have h2 : v < 4 := h2
    have : v = 1 ∨ v = 2 ∨ v = 3 := by omega
    rcases this with rfl | rfl | rfl <;> decide
  · rintro a ⟨⟩ v ⟨h1, h2⟩ _
    have h1 : 1 ≤ v := h1
    have h2 : v < 4 := h2
    have : v = 1 ∨ v = 2 ∨ v = 3 := by omega
    rcases this with rfl | rfl | rfl <;> decide

theorem exPath_disjoint : Disjoint exPath := by
  intro v w e ⟨h1, h2⟩ ⟨h3, h4⟩ h5 h6
  rw [mem_arcs] at h5 h6
  have h1 : 1 ≤ v := h1
  have h2 : v < 4 := h2
  have h3 : 1 ≤ w := h3
  have h4 : w < 4 := h4
  have a1 : exPath.vert 1 = 3 := by decide
  have a2 : exPath.vert 2 = 4 := by decide
  have a3 : exPath.vert 3 = 1 := by decide
  have b1 : exPath.vend 1 = 4 := by decide
  have b2 : exPath.vend 2 = 6 := by decide
  have b3 : exPath.vend 3 = 2 := by decide
  have hv : v = 1 ∨ v = 2 ∨ v = 3 := by omega
  have hw : w = 1 ∨ w = 2 ∨ w = 3 := by omega
  rcases hv with rfl | rfl | rfl <;> rcases hw with rfl | rfl | rfl <;> omega

/-- The hypotheses of C14 are met by a graph with loads and labels, which is not compact. -/
example : Consistent exPath ∧ Allocated exPath ∧ exPath.velosum ≤ 2147483647 ∧ exPath.edlosum ≤ 2147483647 :=
  ⟨exPath_cons, exPath_alloc, by decide, by decide⟩

/-- A wrong load on one side of an edge, and a missing reverse arc, are rejected. -/
example : { exPath with edlotax := some (Arr.ofList 1 [8, 99, 6, 9, 6]) }.check 2147483647 = .ok false := by
  decide +kernel
example : { exPath with edgetax := Arr.ofList 1 [1, 99, 2, 3, 1] }.check 2147483647 = .ok false := by decide +kernel

/-- C13, limit: the overflow test of the checker is made after the addition, so that it relies on an
undefined behaviour; on a graph whose sum of vertex loads does not fit, the checker overflows. -/
theorem C13_check_overflows : { exPath with velotax := some (Arr.ofList 1 [2147483647, 1, 0]) }.check 2147483647
    = .error .overflow := by decide +kernel

/-! ### C15: changing the base -/

/-- `g'` is `g`, with vertices and arcs renumbered from another base. -/
structure SameUpToBase (g g' : Graph) (b : Int) : Prop where
  baseval : g'.baseval = b
  vertnbr : g'.vertnbr = g.vertnbr
  nbrs : ∀ v, g.Vertex v →
    g'.nbrs (v + (b - g.baseval)) = (g.nbrs v).map fun p => (p.1 + (b - g.baseval), p.2)
  velo : ∀ v, g.Vertex v → g'.velo (v + (b - g.baseval)) = g.velo v
  vlbl : ∀ a, g.vlbltax = some a → ∃ a', g'.vlbltax = some a' ∧ ∀ v, a'.get (v + (b - g.baseval)) = a.get v
  vnum : ∀ a, g.vnumtax = some a → ∃ a', g'.vnumtax = some a' ∧ ∀ v, a'.get (v + (b - g.baseval)) = a.get v
  sums : g'.velosum = g.velosum ∧ g'.edgenbr = g.edgenbr ∧ g'.edlosum = g.edlosum ∧ g'.degrmax = g.degrmax

/-- C15: changing the base of a consistent graph returns the old base, yields the same graph with renumbered vertices,
which is consistent, and changing the base back restores the very same graph. -/
theorem C15_base (g : Graph) (b : Int) (hc : Consistent g) (ha : Allocated g) (hd : Disjoint g) :
    ∃ g', g.base b = .ok (g', g.baseval) ∧ SameUpToBase g g' b ∧ Consistent g' ∧ Allocated g' ∧ Disjoint g' ∧
      g'.base g.baseval = .ok (g, b) := by
  by_cases hb : b = g.baseval
  · subst hb
    have e : g.base g.baseval = .ok (g, g.baseval) := by unfold base; rw [if_pos rfl]; rfl
    refine ⟨g, e, ⟨rfl, rfl, ?_, ?_, ?_, ?_, rfl, rfl, rfl, rfl⟩, hc, ha, hd, e⟩
    · intro v _; simp
    · intro v _; simp
    · intro a h; exact ⟨a, h, fun v => by simp⟩
    · intro a h; exact ⟨a, h, fun v => by simp⟩
  · have hn : g.baseval ≤ g.vertnnd := by
      have := hc.vertnnd
      have := hc.vertnbr
      omega
    refine ⟨_, base_spec b hb hn ha hd, ⟨?_, rfl, ?_, ?_, ?_, ?_, rfl, rfl, rfl, rfl⟩, rebased_cons hc, rebased_alloc ha,
      rebased_disj hd, ?_⟩
    · show g.baseval + (b - g.baseval) = b; omega
    · intro v hv; exact rebased_nbrs hv
    · intro v hv; exact rebased_velo v
    · intro a h
      refine ⟨a.shift (b - g.baseval), by show g.vlbltax.map _ = _; rw [h]; rfl, fun v => ?_⟩
      show a.get (v + (b - g.baseval) - (b - g.baseval)) = _
      congr 1; omega
    · intro a h
      refine ⟨a.shift (b - g.baseval), by show g.vnumtax.map _ = _; rw [h]; rfl, fun v => ?_⟩
      show a.get (v + (b - g.baseval) - (b - g.baseval)) = _
      congr 1; omega
    · have e : (g.rebased (b - g.baseval)).baseval = b := by
        show g.baseval + (b - g.baseval) = b; omega
      rw [base_spec (g := g.rebased (b - g.baseval)) g.baseval (by rw [e]; exact fun h => hb h.symm) _
        (rebased_alloc ha) (rebased_disj hd)]
      · rw [e, show g.baseval - b = -(b - g.baseval) by omega, rebased_back]
      · show g.baseval + _ ≤ g.vertnnd + _
        omega

/-- The hypotheses of C15 are met by a graph which is not compact. -/
example : Consistent exPath ∧ Allocated exPath ∧ Disjoint exPath := ⟨exPath_cons, exPath_alloc, exPath_disjoint⟩

/-- Compact graphs meet the hypothesis that no arc belongs to two vertices. -/
theorem disjoint_of_compact (g : Graph) (hc : Consistent g) (h : g.vendtax = none) : Disjoint g := by
  have hvend : ∀ v, g.vend v = g.vert (v + 1) := by intro v; unfold vend vert; rw [h]
  have mono : ∀ (k : Nat) v, g.Vertex v → v + k ≤ g.vertnnd → g.vert v ≤ g.vert (v + k) := by
    intro k
    induction k with
    | zero => intro v _ _; simp
    | succ k ih =>
      intro v hv hk
      have h1 := ih v hv (by omega)
      have h2 := (hc.range (v + k) ⟨by have := hv.1; omega, by omega⟩).2
      rw [hvend] at h2
      rw [show v + ((k + 1 : Nat) : Int) = v + k + 1 by omega]
      omega
  have key : ∀ v w e, g.Vertex v → g.Vertex w → v < w → g.vert w ≤ e → e < g.vend v → False := by
    intro v w e hv hw hlt h1 h2
    have h3 := mono (w - (v + 1)).toNat (v + 1) ⟨by have := hv.1; omega, ?_⟩ (by have := hw.2; omega)
    · rw [show v + 1 + ((w - (v + 1)).toNat : Int) = w by omega] at h3
      rw [hvend] at h2
      omega
    · have := hw.2
      omega
  intro v w e hv hw h1 h2
  rw [mem_arcs] at h1 h2
  by_contra hne
  rcases Int.lt_or_gt_of_ne hne with hlt | hlt
  · exact key v w e hv hw hlt h2.1 h1.2
  · exact key w v e hw hv hlt h1.1 h2.2

/-- Path 0–1–2 in which vertices 0 and 2, which have the same neighbour, share an arc. -/
def exShared : Graph where
  baseval := 0
  vertnbr := 3
  vertnnd := 3
  verttax := Arr.ofList 0 [0, 1, 0]
  vendtax := some (Arr.ofList 0 [1, 3, 1])
  velotax := none
  velosum := 3
  vnumtax := none
  vlbltax := none
  edgenbr := 4
  edgetax := Arr.ofList 0 [1, 0, 2]
  edlotax := none
  edlosum := 4
  degrmax := 2

/-- C15, limit: graphs in which vertices share arc indices are accepted by the checker, but changing their base
adjusts shared arcs twice, so that the graph is not consistent any more. -/
theorem C15_base_shared_arcs : exShared.check 2147483647 = .ok true ∧
    (do (← exShared.base 1).1.check 2147483647) = .ok false := by decide +kernel

/-! ### C16: induced subgraphs -/

/-- C16, lists: given distinct vertices of a consistent graph, whatever the contents of fresh memory, the subgraph
induced by these vertices, and no other graph, is built; it is consistent. No access is out of bounds, both for 32-bit and for
64-bit integers (`al` = 2 or 1), although arrays overlap in the same memory block. -/
theorem C16_induceList (g : Graph) (hc : Consistent g) (ha : Allocated g) (hb : 0 ≤ g.baseval) (al : Int)
    (hal : al = 1 ∨ al = 2) (m : IndMem) (l : List Int) (hnd : l.Nodup) (hl : ∀ v ∈ l, g.Vertex v) :
    Holds (induceList al g m l.length (Arr.ofList 0 l)) fun g' => InducedBy g l g' ∧ Consistent g' ∧ Allocated g' :=
  induceList_holds hc ha hb hal m l hnd hl

/-- C16, parts: the same, for the vertices of a part, which are kept in ascending order. -/
theorem C16_inducePart (g : Graph) (hc : Consistent g) (ha : Allocated g) (hb : 0 ≤ g.baseval) (al : Int)
    (hal : al = 1 ∨ al = 2) (m : IndMem) (parttax : Arr Int) (hpt : parttax.lo ≤ g.baseval ∧ g.vertnnd ≤ parttax.hi)
    (partval : Int) (l : List Int)
    (hl : l = (seg id g.baseval g.vertnnd).filter fun v => decide (parttax.get v = partval)) :
    Holds (inducePart al g m parttax l.length partval) fun g' => InducedBy g l g' ∧ Consistent g' ∧ Allocated g' := by
  subst hl
  exact inducePart_holds hc ha hb hal m parttax hpt partval

/-- The hypotheses of C16 are met, and the subgraph induced by vertices 3 and 2 has one edge, of load 8. -/
example : Consistent exPath ∧ Allocated exPath ∧ 0 ≤ exPath.baseval ∧ [3, 2].Nodup ∧ ∀ v ∈ [3, 2], exPath.Vertex v :=
  ⟨exPath_cons, exPath_alloc, by decide, by decide, by
    intro v hv
    have : v = 3 ∨ v = 2 := by simpa using hv
    rcases this with rfl | rfl <;> exact ⟨by decide, by decide⟩⟩

example : (do
    let g ← induceList 2 exPath ⟨id, id, id, id⟩ 2 (Arr.ofList 0 [3, 2])
    return (g.nbrs 1, g.nbrs 2, g.velo 1, g.velo 2)) = .ok ([(2, 8)], [(1, 8)], 7, 0) := by decide +kernel

/-- C16, limit: vertices must be distinct; this is not checked. When the same vertex is given several times, arcs may
be written beyond the memory block. -/
theorem C16_induceList_duplicates :
    (do let g ← induceList 1 exPath ⟨id, id, id, id⟩ 6 (Arr.ofList 0 [1, 3, 2, 2, 2, 2]); return g.vertnbr) = .error .oob := by
  decide +kernel

end Scotch.Graph
