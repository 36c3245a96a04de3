import Verif.Graph.Spec
import Verif.Seg

/-!
# Graphs built vertex after vertex, in compact form and without edge loads

Facts used for the routines that write adjacency lists one after the other.
-/

set_option autoImplicit false
set_option linter.unusedSimpArgs false

namespace Scotch.Graph

/-- Adjacency lists `adj` of vertices `[base, v)` have been written; the next arc index is `num`. -/
structure Lists {α : Type} (base v : Int) (adj : Int → List α) (vert : Int → Int) (edge : Int → α) (num : Int) : Prop where
  next : num = base + sumI base v (fun u => (adj u).length)
  start : ∀ u, base ≤ u → u < v → vert u = base + sumI base u (fun u => (adj u).length)
  lists : ∀ u, base ≤ u → u < v → seg edge (vert u) (vert u + (adj u).length) = adj u

section
variable {α : Type} {base v num : Int} {adj : Int → List α} {vert : Int → Int} {edge : Int → α}

theorem Lists.init (base : Int) (adj : Int → List α) (vert : Int → Int) (edge : Int → α) : Lists base base adj vert edge base :=
  ⟨by rw [sumI_empty (Int.le_refl _)]; omega, fun u h1 h2 => by omega, fun u h1 h2 => by omega⟩

theorem len_mono {u w : Int} (h1 : base ≤ u) (h2 : u < w) : sumI base u (fun u => ((adj u).length : Int)) + (adj u).length ≤ sumI base w (fun u => ((adj u).length : Int)) := by
  rw [← sumI_succ h1 (fun u => ((adj u).length : Int)), sumI_split (lo := base) (mid := u + 1) (hi := w) (by omega) (by omega) (fun u => ((adj u).length : Int))]
  have := sumI_nonneg (lo := u + 1) (hi := w) (f := fun u => ((adj u).length : Int)) (fun i _ _ => by omega)
  omega

theorem len_nonneg (u : Int) : 0 ≤ sumI base u (fun u => ((adj u).length : Int)) := sumI_nonneg (fun i _ _ => by omega)

/-- One more vertex. -/
theorem Lists.step (L : Lists base v adj vert edge num) (hv : base ≤ v) {vert' : Int → Int} {edge' : Int → α} {num' : Int} (h1 : ∀ u, u ≠ v → vert' u = vert u) (h2 : vert' v = num) (h3 : ∀ x, x < num → edge' x = edge x)
    (h4 : num ≤ num') (h5 : seg edge' num num' = adj v) : Lists base (v + 1) adj vert' edge' num' := by
  have hl := seg_length edge' h4
  rw [h5] at hl
  refine ⟨?_, ?_, ?_⟩
  · rw [sumI_succ hv]; have := L.next; omega
  · intro u u1 u2
    by_cases e : u = v
    · rw [e, h2]; exact L.next
    · rw [h1 u e]; exact L.start u u1 (by omega)
  · intro u u1 u2
    by_cases e : u = v
    · rw [e, h2, show num + ((adj v).length : Int) = num' by omega]; exact h5
    · rw [h1 u e]
      refine Eq.trans (seg_congr ?_) (L.lists u u1 (by omega))
      intro i _ i2
      apply h3
      have := L.start u u1 (by omega)
      have := L.next
      have := len_mono (adj := adj) u1 (show u < v by omega)
      omega

end

/-- A compact graph without edge loads whose adjacency lists are `adj`. -/
structure IsLists (g : Graph) (adj : Int → List Int) : Prop where
  nbr : 0 ≤ g.vertnbr
  nnd : g.vertnnd = g.baseval + g.vertnbr
  compact : g.vendtax = none
  noedlo : g.edlotax = none
  lists : Lists g.baseval g.vertnnd adj g.verttax.get g.edgetax.get (g.baseval + g.edgenbr)
  last : g.verttax.get g.vertnnd = g.baseval + g.edgenbr
  edlosum : g.edlosum = g.edgenbr
  degrmax : 0 ≤ g.degrmax ∧ ∀ v, g.Vertex v → ((adj v).length : Int) ≤ g.degrmax

variable {g : Graph} {base : Int} {adj : Int → List Int}

theorem IsLists.next (L : IsLists g adj) {v : Int} (hv : g.Vertex v) : g.vert v = g.baseval + sumI g.baseval v (fun u => (adj u).length) ∧ g.vend v = g.vert v + (adj v).length := by
  have h1 := hv.1
  have h2 := hv.2
  have e1 : g.vert v = g.baseval + sumI g.baseval v (fun u => (adj u).length) := L.lists.start v h1 h2
  refine ⟨e1, ?_⟩
  have : g.vend v = g.verttax.get (v + 1) := by unfold vend; rw [L.compact]
  rw [this, e1, Int.add_assoc, ← sumI_succ h1 (fun u => ((adj u).length : Int))]
  by_cases e : v + 1 = g.vertnnd
  · rw [e, L.last, L.lists.next]
  · exact L.lists.start (v + 1) (by omega) (by omega)

theorem IsLists.nbrs (L : IsLists g adj) {v : Int} (hv : g.Vertex v) : g.nbrs v = (adj v).map fun w => (w, 1) := by
  have h := L.lists.lists v hv.1 hv.2
  obtain ⟨-, e2⟩ := L.next hv
  have e1 : seg g.edgetax.get (g.vert v) (g.vend v) = adj v := by rw [e2]; exact h
  rw [← e1, seg_map]
  unfold Graph.nbrs arcs seg
  rw [List.map_map]
  apply List.map_congr_left
  intro k _
  show (g.dest _, g.edlo _) = (g.edgetax.get _, 1)
  unfold dest edlo
  rw [L.noedlo]

theorem IsLists.mem (L : IsLists g adj) {v : Int} (hv : g.Vertex v) (w l : Int) : (w, l) ∈ g.nbrs v ↔ w ∈ adj v ∧ l = 1 := by
  rw [L.nbrs hv, List.mem_map]
  constructor
  · rintro ⟨x, h1, h2⟩
    rw [Prod.mk.injEq] at h2
    rw [← h2.1, ← h2.2]; exact ⟨h1, rfl⟩
  · rintro ⟨h1, rfl⟩
    exact ⟨w, h1, rfl⟩

theorem IsLists.consistent (L : IsLists g adj) (hin : ∀ v, g.Vertex v → ∀ w ∈ adj v, g.Vertex w ∧ w ≠ v ∧ v ∈ adj w) (hnd : ∀ v, g.Vertex v → (adj v).Nodup) (hvelo : ∀ v, g.Vertex v → 0 ≤ g.velo v)
    (hsum : g.velosum = sumI g.baseval g.vertnnd g.velo) : g.Consistent := by
  have hlen : ∀ v, g.Vertex v → (g.nbrs v).length = (adj v).length := by
    intro v hv; rw [L.nbrs hv, List.length_map]
  have hnum := L.lists.next
  refine ⟨L.nbr, L.nnd, ?_, ?_, ?_, ?_, ?_, hvelo, hsum, ?_, ?_, L.degrmax.1, ?_⟩
  · intro v hv
    obtain ⟨e1, e2⟩ := L.next hv
    have := len_nonneg (base := g.baseval) (adj := adj) v
    omega
  · rintro v ⟨w, l⟩ hv hp
    obtain ⟨m1, -⟩ := (L.mem hv w l).1 hp
    obtain ⟨b1, b2, -⟩ := hin v hv w m1
    exact ⟨b1, b2⟩
  · rintro v ⟨w, l⟩ hv hp
    obtain ⟨m1, m2⟩ := (L.mem hv w l).1 hp
    obtain ⟨b1, -, b3⟩ := hin v hv w m1
    exact (L.mem b1 v l).2 ⟨b3, m2⟩
  · intro v hv
    rw [L.nbrs hv, List.map_map]
    have : (Prod.fst ∘ fun w : Int => (w, (1 : Int))) = id := rfl
    rw [this, List.map_id]
    exact hnd v hv
  · rw [show g.edgenbr = sumI g.baseval g.vertnnd (fun u => (adj u).length) by omega]
    refine sumI_congr ?_
    intro i i1 i2
    rw [hlen i ⟨i1, i2⟩]
  · rintro v ⟨w, l⟩ hv hp
    obtain ⟨-, m2⟩ := (L.mem hv w l).1 hp
    dsimp only; omega
  · rw [L.edlosum, show g.edgenbr = sumI g.baseval g.vertnnd (fun u => (adj u).length) by omega]
    refine sumI_congr ?_
    intro i i1 i2
    rw [L.nbrs ⟨i1, i2⟩, List.map_map]
    have : (Prod.snd ∘ fun w : Int => (w, (1 : Int))) = fun _ => 1 := rfl
    rw [this]
    simp
  · intro v hv
    rw [hlen v hv]
    exact L.degrmax.2 v hv

theorem IsLists.allocated (L : IsLists g adj) (h1 : g.verttax.lo ≤ g.baseval) (h2 : g.vertnnd + 1 ≤ g.verttax.hi) (h3 : g.edgetax.lo ≤ g.baseval) (h4 : g.baseval + g.edgenbr ≤ g.edgetax.hi)
    (h5 : ∀ a, g.velotax = some a → a.lo ≤ g.baseval ∧ g.vertnnd ≤ a.hi) (h6 : g.vnumtax = none) (h7 : g.vlbltax = none) : g.Allocated := by
  refine ⟨h1, by omega, fun _ => h2, ?_, h5, ?_, ?_, ?_, ?_⟩
  · intro a h; rw [L.compact] at h; cases h
  · intro a h; rw [h6] at h; cases h
  · intro a h; rw [h7] at h; cases h
  · intro v hv _
    obtain ⟨e1, e2⟩ := L.next hv
    have a1 := len_nonneg (base := g.baseval) (adj := adj) v
    have a2 := len_mono (adj := adj) hv.1 hv.2
    have := L.lists.next
    omega
  · intro a h; rw [L.noedlo] at h; cases h

end Scotch.Graph
