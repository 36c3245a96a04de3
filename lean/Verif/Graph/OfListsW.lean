import Verif.Graph.OfLists

/-!
# Graphs built vertex after vertex, in compact form and with edge loads
-/

set_option autoImplicit false
set_option linter.unusedSimpArgs false

namespace Scotch.Graph

/-- A compact graph with edge loads whose adjacency lists are `adj`: pairs of a vertex and a load. -/
structure IsListsW (g : Graph) (lo : Int → Int) (adj : Int → List (Int × Int)) : Prop where
  nbr : 0 ≤ g.vertnbr
  nnd : g.vertnnd = g.baseval + g.vertnbr
  compact : g.vendtax = none
  edlo : ∃ a, g.edlotax = some a ∧ a.get = lo
  lists : Lists g.baseval g.vertnnd adj g.verttax.get (fun e => (g.edgetax.get e, lo e)) (g.baseval + g.edgenbr)
  last : g.verttax.get g.vertnnd = g.baseval + g.edgenbr
  edlosum : g.edlosum = sumI g.baseval g.vertnnd (fun v => ((adj v).map Prod.snd).sum)
  degrmax : 0 ≤ g.degrmax ∧ ∀ v, g.Vertex v → ((adj v).length : Int) ≤ g.degrmax

variable {g : Graph} {lo : Int → Int} {adj : Int → List (Int × Int)}

theorem IsListsW.next (L : IsListsW g lo adj) {v : Int} (hv : g.Vertex v) : g.vert v = g.baseval + sumI g.baseval v (fun u => (adj u).length) ∧ g.vend v = g.vert v + (adj v).length := by
  have h1 := hv.1
  have h2 := hv.2
  have e1 : g.vert v = g.baseval + sumI g.baseval v (fun u => (adj u).length) := L.lists.start v h1 h2
  refine ⟨e1, ?_⟩
  have : g.vend v = g.verttax.get (v + 1) := by unfold vend; rw [L.compact]
  rw [this, e1, Int.add_assoc, ← sumI_succ h1 (fun u => ((adj u).length : Int))]
  by_cases e : v + 1 = g.vertnnd
  · rw [e, L.last, L.lists.next]
  · exact L.lists.start (v + 1) (by omega) (by omega)

theorem IsListsW.nbrs (L : IsListsW g lo adj) {v : Int} (hv : g.Vertex v) : g.nbrs v = adj v := by
  have h := L.lists.lists v hv.1 hv.2
  obtain ⟨-, e2⟩ := L.next hv
  have e1 : seg (fun e => (g.edgetax.get e, lo e)) (g.vert v) (g.vend v) = adj v := by rw [e2]; exact h
  rw [← e1]
  unfold Graph.nbrs arcs seg
  rw [List.map_map]
  apply List.map_congr_left
  intro k _
  show (g.dest _, g.edlo _) = (g.edgetax.get _, lo _)
  obtain ⟨a, h1, h2⟩ := L.edlo
  unfold dest Graph.edlo
  rw [h1]
  dsimp only
  rw [h2]

theorem IsListsW.consistent (L : IsListsW g lo adj) (hin : ∀ v, g.Vertex v → ∀ w l, (w, l) ∈ adj v → g.Vertex w ∧ w ≠ v ∧ 0 < l ∧ (v, l) ∈ adj w) (hnd : ∀ v, g.Vertex v → ((adj v).map Prod.fst).Nodup) (hvelo : ∀ v, g.Vertex v → 0 ≤ g.velo v)
    (hsum : g.velosum = sumI g.baseval g.vertnnd g.velo) : g.Consistent := by
  have hnum := L.lists.next
  refine ⟨L.nbr, L.nnd, ?_, ?_, ?_, ?_, ?_, hvelo, hsum, ?_, ?_, L.degrmax.1, ?_⟩
  · intro v hv
    obtain ⟨e1, e2⟩ := L.next hv
    have := len_nonneg (base := g.baseval) (adj := adj) v
    omega
  · rintro v ⟨w, l⟩ hv hp
    rw [L.nbrs hv] at hp
    obtain ⟨b1, b2, -⟩ := hin v hv w l hp
    exact ⟨b1, b2⟩
  · rintro v ⟨w, l⟩ hv hp
    rw [L.nbrs hv] at hp
    obtain ⟨b1, -, -, b3⟩ := hin v hv w l hp
    dsimp only
    rw [L.nbrs b1]
    exact b3
  · intro v hv
    rw [L.nbrs hv]
    exact hnd v hv
  · rw [show g.edgenbr = sumI g.baseval g.vertnnd (fun u => (adj u).length) by omega]
    refine sumI_congr ?_
    intro i i1 i2
    rw [L.nbrs ⟨i1, i2⟩]
  · rintro v ⟨w, l⟩ hv hp
    rw [L.nbrs hv] at hp
    obtain ⟨-, -, b2, -⟩ := hin v hv w l hp
    dsimp only; omega
  · rw [L.edlosum]
    refine sumI_congr ?_
    intro i i1 i2
    rw [L.nbrs ⟨i1, i2⟩]
  · intro v hv
    rw [L.nbrs hv]
    exact L.degrmax.2 v hv

end Scotch.Graph
