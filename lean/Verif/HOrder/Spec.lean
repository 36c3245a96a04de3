import Verif.HOrder.Model
import Verif.Graph.Weight
import Verif.Band.Spec

/-! # Halo graphs: specification -/

set_option autoImplicit false

namespace Scotch.HOrder
open Graph

/-- A halo graph: both the graph and its part without the halo are consistent; the arcs of a vertex towards the halo come last; halo vertices are not connected to one another; arcs have no loads. -/
structure HCons (h : Hgraph) : Prop where
  whole : h.s.Consistent
  part : (unhalo h).Consistent
  nbr : 0 ≤ h.vnohnbr ∧ h.vnohnbr ≤ h.s.vertnbr
  ends : ∀ v, (unhalo h).Vertex v → (unhalo h).vend v ≤ h.s.vend v ∧ ∀ e, (unhalo h).vend v ≤ e → e < h.s.vend v → h.vnohnnd ≤ h.s.dest e
  halo : ∀ v p, h.s.Vertex v → h.vnohnnd ≤ v → p ∈ h.s.nbrs v → p.1 < h.vnohnnd
  edlo : h.s.edlotax = none

/-- Memory. -/
structure HAlloc (h : Hgraph) : Prop where
  whole : h.s.Allocated
  part : (unhalo h).Allocated

/-- Number, in the graph that is ordered, of a vertex of an induced graph. -/
def onum (g : Graph) (v : Int) : Int := match g.vnumtax with | none => v | some a => a.get v

/-- `h'` is the halo graph induced by the vertices of a list: vertex `v` of `h'` is vertex `f v` of `h`. Vertices that are not in the halo are the ones of the list, in the same order; the halo is made of the neighbours of the
vertices of the list that are not in the list. -/
structure HInduced (h : Hgraph) (l : List Int) (h' : Hgraph) (f : Int → Int) : Prop where
  baseval : h'.s.baseval = h.s.baseval
  size : h'.vnohnbr = l.length
  list : ∀ i (hi : i < l.length), f (h.s.baseval + i) = l[i]
  vertex : ∀ v, h'.s.Vertex v → h.s.Vertex (f v)
  inj : ∀ v w, h'.s.Vertex v → h'.s.Vertex w → f v = f w → v = w
  halo : ∀ x, (∃ v, h'.s.Vertex v ∧ h'.vnohnnd ≤ v ∧ f v = x) ↔ x ∉ l ∧ ∃ y ∈ l, Adj h.s y x
  adj : ∀ v w, h'.s.Vertex v → h'.s.Vertex w → (Adj h'.s v w ↔ Adj h.s (f v) (f w) ∧ (v < h'.vnohnnd ∨ w < h'.vnohnnd))
  velo : ∀ v, h'.s.Vertex v → h'.s.velo v = h.s.velo (f v)
  onum : ∀ v, h'.s.Vertex v → onum h'.s v = onum h.s (f v)
  loads : h.s.velotax = none → h'.s.velotax = none

end Scotch.HOrder
