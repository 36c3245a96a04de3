import Verif.Coarsen.Model
import Verif.Graph.Spec

/-!
# Coarse graph building: specification
-/

set_option autoImplicit false

namespace Scotch.Coarsen

/-- A mating: each vertex has a mate, which is a vertex whose mate it is. -/
structure Pairing (g : Graph) (mate : Int → Int) : Prop where
  inside : ∀ v, g.Vertex v → g.Vertex (mate v)
  recip : ∀ v, g.Vertex v → mate (mate v) = v

/-- Number of pairs and single vertices. -/
def pairs (g : Graph) (mate : Int → Int) : Int := sumI g.baseval g.vertnnd (fun v => if v ≤ mate v then 1 else 0)

/-- Sum of the loads of the arcs from fine vertices of coarse vertex `c` to fine vertices of coarse vertex `d`. -/
def arcLoad (g : Graph) (coar : Int → Int) (c d : Int) : Int :=
  sumI g.baseval g.vertnnd (fun v => if coar v = c then (((g.nbrs v).filter (fun p => decide (coar p.1 = d))).map Prod.snd).sum else 0)

/-- `g'` is the graph obtained from `g` by merging the vertices that have the same image by `coar`. -/
structure Merged (g : Graph) (coar : Int → Int) (g' : Graph) : Prop where
  baseval : g'.baseval = g.baseval
  velo : ∀ c, g'.Vertex c → g'.velo c = sumI g.baseval g.vertnnd (fun v => if coar v = c then g.velo v else 0)
  velosum : g'.velosum = g.velosum
  nbrs : ∀ c d l, g'.Vertex c → ((d, l) ∈ g'.nbrs c ↔ d ≠ c ∧ (∃ v p, g.Vertex v ∧ coar v = c ∧ p ∈ g.nbrs v ∧ coar p.1 = d) ∧ l = arcLoad g coar c d)

/-- Result of coarsening: coarse vertices are the pairs and the single vertices, in increasing order of their first vertex; the multinode array describes them. -/
structure Contracted (g : Graph) (mate : Int → Int) (r : Result) : Prop where
  vertnbr : r.graph.vertnbr = pairs g mate
  inside : ∀ v, g.Vertex v → r.graph.Vertex (r.coar.get v)
  same : ∀ v w, g.Vertex v → g.Vertex w → (r.coar.get v = r.coar.get w ↔ w = v ∨ w = mate v)
  order : ∀ v w, g.Vertex v → g.Vertex w → v ≤ mate v → w ≤ mate w → v < w → r.coar.get v < r.coar.get w
  mult : ∀ c, r.graph.Vertex c → g.Vertex (r.mult.get c).1 ∧ r.coar.get (r.mult.get c).1 = c ∧ (r.mult.get c).2 = mate (r.mult.get c).1 ∧ (r.mult.get c).1 ≤ (r.mult.get c).2
  merged : Merged g r.coar.get r.graph
  consistent : r.graph.Consistent
  allocated : r.graph.Allocated
  disjoint : r.graph.Disjoint
  room : r.coar.lo ≤ g.baseval ∧ g.vertnnd ≤ r.coar.hi ∧ r.mult.lo ≤ r.graph.baseval ∧ r.graph.vertnnd ≤ r.mult.hi
  degrmax : r.graph.degrmax = 0 ∨ ∃ c, r.graph.Vertex c ∧ ((r.graph.nbrs c).length : Int) = r.graph.degrmax

end Scotch.Coarsen
