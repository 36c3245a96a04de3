import Verif.Band.ModelDiam

/-! # Pseudo-diameter: specification -/

set_option autoImplicit false

namespace Scotch.Diam

/-- Cost of going through a vertex: its load, if vertices have loads. -/
def load (g : Graph) (v : Int) : Int := match g.velotax with | none => 0 | some a => a.get v

/-- Walks from a vertex, with their lengths: loads of arcs, and loads of all vertices but the last. -/
inductive Walk (g : Graph) (r : Int) : Int → Int → Prop
  | nil : Walk g r r 0
  | snoc {u d : Int} {p : Int × Int} : Walk g r u d → p ∈ g.nbrs u → Walk g r p.1 (d + load g u + p.2)

/-- Distance: length of a shortest walk. -/
def Dist (g : Graph) (r v d : Int) : Prop := Walk g r v d ∧ ∀ d', Walk g r v d' → d ≤ d'

/-- All vertices may be reached from all others. -/
def Connected (g : Graph) : Prop := ∀ u v, g.Vertex u → g.Vertex v → ∃ d, Walk g u v d

end Scotch.Diam
