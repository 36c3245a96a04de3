import Verif.Color.Model
import Verif.Graph.Spec

/-!
# Graph colouring: specification
-/

set_option autoImplicit false

namespace Scotch.Color

/-- Each vertex has a colour between 0 and the number of colours, and all of these are used. -/
structure Coloured (g : Graph) (colo : Int → Int) (n : Int) : Prop where
  range : ∀ v, g.Vertex v → 0 ≤ colo v ∧ colo v < n
  used : ∀ k, 0 ≤ k → k < n → ∃ v, g.Vertex v ∧ colo v = k

/-- Neighbours. -/
def Adj (g : Graph) (v w : Int) : Prop := ∃ l, (w, l) ∈ g.nbrs v

/-- Neighbours have different colours. -/
def Proper (g : Graph) (colo : Int → Int) : Prop := ∀ v w, g.Vertex v → Adj g v w → colo v ≠ colo w

end Scotch.Color
