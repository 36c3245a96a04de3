import Verif.Match.Model
import Verif.Graph.Spec

/-!
# Matching: specification
-/

set_option autoImplicit false

namespace Scotch.Match

/-- Two vertices may be merged: when there are fixed vertices or previous parts, they must have the same ones. -/
def Compat (E : Env) (a b : Int) : Prop :=
  E.fix = true → (∀ t, E.pfix = some t → t.get a = t.get b) ∧ (∀ t, E.paro = some t → t.get a = t.get b)

/-- Adjacency. -/
def Adj (g : Graph) (v w : Int) : Prop := ∃ l, (w, l) ∈ g.nbrs v

/-- A vertex without neighbours. -/
def Isolated (g : Graph) (v : Int) : Prop := g.nbrs v = []

/-- Why two vertices may be mates: a vertex is its own mate, or the two vertices are compatible and are neighbours, or, if merging of isolated vertices is allowed,
one of them is isolated. -/
def Good (E : Env) (v w : Int) : Prop :=
  w = v ∨ (Compat E v w ∧ (Adj E.g v w ∨ (E.nomerge = false ∧ (Isolated E.g v ∨ Isolated E.g w))))

/-- A complete matching: mates are vertices, are mutual, and may be merged; the matching is maximal, as no two compatible neighbours are both left alone. -/
structure Mating (E : Env) (mate : Int → Int) : Prop where
  inside : ∀ v, E.g.Vertex v → E.g.Vertex (mate v)
  recip : ∀ v, E.g.Vertex v → mate (mate v) = v
  good : ∀ v, E.g.Vertex v → Good E v (mate v)
  maximal : ∀ v w, E.g.Vertex v → Adj E.g v w → Compat E v w → ¬ (mate v = v ∧ mate w = w)

/-- Number of coarse vertices: pairs and single vertices. -/
def coarseCount (E : Env) (mate : Int → Int) : Int := sumI E.g.baseval E.g.vertnnd (fun v => if v ≤ mate v then 1 else 0)

/-- Valid data: a consistent graph, based at 0 or more, with complete constraint arrays. -/
structure Valid (E : Env) : Prop where
  cons : E.g.Consistent
  alloc : E.g.Allocated
  base : 0 ≤ E.g.baseval
  pfix : ∀ t, E.pfix = some t → t.lo ≤ E.g.baseval ∧ E.g.vertnnd ≤ t.hi
  paro : ∀ t, E.paro = some t → t.lo ≤ E.g.baseval ∧ E.g.vertnnd ≤ t.hi

end Scotch.Match
