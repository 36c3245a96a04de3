import Verif.Separ.ModelEs
import Verif.Separ.Spec

/-!
# Vertex separators from edge separators: specification
-/

set_option autoImplicit false

namespace Scotch.Separ

/-- A bipartite graph that may be covered: arcs join columns, which are the first `partnbr` vertices, and rows, which are the
other vertices. -/
structure Bipartite (g : Graph) (partnbr : Int) : Prop where
  cons : g.Consistent
  alloc : g.Allocated
  base : 0 ≤ g.baseval
  /-- the loads of vertices are read from index 0 on -/
  load : g.velotax = none ∨ g.baseval = 0
  part : 0 ≤ partnbr ∧ partnbr ≤ g.vertnbr
  cross : ∀ v p, g.Vertex v → p ∈ g.nbrs v → (v < g.baseval + partnbr ↔ ¬ p.1 < g.baseval + partnbr)

/-- A vertex cover: every arc has an end in the set. -/
def Covers (g : Graph) (S : Int → Prop) : Prop := ∀ v p, g.Vertex v → p ∈ g.nbrs v → S v ∨ S p.1

/-- A vertex that is reached, from a column that has no mate, by a path which leaves columns by any arc and rows by
the arc to their mate. -/
inductive Alternating (g : Graph) (P : Int) (mate : Int → Int) : Int → Prop
  | start (c : Int) : g.Vertex c → c < P → mate c = -1 → Alternating g P mate c
  | row (c r : Int) : Alternating g P mate c → g.Vertex c → c < P → g.Adj c r → Alternating g P mate r
  | col (r : Int) : Alternating g P mate r → g.Vertex r → ¬ r < P → mate r ≠ -1 → Alternating g P mate (mate r)

/-- A matching that has no augmenting path (by Berge's theorem, a maximum matching): no row that has no mate is reached. -/
def NoAugment (g : Graph) (P : Int) (mate : Int → Int) : Prop :=
  ∀ r, g.Vertex r → ¬ r < P → Alternating g P mate r → mate r ≠ -1

/-- A bipartition as it is given to the strategy that computes it: nothing is out of the graph. -/
structure BipStart (a : Bipart.Bgraph) : Prop where
  cons : a.s.Consistent
  alloc : Bipart.Alloc a
  valid : Bipart.Valid a
  base : 0 ≤ a.s.baseval
  size : 1 ≤ a.s.vertnbr
  veex : a.veextax = none
  dist : a.domndist = 1
  extn : a.commloadextn0 = 0 ∧ a.commgainextn0 = 0
  vfix : a.vfixload0 = 0 ∧ a.vfixload1 = 0
  avg : 0 ≤ a.compload0avg

/-- What is asked of the strategy that computes the bipartition. -/
def BipMethod (sure : Bool) (f : Bipart.Bgraph → M (Int × Bipart.Bgraph)) : Prop :=
  ∀ a, BipStart a → Holds (f a) fun r => Bipart.SameProblem a r.2 ∧ (sure = true → r.1 = 0) ∧ (r.1 = 0 → Bipart.Valid r.2)

end Scotch.Separ
