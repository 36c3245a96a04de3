import Verif.Bipart.Model
import Verif.Graph.Weight
import Verif.Enum

/-!
# Bipartition graphs: specification

The quantities that a bipartition keeps up to date are described from the parts of vertices only.
-/

set_option autoImplicit false

namespace Scotch.Bipart

namespace Bgraph

/-- Part of a vertex. -/
def part (b : Bgraph) (v : Int) : Int := b.parttax.get v

/-- Increase of the external communication load when a vertex goes from part 0 to part 1. -/
def veex (b : Bgraph) (v : Int) : Int := match b.veextax with | none => 0 | some a => a.get v

end Bgraph

/-- Sum of `f` over the vertices of a part. -/
def over (g : Graph) (part : Int → Int) (k : Int) (f : Int → Int) : Int :=
  sumI g.baseval g.vertnnd (fun v => if part v = k then f v else 0)

/-- Load of the arcs from a vertex to the vertices of a part. -/
def linkTo (g : Graph) (part : Int → Int) (k v : Int) : Int :=
  ((g.nbrs v).map fun p => if part p.1 = k then p.2 else 0).sum

/-- Load of the edges between the two parts. -/
def cut (g : Graph) (part : Int → Int) : Int := over g part 0 (linkTo g part 1)

/-- A vertex of the frontier: it has a neighbour in the other part. -/
def Frontier (g : Graph) (part : Int → Int) (v : Int) : Prop := g.Vertex v ∧ ∃ p ∈ g.nbrs v, part p.1 ≠ part v

/-- A bipartition whose recorded values are the ones of its part array. -/
structure Valid (b : Bgraph) : Prop where
  parts : ∀ v, b.s.Vertex v → b.part v = 0 ∨ b.part v = 1
  /-- load of part 0 -/
  load : b.compload0 = over b.s b.part 0 b.s.velo
  /-- difference with the average -/
  delta : b.compload0dlt = b.compload0 - b.compload0avg
  /-- number of vertices of part 0 -/
  size : b.compsize0 = over b.s b.part 0 (fun _ => 1)
  /-- communication load, internal and external -/
  comm : b.commload = cut b.s b.part * b.domndist + b.commloadextn0 + over b.s b.part 1 b.veex
  /-- change of the external communication load if all vertices change parts -/
  gain : b.commgainextn = over b.s b.part 0 b.veex - over b.s b.part 1 b.veex
  /-- frontier -/
  fron : Enum b.frontab b.fronnbr (Frontier b.s b.part)

/-- Memory: the arrays of the bipartition cover all vertices. -/
structure Alloc (b : Bgraph) : Prop where
  graph : b.s.Allocated
  part : b.parttax.lo ≤ b.s.baseval ∧ b.s.vertnnd ≤ b.parttax.hi
  fron : b.frontab.lo ≤ 0 ∧ b.s.vertnbr ≤ b.frontab.hi
  veex : ∀ a, b.veextax = some a → a.lo ≤ b.s.baseval ∧ b.s.vertnnd ≤ a.hi

/-- What a routine that changes parts must keep: everything but the parts, the frontier and the values computed from
them. -/
structure SameProblem (b b' : Bgraph) : Prop where
  s : b'.s = b.s
  veextax : b'.veextax = b.veextax
  bounds : b'.parttax.lo = b.parttax.lo ∧ b'.parttax.hi = b.parttax.hi ∧ b'.frontab.lo = b.frontab.lo ∧ b'.frontab.hi = b.frontab.hi
  limits : b'.compload0min = b.compload0min ∧ b'.compload0max = b.compload0max ∧ b'.compload0avg = b.compload0avg
  extn : b'.commloadextn0 = b.commloadextn0 ∧ b'.commgainextn0 = b.commgainextn0
  domn : b'.domndist = b.domndist ∧ b'.domnwght0 = b.domnwght0 ∧ b'.domnwght1 = b.domnwght1
  vfix : b'.vfixload0 = b.vfixload0 ∧ b'.vfixload1 = b.vfixload1

end Scotch.Bipart
