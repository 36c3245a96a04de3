import Verif.Graph.Model
import Verif.Util
import Mathlib.Algebra.BigOperators.Group.List.Basic

/-!
# Graphs: specification

A graph is described by the list of neighbours of each vertex, with the loads of the edges.
-/

set_option autoImplicit false

namespace Scotch.Graph

/-- First arc of a vertex. -/
def vert (g : Graph) (v : Int) : Int := g.verttax.get v

/-- Index after the last arc of a vertex. -/
def vend (g : Graph) (v : Int) : Int :=
  match g.vendtax with
  | none => g.verttax.get (v + 1)
  | some a => a.get v

/-- End of an arc. -/
def dest (g : Graph) (e : Int) : Int := g.edgetax.get e

/-- Load of an arc: 1 by default. -/
def edlo (g : Graph) (e : Int) : Int := match g.edlotax with | none => 1 | some a => a.get e

/-- Load of a vertex: 1 by default. -/
def velo (g : Graph) (v : Int) : Int := match g.velotax with | none => 1 | some a => a.get v

/-- Label of a vertex: its number by default. -/
def vlbl (g : Graph) (v : Int) : Int := match g.vlbltax with | none => v | some a => a.get v

/-- Vertices are numbered from the base value on. -/
def Vertex (g : Graph) (v : Int) : Prop := g.baseval ≤ v ∧ v < g.vertnnd

instance (g : Graph) (v : Int) : Decidable (g.Vertex v) := inferInstanceAs (Decidable (_ ∧ _))

/-- Indices of the arcs of a vertex. -/
def arcs (g : Graph) (v : Int) : List Int :=
  (List.range (g.vend v - g.vert v).toNat).map fun k => g.vert v + (k : Nat)

/-- Neighbours of a vertex, in the order of its arcs, with the loads of the arcs. -/
def nbrs (g : Graph) (v : Int) : List (Int × Int) := (g.arcs v).map fun e => (g.dest e, g.edlo e)

/-- A consistent graph: what the manual requires of graphs. -/
structure Consistent (g : Graph) : Prop where
  vertnbr : 0 ≤ g.vertnbr
  vertnnd : g.vertnnd = g.baseval + g.vertnbr
  /-- arc indices are based, and ranges are not reversed -/
  range : ∀ v, g.Vertex v → g.baseval ≤ g.vert v ∧ g.vert v ≤ g.vend v
  /-- neighbours are other vertices -/
  inside : ∀ v p, g.Vertex v → p ∈ g.nbrs v → g.Vertex p.1 ∧ p.1 ≠ v
  /-- each arc has a reverse arc, of same load -/
  symm : ∀ v p, g.Vertex v → p ∈ g.nbrs v → (v, p.2) ∈ g.nbrs p.1
  /-- there are no multiple arcs -/
  simple : ∀ v, g.Vertex v → ((g.nbrs v).map Prod.fst).Nodup
  /-- the number of arcs is right (hence even) -/
  edgenbr : g.edgenbr = sumI g.baseval g.vertnnd (fun v => (g.nbrs v).length)
  /-- loads of vertices are not negative, and their sum is right -/
  velo : ∀ v, g.Vertex v → 0 ≤ g.velo v
  velosum : g.velosum = sumI g.baseval g.vertnnd g.velo
  /-- loads of arcs are not negative, and their sum is right -/
  edlo : ∀ v p, g.Vertex v → p ∈ g.nbrs v → 0 ≤ p.2
  edlosum : g.edlosum = sumI g.baseval g.vertnnd (fun v => ((g.nbrs v).map Prod.snd).sum)
  /-- the maximum degree is an upper bound of degrees -/
  degrmax : 0 ≤ g.degrmax ∧ ∀ v, g.Vertex v → ((g.nbrs v).length : Int) ≤ g.degrmax

/-- Memory: the arrays of the graph cover all of its vertices and arcs. -/
structure Allocated (g : Graph) : Prop where
  vlo : g.verttax.lo ≤ g.baseval
  vhi : g.vertnnd ≤ g.verttax.hi
  /-- in compact form, the array has one more cell -/
  vhi' : g.vendtax = none → g.vertnnd + 1 ≤ g.verttax.hi
  ends : ∀ a, g.vendtax = some a → a.lo ≤ g.baseval ∧ g.vertnnd ≤ a.hi
  velo : ∀ a, g.velotax = some a → a.lo ≤ g.baseval ∧ g.vertnnd ≤ a.hi
  vnum : ∀ a, g.vnumtax = some a → a.lo ≤ g.baseval ∧ g.vertnnd ≤ a.hi
  vlbl : ∀ a, g.vlbltax = some a → a.lo ≤ g.baseval ∧ g.vertnnd ≤ a.hi
  edge : ∀ v, g.Vertex v → g.vert v < g.vend v → g.edgetax.lo ≤ g.vert v ∧ g.vend v ≤ g.edgetax.hi
  edlo : ∀ a, g.edlotax = some a → ∀ v, g.Vertex v → g.vert v < g.vend v → a.lo ≤ g.vert v ∧ g.vend v ≤ a.hi

/-- No arc index belongs to two vertices. -/
def Disjoint (g : Graph) : Prop :=
  ∀ v w e, g.Vertex v → g.Vertex w → e ∈ g.arcs v → e ∈ g.arcs w → v = w

/-- `g'` is the subgraph of `g` induced by the vertices of a list, in the order of the list: the neighbours of a vertex
are its neighbours in `g` that belong to the list, in the same order and with the same loads; vertices keep
their loads, and refer to the vertices they come from. -/
structure InducedBy (g : Graph) (l : List Int) (g' : Graph) : Prop where
  baseval : g'.baseval = g.baseval
  vertnbr : g'.vertnbr = l.length
  nbrs : ∀ i (h : i < l.length), g'.nbrs (g.baseval + i) = (g.nbrs l[i]).filterMap fun p =>
    if p.1 ∈ l then some (g.baseval + l.idxOf p.1, p.2) else none
  velo : ∀ i (h : i < l.length), g'.velo (g.baseval + i) = g.velo l[i]
  vnum : ∃ a, g'.vnumtax = some a ∧ ∀ i (h : i < l.length),
    a.get (g.baseval + i) = match g.vnumtax with | none => l[i] | some b => b.get l[i]
  loads : g'.velotax.isSome = g.velotax.isSome ∧ g'.edlotax.isSome = g.edlotax.isSome

end Scotch.Graph
