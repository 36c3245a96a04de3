import Verif.Graph.Access

/-!
# Building graphs from arrays: model

`SCOTCH_graphBuild` and `SCOTCH_graphData` — src/libscotch/library_graph.c:222–303, 336–371. Integers are unbounded: sums of loads are supposed not to overflow.
-/

set_option autoImplicit false

namespace Scotch.Build

/-- Parameters of `SCOTCH_graphBuild`. Arrays are indexed from 0, as users see them. Optional arrays are `none` when the pointer is null, or is the one of the vertex array (of the edge array, for edge loads). -/
structure Args where
  baseval : Int
  vertnbr : Int
  verttab : Arr Int
  vendtab : Option (Arr Int)
  velotab : Option (Arr Int)
  vlbltab : Option (Arr Int)
  edgenbr : Int
  edgetab : Arr Int
  edlotab : Option (Arr Int)

/-- `tab - baseval`: access by based indices. -/
def based (b : Int) (a : Arr Int) : Arr Int := ⟨a.lo + b, a.hi + b, fun i => a.get (i - b)⟩

/-- The graph, before sums are computed — library_graph.c:248–260. -/
def fields (x : Args) : Graph := {
  baseval := x.baseval
  vertnbr := x.vertnbr
  vertnnd := x.vertnbr + x.baseval
  verttax := based x.baseval x.verttab
  vendtax := x.vendtab.map (based x.baseval)
  velotax := x.velotab.map (based x.baseval)
  velosum := 0
  vnumtax := none
  vlbltax := x.vlbltab.map (based x.baseval)
  edgenbr := x.edgenbr
  edgetax := based x.baseval x.edgetab
  edlotax := x.edlotab.map (based x.baseval)
  edlosum := 0
  degrmax := 0 }

/-- Sum of vertex loads — library_graph.c:262–270. -/
def veloSum (g : Graph) : M Int :=
  match g.velotax with
  | none => return g.vertnbr
  | some a => forUp g.baseval g.vertnnd 0 fun v s => do return s + (← a.rd v)

/-- Degree of a vertex — library_graph.c:279–281, 292–294. -/
def degrMax (g : Graph) (v degrmax : Int) : M Int := do
  let e ← g.rdVend v
  let b ← g.verttax.rd v
  return if e - b > degrmax then e - b else degrmax

/-- Sum of edge loads, and maximum degree — library_graph.c:272–299. -/
def edloSum (g : Graph) : M (Int × Int) :=
  match g.edlotax with
  | none => do return (g.edgenbr, ← forUp g.baseval g.vertnnd 0 (degrMax g))
  | some a => forUp g.baseval g.vertnnd (0, 0) fun v s => do
    let d ← degrMax g v s.2
    let b ← g.verttax.rd v
    let e ← g.rdVend v
    return (← forUp b e s.1 fun i s => do return s + (← a.rd i), d)

/-- `SCOTCH_graphBuild` — library_graph.c:222–303. -/
def graphBuild (x : Args) : M Graph := do
  let g := fields x
  let velosum ← veloSum g
  let (edlosum, degrmax) ← edloSum g
  return { g with
    velosum := velosum
    edlosum := edlosum
    degrmax := degrmax }

/-- `tax + baseval`: access by indices from 0. -/
def unbased (b : Int) (a : Arr Int) : Arr Int := ⟨a.lo - b, a.hi - b, fun i => a.get (i + b)⟩

/-- `SCOTCH_graphData` — library_graph.c:336–371. When `vendtax` is `verttax + 1`, the array of ends is the vertex array without its first cell. -/
def graphData (g : Graph) : Args := {
  baseval := g.baseval
  vertnbr := g.vertnbr
  verttab := unbased g.baseval g.verttax
  vendtab := some (match g.vendtax with
    | none => unbased (g.baseval + 1) g.verttax
    | some a => unbased g.baseval a)
  velotab := g.velotax.map (unbased g.baseval)
  vlbltab := g.vlbltax.map (unbased g.baseval)
  edgenbr := g.edgenbr
  edgetab := unbased g.baseval g.edgetax
  edlotab := g.edlotax.map (unbased g.baseval) }

end Scotch.Build
