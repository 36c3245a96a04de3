import Verif.Build.Model
import Verif.Graph.Spec

/-!
# Building graphs from arrays: specification

What the arrays given to `SCOTCH_graphBuild` mean, and what the manual requires of them. Vertices are numbered from 0 here; vertex numbers and arc indices that arrays hold start from the base value.
-/

set_option autoImplicit false

namespace Scotch.Build.Args

/-- Position, in the edge array, of the first neighbour of a vertex. -/
def first (x : Args) (i : Int) : Int := x.verttab.get i - x.baseval

/-- Position after the one of the last neighbour of a vertex: where the next vertex begins, if there is no array of ends. -/
def last (x : Args) (i : Int) : Int := (match x.vendtab with | none => x.verttab.get (i + 1) | some a => a.get i) - x.baseval

/-- Neighbours of a vertex, with the loads of the edges. -/
def nbrs (x : Args) (i : Int) : List (Int × Int) :=
  (List.range (x.last i - x.first i).toNat).map fun k => (x.edgetab.get (x.first i + (k : Nat)), match x.edlotab with | none => 1 | some a => a.get (x.first i + (k : Nat)))

/-- Load of a vertex. -/
def velo (x : Args) (i : Int) : Int := match x.velotab with | none => 1 | some a => a.get i

/-- Label of a vertex. -/
def vlbl (x : Args) (i : Int) : Int := match x.vlbltab with | none => x.baseval + i | some a => a.get i

/-- Arrays are large enough. -/
structure Sized (x : Args) : Prop where
  vertnbr : 0 ≤ x.vertnbr
  vert : x.verttab.lo ≤ 0 ∧ x.vertnbr ≤ x.verttab.hi
  vert' : x.vendtab = none → x.vertnbr + 1 ≤ x.verttab.hi
  vend : ∀ a, x.vendtab = some a → a.lo ≤ 0 ∧ x.vertnbr ≤ a.hi
  velo : ∀ a, x.velotab = some a → a.lo ≤ 0 ∧ x.vertnbr ≤ a.hi
  vlbl : ∀ a, x.vlbltab = some a → a.lo ≤ 0 ∧ x.vertnbr ≤ a.hi
  edge : ∀ i, 0 ≤ i → i < x.vertnbr → x.first i < x.last i → x.edgetab.lo ≤ x.first i ∧ x.last i ≤ x.edgetab.hi
  edlo : ∀ a, x.edlotab = some a → ∀ i, 0 ≤ i → i < x.vertnbr → x.first i < x.last i → a.lo ≤ x.first i ∧ x.last i ≤ a.hi

/-- What the manual requires of the contents of arrays. -/
structure Legal (x : Args) : Prop where
  range : ∀ i, 0 ≤ i → i < x.vertnbr → 0 ≤ x.first i ∧ x.first i ≤ x.last i
  /-- neighbours are other vertices -/
  inside : ∀ i p, 0 ≤ i → i < x.vertnbr → p ∈ x.nbrs i → x.baseval ≤ p.1 ∧ p.1 < x.baseval + x.vertnbr ∧ p.1 ≠ x.baseval + i
  /-- edges appear twice, with the same load -/
  symm : ∀ i p, 0 ≤ i → i < x.vertnbr → p ∈ x.nbrs i → (x.baseval + i, p.2) ∈ x.nbrs (p.1 - x.baseval)
  simple : ∀ i, 0 ≤ i → i < x.vertnbr → ((x.nbrs i).map Prod.fst).Nodup
  edgenbr : x.edgenbr = sumI 0 x.vertnbr (fun i => (x.nbrs i).length)
  velo : ∀ i, 0 ≤ i → i < x.vertnbr → 0 ≤ x.velo i
  edlo : ∀ i p, 0 ≤ i → i < x.vertnbr → p ∈ x.nbrs i → 0 ≤ p.2

/-- The graph that the arrays describe. -/
structure Represents (x : Args) (g : Graph) : Prop where
  baseval : g.baseval = x.baseval
  vertnbr : g.vertnbr = x.vertnbr
  vertnnd : g.vertnnd = x.baseval + x.vertnbr
  edgenbr : g.edgenbr = x.edgenbr
  range : ∀ i, 0 ≤ i → i < x.vertnbr → g.vert (x.baseval + i) = x.baseval + x.first i ∧ g.vend (x.baseval + i) = x.baseval + x.last i
  nbrs : ∀ i, 0 ≤ i → i < x.vertnbr → g.nbrs (x.baseval + i) = x.nbrs i
  velo : ∀ i, 0 ≤ i → i < x.vertnbr → g.velo (x.baseval + i) = x.velo i
  vlbl : ∀ i, 0 ≤ i → i < x.vertnbr → g.vlbl (x.baseval + i) = x.vlbl i
  /-- sums are right; without edge loads, the sum is the number of arcs that is given -/
  velosum : g.velosum = sumI 0 x.vertnbr x.velo
  edlosum : g.edlosum = if x.edlotab.isNone then x.edgenbr else sumI 0 x.vertnbr (fun i => ((x.nbrs i).map Prod.snd).sum)
  /-- the maximum degree is the largest one -/
  degrmax : 0 ≤ g.degrmax ∧ (∀ i, 0 ≤ i → i < x.vertnbr → ((x.nbrs i).length : Int) ≤ g.degrmax) ∧ (g.degrmax = 0 ∨ ∃ i, 0 ≤ i ∧ i < x.vertnbr ∧ ((x.nbrs i).length : Int) = g.degrmax)

end Scotch.Build.Args
