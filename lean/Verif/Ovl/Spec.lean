import Verif.Ovl.Model
import Verif.Separ.Spec
import Verif.Kmap.Spec

/-!
# Partitioning with overlap: specification

The quantities that a partition keeps up to date are described from the parts of vertices only.
-/

set_option autoImplicit false

namespace Scotch.Ovl

/-- Part of a vertex: -1 for the separator. -/
def Wgraph.part (b : Wgraph) (v : Int) : Int := b.parttax.get v

/-- No arc joins two different parts. -/
def Separated (g : Graph) (part : Int → Int) : Prop := ∀ v p, g.Vertex v → p ∈ g.nbrs v → 0 ≤ part v → 0 ≤ part p.1 → part p.1 = part v

/-- A vertex belongs to a part, with overlap: it is in the part, or it is in the separator and has a neighbour in the part. -/
def Belongs (g : Graph) (part : Int → Int) (k v : Int) : Prop := part v = k ∨ (part v = -1 ∧ ∃ p ∈ g.nbrs v, part p.1 = k)

instance (g : Graph) (part : Int → Int) (k v : Int) : Decidable (Belongs g part k v) := inferInstanceAs (Decidable (_ ∨ (_ ∧ _)))

/-- Sum of `f` over the vertices of a part, with overlap. -/
def within (g : Graph) (part : Int → Int) (k : Int) (f : Int → Int) : Int := sumI g.baseval g.vertnnd (fun v => if Belongs g part k v then f v else 0)

/-- A function that gives a part to each vertex is a partition in `n` parts with a separator. -/
structure IsPartition (g : Graph) (n : Int) (part : Int → Int) : Prop where
  range : ∀ v, g.Vertex v → -1 ≤ part v ∧ part v < n
  sep : Separated g part

/-- A partition whose recorded values are the ones of its part array. -/
structure Valid (b : Wgraph) : Prop where
  parts : IsPartition b.s b.partnbr b.part
  /-- the frontier array lists the vertices of the separator, once each -/
  fron : Enum b.frontab b.fronnbr (fun v => b.s.Vertex v ∧ b.part v = -1)
  fronload : b.fronload = Bipart.over b.s b.part (-1) b.s.velo
  load : ∀ k, 0 ≤ k → k < b.partnbr → b.compload.get k = within b.s b.part k b.s.velo
  size : ∀ k, 0 ≤ k → k < b.partnbr → b.compsize.get k = within b.s b.part k (fun _ => 1)

/-- Memory: the arrays of the partition cover all vertices and all parts. -/
structure Alloc (b : Wgraph) : Prop where
  graph : b.s.Allocated
  part : b.parttax.lo ≤ b.s.baseval ∧ b.s.vertnnd ≤ b.parttax.hi
  fron : b.frontab.lo ≤ 0 ∧ b.s.vertnbr ≤ b.frontab.hi
  load : b.compload.lo ≤ 0 ∧ b.partnbr ≤ b.compload.hi
  size : b.compsize.lo ≤ 0 ∧ b.partnbr ≤ b.compsize.hi

/-- What a method must keep. -/
structure SameProblem (b b' : Wgraph) : Prop where
  s : b'.s = b.s
  partnbr : b'.partnbr = b.partnbr
  part : b'.parttax.lo = b.parttax.lo ∧ b'.parttax.hi = b.parttax.hi
  fron : b'.frontab.lo = b.frontab.lo ∧ b'.frontab.hi = b.frontab.hi
  load : b'.compload.lo = b.compload.lo ∧ b'.compload.hi = b.compload.hi
  size : b'.compsize.lo = b.compsize.lo ∧ b'.compsize.hi = b.compsize.hi

/-- What a method may be applied to: a graph that is not a subgraph of another one, to be cut in at least one part. The values of the arrays may be anything. -/
structure Pre (b : Wgraph) : Prop where
  cons : b.s.Consistent
  alloc : Alloc b
  base : 0 ≤ b.s.baseval
  size : 1 ≤ b.s.vertnbr
  vnum : b.s.vnumtax = none
  parts : 1 ≤ b.partnbr

/-- Total and partial correctness at once: the computation may only meet the faults that are allowed by the two flags: running out of fuel if `tot` is false, and a null pointer if `nul` is true. -/
def Mt {α : Type} (nul tot : Bool) (x : M α) (Q : α → Prop) : Prop :=
  match x with
  | .ok a => Q a
  | .error .fuel => tot = false
  | .error .null => nul = true
  | .error _ => False

end Scotch.Ovl
