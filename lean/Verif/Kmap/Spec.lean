import Verif.Kmap.Model
import Verif.Graph.Spec
import Verif.Seg
import Verif.Bipart.Spec

/-!
# Static mapping: specification
-/

set_option autoImplicit false

namespace Scotch.Kmap

variable {D : Type}

/-- Number, in the mapped graph, of a vertex of a subgraph. -/
def org (g : Graph) (x : Int) : Int := match g.vnumtax with | none => x | some a => a.get x

/-- Vertices of a part. -/
def ofPart (g : Graph) (part : Arr Int) (val : Int) : List Int := (seg id g.baseval g.vertnnd).filter fun v => decide (part.get v = val)

/-- A bipartitioning method that never fails, and that puts every vertex in part 0 or 1 and tells how many
are in part 0. -/
def BipOk (bip : List Nat → Graph → D → D → M (Option (Arr Int × Int))) : Prop :=
  ∀ p g d0 d1, g.Consistent → g.Allocated → 0 ≤ g.baseval → Holds (bip p g d0 d1) fun r => ∃ part size0, r = some (part, size0) ∧
    part.lo ≤ g.baseval ∧ g.vertnnd ≤ part.hi ∧ (∀ v, g.Vertex v → part.get v = 0 ∨ part.get v = 1) ∧ size0 = (ofPart g part 0).length

/-- What is required of a run: nothing but that. -/
structure Env.Ok (env : Env D) : Prop where
  bip : BipOk env.bip
  al : env.al = 1 ∨ env.al = 2
  order : ∀ l, (env.order l).Perm l

/-- Side on which a vertex of the graph has been put by a cut. -/
def Cut.side (c : Cut D) (x : Int) : D := if c.part.get x = 0 then c.d0 else c.d1

/-- A cut allows vertex `v` on processor `k` if the processor belongs to the domain on the side of which the vertex has been put;
a cut which the vertex takes no part in allows everything. -/
def Cut.Allows (Has : D → Int → Prop) (c : Cut D) (v k : Int) : Prop := ∀ x, c.g.Vertex x → org c.g x = v → Has (c.side x) k

/-- Processor `k` is the only one that all cuts allow for vertex `v`, among those of `[0, n)`. -/
def Follows (Has : D → Int → Prop) (n : Int) (log : List (Cut D)) (v k : Int) : Prop :=
  ∀ j, (0 ≤ j ∧ j < n ∧ ∀ c ∈ log, c.Allows Has v j) ↔ j = k

/-- Number of fixed vertices. -/
def fixedNbr (g : Graph) (pfix : Int → Int) : Int := ((seg id g.baseval g.vertnnd).filter fun v => decide (0 ≤ pfix v)).length

/-- Communication cost of the mapping of each vertex `v` onto processor `proc v`, the distance between processors being `f`: sum, over
the pairs of vertices, of the load of the edge between them times the distance between their processors. -/
def commCost (g : Graph) (f : Int → Int → Int) (proc : Int → Int) : Int :=
  sumI g.baseval g.vertnnd fun v => sumI g.baseval v fun w => g.wgt v w * f (proc v) (proc w)

/-- The values computed for a mapping are the ones of the function `proc` that gives the processor of each vertex: part `i` consists of the vertices
of a single processor. -/
structure Exact (Has : D → Int → Prop) (f : Int → Int → Int) (g : Graph) (avg : Int → Int) (proc : Int → Int) (k : Kgraph D) : Prop where
  part : ∀ v, g.Vertex v → 0 ≤ k.m.parttax.get v ∧ k.m.parttax.get v < k.m.domnnbr
  dom : ∀ v, g.Vertex v → ∀ j, Has (k.m.domntab.get (k.m.parttax.get v)) j ↔ j = proc v
  same : ∀ v w, g.Vertex v → g.Vertex w → (k.m.parttax.get v = k.m.parttax.get w ↔ proc v = proc w)
  comm : k.commload = commCost g f proc
  fron : Enum k.frontab k.fronnbr (Bipart.Frontier g proc)
  load : ∀ i, 0 ≤ i → i < k.m.domnnbr → k.comploadavg.get i = avg i ∧ k.comploaddlt.get i = Bipart.over g k.m.parttax.get i g.velo - avg i

/-- A recorded cut is what the bipartitioning method has answered for two domains that are the halves of a domain of the architecture. -/
def Cut.Real (o : ArchOps D) (env : Env D) (c : Cut D) : Prop :=
  ∃ p size0 d, o.bipart d = .ok (some (c.d0, c.d1)) ∧ env.bip p c.g c.d0 c.d1 = .ok (some (c.part, size0))

/-- A mapping `a'` of the vertices of `g`, computed from the contents `a` of the user's array: every vertex is on a processor, vertices that are fixed are on their processors,
and others are on the only processor that is allowed by the cuts which the method has computed; nothing else is modified. -/
structure MapOk (o : ArchOps D) (Has : D → Int → Prop) (n : Int) (env : Env D) (g : Graph) (pfix : Int → Int) (log : List (Cut D)) (a a' : Arr Int) : Prop where
  lo : a'.lo = a.lo
  hi : a'.hi = a.hi
  range : ∀ v, g.Vertex v → 0 ≤ a'.get v ∧ a'.get v < n
  fixed : ∀ v, g.Vertex v → 0 ≤ pfix v → a'.get v = pfix v
  free : ∀ v, g.Vertex v → pfix v < 0 → Follows Has n log v (a'.get v)
  rest : ∀ v, ¬ g.Vertex v → a'.get v = a.get v
  real : ∀ c ∈ log, c.Real o env

/-- What the tie parameters of the strategy must be. -/
def TieOk (fl : Flags) (apart : Bool) (n : Int) : Prop := apart = true ∨ fl.maptie = true ∨ (fl.jobtie = true ∧ 2 ≤ n)

/-- Graphs that may be mapped: consistent ones, which are not subgraphs of other graphs. -/
structure Mappable (g : Graph) : Prop where
  cons : g.Consistent
  alloc : g.Allocated
  base : 0 ≤ g.baseval
  vnum : g.vnumtax = none

end Scotch.Kmap
