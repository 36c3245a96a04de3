import Verif.Separ.ModelGg
import Verif.Separ.ModelSt
import Verif.Bipart.Spec
import Verif.Meets
import Verif.Coarsen.Use

/-!
# Separation graphs: specification

The quantities that a separation keeps up to date are described from the parts of vertices only.
-/

set_option autoImplicit false

namespace Scotch.Separ
open Bipart (over)

/-- Part of a vertex: 0, 1, or 2 for the separator. -/
def Vgraph.part (b : Vgraph) (v : Int) : Int := b.parttax.get v

/-- No arc joins the two separated parts. -/
def Separated (g : Graph) (part : Int → Int) : Prop :=
  ∀ v p, g.Vertex v → p ∈ g.nbrs v → ¬ (part v = 0 ∧ part p.1 = 1) ∧ ¬ (part v = 1 ∧ part p.1 = 0)

/-- Values that the parts determine. -/
structure Sound (b : Vgraph) : Prop where
  parts : ∀ v, b.s.Vertex v → b.part v = 0 ∨ b.part v = 1 ∨ b.part v = 2
  sep : Separated b.s b.part
  /-- numbers of vertices -/
  size0 : b.compsize0 = over b.s b.part 0 (fun _ => 1)
  size1 : b.compsize1 = over b.s b.part 1 (fun _ => 1)
  size2 : b.fronnbr = over b.s b.part 2 (fun _ => 1)
  /-- loads -/
  load0 : b.compload0 = over b.s b.part 0 b.s.velo
  load1 : b.compload1 = over b.s b.part 1 b.s.velo
  load2 : b.compload2 = over b.s b.part 2 b.s.velo
  /-- imbalance, with respect to the weights of the two parts -/
  delta : b.comploaddlt = b.compload0 * b.dwgt1 - b.compload1 * b.dwgt0

/-- A separation whose recorded values are the ones of its part array, and whose frontier array lists the vertices of
the separator, once each. -/
structure Valid (b : Vgraph) : Prop extends Sound b where
  fron : Enum b.frontab b.fronnbr (fun v => b.s.Vertex v ∧ b.part v = 2)

/-- Memory: the arrays of the separation cover all vertices. -/
structure Alloc (b : Vgraph) : Prop where
  graph : b.s.Allocated
  part : b.parttax.lo ≤ b.s.baseval ∧ b.s.vertnnd ≤ b.parttax.hi
  fron : b.frontab.lo ≤ 0 ∧ b.s.vertnbr ≤ b.frontab.hi

/-- What a routine that changes parts must keep. -/
structure SameProblem (b b' : Vgraph) : Prop where
  s : b'.s = b.s
  bounds : b'.parttax.lo = b.parttax.lo ∧ b'.parttax.hi = b.parttax.hi ∧ b'.frontab.lo = b.frontab.lo ∧ b'.frontab.hi = b.frontab.hi
  dwgt : b'.dwgt0 = b.dwgt0 ∧ b'.dwgt1 = b.dwgt1

/-- Values that may be drawn at random: the root is a vertex number, counted from 0, and the permutation holds vertices. -/
structure GgOracle.Ok (b : Vgraph) (o : GgOracle) : Prop where
  root : 0 ≤ o.root ∧ o.root < b.s.vertnbr
  perm : o.perm.lo ≤ 0 ∧ b.s.vertnbr ≤ o.perm.hi
  vertex : ∀ i, 0 ≤ i → i < b.s.vertnbr → b.s.Vertex (o.perm.get i)

/-- A separation that a method may be applied to: it is valid, the graph is not empty, and the weights of the parts may be used. -/
structure Ready (b : Vgraph) : Prop where
  cons : b.s.Consistent
  alloc : Alloc b
  valid : Valid b
  base : 0 ≤ b.s.baseval
  size : 1 ≤ b.s.vertnbr
  dwgt : 0 ≤ b.dwgt0 ∧ b.dwgt0 + b.dwgt1 ≠ 0

/-- Meaning of a method: it does not change the graph; if it succeeds, the separation is valid. A sure method always succeeds; a total one always ends. The method is only applied to the graphs of a class `cls`. -/
def SepMethod (cls : Graph → Prop) (tot sure : Bool) (f : Vgraph → M (Int × Vgraph)) : Prop :=
  ∀ b, Ready b → cls b.s → Meets tot (f b) (fun r => SameProblem b r.2 ∧ (sure = true → r.1 = 0) ∧ (r.1 = 0 → Valid r.2))

/-- The gain table only holds links of slots that have a vertex and that have been put in the table. The order is free. -/
def GainsOk (order : SOrder) : Prop :=
  ∀ k (hash : Arr Bipart.FmSlot), ∀ x ∈ order k hash, (hash.lo ≤ x.2.1 ∧ x.2.1 < hash.hi) ∧ (hash.get x.2.1).vertnum ≠ -1 ∧ (hash.get x.2.1).st = .link ∧ (x.2.2 = 0 ∨ x.2.2 = 1)

/-- What the refinement needs: weights of parts whose sum is not zero, positive loads, vertices numbered from a base that is not negative, and a number of vertices that is not 512, 1024, 2048, … -/
structure FmReady (b : Vgraph) : Prop where
  cons : b.s.Consistent
  alloc : Alloc b
  valid : Valid b
  base : 0 ≤ b.s.baseval
  dwgt : b.dwgt0 + b.dwgt1 ≠ 0
  velo : ∀ v, b.s.Vertex v → 0 < b.s.velo v
  full : ∀ k : Nat, b.s.vertnbr ≠ 512 * 2 ^ k

/-- Draws are legal; coarse graphs are contractions, and belong to the class. -/
structure SEnv.Ok (cls : Graph → Prop) (env : SEnv) : Prop where
  gg : ∀ p b k, Ready b → (env.gg p b k).Ok b
  order : ∀ p, GainsOk (env.order p)
  coarsen : ∀ p g, g.Consistent → g.Allocated → 0 ≤ g.baseval → cls g → Holds (env.coarsen p g) (fun o => Coarsen.Shrinks g o ∧ ∀ r, o = some r → cls r.graph)

/-- Graphs that can be refined: all vertex loads are positive, and the number of vertices is not 512, 1024, 2048, … -/
structure Fine (g : Graph) : Prop where
  velo : ∀ v, g.Vertex v → 0 < g.velo v
  full : ∀ k : Nat, g.vertnbr ≠ 512 * 2 ^ k

/-- What is known of the graph of a band: the base value does not change, there are no more vertices, loads are positive if they were, and there are two anchor vertices. -/
structure Narrower (g g' : Graph) : Prop where
  base : g'.baseval = g.baseval
  nnd : g'.vertnnd = g'.baseval + g'.vertnbr
  size : g'.vertnbr ≤ g.vertnbr
  velo : (∀ v, g.Vertex v → 0 < g.velo v) → ∀ v, g'.Vertex v → 0 < g'.velo v
  two : 2 ≤ g'.vertnbr

/-- Strategies: tests that are part of a sure strategy can be evaluated. A selection succeeds even if the two strategies do not. A refinement may not end. The class of graphs of
a band method must be closed under the construction of band graphs. The diffusion needs at least two vertices: this is so on band graphs, where `anch` is true. -/
def SGoodA (cls : Graph → Prop) (tot sure anch : Bool) : SStrat → Prop
  | .empty => True
  | .zr => True
  | .gp _ => True
  | .gg _ => True
  | .fm para => tot = false ∧ 0 ≤ para.movenbr ∧ ∀ g, cls g → Fine g
  | .df _ => anch = true ∨ ∀ g, cls g → 2 ≤ g.vertnbr
  | .ml asc low => SGoodA cls tot sure false asc ∧ SGoodA cls tot sure false low
  | .bd _ bnd org => SGoodA cls tot sure true bnd ∧ SGoodA cls tot sure anch org ∧ ∀ g g', cls g → Narrower g g' → cls g'
  | .vw fails => sure = true → ∀ p, fails p = false
  | .concat s t => SGoodA cls tot sure anch s ∧ SGoodA cls tot sure anch t
  | .cond c s t => (sure = true → ∀ p b, c p b ≠ none) ∧ SGoodA cls tot sure anch s ∧ SGoodA cls tot sure anch t
  | .cond1 c s => (sure = true → ∀ p b, c p b ≠ none) ∧ SGoodA cls tot sure anch s
  | .select s t => SGoodA cls tot false anch s ∧ SGoodA cls tot false anch t
  | .ext f => ∀ p, SepMethod cls tot sure (f p)

/-- Strategies for any graph of a class. -/
def SGood (cls : Graph → Prop) (tot sure : Bool) (s : SStrat) : Prop := SGoodA cls tot sure false s

end Scotch.Separ
