import Verif.HOrder.ModelSt
import Verif.HOrder.Spec
import Verif.Order.Spec
import Verif.Separ.Spec

/-! # Ordering of graphs: specification -/

set_option autoImplicit false

namespace Scotch

namespace Cblk

/-- Positions, in the ordering, of the vertices of consecutive blocks. -/
def spans : List Cblk → Int → List (Int × Int)
  | [], _ => []
  | s :: r, off => (off, off + s.vnodnbr) :: spans r (off + s.vnodnbr)

/-- No vertex of `p` is a neighbour of a vertex of `q`. -/
def Apart (A : Int → Int → Prop) (p q : Int × Int) : Prop := ∀ i j, p.1 ≤ i → i < p.2 → q.1 ≤ j → j < q.2 → ¬ A i j ∧ ¬ A j i

mutual
/-- The block tree separates the vertices: components are not connected to one another, and neither are the two parts of a nested dissection. `A i j` says that the vertices at positions `i` and `j` of the
ordering are neighbours; the first vertex of the block is at position `off`. -/
def Separates (A : Int → Int → Prop) : Cblk → Int → Prop
  | .leaf _ _ _, _ => True
  | .node t _ _ sons, off => (t = ORDERCBLKDICO → (spans sons off).Pairwise (Apart A)) ∧ (t = ORDERCBLKNEDI → ((spans sons off).take 2).Pairwise (Apart A)) ∧ SeparatesL A sons off
def SeparatesL (A : Int → Int → Prop) : List Cblk → Int → Prop
  | [], _ => True
  | s :: r, off => Separates A s off ∧ SeparatesL A r (off + s.vnodnbr)
end
end Cblk

namespace HOrder
open Graph

/-- The vertices of `h` that are not in its halo have been ordered, from position `ordenum` on: the `i`-th one is `π i`. -/
structure Placed (h : Hgraph) (ordenum : Int) (o o' : Ord) (c : Cblk) (π : Int → Int) : Prop where
  bnd : o'.peritab.lo = o.peritab.lo ∧ o'.peritab.hi = o.peritab.hi
  /-- other cells are not modified -/
  frame : ∀ i, (i < ordenum ∨ ordenum + h.vnohnbr ≤ i) → o'.peritab.get i = o.peritab.get i
  vertex : ∀ i, 0 ≤ i → i < h.vnohnbr → (unhalo h).Vertex (π i)
  inj : ∀ i j, 0 ≤ i → i < h.vnohnbr → 0 ≤ j → j < h.vnohnbr → π i = π j → i = j
  peri : ∀ i, 0 ≤ i → i < h.vnohnbr → o'.peritab.get (ordenum + i) = onum h.s (π i)
  /-- the block tree -/
  size : c.vnodnbr = h.vnohnbr
  coherent : c.Coherent
  alloc : c.Alloc
  tree : o'.treenbr = o.treenbr + c.nodes - 1
  cblk : o'.cblknbr = o.cblknbr + c.width - 1
  separates : c.Separates (fun i j => Adj h.s (π i) (π j)) 0

/-- What is known of the graph of some of the vertices: the base value does not change, there are no more vertices, loads are positive if they were, and there are no loads if there were none. -/
structure Within (g g' : Graph) : Prop where
  base : g'.baseval = g.baseval
  nnd : g'.vertnnd = g'.baseval + g'.vertnbr
  size : g'.vertnbr ≤ g.vertnbr
  velo : (∀ v, g.Vertex v → 0 < g.velo v) → ∀ v, g'.Vertex v → 0 < g'.velo v
  loads : g.velotax = none → g'.velotax = none

/-- The class of graphs has all the graphs of some of the vertices. -/
def Hered (cls : Graph → Prop) : Prop := ∀ g g', cls g → Within g g' → cls g'

/-- What is known of the graph of the compressed vertices: its base value is 1, there are no more vertices, and loads are positive if they were. -/
structure Packed (g g' : Graph) : Prop where
  base : g'.baseval = 1
  nnd : g'.vertnnd = g'.baseval + g'.vertnbr
  size : g'.vertnbr ≤ g.vertnbr
  velo : (∀ v, g.Vertex v → 0 < g.velo v) → ∀ v, g'.Vertex v → 0 < g'.velo v

/-- `hc` is a compressed graph of `h`: vertex `v` of `h` is put in vertex `φ v` of `hc`. Vertices that are put together have the same neighbours, apart from themselves; halo vertices are kept as they are. -/
structure Compresses (h hc : Hgraph) (φ : Int → Int) : Prop where
  vertex : ∀ v, h.s.Vertex v → hc.s.Vertex (φ v) ∧ (φ v < hc.vnohnnd ↔ v < h.vnohnnd)
  onto : ∀ c, hc.s.Vertex c → ∃ v, h.s.Vertex v ∧ φ v = c
  twins : ∀ u v, h.s.Vertex u → h.s.Vertex v → φ u = φ v → u = v ∨ (u < h.vnohnnd ∧ v < h.vnohnnd ∧ Adj h.s u v ∧ ∀ x, x ≠ u → x ≠ v → (Adj h.s u x ↔ Adj h.s v x))
  adj : ∀ c d, hc.s.Vertex c → (Adj hc.s c d ↔ c ≠ d ∧ ∃ u v, h.s.Vertex u ∧ Adj h.s u v ∧ φ u = c ∧ φ v = d)
  velo : ∀ c, hc.s.Vertex c → hc.s.velo c = sumI h.s.baseval h.s.vertnnd (fun v => if φ v = c then h.s.velo v else 0)

/-- The class of graphs has the compressed graphs of its graphs. -/
def Packs (cls : Graph → Prop) : Prop := ∀ g g', cls g → Packed g g' → cls g'

/-- Meaning of a method: if it succeeds, the graph is ordered. A sure method always succeeds; a total one always ends. The method is only applied to halo graphs whose vertices make a graph of the class `cls`. -/
def Orders (cls : Graph → Prop) (tot sure top : Bool) (f : Method) : Prop :=
  ∀ h ordenum o, HCons h → HAlloc h → 0 ≤ h.s.baseval → 1 ≤ h.vnohnbr → o.peritab.lo ≤ ordenum → ordenum + h.vnohnbr ≤ o.peritab.hi → (top = true → ordenum = 0) → cls (unhalo h) →
    Meets tot (f h ordenum o (leafBlock h.vnohnbr)) (fun r => (sure = true → r.1 = 0) ∧ (r.1 = 0 → ∃ π, Placed h ordenum o r.2.1 r.2.2 π))

/-- A separation method computes a valid separation, if it succeeds. -/
def SepOk (cls : Graph → Prop) (tot sure : Bool) (sep : Nat → Separ.Vgraph → M (Option Separ.Vgraph)) : Prop :=
  ∀ t b, Separ.Ready b → cls b.s → Meets tot (sep t b) (fun r => (sure = true → r ≠ none) ∧ ∀ b', r = some b' → Separ.SameProblem b b' ∧ Separ.Valid b')

/-- Partitioning gives a part to each vertex, if it succeeds. -/
def PartOk (cls : Graph → Prop) (tot sure : Bool) (part : Parter) : Prop :=
  ∀ t g k, g.Consistent → g.Allocated → 2 ≤ k → k ≤ g.vertnbr → (∃ a, cls { g with vnumtax := a }) → Meets tot (part t g k) (fun r => (sure = true → r ≠ none) ∧
    ∀ a, r = some a → a.lo ≤ g.baseval ∧ g.vertnnd ≤ a.hi ∧ ∀ v, g.Vertex v → 0 ≤ a.get v ∧ a.get v < k)

/-- The quotient graph given to a minimum degree kernel: vertices are numbered from 1 on, their neighbours are in `iw` from cell `pe` on, and halo vertices have negative lengths. -/
structure Quotient (h : Hgraph) (x : HxIn) : Prop where
  norig : x.norig = h.s.velosum
  n : x.n = h.s.vertnbr
  tabs : ∀ a, a = x.pe ∨ a = x.len ∨ a = x.nv ∨ a = x.elen → a.lo = 1 ∧ a.hi = 1 + h.s.vertnbr
  room : x.iw.lo = 1 ∧ x.iw.hi = 1 + x.iwlen ∧ h.s.vertnbr ≤ x.iwlen
  pfree : x.pfree = 1 + h.s.edgenbr ∧ h.s.edgenbr ≤ x.iwlen
  pe : ∀ v, h.s.Vertex v → x.pe.get (v - h.s.baseval + 1) = 1 + sumI h.s.baseval v (fun u => h.s.vend u - h.s.vert u)
  len : ∀ v, h.s.Vertex v → v < h.vnohnnd → x.len.get (v - h.s.baseval + 1) = h.s.vend v - h.s.vert v
  halo : ∀ v, h.s.Vertex v → h.vnohnnd ≤ v → h.s.vert v ≠ h.s.vend v → x.len.get (v - h.s.baseval + 1) = -(h.s.vend v - h.s.vert v)
  lone : ∀ v, h.s.Vertex v → h.vnohnnd ≤ v → h.s.vert v = h.s.vend v → x.len.get (v - h.s.baseval + 1) = -(h.s.velosum + 1)
  load : ∀ v, h.s.Vertex v → x.nv.get (v - h.s.baseval + 1) = h.s.velo v
  elen : ∀ v, h.s.Vertex v → x.elen.get (v - h.s.baseval + 1) = 0
  edge : ∀ v k, h.s.Vertex v → 0 ≤ k → k < h.s.vend v - h.s.vert v → x.iw.get (x.pe.get (v - h.s.baseval + 1) + k) = h.s.dest (h.s.vert v + k) - h.s.baseval + 1

/-- The assembly tree computed by a minimum degree kernel, for `n` vertices of which the first `N` ones are not in the halo: principal vertices have positive numbers `nv`, and `-pe` is the father, or 0 at roots. Secondary
vertices belong to principal ones, or to halo vertices; fathers of principal vertices are principal, and there are no cycles. -/
structure Forest (N n : Int) (nv pe : Int → Int) : Prop where
  load : ∀ i, 1 ≤ i → i ≤ N → 0 ≤ nv i
  range : ∀ i, 1 ≤ i → i ≤ N → -n ≤ pe i ∧ pe i ≤ 0
  secondary : ∀ i, 1 ≤ i → i ≤ N → nv i = 0 → pe i ≠ 0 ∧ (-pe i ≤ N → nv (-pe i) ≠ 0)
  principal : ∀ i, 1 ≤ i → i ≤ N → nv i ≠ 0 → pe i ≠ 0 → -pe i ≤ N → nv (-pe i) ≠ 0
  acyclic : ∃ rk : Int → Int, (∀ i, 1 ≤ i → i ≤ N → 0 ≤ rk i ∧ rk i < N) ∧ ∀ i, 1 ≤ i → i ≤ N → nv i ≠ 0 → pe i ≠ 0 → -pe i ≤ N → rk i < rk (-pe i)

/-- A minimum degree kernel computes an assembly tree, if it succeeds. -/
def KernOk (cls : Graph → Prop) (tot sure : Bool) (kern : HxKern) : Prop :=
  ∀ t h x, HCons h → HAlloc h → 0 ≤ h.s.baseval → 1 ≤ h.vnohnbr → cls (unhalo h) → Quotient h x →
    Meets tot (kern t x) (fun r => (sure = true → r ≠ none) ∧ ∀ r', r = some r' → Forest h.vnohnbr h.s.vertnbr r'.nv r'.pe)

/-- The method leaves the column block as it is. -/
def KeepsBlock (f : Method) : Prop := ∀ h ordenum o c r, f h ordenum o c = .ok r → r.2.2 = c

/-- Strategies that leave the column block as it is. -/
def Flat : Strat → Prop
  | .empty => True
  | .si => True
  | .gp _ => True
  | .cond _ a b => Flat a ∧ Flat b
  | .cond1 _ a => Flat a
  | .concat => True
  | .select => True
  | _ => False

/-- Strategies that are proved right. A strategy is sure if it never fails: the leaves of a nested dissection must be ordered by such a strategy, since their failure is ignored. The method on connected components and the one
on compressed graphs are only right at the top level, where vertices are numbered from 0 on. The method that makes blocks is right for graphs without loads, and strategies that do not make blocks themselves. Minimum degree methods are right for positive loads;
`hd` also needs graphs without loads. -/
def Good (cls : Graph → Prop) (tot sure top : Bool) : Strat → Prop
  | .empty => True
  | .si => True
  | .gp _ => True
  | .cc s => top = true ∧ Good cls tot sure false s
  | .nd sep ole ose => SepOk cls tot sure sep ∧ Good cls tot true false ole ∧ Good cls tot sure false ose
  | .cp p cpr unc => top = true ∧ 1 ≤ p.gint ∧ Packs cls ∧ Good cls tot sure true cpr ∧ Good cls tot sure true unc
  | .kp _ part => PartOk cls tot sure part
  | .hx hd _ kern => KernOk cls tot sure kern ∧ (∀ g, cls g → ∀ v, g.Vertex v → 0 < g.velo v) ∧ (hd = true → ∀ g, cls g → g.velotax = none)
  | .bl _ m s => (sure = true → 1 ≤ m) ∧ Flat s ∧ Good cls tot sure top s ∧ ∀ g, cls g → g.velotax = none
  | .cond t a b => (sure = true → ∀ h, t h ≠ none) ∧ Good cls tot sure top a ∧ Good cls tot sure top b
  | .cond1 _ _ => False
  | .concat => sure = false
  | .select => sure = false
  | .ext f => Orders cls tot sure top f

/-- Lists of vertices to order: distinct vertices of the graph, some but not all. -/
def ListOk (g : Graph) : Option (List Int) → Prop
  | none => 1 ≤ g.vertnbr
  | some l => l.Nodup ∧ (∀ v ∈ l, g.Vertex v) ∧ l ≠ [] ∧ (l.length : Int) < g.vertnbr

/-- Sizes of the arrays of the user, when they are given. -/
structure TabsOk (g : Graph) (t : Tabs) : Prop where
  perm : ∀ a, t.permtab = some a → a.lo ≤ 0 ∧ g.vertnbr ≤ a.hi
  rang : ∀ a, t.rangtab = some a → a.lo ≤ 0 ∧ g.vertnbr + 1 ≤ a.hi
  tree : ∀ a, t.treetab = some a → a.lo ≤ g.baseval ∧ g.baseval + g.vertnbr ≤ a.hi

/-- The arrays of the user describe the ordering: direct permutation, ranges of column blocks, fathers of column blocks, number of column blocks. -/
structure Filled (o : Order) (t t' : Tabs) : Prop where
  given : t'.permtab.isSome = t.permtab.isSome ∧ t'.rangtab.isSome = t.rangtab.isSome ∧ t'.treetab.isSome = t.treetab.isSome ∧ t'.cblkptr.isSome = t.cblkptr.isSome
  perm : ∀ a, t'.permtab = some a → IsPerm o.baseval o.vnodnbr a.get ∧ (∀ i, 0 ≤ i → i < o.vnodnbr → a.get (o.peritab.get i - o.baseval) = i + o.baseval) ∧
    ∀ j, 0 ≤ j → j < o.vnodnbr → o.peritab.get (a.get j - o.baseval) = j + o.baseval
  rang : ∀ a, t'.rangtab = some a → a.get 0 = o.baseval ∧ a.get o.cblknbr = o.baseval + o.vnodnbr ∧
    ∀ k : Nat, (h : k < o.cblktre.leaves.length) → a.get (k + 1) = a.get k + o.cblktre.leaves[k] ∧ 1 ≤ o.cblktre.leaves[k]
  tree : ∀ a, t'.treetab = some a → (∀ k, o.baseval ≤ k → k < o.baseval + o.cblknbr → a.get k = -1 ∨ (k < a.get k ∧ a.get k < o.baseval + o.cblknbr)) ∧ o.cblktre.Reflects a.get o.baseval
  cblk : ∀ n, t'.cblkptr = some n → n = o.cblknbr

/-- The vertices at two positions of an ordering are neighbours. -/
def NearIn (g : Graph) (o : Order) (i j : Int) : Prop := Adj g (o.peritab.get i) (o.peritab.get j)

/-- The block tree of an ordering of the whole graph separates its vertices. When only some of the vertices are ordered, they come first, and their own block tree separates them. -/
def Separated (g : Graph) (o : Order) : Option (List Int) → Prop
  | none => o.cblktre.Separates (NearIn g o) 0
  | some l => (∀ i : Int, 0 ≤ i → i < l.length → o.peritab.get i ∈ l) ∧ ∃ c d, o.cblktre = .node ORDERCBLKDICO g.vertnbr 2 [c, d] ∧ c.vnodnbr = l.length ∧ c.Separates (NearIn g o) 0

end HOrder
end Scotch
