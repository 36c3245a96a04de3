import Verif.Dist.Model
import Verif.Util

/-!
# Distributed graphs: what is expected

A distributed graph is a graph whose vertices are shared among processes: each process numbers its own vertices from the
base value on, and the ends of arcs are global numbers.
-/

set_option autoImplicit false

namespace Scotch.Dist

/-- A distributed graph: process `p` holds the local graph `loc p`, and the global numbers `[vrt p, vrt (p + 1))` are
devoted to it. -/
structure DGraph where
  procglbnbr : Int
  procvrttab : Arr Int
  loc : Int → Graph

namespace DGraph

/-- The base value. -/
def base (d : DGraph) : Int := d.procvrttab.get 0

/-- `p` is a process. -/
def Proc (d : DGraph) (p : Int) : Prop := 0 ≤ p ∧ p < d.procglbnbr

/-- Global number of local vertex `u` of process `p`. -/
def glb (d : DGraph) (p u : Int) : Int := d.procvrttab.get p + (u - d.base)

/-- Process `p` has an arc `e` from its local vertex `u` to global vertex `w`. -/
def Arc (d : DGraph) (p u e w : Int) : Prop :=
  (d.loc p).Vertex u ∧ (d.loc p).vert u ≤ e ∧ e < (d.loc p).vend u ∧ (d.loc p).dest e = w

/-- The data of all the processes describe one graph. -/
structure Consistent (d : DGraph) : Prop where
  pos : 0 < d.procglbnbr
  vlo : d.procvrttab.lo ≤ 0
  vhi : d.procglbnbr + 1 ≤ d.procvrttab.hi
  base0 : 0 ≤ d.base
  alloc : ∀ p, d.Proc p → (d.loc p).Allocated
  based : ∀ p, d.Proc p → (d.loc p).baseval = d.base
  nbr0 : ∀ p, d.Proc p → 0 ≤ (d.loc p).vertnbr
  nnd : ∀ p, d.Proc p → (d.loc p).vertnnd = (d.loc p).baseval + (d.loc p).vertnbr
  /-- the numbers devoted to a process are enough for its vertices -/
  room : ∀ p, d.Proc p → d.procvrttab.get p + (d.loc p).vertnbr ≤ d.procvrttab.get (p + 1)
  ord : ∀ p, d.Proc p → ∀ u, (d.loc p).Vertex u → (d.loc p).vert u ≤ (d.loc p).vend u
  /-- the number of arcs of each process is given -/
  edge : ∀ p, d.Proc p → sumI (d.loc p).baseval (d.loc p).vertnnd (fun u => (d.loc p).vend u - (d.loc p).vert u) ≤ (d.loc p).edgenbr
  /-- every arc leads to a vertex, which has the opposite arc -/
  sym : ∀ p, d.Proc p → ∀ u e w, d.Arc p u e w → ∃ q u', d.Proc q ∧ (d.loc q).Vertex u' ∧ w = d.glb q u' ∧ ∃ e', d.Arc q u' e' (d.glb p u)

/-- Data of a process. -/
def local' (d : DGraph) (p : Int) : Local := ⟨d.procglbnbr, p, d.procvrttab, d.loc p⟩

end DGraph
end Scotch.Dist
