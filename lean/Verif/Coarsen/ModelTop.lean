import Verif.Coarsen.Model
import Verif.Match.Model

/-!
# Coarsening of a graph: model

`graphCoarsen`, src/libscotch/graph_coarsen.c:491–630, with one thread: matching, decision to go on, building.
-/

set_option autoImplicit false

namespace Scotch.Coarsen

/-- `graphCoarsen` — graph_coarsen.c:580–630, and graphCoarsen2, graphCoarsen3 for one thread (graph_coarsen.c:183–211, 493–567). `coarmax` is the largest number of coarse vertices, which is computed in floating point at line 601, and is
arbitrary; `none` stands for the value 1: there would be too few vertices, or the coarse graph is too large. -/
def coarsen (numMax : Int) (bits : Nat) (junk : Int → Int × Int) (J : Junk) (E : Match.Env) (coarvertnbr coarmax : Int) : M (Option Result) := do
  if coarmax < coarvertnbr then return none
  else do
    let m ← Match.matchSeq E bits junk
    if m.2 ≥ coarmax then return none
    else return some (← buildSeq numMax E.g m.1 m.2 J)

end Scotch.Coarsen
