import Verif.Graph.Model
import Verif.Rand.Model

/-!
# Graph colouring: model

src/libscotch/library_graph_color.c. Memory allocation and context initialization succeed.
-/

set_option autoImplicit false

namespace Scotch.Color

/-- Random values of the vertices — library_graph_color.c:123–124. `w` is the size of integers. -/
def drawAll (w : Nat) (g : Graph) (junk : Int → Int) (c : Rand.Ctx) : M (Arr Int × Rand.Ctx) :=
  forUp g.baseval g.vertnnd (⟨g.baseval, g.vertnnd, junk⟩, c) fun v s => do
    let r ← Rand.val w s.2 32768
    let a ← s.1.wr v r.1
    return (a, r.2)

/-- Body of the loop on neighbours — library_graph_color.c:140–151: leaves the loop if a neighbour without colour goes first. -/
def nbrBody (g : Graph) (rand colo : Arr Int) (v randval : Int) (e : Int) (_ : Unit) : M (Loop Unit Unit) := do
  let w ← g.edgetax.rd e
  let c ← colo.rd w
  if c ≥ 0 then return .next ()
  else do
    let randend ← rand.rd w
    if randend > randval ∨ (randend = randval ∧ w > v) then return .brk () else return .next ()

/-- State of a pass. -/
structure PState where
  colo : Arr Int
  queu : Arr Int
  new : Int

/-- Vertex of index `i` of the queue: `(queunnd == vertnnd) ? queuold : queutax[queuold]` — library_graph_color.c:137. -/
def queueAt (g : Graph) (queunnd : Int) (queu : Arr Int) (i : Int) : M Int := if queunnd = g.vertnnd then return i else queu.rd i

/-- End of an iteration — library_graph_color.c:153–156. -/
def endBody (colonum v : Int) (r : Loop Unit Unit) (s : PState) : M PState :=
  match r with
  | .next _ => do return { s with colo := ← s.colo.wr v colonum }
  | .brk _ => do return { s with queu := ← s.queu.wr s.new v, new := s.new + 1 }

/-- Body of a pass — library_graph_color.c:132–156. -/
def passBody (g : Graph) (rand : Arr Int) (colonum queunnd : Int) (i : Int) (s : PState) : M PState := do
  let v ← queueAt g queunnd s.queu i
  let randval ← rand.rd v
  let vert ← g.verttax.rd v
  let vend ← g.rdVend v
  let r ← forUpB vert vend () (nbrBody g rand s.colo v randval)
  endBody colonum v r s

/-- State of the loop on colours. -/
structure CState where
  colo : Arr Int
  queu : Arr Int
  queunnd : Int
  colonum : Int

/-- Loop on colours — library_graph_color.c:127–159. -/
def colorStep (g : Graph) (rand : Arr Int) (s : CState) : M (Loop CState (Arr Int × Int)) :=
  if s.queunnd > g.baseval then do
    let r ← forUp g.baseval s.queunnd ⟨s.colo, s.queu, g.baseval⟩ (passBody g rand s.colonum s.queunnd)
    return .next ⟨r.colo, r.queu, r.new, s.colonum + 1⟩
  else return .brk (s.colo, s.colonum)

/-- `SCOTCH_graphColor` after the random draws — library_graph_color.c:109–110, 126–161: the colours, and their number. -/
def colorWith (g : Graph) (rand : Arr Int) (qjunk : Int → Int) : M (Arr Int × Int) :=
  loopM (colorStep g rand) (g.vertnbr.toNat + 1) ⟨Arr.const g.baseval g.vertnnd (-1), ⟨g.baseval, g.vertnnd, qjunk⟩, g.vertnnd, 0⟩

/-- `SCOTCH_graphColor` — library_graph_color.c:77–170. -/
def graphColor (w : Nat) (g : Graph) (rjunk qjunk : Int → Int) (c : Rand.Ctx) : M (Arr Int × Int) := do
  let r ← drawAll w g rjunk c
  colorWith g r.1 qjunk

end Scotch.Color
