import Verif.Band.Model
import Verif.Enum

/-! # Band graphs: specification -/

set_option autoImplicit false

namespace Scotch.Band

/-- Vertices at distance at most `n` of a set, by a walk of at most `n` arcs. -/
inductive Within (g : Graph) (F : Int → Prop) : Nat → Int → Prop
  | start {v : Int} (n : Nat) : F v → Within g F n v
  | step {n : Nat} {v : Int} {p : Int × Int} : Within g F n v → p ∈ g.nbrs v → Within g F (n + 1) p.1

/-- Vertices that are fixed. -/
def Fixed (pfix : Option (Arr Int)) (v : Int) : Prop := ∃ a, pfix = some a ∧ a.get v ≠ -1

open Classical in
/-- Sum over the vertices of a set. -/
noncomputable def total (g : Graph) (P : Int → Prop) (f : Int → Int) : Int := sumI g.baseval g.vertnnd (fun v => if P v then f v else 0)

/-- Memory and contents that `graphBand` needs: the queue starts with the vertices of a set, once each, and has room for all vertices. -/
structure Input (g : Graph) (F : Int → Prop) (queunbr : Int) (queu : Arr Int) (pfix : Option (Arr Int)) : Prop where
  graph : g.Allocated
  sub : ∀ v, F v → g.Vertex v
  front : Enum queu queunbr F
  queu : queu.lo ≤ 0 ∧ g.vertnbr ≤ queu.hi
  pfix : ∀ a, pfix = some a → a.lo ≤ g.baseval ∧ g.vertnnd ≤ a.hi

/-- The result of `graphBand`, for a set `F` of vertices and a distance `d`. -/
structure Exact (g : Graph) (F : Int → Prop) (d : Nat) (pfix : Option (Arr Int)) (r : Result) : Prop where
  /-- vertices out of the band, fixed vertices, and other vertices -/
  out : ∀ v, g.Vertex v → (r.vnum.get v = -1 ↔ ¬ Within g F d v)
  fixd : ∀ v, g.Vertex v → (r.vnum.get v = -2 ↔ Within g F d v ∧ Fixed pfix v)
  /-- other vertices are numbered from the base value on, once each, up to the number of vertices of the band -/
  num : ∀ v, g.Vertex v → Within g F d v → ¬ Fixed pfix v → g.baseval ≤ r.vnum.get v ∧ r.vnum.get v < g.baseval + r.vertnbr
  inj : ∀ v w, g.Vertex v → g.Vertex w → 0 ≤ r.vnum.get v → r.vnum.get v = r.vnum.get w → v = w
  onto : ∀ i, g.baseval ≤ i → i < g.baseval + r.vertnbr → ∃ v, g.Vertex v ∧ r.vnum.get v = i
  /-- in order of increasing distances -/
  order : ∀ v w n, g.Vertex v → g.Vertex w → 0 ≤ r.vnum.get v → r.vnum.get v ≤ r.vnum.get w → Within g F n w → Within g F n v
  /-- and the ones of the last level are known -/
  last : 0 < d → ∀ v, g.Vertex v → 0 ≤ r.vnum.get v → (r.vnum.get v < r.lvl ↔ Within g F (d - 1) v)
  /-- numbers of vertices, of fixed vertices and of arcs -/
  vertnbr : r.vertnbr = total g (fun v => Within g F d v ∧ ¬ Fixed pfix v) (fun _ => 1)
  vfixnbr : r.vfixnbr = total g (fun v => Within g F d v ∧ Fixed pfix v) (fun _ => 1)
  edgenbr : r.edgenbr = total g (Within g F d) (fun v => ((g.nbrs v).length : Int))
  /-- the queue lists the vertices of the band, in the same order -/
  queu : ∃ n, Enum r.queu n (Within g F d) ∧ ∀ i j, 0 ≤ i → i < j → j < n → 0 ≤ r.vnum.get (r.queu.get i) → 0 ≤ r.vnum.get (r.queu.get j) →
    r.vnum.get (r.queu.get i) < r.vnum.get (r.queu.get j)

end Scotch.Band
