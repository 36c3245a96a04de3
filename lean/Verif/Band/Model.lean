import Verif.Graph.Access

/-!
# Band graphs: model

src/libscotch/graph_band.c.
-/

set_option autoImplicit false

namespace Scotch.Band

/-- State of the search: numbers of vertices in the band graph (−1 for vertices that have not been reached, −2 for fixed ones), queue and counters. -/
structure St where
  vnum : Arr Int
  queu : Arr Int
  next : Int
  vertnum : Int
  edgenbr : Int
  vfixnbr : Int

/-- `(pfixtax != NULL) && (pfixtax[vertnum] != -1)` — graph_band.c:116, 145. -/
def isFix (pfix : Option (Arr Int)) (v : Int) : M Bool :=
  match pfix with
  | none => return false
  | some a => do return decide ((← a.rd v) ≠ -1)

/-- Number of a vertex that is reached, and its arcs — graph_band.c:116–122, 145–152. -/
def reach (g : Graph) (pfix : Option (Arr Int)) (v : Int) (s : St) : M St := do
  let fix ← isFix pfix v
  let vnum ← s.vnum.wr v (if fix then -2 else s.vertnum)
  let lo ← g.verttax.rd v
  let hi ← g.rdVend v
  return { s with
    vnum := vnum, vertnum := if fix then s.vertnum else s.vertnum + 1, vfixnbr := if fix then s.vfixnbr + 1 else s.vfixnbr,
    edgenbr := s.edgenbr + (hi - lo) }

/-- Arc of a vertex of the queue — graph_band.c:139–154. -/
def arc (g : Graph) (pfix : Option (Arr Int)) (_e w : Int) (s : St) : M St := do
  if (← s.vnum.rd w) ≠ -1 then return s
  else do
    let s ← reach g pfix w s
    let queu ← s.queu.wr s.next w
    return { s with queu := queu, next := s.next + 1 }

/-- One level — graph_band.c:130–157: vertices of the queue from `head` to `tail` are expanded. -/
def level (g : Graph) (pfix : Option (Arr Int)) (s : St × Int × Int) : M (St × Int × Int) := do
  let tail := s.1.next
  let lvl := s.1.vertnum
  let t ← forUp s.2.1 tail s.1 fun i t => do
    let v ← t.queu.rd i
    g.forArcs v t (arc g pfix)
  return (t, tail, lvl)

/-- What `graphBand` returns. `lvl` is the content of `*bandvertlvlptr`. -/
structure Result where
  queu : Arr Int
  vnum : Arr Int
  lvl : Int
  vertnbr : Int
  edgenbr : Int
  vfixnbr : Int

/-- `graphBand` — graph_band.c:74–166. `lvl` is the initial content of `*bandvertlvlptr`, which is not written if the distance is not positive. -/
def band (g : Graph) (queunbr : Int) (queu : Arr Int) (distmax : Int) (pfix : Option (Arr Int)) (lvl : Int) : M Result := do
  let s ← forUp 0 queunbr ⟨Arr.const g.baseval (g.baseval + g.vertnbr) (-1), queu, 0, g.baseval, 0, 0⟩ fun i s => do
    let v ← s.queu.rd i
    reach g pfix v s
  let (s, _, lvl) ← forUp 0 distmax ({ s with next := queunbr }, 0, lvl) fun _ s => level g pfix s
  return ⟨s.queu, s.vnum, lvl, s.vertnum - g.baseval, s.edgenbr, s.vfixnbr⟩

end Scotch.Band
