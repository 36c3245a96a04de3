import Verif.Separ.Model

/-!
# Separation of band graphs: model

src/libscotch/vgraph_separate_bd.c. The two arrays of the first allocation are modelled by two arrays; the frontier array of the band graph, which is in the same block, after the part of the queue that is still in use (line 373), is a third one, of the
size that remains.
-/

set_option autoImplicit false

namespace Scotch.Separ

/-! ## Search -/

/-- State of the search: distances (−1 for vertices that have not been reached), queue, number of vertices that have been put in it, and `bndedgenbr`, `bndvelosum`, `bndcompsize1`, `bndcompload1`. -/
structure BdSt where
  dist : Arr Int
  queu : Arr Int
  head : Int
  edgenbr : Int
  velosum : Int
  size1 : Int
  load1 : Int

/-- Load of a vertex, or 0 if there are no loads: sums are not updated then (lines 148, 194). -/
def rdVelo0 (g : Graph) (v : Int) : M Int := match g.velotax with | none => return 0 | some a => a.rd v

/-- A vertex of the separator is put in the queue — vgraph_separate_bd.c:125–150. -/
def bdFirst (b : Vgraph) (i : Int) (s : BdSt) : M BdSt := do
  let v ← b.frontab.rd i
  let dist ← s.dist.wr v 0
  let queu ← s.queu.wr s.head v
  return { s with dist := dist, queu := queu, head := s.head + 1, velosum := s.velosum + (← rdVelo0 b.s v) }

/-- Neighbour of a vertex of the queue — vgraph_separate_bd.c:181–198. -/
def bdArc (b : Vgraph) (d : Int) (_e w : Int) (s : BdSt) : M BdSt := do
  if (← s.dist.rd w) = -1 then do
    let p := (← b.parttax.rd w) % 2
    let dist ← s.dist.wr w d
    let queu ← s.queu.wr s.head w
    let x ← rdVelo0 b.s w
    return { s with dist := dist, queu := queu, head := s.head + 1, size1 := s.size1 + p, velosum := s.velosum + x, load1 := s.load1 + x * p }
  else return s

/-- Vertex of the queue — vgraph_separate_bd.c:167–199. -/
def bdVert (b : Vgraph) (distmax v : Int) (s : BdSt) : M BdSt := do
  let lo ← b.s.verttax.rd v
  let hi ← b.s.rdVend v
  let d ← s.dist.rd v
  if d ≥ distmax then return { s with edgenbr := s.edgenbr + (hi - lo) + 1 }
  else b.s.forArcs v { s with edgenbr := s.edgenbr + (hi - lo) } (bdArc b (d + 1))

/-- Body of the loop on the queue — vgraph_separate_bd.c:154–200. The first element is the number of vertices that have been taken. -/
def bdStep (b : Vgraph) (distmax : Int) (t : Int × BdSt) : M (Loop (Int × BdSt) BdSt) := do
  let v ← t.2.queu.rd t.1
  let s ← bdVert b distmax v t.2
  if t.1 + 1 ≠ s.head then return .next (t.1 + 1, s) else return .brk s

/-- Sums, when there are no loads — vgraph_separate_bd.c:204–207. -/
def bdLoads (b : Vgraph) (s : BdSt) : BdSt := if b.s.velotax.isNone then { s with velosum := s.head, load1 := s.size1 } else s

/-- Search from the separator — vgraph_separate_bd.c:109–207. -/
def bdSearch (junk : Int → Int) (distmax : Int) (b : Vgraph) : M BdSt := do
  let d := if distmax < 1 then 1 else distmax
  let s ← forUp 0 b.fronnbr ⟨Arr.const b.s.baseval (b.s.baseval + b.s.vertnbr) (-1), ⟨0, b.s.vertnbr, junk⟩, 0, 0, 0, 0, 0⟩ (bdFirst b)
  let s ← loopM (bdStep b d) (b.s.vertnbr.toNat + 1) (0, s)
  return bdLoads b s

/-! ## Band graph -/

/-- Numbers of vertices in the band graph, up to the first one of the last level — vgraph_separate_bd.c:217–225. -/
def bdIndexIn (queu : Arr Int) (base nnd distmax : Int) (dist : Arr Int) : M (Loop (Arr Int) (Int × Arr Int)) :=
  forUpB base nnd dist fun u a => do
    let v ← queu.rd (u - base)
    if (← a.rd v) ≥ distmax then return .brk (u, a) else return .next (← a.wr v u)

/-- Numbers of the other vertices — vgraph_separate_bd.c:226–227. -/
def bdIndexOut (queu : Arr Int) (base nnd u0 : Int) (a : Arr Int) : M (Arr Int) :=
  forUp u0 nnd a fun u a => do a.wr (← queu.rd (u - base)) u

/-- Numbers of vertices, and number of the first one of the last level — vgraph_separate_bd.c:215–227. -/
def bdIndex (queu : Arr Int) (base nnd distmax : Int) (dist : Arr Int) : M (Int × Arr Int) := do
  match ← bdIndexIn queu base nnd distmax dist with
  | .next a => return (nnd, a)
  | .brk (u, a) => return (u, ← bdIndexOut queu base nnd u a)

/-- State of the construction of the band graph: arrays, next arc, largest degree, and number of arcs to anchor vertices. -/
structure BdGr where
  vert : Arr Int
  velo : Arr Int
  edge : Arr Int
  part : Arr Int
  num : Int
  degr : Int
  anc : Int

/-- Arc of a vertex that is not in the last level — vgraph_separate_bd.c:271–283. -/
def bdArcIn (idx : Arr Int) (_e w : Int) (s : Arr Int × Int) : M (Arr Int × Int) := do
  return (← s.1.wr s.2 (← idx.rd w), s.2 + 1)

/-- Vertex that is not in the last level — vgraph_separate_bd.c:262–288. -/
def bdVertIn (b : Vgraph) (queu idx : Arr Int) (u : Int) (s : BdGr) : M BdGr := do
  let v ← queu.rd (u - b.s.baseval)
  let vert ← s.vert.wr u s.num
  let velo ← s.velo.wr u (← b.s.rdVelo v)
  let (edge, num) ← b.s.forArcs v (s.edge, s.num) (bdArcIn idx)
  let part ← s.part.wr u (← b.parttax.rd v)
  let d := num - (← vert.rd u)
  return { s with vert := vert, velo := velo, edge := edge, part := part, num := num, degr := if s.degr < d then d else s.degr }

/-- Arc of a vertex of the last level — vgraph_separate_bd.c:300–315. -/
def bdArcOut (idx : Arr Int) (_e w : Int) (s : Arr Int × Int) : M (Arr Int × Int) := do
  let x ← idx.rd w
  if x ≠ -1 then return (← s.1.wr s.2 x, s.2 + 1) else return s

/-- Arc to an anchor vertex — vgraph_separate_bd.c:318–325. -/
def bdAnchor (nnd p deg d : Int) (s : BdGr) : M BdGr := do
  if d < deg then do
    let edge ← s.edge.wr s.num (nnd + p)
    return { s with edge := edge, num := s.num + 1, anc := s.anc + 1, degr := if s.degr < d + 1 then d + 1 else s.degr }
  else return { s with degr := if s.degr < d then d else s.degr }

/-- Vertex of the last level — vgraph_separate_bd.c:290–326. -/
def bdVertOut (b : Vgraph) (queu idx : Arr Int) (nnd u : Int) (s : BdGr) : M BdGr := do
  let v ← queu.rd (u - b.s.baseval)
  let vert ← s.vert.wr u s.num
  let velo ← s.velo.wr u (← b.s.rdVelo v)
  let (edge, num) ← b.s.forArcs v (s.edge, s.num) (bdArcOut idx)
  let p ← b.parttax.rd v
  let part ← s.part.wr u p
  let lo ← b.s.verttax.rd v
  let hi ← b.s.rdVend v
  let d := num - (← vert.rd u)
  bdAnchor nnd p (hi - lo) d { s with vert := vert, velo := velo, edge := edge, part := part, num := num }

/-- Arc from an anchor vertex: the arcs of the second one are written from the end — vgraph_separate_bd.c:343–356. -/
def bdBack (vert : Arr Int) (nnd u : Int) (s : Arr Int × Int × Int) : M (Arr Int × Int × Int) := do
  let hi ← vert.rd (u + 1)
  let lo ← vert.rd u
  if hi > lo then do
    let x ← s.1.rd (hi - 1)
    if x ≥ nnd then do
      if x = nnd then return (← s.1.wr s.2.1 u, s.2.1 + 1, s.2.2) else return (← s.1.wr (s.2.2 - 1) u, s.2.1, s.2.2 - 1)
    else return s
  else return s

/-- Contents of allocated arrays: queue, vertices, loads, arcs, parts, frontier. -/
structure BdJunk where
  queu : Int → Int
  vert : Int → Int
  velo : Int → Int
  edge : Int → Int
  part : Int → Int
  fron : Int → Int

/-- Vertices of the band graph, except the anchor ones — vgraph_separate_bd.c:229–326. -/
def bdVerts (junk : BdJunk) (b : Vgraph) (s : BdSt) (vlvl : Int) (idx : Arr Int) : M BdGr := do
  let base := b.s.baseval
  let nnd := s.head + base
  let velo : Arr Int := ⟨base, base + (s.head + 2), junk.velo⟩
  let velo ← velo.wr nnd (b.compload0 - (s.velosum - b.compload2 - s.load1))
  let velo ← velo.wr (nnd + 1) (b.compload1 - s.load1)
  let t ← forUp base vlvl
    (⟨⟨base, base + (s.head + 3), junk.vert⟩, velo, ⟨base, base + s.edgenbr, junk.edge⟩, ⟨base, base + (s.head + 2), junk.part⟩, base, 0, 0⟩ : BdGr)
    (bdVertIn b s.queu idx)
  forUp vlvl nnd t (bdVertOut b s.queu idx nnd)

/-- Largest degree, with the one of an anchor vertex — vgraph_separate_bd.c:366–369. -/
def bdDegr (degr d : Int) : Int := if degr < d then d else degr

/-- Anchor vertices, and band graph — vgraph_separate_bd.c:327–371. The end of each vertex is the start of the next one (line 243). -/
def bdClose (b : Vgraph) (s : BdSt) (vlvl : Int) (t : BdGr) : M (Graph × Arr Int) := do
  let base := b.s.baseval
  let nnd := s.head + base
  let part ← t.part.wr nnd 0
  let part ← part.wr (nnd + 1) 1
  let vert ← t.vert.wr nnd t.num
  let vert ← vert.wr (nnd + 2) (t.num + t.anc)
  let (edge, num, _) ← forUp vlvl nnd (t.edge, t.num, t.num + t.anc) (bdBack vert nnd)
  let vert ← vert.wr (nnd + 1) num
  let edgenbr := t.num + t.anc - base
  return ({
    baseval := base, vertnbr := s.head + 2, vertnnd := nnd + 2, verttax := vert, vendtax := none, velotax := some t.velo, velosum := b.s.velosum,
    vnumtax := some (s.queu.shift base), vlbltax := none, edgenbr := edgenbr, edgetax := ⟨base, base + edgenbr, edge.get⟩, edlotax := none, edlosum := edgenbr,
    degrmax := bdDegr (bdDegr t.degr (num - t.num)) (t.num + t.anc - num) }, part)

/-- Band separation graph — vgraph_separate_bd.c:215–388. -/
def bdBuild (junk : BdJunk) (distmax : Int) (b : Vgraph) (s : BdSt) : M Vgraph := do
  let base := b.s.baseval
  let (vlvl, idx) ← bdIndex s.queu base (s.head + base) distmax s.dist
  let t ← bdVerts junk b s vlvl idx
  let (g, part) ← bdClose b s vlvl t
  let fron ← forUp 0 b.fronnbr (⟨0, 2 * b.s.vertnbr - (s.head + 2), junk.fron⟩ : Arr Int) fun i a => a.wr i (base + i)
  return {
    s := g, parttax := part, frontab := fron, fronnbr := b.fronnbr, compsize0 := s.head - s.size1 - b.fronnbr + 1, compsize1 := s.size1 + 1, compload0 := b.compload0, compload1 := b.compload1,
    compload2 := b.compload2, comploaddlt := b.comploaddlt, dwgt0 := b.dwgt0, dwgt1 := b.dwgt1 }

/-- The separation of the band graph is brought back — vgraph_separate_bd.c:416–427. -/
def bdBring (b : Vgraph) (s : BdSt) (cb : Vgraph) : M Vgraph := do
  let part ← forUp b.s.baseval (s.head + b.s.baseval) b.parttax fun u a => do
    let v ← s.queu.rd (u - b.s.baseval)
    a.wr v (← cb.parttax.rd u)
  let fron ← forUp 0 cb.fronnbr b.frontab fun i a => do
    let u ← cb.frontab.rd i
    a.wr i (← s.queu.rd (u - b.s.baseval))
  return { b with
    parttax := part, frontab := fron, fronnbr := cb.fronnbr, compload0 := cb.compload0, compload1 := cb.compload1, compload2 := cb.compload2, comploaddlt := cb.comploaddlt,
    compsize0 := b.compsize0 - (s.head - s.size1 - b.fronnbr) + cb.compsize0 - 1, compsize1 := b.compsize1 - s.size1 + cb.compsize1 - 1 }

/-- Separation of the band graph — vgraph_separate_bd.c:401–439. -/
def bdRun (bnd org : Vgraph → M (Int × Vgraph)) (b : Vgraph) (s : BdSt) (cb : Vgraph) : M (Int × Vgraph) := do
  let nnd := s.head + b.s.baseval
  let (o, cb) ← bnd cb
  if o ≠ 0 then return (1, b)
  else if (← cb.parttax.rd nnd) ≠ 0 ∨ (← cb.parttax.rd (nnd + 1)) ≠ 1 then org b
  else return (0, ← bdBring b s cb)

/-- `vgraphSeparateBd` — vgraph_separate_bd.c:75–440. `bnd` and `org` are the strategies for the band graph and for the original graph. -/
def separateBd (junk : BdJunk) (bnd org : Vgraph → M (Int × Vgraph)) (distmax : Int) (b : Vgraph) : M (Int × Vgraph) := do
  if b.fronnbr = 0 then org b
  else do
    let s ← bdSearch junk.queu distmax b
    if s.size1 ≥ b.compsize1 ∨ s.head - s.size1 - b.fronnbr ≥ b.compsize0 then org b
    else do
      let cb ← bdBuild junk distmax b s
      bdRun bnd org b s cb

end Scotch.Separ
