import Verif.Bipart.Model

/-!
# Bipartition of band graphs: model

src/libscotch/bgraph_bipart_bd.c. Arrays that share an allocated block are modelled by distinct arrays. Vertices of the band graph are numbered in the order of the queue, so that `bndvertnnd` is always `baseval + queuheadval`: it is not kept apart.
-/

set_option autoImplicit false

namespace Scotch.Bipart

/-! ## Search -/

/-- State of the search: numbers of vertices in the band graph (−1 for vertices that have not been reached), queue, number of vertices that have been put in it, and `bndedgenbr`, `bndvelosum`, `bndcompsize1`, `bndcompload1`. -/
structure BdSt where
  idx : Arr Int
  queu : Arr Int
  head : Int
  edgenbr : Int
  velosum : Int
  size1 : Int
  load1 : Int

/-- Load of a vertex, or 0 if there are no loads: sums are not updated then (lines 165, 200). -/
def rdVelo0 (g : Graph) (v : Int) : M Int := match g.velotax with | none => return 0 | some a => a.rd v

/-- A frontier vertex is put in the queue — bgraph_bipart_bd.c:133–140. -/
def bdFirst (b : Bgraph) (i : Int) (s : BdSt) : M BdSt := do
  let v ← b.frontab.rd i
  let idx ← s.idx.wr v (b.s.baseval + i)
  let queu ← s.queu.wr i v
  return { s with idx := idx, queu := queu, head := i + 1 }

/-- A vertex is taken from the queue — bgraph_bipart_bd.c:155–171, 190–206. -/
def bdTake (b : Bgraph) (v : Int) (s : BdSt) : M BdSt := do
  let hi ← b.s.rdVend v
  let lo ← b.s.verttax.rd v
  let p ← b.parttax.rd v
  let x ← rdVelo0 b.s v
  return { s with edgenbr := s.edgenbr + (hi - lo), size1 := s.size1 + p, velosum := s.velosum + x, load1 := s.load1 + x * p }

/-- Neighbour of a vertex of the queue — bgraph_bipart_bd.c:177–181. -/
def bdArc (b : Bgraph) (_e w : Int) (s : BdSt) : M BdSt := do
  if (← s.idx.rd w) = -1 then do
    let idx ← s.idx.wr w (b.s.baseval + s.head)
    let queu ← s.queu.wr s.head w
    return { s with idx := idx, queu := queu, head := s.head + 1 }
  else return s

/-- Vertex of a level that is not the last one — bgraph_bipart_bd.c:150–183. -/
def bdVert (b : Bgraph) (i : Int) (s : BdSt) : M BdSt := do
  let v ← s.queu.rd i
  let s ← bdTake b v s
  b.s.forArcs v s (bdArc b)

/-- One level — bgraph_bipart_bd.c:148–184. The first element is `queutailval`, which is `bndvlvlnum` at the end. -/
def bdLevel (b : Bgraph) (t : Int × BdSt) : M (Int × BdSt) := do
  let s ← forUp t.1 t.2.head t.2 (bdVert b)
  return (t.2.head, s)

/-- Vertex of the last level — bgraph_bipart_bd.c:186–207. -/
def bdLast (b : Bgraph) (i : Int) (s : BdSt) : M BdSt := do
  let v ← s.queu.rd i
  bdTake b v s

/-- Sums, when there are no loads — bgraph_bipart_bd.c:209–212. -/
def bdLoads (b : Bgraph) (s : BdSt) : BdSt := if b.s.velotax.isNone then { s with velosum := s.head, load1 := s.size1 } else s

/-- Search from the frontier — bgraph_bipart_bd.c:119–212. The first element is the number of vertices that are not in the last level. -/
def bdSearch (junk : Int → Int) (distmax : Int) (b : Bgraph) : M (Int × BdSt) := do
  let d := if distmax < 1 then 1 else distmax
  let s ← forUp 0 b.fronnbr ⟨Arr.const b.s.baseval (b.s.baseval + b.s.vertnbr) (-1), ⟨0, b.s.vertnbr, junk⟩, 0, 0, 0, 0, 0⟩ (bdFirst b)
  let t ← forUp 0 d (0, s) fun _ t => bdLevel b t
  let s ← forUp t.1 t.2.head { t.2 with edgenbr := t.2.edgenbr + (t.2.head - t.1) } (bdLast b)
  return (t.1, bdLoads b s)

/-! ## Band graph -/

/-- Arcs that are written: vertices, loads, next arc, sum of loads, and `ancedloval`. -/
structure BdEd where
  edge : Arr Int
  edlo : Arr Int
  num : Int
  losum : Int
  anc : Int

/-- State of the construction of the band graph: arrays, next arc, largest degree, sum of edge loads, number of arcs to anchor vertices, and `bndcommgainextn`, `bndcommgainextn1`. -/
structure BdGr where
  vert : Arr Int
  velo : Arr Int
  veex : Option (Arr Int)
  part : Arr Int
  edge : Arr Int
  edlo : Arr Int
  num : Int
  losum : Int
  degr : Int
  anc : Int
  extn : Int
  extn1 : Int

/-- External gain of a vertex — bgraph_bipart_bd.c:284–291, 328–335. -/
def bdVeex (b : Bgraph) (u v p : Int) (t : BdGr) : M BdGr :=
  match t.veex, b.veextax with
  | some a, some x => do
    let y ← x.rd v
    let a ← a.wr u y
    return { t with veex := some a, extn := t.extn + y, extn1 := t.extn1 + y * p }
  | some _, none => throw .null
  | none, _ => return t

/-- Start of a vertex — bgraph_bipart_bd.c:279–291, 323–335. -/
def bdOpen (b : Bgraph) (u v p : Int) (t : BdGr) : M BdGr := do
  let vert ← t.vert.wr u t.num
  let velo ← t.velo.wr u (← b.s.rdVelo v)
  let part ← t.part.wr u p
  bdVeex b u v p { t with vert := vert, velo := velo, part := part }

/-- Arc of a vertex that is not in the last level — bgraph_bipart_bd.c:293–308. -/
def bdArcIn (g : Graph) (idx : Arr Int) (e w : Int) (s : BdEd) : M BdEd := do
  let l ← g.rdEdlo e
  let edge ← s.edge.wr s.num (← idx.rd w)
  let edlo ← s.edlo.wr s.num l
  return { s with edge := edge, edlo := edlo, num := s.num + 1, losum := s.losum + l }

/-- Arc of a vertex of the last level — bgraph_bipart_bd.c:339–359. -/
def bdArcOut (g : Graph) (idx : Arr Int) (e w : Int) (s : BdEd) : M BdEd := do
  let l ← g.rdEdlo e
  let x ← idx.rd w
  if x ≠ -1 then do
    let edge ← s.edge.wr s.num x
    let edlo ← s.edlo.wr s.num l
    return { s with edge := edge, edlo := edlo, num := s.num + 1, losum := s.losum + l }
  else return { s with losum := s.losum + l, anc := s.anc + l }

/-- Largest degree — bgraph_bipart_bd.c:310–312, 367–369, 423–426. -/
def bdDegr (degr d : Int) : Int := if degr < d then d else degr

/-- Vertex that is not in the last level — bgraph_bipart_bd.c:270–313. -/
def bdVertIn (b : Bgraph) (queu idx : Arr Int) (u : Int) (t : BdGr) : M BdGr := do
  let v ← queu.rd (u - b.s.baseval)
  let p ← b.parttax.rd v
  let t ← bdOpen b u v p t
  let r ← b.s.forArcs v (⟨t.edge, t.edlo, t.num, t.losum, 0⟩ : BdEd) (bdArcIn b.s idx)
  let lo ← t.vert.rd u
  return { t with edge := r.edge, edlo := r.edlo, num := r.num, losum := r.losum, degr := bdDegr t.degr (r.num - lo) }

/-- Arc to an anchor vertex — bgraph_bipart_bd.c:361–366. -/
def bdAnchor (nnd p : Int) (r : BdEd) (t : BdGr) : M BdGr := do
  if r.anc > 0 then do
    let edlo ← r.edlo.wr r.num r.anc
    let edge ← r.edge.wr r.num (nnd + p)
    return { t with edge := edge, edlo := edlo, num := r.num + 1, losum := r.losum + r.anc, anc := t.anc + 1 }
  else return { t with edge := r.edge, edlo := r.edlo, num := r.num, losum := r.losum + r.anc }

/-- Vertex of the last level — bgraph_bipart_bd.c:315–370. -/
def bdVertOut (b : Bgraph) (queu idx : Arr Int) (nnd u : Int) (t : BdGr) : M BdGr := do
  let v ← queu.rd (u - b.s.baseval)
  let p ← b.parttax.rd v
  let t ← bdOpen b u v p t
  let r ← b.s.forArcs v (⟨t.edge, t.edlo, t.num, t.losum, 0⟩ : BdEd) (bdArcOut b.s idx)
  let t ← bdAnchor nnd p r t
  let lo ← t.vert.rd u
  return { t with degr := bdDegr t.degr (t.num - lo) }

/-- Arc from an anchor vertex: the arcs of the second one are written from the end — bgraph_bipart_bd.c:385–407. The state holds the arcs, `bndedgenum` and `bndedgetmp`; the sum of loads (396) is not used any more. -/
def bdBack (vert : Arr Int) (nnd u : Int) (s : Arr Int × Arr Int × Int × Int) : M (Arr Int × Arr Int × Int × Int) := do
  let hi ← vert.rd (u + 1)
  let lo ← vert.rd u
  if hi > lo then do
    let x ← s.1.rd (hi - 1)
    if x ≥ nnd then do
      let l ← s.2.1.rd (hi - 1)
      if x = nnd then return (← s.1.wr s.2.2.1 u, ← s.2.1.wr s.2.2.1 l, s.2.2.1 + 1, s.2.2.2)
      else return (← s.1.wr (s.2.2.2 - 1) u, ← s.2.1.wr (s.2.2.2 - 1) l, s.2.2.1, s.2.2.2 - 1)
    else return s
  else return s

/-- Contents of allocated arrays: queue, vertices, loads, external gains, parts, arcs, edge loads, frontier. -/
structure BdJunk where
  queu : Int → Int
  vert : Int → Int
  velo : Int → Int
  veex : Int → Int
  part : Int → Int
  edge : Int → Int
  edlo : Int → Int
  fron : Int → Int

/-- Array of external gains — bgraph_bipart_bd.c:229–253. -/
def bdVeexInit (junk : Int → Int) (b : Bgraph) (n : Int) : Option (Arr Int) := match b.veextax with | none => none | some _ => some ⟨b.s.baseval, b.s.baseval + n, junk⟩

/-- Vertices of the band graph, except the anchor ones — bgraph_bipart_bd.c:223–370. `vlvl` is the number of vertices that are not in the last level. -/
def bdVerts (junk : BdJunk) (b : Bgraph) (vlvl : Int) (s : BdSt) (queu : Arr Int) : M BdGr := do
  let base := b.s.baseval
  let nnd := base + s.head
  let velo : Arr Int := ⟨base, base + (s.head + 2), junk.velo⟩
  let velo ← velo.wr nnd (b.compload0 - (s.velosum - s.load1))
  let velo ← velo.wr (nnd + 1) (b.s.velosum - b.compload0 - s.load1)
  let t ← forUp base (base + vlvl)
    (⟨⟨base, base + (s.head + 3), junk.vert⟩, velo, bdVeexInit junk.veex b (s.head + 2), ⟨base, base + (s.head + 2), junk.part⟩, ⟨base, base + s.edgenbr, junk.edge⟩, ⟨base, base + s.edgenbr, junk.edlo⟩, base, 0, 0, 0, 0, 0⟩ : BdGr)
    (bdVertIn b queu s.idx)
  forUp (base + vlvl) nnd t (bdVertOut b queu s.idx nnd)

/-- Result of the construction: graph, parts, and numbers of arcs before, between and after the ones of the anchor vertices. -/
structure BdBnd where
  graf : Graph
  part : Arr Int
  num0 : Int
  num1 : Int
  num2 : Int

/-- Anchor vertices, and band graph — bgraph_bipart_bd.c:371–433. The end of each vertex is the start of the next one (line 242). The largest degree and the reduction of memory, which are after the test of lines 416–421, are here. -/
def bdClose (b : Bgraph) (vlvl : Int) (s : BdSt) (queu : Arr Int) (t : BdGr) : M BdBnd := do
  let base := b.s.baseval
  let nnd := base + s.head
  let part ← t.part.wr nnd 0
  let part ← part.wr (nnd + 1) 1
  let vert ← t.vert.wr nnd t.num
  let vert ← vert.wr (nnd + 2) (t.num + t.anc)
  let (edge, edlo, num, _) ← forUp (base + vlvl) nnd (t.edge, t.edlo, t.num, t.num + t.anc) (bdBack vert nnd)
  let vert ← vert.wr (nnd + 1) num
  let edgenbr := t.num + t.anc - base
  return {
    graf := {
      baseval := base, vertnbr := s.head + 2, vertnnd := nnd + 2, verttax := vert, vendtax := none, velotax := some t.velo, velosum := b.s.velosum,
      vnumtax := some (queu.shift base), vlbltax := none, edgenbr := edgenbr, edgetax := ⟨base, base + edgenbr, edge.get⟩, edlotax := some ⟨base, base + edgenbr, edlo.get⟩, edlosum := t.losum,
      degrmax := bdDegr (bdDegr t.degr (num - t.num)) (t.num + t.anc - num) },
    part := part, num0 := t.num, num1 := num, num2 := t.num + t.anc }

/-- Load of the edges between the two parts — bgraph_bipart_bd.c:445–460. -/
def bdIntn (b : Bgraph) (r : BdBnd) : M Int :=
  forUp b.s.baseval (b.s.baseval + b.fronnbr) 0 fun u s => do
    if (← r.part.rd u) ≠ 0 then return s
    else r.graf.forArcs u s fun e w s => do return s + (← r.graf.rdEdlo e) * (← r.part.rd w)

/-- External gains of the anchor vertices — bgraph_bipart_bd.c:439–465. -/
def bdExtn (b : Bgraph) (nnd : Int) (t : BdGr) (r : BdBnd) : M (Option (Arr Int)) :=
  match t.veex with
  | none => return none
  | some a => do
    let intn := (← bdIntn b r) * b.domndist
    let a ← a.wr (nnd + 1) (b.commload - b.commloadextn0 - intn - t.extn1)
    let a ← a.wr nnd (b.commload - b.commloadextn0 - intn - t.extn + t.extn1 + b.commgainextn)
    return some a

/-- Band graph to bipartition — bgraph_bipart_bd.c:435–485. -/
def bdFill (junk : BdJunk) (b : Bgraph) (s : BdSt) (t : BdGr) (r : BdBnd) : M Bgraph := do
  let base := b.s.baseval
  let fron ← forUp 0 b.fronnbr (⟨0, s.head + 2, junk.fron⟩ : Arr Int) fun i a => a.wr i (base + i)
  let veex ← bdExtn b (base + s.head) t r
  return {
    s := r.graf, veextax := veex, parttax := r.part, frontab := fron, fronnbr := b.fronnbr, compload0min := b.compload0min, compload0max := b.compload0max, compload0avg := b.compload0avg,
    compload0dlt := b.compload0dlt, compload0 := b.compload0, compsize0 := s.head + 2 - s.size1 - 1, commload := b.commload, commloadextn0 := b.commloadextn0, commgainextn0 := b.commgainextn0,
    commgainextn := b.commgainextn, domndist := b.domndist, domnwght0 := b.domnwght0, domnwght1 := b.domnwght1, vfixload0 := b.vfixload0, vfixload1 := b.vfixload1 }

/-- Band graph — bgraph_bipart_bd.c:220–485; `none` if an anchor vertex is isolated (416–421). The queue, ended by two values −1, becomes the array of original numbers. -/
def bdBuild (junk : BdJunk) (b : Bgraph) (vlvl : Int) (s : BdSt) : M (Option (Bgraph × Arr Int)) := do
  let queu ← s.queu.wr (s.head + 1) (-1)
  let queu ← queu.wr s.head (-1)
  let t ← bdVerts junk b vlvl s queu
  let r ← bdClose b vlvl s queu t
  if r.num1 = r.num0 ∨ r.num1 = r.num2 then return none
  else do return some (← bdFill junk b s t r, queu)

/-! ## Back to the graph -/

/-- Parts of vertices that are out of the band — bgraph_bipart_bd.c:516–523. -/
def bdSwap (b : Bgraph) (p0 : Int) : M (Arr Int) := do
  if p0 ≠ 0 then forUp b.s.baseval b.s.vertnnd b.parttax fun v a => do a.wr v (xorP (← a.rd v) 1)
  else return b.parttax

/-- Number of vertices of part 0 — bgraph_bipart_bd.c:519, 525. -/
def bdSize (b : Bgraph) (s : BdSt) (p0 size0 : Int) : Int :=
  if p0 ≠ 0 then b.s.vertnbr - b.compsize0 - s.size1 + size0 - 1 else b.compsize0 - (s.head + 2 - s.size1) + size0 + 1

/-- Frontier of the band graph — bgraph_bipart_bd.c:530–541. The state holds the two frontier arrays, and the numbers of vertices that have been put in each of them. -/
def bdFron (queu : Arr Int) (base i : Int) (s : Arr Int × Int × Arr Int × Int) : M (Arr Int × Int × Arr Int × Int) := do
  let u ← s.2.2.1.rd i
  let v ← queu.rd (u - base)
  if v ≠ -1 then return (← s.1.wr s.2.1 v, s.2.1 + 1, s.2.2.1, s.2.2.2)
  else return (s.1, s.2.1, ← s.2.2.1.wr s.2.2.2 u, s.2.2.2 + 1)

/-- Neighbours, out of the band, of a vertex of the band — bgraph_bipart_bd.c:562–577. The state holds the frontier array, the number of its vertices, and the numbers of vertices. -/
def bdOuter (_e w : Int) (s : Arr Int × Int × Arr Int) : M (Arr Int × Int × Arr Int) := do
  if (← s.2.2.rd w) = -1 then return (← s.1.wr s.2.1 w, s.2.1 + 1, ← s.2.2.wr w 0) else return s

/-- Arc of an anchor vertex — bgraph_bipart_bd.c:550–578. -/
def bdAncArc (b cb : Bgraph) (queu : Arr Int) (p : Int) (_e u : Int) (s : Arr Int × Int × Arr Int) : M (Arr Int × Int × Arr Int) := do
  if (← cb.parttax.rd u) = p then return s
  else do
    let v ← queu.rd (u - b.s.baseval)
    b.s.forArcs v s bdOuter

/-- Anchor vertex of the frontier — bgraph_bipart_bd.c:543–579. `n` is their number. -/
def bdAncFron (b cb : Bgraph) (queu fron : Arr Int) (n i : Int) (s : Arr Int × Int × Arr Int) : M (Arr Int × Int × Arr Int) := do
  let x ← fron.rd (n - 1 - i)
  let p ← cb.parttax.rd x
  cb.s.forArcs x s (bdAncArc b cb queu p)

/-- The bipartition of the band graph is brought back — bgraph_bipart_bd.c:510–580. -/
def bdBring (b : Bgraph) (s : BdSt) (queu : Arr Int) (cb : Bgraph) : M Bgraph := do
  let base := b.s.baseval
  let p0 ← cb.parttax.rd (base + s.head)
  let part ← bdSwap b p0
  let part ← forUp base (base + s.head) part fun u a => do a.wr (← queu.rd (u - base)) (← cb.parttax.rd u)
  let (frontab, n, cfron, m) ← forUp 0 cb.fronnbr (b.frontab, 0, cb.frontab, 0) (bdFron queu base)
  let (frontab, n, _) ← forUp 0 m (frontab, n, s.idx) (bdAncFron b cb queu cfron m)
  return { b with
    compload0 := cb.compload0, compload0dlt := cb.compload0dlt, commload := cb.commload, commgainextn := cb.commgainextn, compsize0 := bdSize b s p0 cb.compsize0, parttax := part, frontab := frontab, fronnbr := n }

/-- Bipartition of the band graph — bgraph_bipart_bd.c:497–592. -/
def bdRun (bnd org : Bgraph → M (Int × Bgraph)) (b : Bgraph) (s : BdSt) (queu : Arr Int) (cb : Bgraph) : M (Int × Bgraph) := do
  let nnd := b.s.baseval + s.head
  let (o, cb) ← bnd cb
  if o ≠ 0 then return (1, b)
  else if (← cb.parttax.rd nnd) = (← cb.parttax.rd (nnd + 1)) then org b
  else return (0, ← bdBring b s queu cb)

/-- `bgraphBipartBd` — bgraph_bipart_bd.c:75–593. `bnd` and `org` are the strategies for the band graph and for the original graph. -/
def bipartBd (junk : BdJunk) (bnd org : Bgraph → M (Int × Bgraph)) (distmax : Int) (b : Bgraph) : M (Int × Bgraph) := do
  if b.fronnbr = 0 then org b
  else do
    let (vlvl, s) ← bdSearch junk.queu distmax b
    if s.size1 ≥ b.s.vertnbr - b.compsize0 ∨ s.head - s.size1 ≥ b.compsize0 then org b
    else do
      match ← bdBuild junk b vlvl s with
      | none => org b
      | some (cb, queu) => bdRun bnd org b s queu cb

end Scotch.Bipart
