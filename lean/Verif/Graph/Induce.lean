import Verif.Graph.Model

/-!
# Induced subgraphs: model

src/libscotch/graph_induce.c. The edge array of the subgraph, the array of its edge loads, and the temporary
index array of the original vertices share one memory block, as in the C code; all accesses go through this
block. Indices of the block are such that `edgetax[e]` is cell `e` of the block. `al` is the number of `Gnum` in a
`double` (1 or 2), to which array sizes are padded (common_memory.c:489–525, 584–602). Contents of fresh memory are arbitrary.
-/

set_option autoImplicit false

namespace Scotch.Graph

/-- Padding of sizes — common_memory.c:503, 518, 595, in `Gnum` units. -/
def pad (al n : Int) : Int := (n + al - 1) / al * al

/-- Size of the edge part of the block — graph_induce.c:247–251. -/
def induceSize (g : Graph) (indvertnbr : Int) : Int :=
  let n := if g.degrmax > 0 ∧ indvertnbr < g.edgenbr.tdiv g.degrmax then indvertnbr * g.degrmax else g.edgenbr
  if g.edlotax.isSome then n * 2 else n

/-- State of the loops of `graphInduce3`. -/
structure IndSt where
  blk : Arr Int
  edlosum : Int
  num : Int

/-- Body of the loops on arcs — graph_induce.c:323–331, 334–340. `P` is the place of the index array. -/
def induceArc (g : Graph) (P : Int) (off : Int) (e : Int) (s : IndSt) : M IndSt := do
  let w ← g.edgetax.rd e
  if (← s.blk.rd (w + P)) ≠ -1 then
    match g.edlotax with
    | some edlotax => do
      let l ← edlotax.rd e
      let blk ← s.blk.wr (s.num + off) l
      let blk ← blk.wr s.num (← blk.rd (w + P))
      return ⟨blk, s.edlosum + l, s.num + 1⟩
    | none => do
      let blk ← s.blk.wr s.num (← s.blk.rd (w + P))
      return ⟨blk, s.edlosum, s.num + 1⟩
  else return s

/-- State of the loop on vertices of `graphInduce3`. -/
structure IndVSt where
  arcs : IndSt
  verttax : Arr Int
  velotax : Option (Arr Int)
  velosum : Int

/-- Vertex load — graph_induce.c:317–320. -/
def induceVelo (g : Graph) (ind org : Int) (s : IndVSt) : M IndVSt :=
  match g.velotax, s.velotax with
  | some velotax, some indvelotax => do
    let l ← velotax.rd org
    return { s with velotax := some (← indvelotax.wr ind l), velosum := s.velosum + l }
  | _, _ => return s

/-- Body of the loop on vertices — graph_induce.c:315–341. -/
def induceVert (g : Graph) (P off : Int) (vnumtax : Arr Int) (ind : Int) (s : IndVSt) : M IndVSt := do
  let org ← vnumtax.rd ind
  let verttax ← s.verttax.wr ind s.arcs.num
  let s ← induceVelo g ind org { s with verttax := verttax }
  let vnd ← g.rdVend org
  let arcs ← forUp (← g.verttax.rd org) vnd s.arcs (induceArc g P off)
  return { s with arcs := arcs }

/-- Composition of vertex numbers — graph_induce.c:353–356. -/
def induceVnum (g : Graph) (vnumtax : Arr Int) (vertnnd : Int) : M (Arr Int) :=
  match g.vnumtax with
  | none => return vnumtax
  | some a => forUp g.baseval vertnnd vnumtax fun i t => do t.wr i (← a.rd (← t.rd i))

/-- `graphInduce3` — graph_induce.c:275–381, debug check excluded. -/
def induce3 (al : Int) (g : Graph) (P : Int) (indvertnbr indedgenbr : Int) (verttax vnumtax : Arr Int)
    (velotax : Option (Arr Int)) (blk : Arr Int) : M Graph := do
  let off := pad al indedgenbr
  let vertnnd := indvertnbr + g.baseval
  let s ← forUp g.baseval vertnnd
    (⟨⟨blk, 0, g.baseval⟩, verttax, velotax, if velotax.isNone then indvertnbr else 0⟩ : IndVSt)
    (induceVert g P off vnumtax)
  let verttax ← s.verttax.wr vertnnd s.arcs.num
  let vnumtax ← induceVnum g vnumtax vertnnd
  let edgenbr := s.arcs.num - g.baseval
  return {
    baseval := g.baseval
    vertnbr := indvertnbr
    vertnnd := vertnnd
    verttax := verttax
    vendtax := none
    velotax := s.velotax
    velosum := s.velosum
    vnumtax := some vnumtax
    vlbltax := none
    edgenbr := edgenbr
    edgetax := ⟨g.baseval, g.baseval + edgenbr, s.arcs.blk.get⟩
    edlotax := if g.edlotax.isSome then some ⟨g.baseval, g.baseval + edgenbr, fun e => s.arcs.blk.get (e + off)⟩ else none
    edlosum := if g.edlotax.isSome then s.arcs.edlosum else edgenbr
    degrmax := g.degrmax }

/-- Fresh memory, of arbitrary contents. -/
structure IndMem where
  vert : Int → Int
  vnum : Int → Int
  velo : Int → Int
  blk : Int → Int

/-- Arrays allocated by `graphInduce2` — graph_induce.c:211–264. -/
def induceVertArr (g : Graph) (m : IndMem) (n : Int) : Arr Int := ⟨g.baseval, g.baseval + n + 1, m.vert⟩
def induceVnumArr (g : Graph) (m : IndMem) (n : Int) : Arr Int := ⟨g.baseval, g.baseval + n, m.vnum⟩
def induceVeloArr (g : Graph) (m : IndMem) (n : Int) : Option (Arr Int) :=
  if g.velotax.isSome then some ⟨g.baseval, g.baseval + n, m.velo⟩ else none
def induceBlk (al : Int) (g : Graph) (m : IndMem) (n : Int) : Arr Int :=
  ⟨g.baseval, g.baseval + pad al (g.induceSize n) + g.vertnbr, m.blk⟩

/-- Loop of `graphInduceList` — graph_induce.c:131–139. State: the block, and the number of arcs. -/
def induceListLoop (g : Graph) (P n : Int) (vnumtax : Arr Int) (blk : Arr Int) : M (Arr Int × Int) :=
  forUp g.baseval (g.baseval + n) (blk, 0) fun i s => do
    let org ← vnumtax.rd i
    let blk ← s.1.wr (org + P) i
    let vnd ← g.rdVend org
    return (blk, s.2 + (vnd - (← g.verttax.rd org)))

/-- `graphInduceList` — graph_induce.c:103–142. `indvnumtab` is an array from index 0. -/
def induceList (al : Int) (g : Graph) (m : IndMem) (indvnumnbr : Int) (indvnumtab : Arr Int) : M Graph := do
  let P := pad al (g.induceSize indvnumnbr)
  let vnumtax ← forUp 0 indvnumnbr (g.induceVnumArr m indvnumnbr) fun i t => do
    t.wr (i + g.baseval) (← indvnumtab.rd i)
  let blk ← forUp 0 g.vertnbr (induceBlk al g m indvnumnbr) fun i t => t.wr (i + g.baseval + P) (-1)
  let (blk, indedgenbr) ← induceListLoop g P indvnumnbr vnumtax blk
  induce3 al g P indvnumnbr indedgenbr (g.induceVertArr m indvnumnbr) vnumtax (g.induceVeloArr m indvnumnbr) blk

/-- State of the loop of `graphInducePart`. -/
structure IndPSt where
  blk : Arr Int
  vnumtax : Arr Int
  edgenbr : Int
  num : Int

/-- Loop of `graphInducePart` — graph_induce.c:180–190. -/
def inducePartLoop (g : Graph) (P : Int) (parttax : Arr Int) (partval : Int) (vnumtax blk : Arr Int) : M IndPSt :=
  forUp g.baseval g.vertnnd (⟨blk, vnumtax, 0, g.baseval⟩ : IndPSt) fun v s => do
    if (← parttax.rd v) = partval then do
      let blk ← s.blk.wr (v + P) s.num
      let vnumtax ← s.vnumtax.wr s.num v
      let vnd ← g.rdVend v
      return ⟨blk, vnumtax, s.edgenbr + (vnd - (← g.verttax.rd v)), s.num + 1⟩
    else do return { s with blk := ← s.blk.wr (v + P) (-1) }

/-- `graphInducePart` — graph_induce.c:156–200. -/
def inducePart (al : Int) (g : Graph) (m : IndMem) (parttax : Arr Int) (indvnumnbr partval : Int) : M Graph := do
  let P := pad al (g.induceSize indvnumnbr)
  let s ← inducePartLoop g P parttax partval (g.induceVnumArr m indvnumnbr) (induceBlk al g m indvnumnbr)
  induce3 al g P indvnumnbr s.edgenbr (g.induceVertArr m indvnumnbr) s.vnumtax (g.induceVeloArr m indvnumnbr) s.blk

end Scotch.Graph
