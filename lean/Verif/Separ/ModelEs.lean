import Verif.Separ.Model
import Verif.Bipart.Model

/-!
# Vertex separators from edge separators: model

src/libscotch/vgraph_separate_es.c. The separator is a vertex cover of the bipartite graph made of the edges that are cut by a
bipartition. Its vertices of number less than `partnbr` are called columns, the others are called rows.

Allocations succeed. The recursive functions have a bound on the depth of their calls.
-/

set_option autoImplicit false

namespace Scotch.Separ
open Bipart (Bgraph xorP init2)

/-- `VgraphSeparateEsType` — vgraph_separate_es.h:85–91. -/
def esHC : Int := 0
def esVR : Int := 1
def esSC : Int := 3
def esSR : Int := 5
def esHR : Int := 6
def esVC : Int := 7

/-- Mate of a column: the first row that has none — vgraph_separate_es.c:174–185. -/
def esMate (g : Graph) (v : Int) (mate : Arr Int) : M (Arr Int) := do
  let lo ← g.verttax.rd v
  let hi ← g.rdVend v
  let r ← forUpB lo hi mate fun e mate => do
    let w ← g.edgetax.rd e
    if (← mate.rd w) = -1 then return .brk (← mate.wr w v, w) else return .next mate
  match r with
  | .next mate => mate.wr v (-1)
  | .brk (mate, w) => mate.wr v w

/-- Initial matching — vgraph_separate_es.c:168–186. -/
def esMatch (g : Graph) (partnbr : Int) (mate : Arr Int) : M (Arr Int) := do
  let mate ← forUp (partnbr + g.baseval) g.vertnnd mate fun v a => a.wr v (-1)
  forUp g.baseval (partnbr + g.baseval) mate (esMate g)

/-- State of the search for augmenting paths. -/
structure EsSearch where
  mate : Arr Int
  lev : Arr Int
  trav : Arr Int
  queu : Arr Int
  head : Int
  tail : Int
  list : Arr Int
  listnbr : Int
  levlmax : Int

/-- An arc of a column of the queue — vgraph_separate_es.c:217–228. The values of `VgraphSeparateEsTrav` are 0 (free),
1 (used) and 2 (dirty). -/
def esArc (c : Int) (w : Int) (s : EsSearch) : M EsSearch := do
  if (← s.trav.rd w) = 0 then
    let trav ← s.trav.wr w 1
    let m ← s.mate.rd w
    if m = -1 then
      return { s with trav := trav, list := ← s.list.wr s.listnbr w, listnbr := s.listnbr + 1, levlmax := ← s.lev.rd c }
    else
      let queu ← s.queu.wr s.head m
      return { s with trav := trav, queu := queu, head := s.head + 1, lev := ← s.lev.wr m ((← s.lev.rd c) + 1) }
  else return s

/-- A column of the queue — vgraph_separate_es.c:207–230. -/
def esColumn (g : Graph) (s : EsSearch) : M EsSearch := do
  let c ← s.queu.rd s.tail
  let s := { s with tail := s.tail + 1 }
  if (← s.lev.rd c) < s.levlmax then
    let s := { s with trav := ← s.trav.wr c 1 }
    g.forArcs c s fun _ w s => esArc c w s
  else return s

/-- Columns that have no mate enter the queue — vgraph_separate_es.c:189–202. -/
def esQueue (g : Graph) (partnbr : Int) (s : EsSearch) : M EsSearch := do
  let lev ← forUp g.baseval g.vertnnd s.lev fun v a => a.wr v 0
  let trav ← forUp g.baseval g.vertnnd s.trav fun v a => a.wr v 0
  forUp g.baseval (partnbr + g.baseval) { s with lev := lev, trav := trav, head := 0, tail := 0, listnbr := 0, levlmax := -1 }
    fun v s => do
      if (← s.mate.rd v) = -1 then
        return { s with queu := ← s.queu.wr s.head v, head := s.head + 1, lev := ← s.lev.wr v 1 }
      else return s

/-- `vgraphSeparateEsCoverAugment` — vgraph_separate_es.c:360–393. -/
def esAugment (g : Graph) (lev : Arr Int) : Nat → Int → Int → Arr Int × Arr Int → M (Int × (Arr Int × Arr Int))
  | 0, _, _, _ => throw .fuel
  | fuel + 1, levlcur, row, (mate, trav) => do
    let trav ← trav.wr row 2
    let lo ← g.verttax.rd row
    let hi ← g.rdVend row
    let r ← forUpB lo hi (mate, trav) fun e s => do
      let c ← g.edgetax.rd e
      if (← s.2.rd c) = 1 then
        if (← lev.rd c) = levlcur then
          let trav ← s.2.wr c 2
          if levlcur = 1 then
            return .brk (← (← s.1.wr c row).wr row c, trav)
          else
            let (o, s) ← esAugment g lev fuel (levlcur - 1) (← s.1.rd c) (s.1, trav)
            if o = 0 then return .brk (← (← s.1.wr c row).wr row c, s.2) else return .next s
        else return .next s
      else return .next s
    match r with
    | .next s => return (1, s)
    | .brk s => return (0, s)

/-- Search for augmenting paths: one pass — vgraph_separate_es.c:189–237. -/
def esPass (g : Graph) (partnbr : Int) (s : EsSearch) : M (Loop EsSearch (Arr Int)) := do
  let s ← esQueue g partnbr s
  let s ← loopM (fun s => do if s.head > s.tail then return .next (← esColumn g s) else return .brk s) (g.vertnbr.toNat + 1) s
  if s.listnbr ≤ 0 then return .brk s.mate
  else do
    let r ← forUp 0 s.listnbr (s.mate, s.trav) fun i r => do
      return (← esAugment g s.lev (g.vertnbr.toNat + 1) s.levlmax (← s.list.rd (s.listnbr - 1 - i)) r).2
    return .next { s with mate := r.1, trav := r.2 }

/-- `vgraphSeparateEsCoverCol` — vgraph_separate_es.c:405–432, with values `HC` and `HR`; `vgraphSeparateEsCoverRow` —
434–461, with values `VR` and `VC`. -/
def esMark (g : Graph) (mate : Arr Int) (tv tn : Int) : Nat → Int → Arr Int → M (Arr Int)
  | 0, _, _ => throw .fuel
  | fuel + 1, v, typ => do
    if (← typ.rd v) = tv then return typ
    else
      let typ ← typ.wr v tv
      g.forArcs v typ fun _ w typ => do
        if (← typ.rd w) = tn then return typ
        else
          let typ ← typ.wr w tn
          let m ← mate.rd w
          if m ≠ -1 then esMark g mate tv tn fuel m typ else return typ

/-- Starts of a marking: the vertices that have no mate. -/
def esMarkAll (g : Graph) (mate : Arr Int) (tv tn lo hi : Int) (typ : Arr Int) : M (Arr Int) :=
  forUp lo hi typ fun v typ => do
    if (← mate.rd v) = -1 then esMark g mate tv tn (g.vertnbr.toNat + 1) v typ else return typ

/-- Types of vertices — vgraph_separate_es.c:243–252. -/
def esTypes (g : Graph) (partnbr : Int) (mate typ : Arr Int) : M (Arr Int) := do
  let typ ← forUp g.baseval (partnbr + g.baseval) typ fun v a => a.wr v esSC
  let typ ← forUp (partnbr + g.baseval) g.vertnnd typ fun v a => a.wr v esSR
  let typ ← esMarkAll g mate esHC esHR g.baseval (partnbr + g.baseval) typ
  esMarkAll g mate esVR esVC (partnbr + g.baseval) g.vertnnd typ

/-- `(typeval >> VGRAPHSEPAESTYPEBITC) & 1`, for types. -/
def esBitC (t : Int) : Int := ((t.toNat / 2 % 2 : Nat) : Int)

/-- `typeval >> VGRAPHSEPAESTYPEBITR`, for types. -/
def esBitR (t : Int) : Int := ((t.toNat / 4 : Nat) : Int)

/-- Sizes and loads of the two covers — vgraph_separate_es.c:254–287. -/
def esLoads (g : Graph) (typ : Arr Int) : M ((Int × Int) × (Int × Int)) :=
  match g.velotax with
  | some velotax =>
    forUp 0 g.vertnbr ((0, 0), (0, 0)) fun v s => do
      let t ← typ.rd v
      let x ← velotax.rd v
      return ((s.1.1 + esBitC t * x, s.1.2 + esBitR t * x), (s.2.1 + esBitC t, s.2.2 + esBitR t))
  | none => do
    let s ← forUp g.baseval g.vertnnd (0, 0) fun v s => do
      let t ← typ.rd v
      return (s.1 + esBitC t, s.2 + esBitR t)
    return (s, s)

/-- Vertices of a cover, in increasing order — vgraph_separate_es.c:295–309, 323–337. -/
def esList (g : Graph) (typ : Arr Int) (bit : Int → Int) (sepatab : Arr Int) : M (Arr Int × Int) :=
  forUp g.baseval g.vertnnd (sepatab, 0) fun v s => do
    if bit (← typ.rd v) ≠ 0 then return (← s.1.wr s.2 v, s.2 + 1) else return s

/-- Choice of a cover — vgraph_separate_es.c:254–344. The value is the separator and the number of its vertices. -/
def esChoose (g : Graph) (typ sepatab : Arr Int) : M (Arr Int × Int) := do
  let ((loadc, loadr), (sizec, sizer)) ← esLoads g typ
  if loadc < loadr then return ((← esList g typ esBitC sepatab).1, sizec)
  else return ((← esList g typ esBitR sepatab).1, sizer)

/-- `vgraphSeparateEsCover` — vgraph_separate_es.c:120–349. -/
def esCover (junk : Nat → Int → Int) (g : Graph) (partnbr : Int) (sepatab : Arr Int) : M (Arr Int × Int) := do
  let mate ← esMatch g partnbr ⟨g.baseval, g.vertnnd, junk 0⟩
  let mate ← loopM (esPass g partnbr) (g.vertnbr.toNat + 2)
    { mate := mate, lev := ⟨g.baseval, g.vertnnd, junk 1⟩, trav := ⟨g.baseval, g.vertnnd, junk 2⟩,
      queu := ⟨0, partnbr, junk 3⟩, head := 0, tail := 0, list := ⟨0, g.vertnbr, junk 4⟩, listnbr := 0, levlmax := 0 }
  let typ ← esTypes g partnbr mate ⟨g.baseval, g.vertnnd, junk 5⟩
  esChoose g typ sepatab

/-! ## From a bipartition to a separation -/

/-- Numbering of the vertices of the frontier, in each part — vgraph_separate_es.c:530–550. -/
structure EsNum where
  vnum : Arr Int
  edgenbr : Int
  nbr0 : Int
  nbr1 : Int

/-- Number of cut arcs of a vertex of part 0 — vgraph_separate_es.c:541–545. -/
def esDegree (g : Graph) (part : Arr Int) (v p : Int) (n : Int) : M Int := do
  if p = 0 then g.forArcs v n fun _ w n => do return n + xorP p (← part.rd w) else return n

def esNumber (g : Graph) (part fron : Arr Int) (f : Int) (s : EsNum) : M EsNum := do
  let v ← fron.rd f
  let p ← part.rd v
  let n ← esDegree g part v p s.edgenbr
  let vnum ← s.vnum.wr v (p * (s.nbr1 - s.nbr0) + s.nbr0)
  return { vnum := vnum, edgenbr := n, nbr0 := s.nbr0 + xorP p 1, nbr1 := s.nbr1 + p }

/-- Bipartite graph — vgraph_separate_es.c:587–632. -/
structure EsBip where
  vert : Arr Int
  velo : Arr Int
  vnum : Arr Int
  edge : Arr Int
  velosum : Int
  edg0 : Int
  edg1 : Int

/-- An arc — vgraph_separate_es.c:614–630. -/
def esBipArc (part vnum : Arr Int) (p partval nbrp : Int) (w : Int) (s : EsBip) : M EsBip := do
  let q ← part.rd w
  if q ≠ p then
    let n := p * (s.edg1 - s.edg0) + s.edg0
    let edge ← s.edge.wr n ((← vnum.rd w) + xorP q partval * nbrp)
    return { s with edg0 := s.edg0 + xorP p 1, edg1 := s.edg1 + p, edge := edge }
  else return s

/-- Load of a vertex — vgraph_separate_es.c:599–605. -/
def esBipVelo (velotax : Option (Arr Int)) (v b : Int) (s : EsBip) : M EsBip :=
  match velotax with
  | none => return s
  | some a => do
    let x ← a.rd v
    return { s with velosum := s.velosum + x, velo := ← s.velo.wr b x }

/-- A vertex — vgraph_separate_es.c:594–631. -/
def esBipVertex (g : Graph) (part fron vnum : Arr Int) (partval nbrp : Int) (f : Int) (s : EsBip) : M EsBip := do
  let v ← fron.rd f
  let p ← part.rd v
  let b := xorP p partval * nbrp + (← vnum.rd v)
  let s ← esBipVelo g.velotax v b s
  let s := { s with vnum := ← s.vnum.wr b v }
  let s := { s with vert := ← s.vert.wr b (p * (s.edg1 - s.edg0) + s.edg0) }
  g.forArcs v s fun _ w s => esBipArc part vnum p partval nbrp w s

/-- Bipartite graph of the cut edges: the graph, the numbers of its vertices in the graph it comes from, the part of its
columns and the number of columns — vgraph_separate_es.c:530–636. -/
def esBipart (junk : Nat → Int → Int) (g : Graph) (part fron : Arr Int) (fronnbr : Int) : M (Graph × Arr Int × Int × Int) := do
  let n ← forUp 0 fronnbr (⟨⟨g.baseval, g.baseval + g.vertnbr, junk 0⟩, 0, 0, 0⟩ : EsNum) (esNumber g part fron)
  let vertnbr := n.nbr0 + n.nbr1
  let edgenbr := n.edgenbr * 2
  let partval := if n.nbr0 ≤ n.nbr1 then 0 else 1
  let nbrp := if partval = 0 then n.nbr0 else n.nbr1
  let edg0 := if partval = 0 then 0 else Int.tdiv edgenbr 2
  let edg1 := if partval = 0 then Int.tdiv edgenbr 2 else 0
  let s ← forUp 0 fronnbr
    (⟨⟨0, vertnbr + 1, junk 1⟩, ⟨0, vertnbr, junk 2⟩, ⟨0, vertnbr, junk 3⟩, ⟨0, edgenbr, junk 4⟩, 0, edg0, edg1⟩ : EsBip)
    (esBipVertex g part fron n.vnum partval nbrp)
  let vert ← s.vert.wr vertnbr edgenbr
  return ({
    baseval := 0, vertnbr := vertnbr, vertnnd := vertnbr, verttax := vert, vendtax := none,
    velotax := g.velotax.map fun _ => s.velo, velosum := if g.velotax.isSome then s.velosum else vertnbr,
    vnumtax := some s.vnum, vlbltax := none, edgenbr := edgenbr, edgetax := s.edge, edlotax := none, edlosum := edgenbr,
    degrmax := g.degrmax }, s.vnum, partval, nbrp)

/-- Sizes and loads that the separator takes from the parts. -/
structure EsMove where
  part : Arr Int
  fron : Arr Int
  size : Int
  load01 : Int
  loadp : Int

/-- A vertex of the separator — vgraph_separate_es.c:668–678, 688–694. Without vertex loads, the loads are set afterwards to the
sizes; here they are counted with loads 1. -/
def esThinVertex (g : Graph) (vnum : Arr Int) (nbrp : Int) (f : Int) (s : EsMove) : M EsMove := do
  let b ← s.fron.rd f
  let v ← vnum.rd b
  let x ← g.rdVelo v
  let fron ← s.fron.wr f v
  let part ← s.part.wr v 2
  if b < nbrp then return { part := part, fron := fron, size := s.size + 1, load01 := s.load01 + x, loadp := s.loadp + x }
  else return { s with part := part, fron := fron, load01 := s.load01 + x }

/-- Thin separators — vgraph_separate_es.c:521–704. -/
def esThin (junk : Nat → Int → Int) (b : Vgraph) (fronnbr : Int) : M Vgraph := do
  let (bip, vnum, partval, nbrp) ← esBipart junk b.s b.parttax b.frontab fronnbr
  let (fron, n) ← esCover (fun k => junk (5 + k)) bip nbrp b.frontab
  let m ← forUp 0 n (⟨b.parttax, fron, 0, 0, 0⟩ : EsMove) (esThinVertex b.s vnum nbrp)
  if partval = 0 then
    return { b with
      parttax := m.part, frontab := m.fron, compsize0 := b.compsize0 - m.size, compsize1 := b.compsize1 - (n - m.size),
      compload0 := b.compload0 - m.loadp, compload1 := b.compload1 - (m.load01 - m.loadp) }
  else
    return { b with
      parttax := m.part, frontab := m.fron, compsize1 := b.compsize1 - m.size, compsize0 := b.compsize0 - (n - m.size),
      compload1 := b.compload1 - m.loadp, compload0 := b.compload0 - (m.load01 - m.loadp) }

/-- A vertex of the frontier — vgraph_separate_es.c:724–731, 741–745. Same simplification as above. -/
def esFatVertex (g : Graph) (f : Int) (s : EsMove) : M EsMove := do
  let v ← s.fron.rd f
  let p ← s.part.rd v
  let x ← g.rdVelo v
  let part ← s.part.wr v 2
  return { s with part := part, size := s.size + p, load01 := s.load01 + x, loadp := s.loadp + p * x }

/-- Fat separators — vgraph_separate_es.c:711–755. -/
def esFat (b : Vgraph) (fronnbr : Int) : M Vgraph := do
  let m ← forUp 0 fronnbr (⟨b.parttax, b.frontab, 0, 0, 0⟩ : EsMove) (esFatVertex b.s)
  return { b with
    parttax := m.part, compsize0 := b.compsize0 - (fronnbr - m.size), compsize1 := b.compsize1 - m.size,
    compload0 := b.compload0 - (m.load01 - m.loadp), compload1 := b.compload1 - m.loadp }

/-- Separator made from the frontier of a bipartition — vgraph_separate_es.c:505–757. -/
def esFrontier (junk : Nat → Int → Int) (thin : Bool) (b : Vgraph) (fronnbr : Int) : M Vgraph :=
  if fronnbr > 0 then
    if thin = true then esThin junk b fronnbr else esFat b fronnbr
  else return b

/-- Active graph — vgraph_separate_es.c:486–492. The other fields are written by `bgraphInit2`. -/
def esActive (a : Bgraph) (b : Vgraph) : Bgraph :=
  { a with s := { b.s with vnumtax := none, vlbltax := none }, veextax := none, parttax := b.parttax, frontab := b.frontab }

/-- `vgraphSeparateEs` — vgraph_separate_es.c:478–771. The strategy of bipartition is an arbitrary function; the active graph
shares its part and frontier arrays with the separation graph. -/
def separateEs (junk : Nat → Int → Int) (avgOf : Int → Int → Int → Int) (a : Bgraph) (bip : Bgraph → M (Int × Bgraph)) (thin : Bool)
    (b : Vgraph) : M (Int × Vgraph) := do
  let act ← init2 avgOf (esActive a b) 1 b.dwgt0 b.dwgt1 0 0
  let (o, act) ← bip act
  if o ≠ 0 then return (1, { b with parttax := act.parttax, frontab := act.frontab })
  else
    let b := { b with
      parttax := act.parttax, frontab := act.frontab, compload0 := act.compload0, compload1 := act.s.velosum - act.compload0,
      compsize0 := act.compsize0, compsize1 := act.s.vertnbr - act.compsize0 }
    let b ← esFrontier junk thin b act.fronnbr
    return (0, { b with
      comploaddlt := b.compload0 - b.compload1, compload2 := b.s.velosum - b.compload0 - b.compload1,
      fronnbr := b.s.vertnbr - b.compsize0 - b.compsize1 })

end Scotch.Separ
