import Verif.Graph.Access
import Verif.Graph.Induce

/-!
# Halo graphs: model

src/libscotch/hgraph.h, hgraph.c, hgraph_induce.c and hgraph_induce_edge.c. Arc loads are not modelled: ordering routines never have them, since library_graph_order.c:293 drops them.
-/

set_option autoImplicit false

namespace Scotch.HOrder

/-- `Hgraph` — hgraph.h:71–81, without the execution context. As for `vendtax`, `vnhdtax` is `none` if it is `verttax + 1`. -/
structure Hgraph where
  s : Graph
  vnohnbr : Int
  vnohnnd : Int
  vnhdtax : Option (Arr Int)
  vnlosum : Int
  enohnbr : Int
  enlosum : Int
  levlnum : Int

/-- `hgraphUnhalo` — hgraph.c:121–141. -/
def unhalo (h : Hgraph) : Graph :=
  { baseval := h.s.baseval
    vertnbr := h.vnohnbr
    vertnnd := h.vnohnnd
    verttax := h.s.verttax
    vendtax := h.vnhdtax
    velotax := h.s.velotax
    velosum := h.vnlosum
    vnumtax := h.s.vnumtax
    vlbltax := none
    edgenbr := h.enohnbr
    edgetax := h.s.edgetax
    edlotax := h.s.edlotax
    edlosum := h.enlosum
    degrmax := h.s.degrmax }

/-- State of the loop on arcs of `hgraphInduce2U`. -/
structure ASt where
  edge : Arr Int
  indx : Arr Int
  vnum : Arr Int
  vertnnd : Int
  edgenum : Int
  edhdnum : Int

/-- Number of the end of an arc in the induced graph: a new halo vertex if it has none — hgraph_induce_edge.c:118–122. -/
def haloNum (w : Int) (s : ASt) : M (Int × ASt) := do
  let x ← s.indx.rd w
  if x = -1 then do
    let vnum ← s.vnum.wr s.vertnnd w
    let indx ← s.indx.wr w s.vertnnd
    return (s.vertnnd, { s with vnum := vnum, indx := indx, vertnnd := s.vertnnd + 1 })
  else return (x, s)

/-- Arc of a vertex that is not in the halo — hgraph_induce_edge.c:117–133. -/
def arc1 (vnohnnd : Int) (_e w : Int) (s : ASt) : M ASt := do
  let (x, s) ← haloNum w s
  if x ≥ vnohnnd then do
    let edge ← s.edge.wr (s.edhdnum - 1) x
    return { s with edge := edge, edhdnum := s.edhdnum - 1 }
  else do
    let edge ← s.edge.wr s.edgenum x
    return { s with edge := edge, edgenum := s.edgenum + 1 }

/-- State of the loops on vertices. -/
structure VSt where
  vert : Arr Int
  vnhd : Arr Int
  velo : Option (Arr Int)
  vnum : Arr Int
  edge : Arr Int
  indx : Arr Int
  vertnnd : Int
  edgenum : Int
  velosum : Int
  enohnbr : Int
  degrmax : Int

/-- Load of a vertex — hgraph_induce_edge.c:103–106, 177–180. -/
def copyVelo (g : Graph) (ind org : Int) (s : VSt) : M VSt :=
  match g.velotax, s.velo with
  | some a, some b => do
    let l ← a.rd org
    return { s with velo := some (← b.wr ind l), velosum := s.velosum + l }
  | _, _ => return s

/-- Vertex that is not in the halo — hgraph_induce_edge.c:100–143. -/
def vert1 (g : Graph) (vnohnnd ind : Int) (s : VSt) : M VSt := do
  let org ← s.vnum.rd ind
  let vert ← s.vert.wr ind s.edgenum
  let s ← copyVelo g ind org { s with vert := vert, enohnbr := s.enohnbr - s.edgenum }
  let lo ← g.verttax.rd org
  let hi ← g.rdVend org
  let a ← g.forArcs org ⟨s.edge, s.indx, s.vnum, s.vertnnd, s.edgenum, s.edgenum + (hi - lo)⟩ (arc1 vnohnnd)
  let vnhd ← s.vnhd.wr ind a.edhdnum
  return { s with
    vnhd := vnhd, edge := a.edge, indx := a.indx, vnum := a.vnum, vertnnd := a.vertnnd, enohnbr := s.enohnbr + a.edhdnum,
    degrmax := if s.degrmax < hi - lo then hi - lo else s.degrmax, edgenum := s.edgenum + (hi - lo) }

/-- Arc of a halo vertex — hgraph_induce_edge.c:187–194. -/
def arc2 (vnohnnd : Int) (_e w : Int) (s : ASt) : M ASt := do
  let x ← s.indx.rd w
  if x ≠ -1 ∧ x < vnohnnd then do
    let edge ← s.edge.wr s.edgenum x
    return { s with edge := edge, edgenum := s.edgenum + 1 }
  else return s

/-- Halo vertex — hgraph_induce_edge.c:175–197. -/
def vert2 (g : Graph) (vnohnnd ind : Int) (s : VSt) : M VSt := do
  let org ← s.vnum.rd ind
  let vert ← s.vert.wr ind s.edgenum
  let s ← copyVelo g ind org { s with vert := vert }
  let a ← g.forArcs org ⟨s.edge, s.indx, s.vnum, s.vertnnd, s.edgenum, 0⟩ (arc2 vnohnnd)
  let v ← s.vert.rd ind
  return { s with edge := a.edge, edgenum := a.edgenum, degrmax := if s.degrmax < a.edgenum - v then a.edgenum - v else s.degrmax }

/-- Fresh memory. -/
structure HMem where
  vert : Int → Int
  vnhd : Int → Int
  velo : Int → Int
  vnum : Int → Int
  edge : Int → Int

/-- Size of the edge array — hgraph_induce.c:123–124. -/
def edgeSize (g : Graph) (indvertnbr : Int) : Int :=
  if g.degrmax > 0 ∧ indvertnbr < g.edgenbr.tdiv g.degrmax then indvertnbr * g.degrmax else g.edgenbr

/-- `hgraphInduceList` — hgraph_induce.c:84–231, hgraph_induce_edge.c:54–214. The list is given by its contents. -/
def hinduce (h : Hgraph) (m : HMem) (l : List Int) (halonbr : Int) : M Hgraph := do
  let g := h.s
  let base := g.baseval
  let n : Int := l.length
  let indvertnbr := n + halonbr
  let tab := Arr.ofList 0 l
  let vnum ← forUp 0 n (⟨base, base + indvertnbr, m.vnum⟩ : Arr Int) fun i t => do t.wr (i + base) (← tab.rd i)
  let indx ← forUp base (n + base) (Arr.const base (base + g.vertnbr) (-1)) fun i t => do t.wr (← vnum.rd i) i
  let s : VSt := {
    vert := ⟨base, base + indvertnbr + 1, m.vert⟩
    vnhd := ⟨base, base + n, m.vnhd⟩
    velo := if g.velotax.isSome then some ⟨base, base + indvertnbr, m.velo⟩ else none
    vnum := vnum
    edge := ⟨base, base + edgeSize g indvertnbr, m.edge⟩
    indx := indx
    vertnnd := n + base
    edgenum := base
    velosum := 0
    enohnbr := 0
    degrmax := 0 }
  let s ← forUp base (n + base) s (vert1 g (n + base))
  let vnlosum := if s.velo.isSome then s.velosum else n
  let s ← forUp (n + base) s.vertnnd s (vert2 g (n + base))
  let vert ← s.vert.wr s.vertnnd s.edgenum
  let vnum ← Graph.induceVnum g s.vnum s.vertnnd
  let edgenbr := s.edgenum - base
  return {
    s := {
      baseval := base
      vertnbr := s.vertnnd - base
      vertnnd := s.vertnnd
      verttax := vert
      vendtax := none
      velotax := s.velo
      velosum := if s.velo.isSome then s.velosum else s.vertnnd - base
      vnumtax := some vnum
      vlbltax := none
      edgenbr := edgenbr
      edgetax := ⟨base, base + edgenbr, s.edge.get⟩
      edlotax := none
      edlosum := edgenbr
      degrmax := s.degrmax }
    vnohnbr := n
    vnohnnd := n + base
    vnhdtax := some s.vnhd
    vnlosum := vnlosum
    enohnbr := s.enohnbr
    enlosum := s.enohnbr
    levlnum := h.levlnum + 1 }

end Scotch.HOrder
