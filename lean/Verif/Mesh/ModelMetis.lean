import Verif.Mesh.Model

/-!
# Dual graph of a METIS mesh: model

src/libscotchmetis/metis_graph_dual.c. Arrays given by the user are based: their first index is the base value.
-/

set_option autoImplicit false

namespace Scotch.Mesh.Metis

/-- State of the counting loop — metis_graph_dual.c:135–151. -/
structure CState where
  vert : Arr Int
  degrmax : Int
  edgenbr : Int

/-- `srcverttax[velmnbr + edgetax[edgenum]] ++` — metis_graph_dual.c:150. -/
def countNode (velmnbr : Int) (eind : Arr Int) (e : Int) (vert : Arr Int) : M (Arr Int) := do
  let n ← eind.rd e
  let c ← vert.rd (velmnbr + n)
  vert.wr (velmnbr + n) (c + 1)

/-- metis_graph_dual.c:137–151: one element. -/
def countElem (velmnbr : Int) (eptr eind : Arr Int) (v : Int) (s : CState) : M CState := do
  let b ← eptr.rd v
  let e ← eptr.rd (v + 1)
  let vert ← forUp b e s.vert (countNode velmnbr eind)
  return ⟨vert, max s.degrmax (e - b), s.edgenbr + (e - b)⟩

/-- Start indices of elements — metis_graph_dual.c:155–163. -/
def copyElems (base nnd : Int) (eptr : Arr Int) (first : Int) (vert : Arr Int) : M (Arr Int) :=
  forUp base nnd vert fun v vert => do
    let b ← eptr.rd v
    vert.wr v (if first = base then b else b + (first - base))

/-- State of the loop on nodes — metis_graph_dual.c:165–174. -/
structure NState where
  vert : Arr Int
  degrmax : Int
  num : Int

/-- metis_graph_dual.c:165–174: one node. -/
def scanNode (v : Int) (s : NState) : M NState := do
  let d ← s.vert.rd v
  let vert ← s.vert.wr v s.num
  return ⟨vert, max s.degrmax d, s.num + d⟩

/-- metis_graph_dual.c:186–187. -/
def shiftNode (velmnbr : Int) (eind : Arr Int) (e : Int) (edge : Arr Int) : M (Arr Int) := do
  let n ← eind.rd e
  edge.wr e (n + velmnbr)

/-- `srcedgetax[srcverttax[edgetax[edgenum] + velmnbr] ++] = vertnum` — metis_graph_dual.c:193. -/
def addElem (velmnbr : Int) (eind : Arr Int) (v e : Int) (s : Arr Int × Arr Int) : M (Arr Int × Arr Int) := do
  let n ← eind.rd e
  let p ← s.1.rd (n + velmnbr)
  let vert ← s.1.wr (n + velmnbr) (p + 1)
  let edge ← s.2.wr p v
  return (vert, edge)

/-- metis_graph_dual.c:189–194: one element. -/
def addElems (velmnbr : Int) (eptr eind : Arr Int) (v : Int) (s : Arr Int × Arr Int) : M (Arr Int × Arr Int) := do
  let b ← eptr.rd v
  let e ← eptr.rd (v + 1)
  forUp b e s (addElem velmnbr eind v)

/-- `memMov` of `nbr` cells, one cell up, from index `at` — metis_graph_dual.c:196. A negative number is a huge size. -/
def moveUp (pos nbr : Int) (a : Arr Int) : M (Arr Int) :=
  if 0 ≤ nbr ∧ a.lo ≤ pos ∧ pos + 1 + nbr ≤ a.hi then .ok { a with get := fun i => if pos + 1 ≤ i ∧ i < pos + 1 + nbr then a.get (i - 1) else a.get i } else .error .oob

/-- Contents of memory when it is allocated. -/
structure Junk where
  vert : Int → Int
  edge : Int → Int
  dual : Mesh.Junk

/-- Vertex array of the mesh after it is allocated — metis_graph_dual.c:126–131. -/
def vert0 (base velmnbr vnodnbr : Int) (J : Int → Int) : Arr Int :=
  ⟨base, base + (velmnbr + vnodnbr + 1), fun i => if base + velmnbr ≤ i ∧ i < base + velmnbr + vnodnbr then 0 else J i⟩

/-- The mesh — metis_graph_dual.c:113–124, 132–133, 153, 176, 184. The number of isolated elements is not set: it is zero. -/
def mkMesh (base velmnbr vnodnbr : Int) (vert edge : Arr Int) (edgenbr degrmax : Int) : Mesh :=
  { baseval := base, velmnbr := velmnbr, velmbas := base, velmnnd := velmnbr + base, veisnbr := 0, vnodnbr := vnodnbr, vnodbas := velmnbr + base, vnodnnd := vnodnbr + (velmnbr + base),
    verttax := vert, vendtax := none, velotax := none, vnlotax := none, velosum := velmnbr, vnlosum := vnodnbr, edgenbr := edgenbr, edgetax := edge, degrmax := degrmax }

/-- `_SCOTCH_METIS_MeshToDual2` — metis_graph_dual.c:72–200. -/
def build (base vnodnbr velmnbr : Int) (eptr eind : Arr Int) (J : Junk) : M Mesh := do
  let nnd := velmnbr + base
  let c ← forUp base nnd ⟨vert0 base velmnbr vnodnbr J.vert, 0, 0⟩ (countElem velmnbr eptr eind)
  let first ← eptr.rd base
  let vert ← copyElems base nnd eptr first c.vert
  let last ← eptr.rd nnd
  let s ← forUp nnd (nnd + vnodnbr) ⟨vert, c.degrmax, last⟩ scanNode
  let vert ← s.vert.wr (nnd + vnodnbr) s.num
  let edge ← forUp base last ⟨base, base + c.edgenbr * 2, J.edge⟩ (shiftNode velmnbr eind)
  let r ← forUp base nnd (vert, edge) (addElems velmnbr eptr eind)
  let vert ← moveUp nnd (vnodnbr - 1) r.1
  let vert ← vert.wr nnd last
  return mkMesh base velmnbr vnodnbr vert r.2 (c.edgenbr * 2) s.degrmax

/-- Copy of `nbr` cells to a new array — metis_graph_dual.c:255–256. -/
def copyOut (a : Arr Int) (base nbr : Int) : M (Arr Int) :=
  if nbr = 0 ∨ (0 ≤ nbr ∧ a.lo ≤ base ∧ base + nbr ≤ a.hi) then .ok ⟨base, base + nbr, a.get⟩ else .error .oob

/-- `METIS_MeshToDual` — metis_graph_dual.c:207–260: arrays `xadj` and `adjncy`, based. -/
def meshToDual (numMax ne nn : Int) (eptr eind : Arr Int) (ncommon base : Int) (J : Junk) : M (Arr Int × Arr Int) := do
  let m ← build base nn ne eptr eind J
  let g ← toDual numMax m ncommon J.dual
  let xadj ← copyOut g.verttax g.baseval (g.vertnbr + 1)
  let adjncy ← copyOut g.edgetax g.baseval g.edgenbr
  return (xadj, adjncy)

end Scotch.Mesh.Metis
