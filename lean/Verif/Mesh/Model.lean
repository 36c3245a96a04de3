import Verif.Graph.Model
import Verif.Hash

/-!
# Meshes: model

src/libscotch/mesh_graph.c, mesh_check.c, and src/libscotchmetis/metis_graph_dual.c. Memory allocation succeeds. `numMax` is the largest `Gnum`.
-/

set_option autoImplicit false

namespace Scotch

/-- `Mesh` — mesh.h:105–126. Element and node vertices are numbered from `velmbas` and `vnodbas` on. `vendtax = none` stands for `vendtax == verttax + 1`. -/
structure Mesh where
  baseval : Int
  velmnbr : Int
  velmbas : Int
  velmnnd : Int
  veisnbr : Int
  vnodnbr : Int
  vnodbas : Int
  vnodnnd : Int
  verttax : Arr Int
  vendtax : Option (Arr Int)
  velotax : Option (Arr Int)
  vnlotax : Option (Arr Int)
  velosum : Int
  vnlosum : Int
  edgenbr : Int
  edgetax : Arr Int
  degrmax : Int

namespace Mesh

open Coarsen (land)

/-- `meshptr->vendtax[v]` -/
def rdVend (m : Mesh) (v : Int) : M Int :=
  match m.vendtax with
  | none => m.verttax.rd (v + 1)
  | some a => a.rd v

/-- `MESHGRAPHHASHPRIME` — mesh_graph.h:55. -/
def hashPrime : Int := 37

/-- Product, which must not overflow. -/
def mulChk (numMax a b : Int) : M Int := if a * b ≤ numMax then .ok (a * b) else .error .overflow

/-- `for (hashsiz = 32, …; hashsiz < hashnbr; hashsiz <<= 1) ;` — mesh_graph.c:111–112, 253–254. -/
def sizeLoop (numMax hashnbr : Int) : Nat → Int → M Int
  | 0, _ => .error .fuel
  | n + 1, siz => if siz < hashnbr then (if siz * 2 ≤ numMax then sizeLoop numMax hashnbr n (siz * 2) else .error .overflow) else .ok siz

/-- Size of the hash table — mesh_graph.c:111–112, 253–254. -/
def hashSize (numMax degrmax : Int) : M Int := do
  let a ← mulChk numMax degrmax degrmax
  let b ← mulChk numMax a 2
  sizeLoop numMax b (b.toNat + 1) 32

/-- First slot of a vertex — mesh_graph.c:154, 170, 290, 308. -/
def hashStart (numMax msk v : Int) : M Int := do return land (← mulChk numMax v hashPrime) msk

/-- Growth of the edge array, when full — mesh_graph.c:172–188, 323–339. The contents of the new cells are arbitrary: here, those given to the array beyond its end. -/
def grow (base : Int) (edge : Arr Int) (num : Int) : Arr Int :=
  if num = edge.hi then { edge with hi := (edge.hi - base) + (edge.hi - base) / 4 + base } else edge

/-- The graph that is returned — mesh_graph.c:106–109, 122–129, 206–208, and 248–251, 264–267, 354–356. The graph has been initialized: it has no edge loads, labels, nor numbers. -/
def mkGraph (base nbr : Int) (velotax : Option (Arr Int)) (velosum : Int) (vert edge : Arr Int) (num degrmax : Int) : Graph :=
  { baseval := base, vertnbr := nbr, vertnnd := nbr + base, verttax := vert, vendtax := none, velotax := velotax, velosum := velosum, vnumtax := none, vlbltax := none,
    edgenbr := num - base, edgetax := edge, edlotax := none, edlosum := num - base, degrmax := degrmax }

/-! ## Graph of nodes -/

/-- `MeshGraphHash` — mesh_graph.h:65–68. -/
structure Cell where
  num : Int
  vend : Int

/-- State of the building of edges. The end of the edge array is `edgennd`. -/
structure EState where
  tab : Arr Cell
  edge : Arr Int
  num : Int

/-- Test of a slot — mesh_graph.c:171, 195. -/
def testSlot (tab : Arr Cell) (n w h : Int) : M (Option Bool) := do
  let c ← tab.rd h
  if c.num ≠ n then return some true else if c.vend = w then return some false else return none

/-- Handling of a node `w` of an element of node `n` — mesh_graph.c:168–197. -/
def nodeBody (numMax : Int) (m : Mesh) (msk n : Int) (e : Int) (s : EState) : M EState := do
  let w ← m.edgetax.rd e
  let h ← hashStart numMax msk w
  let r ← Hash.find (testSlot s.tab n w) msk (msk.toNat + 2) h
  if r.2 then do
    let tab ← s.tab.wr r.1 ⟨n, w⟩
    let edge ← (grow m.baseval s.edge s.num).wr s.num (w - (m.vnodbas - m.baseval))
    return ⟨tab, edge, s.num + 1⟩
  else return s

/-- Handling of an element of node `n` — mesh_graph.c:162–198. -/
def elemBody (numMax : Int) (m : Mesh) (msk n : Int) (e : Int) (s : EState) : M EState := do
  let v ← m.edgetax.rd e
  let vert ← m.verttax.rd v
  let vend ← m.rdVend v
  forUp vert vend s (nodeBody numMax m msk n)

/-- State of the loop on vertices. -/
structure VState where
  vert : Arr Int
  es : EState
  degrmax : Int

/-- Handling of a node — mesh_graph.c:147–202. -/
def vertBody (numMax : Int) (m : Mesh) (msk : Int) (v : Int) (s : VState) : M VState := do
  let vert ← s.vert.wr v s.es.num
  let n := v + (m.vnodbas - m.baseval)
  let h ← hashStart numMax msk n
  let tab ← s.es.tab.wr h ⟨n, n⟩
  let b ← m.verttax.rd n
  let e ← m.rdVend n
  let es ← forUp b e { s.es with tab := tab } (elemBody numMax m msk n)
  return ⟨vert, es, max s.degrmax (es.num - s.es.num)⟩

/-- Contents of memory when it is allocated. -/
structure Junk where
  vert : Int → Int
  edge : Int → Int

/-- `meshGraph` — mesh_graph.c:91–220. -/
def toGraph (numMax : Int) (m : Mesh) (J : Junk) : M Graph := do
  let siz ← hashSize numMax m.degrmax
  let nnd := m.vnodnbr + m.baseval
  let s ← forUp m.baseval nnd
    ⟨⟨m.baseval, nnd + 1, J.vert⟩, ⟨Arr.const 0 siz ⟨-1, -1⟩, ⟨m.baseval, 2 * m.edgenbr + m.baseval, J.edge⟩, m.baseval⟩, 0⟩ (vertBody numMax m (siz - 1))
  let vert ← s.vert.wr nnd s.es.num
  return mkGraph m.baseval m.vnodnbr (m.vnlotax.map fun a => a.shift (m.baseval - m.vnodbas)) m.vnlosum vert s.es.edge s.es.num s.degrmax

/-! ## Dual graph -/

/-- `MeshGraphDualHash` — mesh_graph.h:70–74. -/
structure DCell where
  num : Int
  vend : Int
  nghb : Int

/-- State of the building of edges. -/
structure DState where
  tab : Arr DCell
  edge : Arr Int
  num : Int

/-- Test of a slot — mesh_graph.c:311, 318. -/
def testSlotD (tab : Arr DCell) (v w h : Int) : M (Option Bool) := do
  let c ← tab.rd h
  if c.num ≠ v then return some true else if c.vend = w then return some false else return none

/-- `test:` — mesh_graph.c:322–342: adds an arc to element `w` if the counter is exhausted. -/
def addEdge (m : Mesh) (nghb w : Int) (s : DState) : M DState :=
  if nghb ≤ 0 then do
    let edge ← (grow m.baseval s.edge s.num).wr s.num (w - (m.velmbas - m.baseval))
    return { s with edge := edge, num := s.num + 1 }
  else return s

/-- New element, with a counter — mesh_graph.c:312–316. -/
def newElem (m : Mesh) (v econ h w : Int) (s : DState) : M DState := do
  let vend ← m.rdVend w
  let vert ← m.verttax.rd w
  let nghb := min econ (vend - vert - 1) - 1
  let tab ← s.tab.wr h ⟨v, w, nghb⟩
  addEdge m nghb w { s with tab := tab }

/-- Element already seen — mesh_graph.c:319–343. -/
def oldElem (m : Mesh) (h w : Int) (s : DState) : M DState := do
  let c ← s.tab.rd h
  if c.nghb > 0 then do
    let tab ← s.tab.wr h { c with nghb := c.nghb - 1 }
    addEdge m (c.nghb - 1) w { s with tab := tab }
  else return s

/-- Handling of an element `w` that has a node of element `v` — mesh_graph.c:303–346. -/
def elemBodyD (numMax : Int) (m : Mesh) (msk v econ : Int) (e : Int) (s : DState) : M DState := do
  let w ← m.edgetax.rd e
  let h ← hashStart numMax msk w
  let r ← Hash.find (testSlotD s.tab v w) msk (msk.toNat + 2) h
  if r.2 then newElem m v econ r.1 w s else oldElem m r.1 w s

/-- Handling of a node of element `v` — mesh_graph.c:297–347. -/
def nodeBodyD (numMax : Int) (m : Mesh) (msk v econ : Int) (e : Int) (s : DState) : M DState := do
  let n ← m.edgetax.rd e
  let vert ← m.verttax.rd n
  let vend ← m.rdVend n
  forUp vert vend s (elemBodyD numMax m msk v econ)

/-- State of the loop on vertices. -/
structure VStateD where
  vert : Arr Int
  es : DState
  degrmax : Int

/-- Handling of an element — mesh_graph.c:282–350. -/
def vertBodyD (numMax : Int) (m : Mesh) (nocon msk : Int) (u : Int) (s : VStateD) : M VStateD := do
  let vert ← s.vert.wr u s.es.num
  let v := u + (m.velmbas - m.baseval)
  let h ← hashStart numMax msk v
  let tab ← s.es.tab.wr h ⟨v, v, 0⟩
  let e ← m.rdVend v
  let b ← m.verttax.rd v
  let es ← forUp b e { s.es with tab := tab } (nodeBodyD numMax m msk v (min nocon (e - b - 1)))
  return ⟨vert, es, max s.degrmax (es.num - s.es.num)⟩

/-- `meshGraphDual` — mesh_graph.c:232–368. -/
def toDual (numMax : Int) (m : Mesh) (nocon : Int) (J : Junk) : M Graph := do
  let siz ← hashSize numMax m.degrmax
  let nnd := m.velmnbr + m.baseval
  let s ← forUp m.baseval nnd
    ⟨⟨m.baseval, nnd + 1, J.vert⟩, ⟨Arr.const 0 siz ⟨-1, -1, -1⟩, ⟨m.baseval, 2 * m.edgenbr + m.baseval, J.edge⟩, m.baseval⟩, 0⟩ (vertBodyD numMax m nocon (siz - 1))
  let vert ← s.vert.wr nnd s.es.num
  return mkGraph m.baseval m.velmnbr none m.velosum vert s.es.edge s.es.num s.degrmax

end Mesh
end Scotch
