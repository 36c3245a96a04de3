import Verif.HOrder.ModelOrder
import Verif.Hash

/-!
# Ordering of compressed graphs: model

src/libscotch/hgraph_order_cp.c. Integers are unbounded: the sums of neighbour numbers and the products of the hash functions are supposed not to overflow.
-/

set_option autoImplicit false

namespace Scotch.HOrder
open Graph
open Coarsen (land maskLoop)

/-- Parameters, and what depends on the machine. -/
structure CpPara where
  /-- `sizeof (Gnum) / sizeof (int)` -/
  gint : Int
  /-- `(double) a > (double) b * comprat`, for floating-point numbers that may be anything -/
  much : Int → Int → Bool

/-- `HGRAPHORDERCPHASHPRIME` — hgraph_order_cp.h:63. -/
def cpPrime : Int := 17

/-- `HgraphOrderCpHash` — hgraph_order_cp.h:79–82. -/
structure CpCell where
  vertnum : Int
  vertend : Int

/-- `HgraphOrderCpMate` — hgraph_order_cp.h:86–89. -/
structure CpMate where
  coarvertend : Int
  finevertend : Int

/-- `finehashmsk` — hgraph_order_cp.c:138–141. -/
def cpHashMask (degrmax : Int) : M Int := do return (← maskLoop degrmax (degrmax.toNat + 1) 15) * 4 + 3

/-- `finehaspmsk` — hgraph_order_cp.c:159–165. -/
def cpHaspMask (gint vertnbr : Int) : M Int := do
  let m ← maskLoop vertnbr (vertnbr.toNat + 1) 1
  let m := m / 2 * gint + (gint - 1)
  return if m ≥ 63 then m / 8 else m

/-- State of the first loop. -/
structure CpA where
  hasp : Arr Nat
  hsum : Arr Int
  nbr : Int

/-- Sum of the numbers of a vertex and of its neighbours, and estimation of the number of vertices of the compressed graph — hgraph_order_cp.c:170–184. The bits of the first hash table are those of natural
numbers. -/
def cpSum (g : Graph) (msk v : Int) (s : CpA) : M CpA := do
  let x ← g.forArcs v v fun _ w x => return x + w
  let hsum ← s.hsum.wr v x
  let t ← s.hasp.rd (land (x / 32) msk)
  let b := (x % 32).toNat
  let hasp ← s.hasp.wr (land (x / 32) msk) (t ||| 2 ^ b)
  return ⟨hasp, hsum, s.nbr - if t.testBit b then 1 else 0⟩

/-- Possible mates of a vertex, one for each compressed vertex — hgraph_order_cp.c:214–232. -/
def cpMateArc (g : Graph) (v degr x : Int) (hsum coar : Arr Int) (_e w : Int) (s : Arr CpMate × Int) : M (Arr CpMate × Int) := do
  if w < v then
    if x = (← hsum.rd w) then
      if degr = (← rdDegr g w) then do
        let c ← coar.rd w
        match ← forUpB 0 s.2 () (fun k _ => do if (← s.1.rd k).coarvertend = c then return .brk () else return .next ()) with
        | .brk _ => return s
        | .next _ => return (← s.1.wr s.2 ⟨c, w⟩, s.2 + 1)
      else return s
    else return s
  else return s

/-- Addition of a neighbour to the hash table — hgraph_order_cp.c:245–250, 252–255. -/
def cpPut (msk v w : Int) (tab : Arr CpCell) : M (Arr CpCell) := do
  let r ← Hash.find (fun i => do if (← tab.rd i).vertnum = v then return none else return some true) msk (msk.toNat + 2) (land (w * cpPrime) msk)
  tab.wr r.1 ⟨v, w⟩

/-- Search in the hash table: the slot, and whether it is free — hgraph_order_cp.c:269–275, 353–363, 400–410. -/
def cpFind (tab : Arr CpCell) (msk v w : Int) : M (Int × Bool) :=
  Hash.find (fun i => do
    let c ← tab.rd i
    if c.vertnum ≠ v then return some true else if c.vertend = w then return some false else return none) msk (msk.toNat + 2) (land (w * cpPrime) msk)

/-- Neighbour of a mate, which must be a neighbour of the vertex — hgraph_order_cp.c:265–276. -/
def cpSame (g : Graph) (tab : Arr CpCell) (msk v e : Int) : M (Loop Unit Unit) := do
  let w ← g.edgetax.rd e
  if (← cpFind tab msk v w).2 then return .brk () else return .next ()

/-- Mates are tried, from last to first — hgraph_order_cp.c:257–282. The result is the compressed vertex of the first one that has the same neighbours. -/
def cpTry (g : Graph) (tab : Arr CpCell) (mate : Arr CpMate) (msk v : Int) : Nat → M (Option Int)
  | 0 => return none
  | n + 1 => do
    let m ← mate.rd n
    let lo ← g.verttax.rd m.finevertend
    let hi ← g.rdVend m.finevertend
    match ← forUpB lo hi () (fun e _ => cpSame g tab msk v e) with
    | .next _ => return some m.coarvertend
    | .brk _ => cpTry g tab mate msk v n

/-- State of the second loop. -/
structure CpB where
  tab : Arr CpCell
  mate : Arr CpMate
  coar : Arr Int
  nbr : Int
  enbr : Int

/-- Compressed vertex of a vertex — hgraph_order_cp.c:203–283. -/
def cpVert (g : Graph) (msk : Int) (hsum : Arr Int) (v : Int) (s : CpB) : M CpB := do
  let degr ← rdDegr g v
  let x ← hsum.rd v
  let (mate, n) ← g.forArcs v (s.mate, (0 : Int)) (cpMateArc g v degr x hsum s.coar)
  let coar ← s.coar.wr v s.nbr
  if n > 0 then do
    let tab ← g.forArcs v s.tab fun _ w t => cpPut msk v w t
    let tab ← cpPut msk v v tab
    match ← cpTry g tab mate msk v n.toNat with
    | some c => return ⟨tab, mate, ← coar.wr v c, s.nbr, s.enbr - (degr + 1)⟩
    | none => return ⟨tab, mate, coar, s.nbr + 1, s.enbr⟩
  else return ⟨s.tab, mate, coar, s.nbr + 1, s.enbr⟩

/-- State of the loops on arcs of the compressed graph. -/
structure CpArc where
  tab : Arr CpCell
  edge : Arr Int
  num : Int
  vsiz : Arr Int

/-- An arc, if it is new — hgraph_order_cp.c:353–363, 400–410. -/
def cpAdd (msk c d : Int) (s : CpArc) : M CpArc := do
  let r ← cpFind s.tab msk c d
  if r.2 then return { s with tab := ← s.tab.wr r.1 ⟨c, d⟩, edge := ← s.edge.wr s.num d, num := s.num + 1 } else return s

/-- Arc of a vertex that is not in the halo, to another one — hgraph_order_cp.c:345–363. -/
def cpArc1 (msk c : Int) (coar : Arr Int) (_e w : Int) (s : CpArc) : M CpArc := do
  let d ← coar.rd w
  if d = c then return { s with vsiz := ← s.vsiz.wr c ((← s.vsiz.rd c) + 1) }
  else cpAdd msk c d s

/-- State of the loops on vertices of the compressed graph; `vnhd` is `none` if it is `verttax + 1`. -/
structure CpV where
  a : CpArc
  vert : Arr Int
  vnhd : Option (Arr Int)
  c : Int

/-- `vnhdtax[c] = num` — hgraph_order_cp.c:328, 365. -/
def cpVnhd (s : CpV) (num : Int) : M CpV :=
  match s.vnhd with
  | none => do return { s with vert := ← s.vert.wr (s.c + 1) num }
  | some t => do return { s with vnhd := some (← t.wr s.c num) }

/-- Vertex that is not in the halo — hgraph_order_cp.c:335–373. -/
def cpV1 (h : Hgraph) (msk : Int) (coar : Arr Int) (v : Int) (s : CpV) : M CpV := do
  if (← coar.rd v) ≠ s.c then return s
  else do
    let vert ← s.vert.wr s.c s.a.num
    let vsiz ← s.a.vsiz.wr s.c 1
    let a ← (unhalo h).forArcs v { s.a with vsiz := vsiz } (cpArc1 msk s.c coar)
    let s ← cpVnhd { s with vert := vert } a.num
    let a ← forUp (← (unhalo h).rdVend v) (← h.s.rdVend v) a fun e a => do
      let d ← coar.rd (← h.s.edgetax.rd e)
      return { a with edge := ← a.edge.wr a.num d, num := a.num + 1 }
    return { s with a := a, c := s.c + 1 }

/-- Halo vertex — hgraph_order_cp.c:376–412. -/
def cpV2 (h : Hgraph) (msk : Int) (coar : Arr Int) (v : Int) (s : CpV) : M CpV := do
  let vert ← s.vert.wr s.c s.a.num
  let vsiz ← s.a.vsiz.wr s.c 1
  let a ← h.s.forArcs v { s.a with vsiz := vsiz } fun _ w a => do cpAdd msk s.c (← coar.rd w) a
  return { s with a := a, vert := vert, c := s.c + 1 }

/-- Loads of the vertices of the compressed graph — hgraph_order_cp.c:329, 422–427. -/
def cpVelo (g : Graph) (coar vsiz : Arr Int) (nnd : Int) : M (Arr Int) :=
  match g.velotax with
  | none => return vsiz
  | some a => forUp g.baseval g.vertnnd (Arr.const 1 nnd 0) fun v t => do
    let c ← coar.rd v
    t.wr c ((← t.rd c) + (← a.rd v))

/-- The compressed graph: the graph, and the numbers of vertices that its vertices are made of — hgraph_order_cp.c:296–431. Array `verttax` has a cell more than needed, as in the code. -/
def cpBuild (h : Hgraph) (junk : Nat → Int → Int) (msk : Int) (s : CpB) : M (Hgraph × Arr Int × Arr Int) := do
  let g := h.s
  let vnohnnd := s.nbr
  let (coar, nnd) ← forUp h.vnohnnd g.vertnnd (s.coar, s.nbr) fun v t => do return (← t.1.wr v t.2, t.2 + 1)
  let s0 : CpV := {
    a := ⟨Arr.const 0 (msk + 1) ⟨-1, -1⟩, ⟨1, 1 + s.enbr, junk 0⟩, 1, ⟨1, 1 + nnd, junk 1⟩⟩
    vert := ⟨1, 1 + (nnd + 1), junk 2⟩
    vnhd := if g.vertnbr = h.vnohnbr then none else some ⟨1, vnohnnd, junk 3⟩
    c := 1 }
  let s ← forUp g.baseval h.vnohnnd s0 (cpV1 h msk coar)
  let enohnnd := s.a.num
  let s ← forUp h.vnohnnd g.vertnnd s (cpV2 h msk coar)
  let vert ← s.vert.wr s.c s.a.num
  let velo ← cpVelo g coar s.a.vsiz nnd
  let edgenbr := s.a.num - 1
  let enohnbr := edgenbr - 2 * (s.a.num - enohnnd)
  return ({
    s := {
      baseval := 1
      vertnbr := nnd - 1
      vertnnd := nnd
      verttax := vert
      vendtax := none
      velotax := some velo
      velosum := g.velosum
      vnumtax := none
      vlbltax := none
      edgenbr := edgenbr
      edgetax := ⟨1, 1 + edgenbr, s.a.edge.get⟩
      edlotax := none
      edlosum := edgenbr
      degrmax := g.degrmax }
    vnohnbr := vnohnnd - 1
    vnohnnd := vnohnnd
    vnhdtax := s.vnhd
    vnlosum := h.vnlosum
    enohnbr := enohnbr
    enlosum := enohnbr
    levlnum := h.levlnum }, coar, s.a.vsiz)

mutual
/-- `hgraphOrderCpTree` — hgraph_order_cp.c:508–542. The result is the block with its new size. -/
def cpTree (peri vsiz : Arr Int) : Cblk → Int → M Cblk
  | .leaf t v k, off => do
    let n ← forUp off (off + v) (0 : Int) fun i n => do return n + (← vsiz.rd (← peri.rd i))
    return .leaf t n k
  | .node t _ k sons, off => do
    let (n, sons) ← cpTrees peri vsiz sons k.toNat off
    return .node t n k sons

/-- Loop on the blocks of an array — hgraph_order_cp.c:532–537. -/
def cpTrees (peri vsiz : Arr Int) : List Cblk → Nat → Int → M (Int × List Cblk)
  | l, 0, _ => return (0, l)
  | [], _ + 1, _ => throw .oob
  | s :: r, n + 1, off => do
    let s' ← cpTree peri vsiz s off
    let (m, r') ← cpTrees peri vsiz r n (off + s.vnodnbr)
    return (s'.vnodnbr + m, s' :: r')
end

/-- Inverse permutation of the graph — hgraph_order_cp.c:475–490. As in the code, vertices are numbered from 0 on, not from `ordenum` on. -/
def cpPeri (h hc : Hgraph) (coar vsiz cperi peri : Arr Int) : M (Arr Int) := do
  let (vpos, _) ← forUp hc.s.baseval hc.vnohnnd (hc.s.verttax, (0 : Int)) fun i s => do
    let c ← cperi.rd (i - hc.s.baseval)
    return (← s.1.wr c s.2, s.2 + (← vsiz.rd c))
  let (_, peri) ← forUp h.s.baseval h.vnohnnd (vpos, peri) fun v s => do
    let c ← coar.rd v
    let p ← s.1.rd c
    let peri ← s.2.wr p (← rdOnum h.s v)
    return (← s.1.wr c (p + 1), peri)
  return peri

/-- Sums, and estimation of the number of vertices of the compressed graph — hgraph_order_cp.c:158–185. -/
def cpSums (p : CpPara) (h : Hgraph) (junk : Int → Int) : M CpA := do
  let msk ← cpHaspMask p.gint h.s.vertnbr
  let bytes ← (if msk + 1 ≤ h.s.vertnbr * p.gint then return ⟨0, h.s.vertnbr * p.gint, fun _ => 0⟩ else throw .oob : M (Arr Nat))
  forUp h.s.baseval h.vnohnnd ⟨bytes, ⟨h.s.baseval, h.s.baseval + h.vnohnbr, junk⟩, h.vnohnbr⟩ (cpSum h.s msk)

/-- Compressed vertices — hgraph_order_cp.c:196–284. -/
def cpVerts (h : Hgraph) (msk : Int) (junk : Int → Int) (mate : Int → CpMate) (hsum : Arr Int) : M CpB :=
  forUp h.s.baseval h.vnohnnd ⟨Arr.const 0 (msk + 1) ⟨-1, -1⟩, ⟨0, h.s.degrmax, mate⟩, ⟨h.s.baseval, h.s.baseval + h.s.vertnbr, junk⟩, 1, h.s.edgenbr⟩ (cpVert h.s msk hsum)

/-- `hgraphOrderCp` — hgraph_order_cp.c:94–498. -/
def orderCp (env : Env) (p : CpPara) (cpr unc : Method) : Method := fun h ordenum o c => do
  let msk ← cpHashMask h.s.degrmax
  let t := o.tick
  let a ← cpSums p h (env.junk t)
  if p.much a.nbr h.vnohnbr then unc h ordenum { o with tick := t + 1 } c
  else do
    let b ← cpVerts h msk (env.junk (t + 1)) (fun i => ⟨env.junk (t + 2) i, env.junk (t + 3) i⟩) a.hsum
    if p.much (b.nbr - 1) h.vnohnbr then unc h ordenum { o with tick := t + 4 } c
    else do
      let (hc, coar, vsiz) ← cpBuild h (fun i => env.junk (t + 4 + i)) msk b
      let (r, oc, cc) ← cpr hc 0 ⟨⟨0, hc.vnohnbr, env.junk (t + 8)⟩, 1, 1, t + 9⟩ (leafBlock hc.vnohnbr)
      if r ≠ 0 then return (1, { o with tick := oc.tick }, c)
      else do
        let cc ← cpTree oc.peritab vsiz cc 0
        let peri ← cpPeri h hc coar vsiz oc.peritab o.peritab
        return (0, ⟨peri, o.treenbr + oc.treenbr - 1, o.cblknbr + oc.cblknbr - 1, oc.tick⟩, cc)

end Scotch.HOrder
