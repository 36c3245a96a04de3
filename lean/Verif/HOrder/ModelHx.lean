import Verif.HOrder.ModelOrder

/-!
# Ordering of graphs by minimum degree methods: model

src/libscotch/hgraph_order_hd.c, hgraph_order_hf.c, hgraph_order_hx.c and hall_order_hx.c. The minimum degree kernels (`hallOrderHdR2Halmd`, `hallOrderHfR3Hamdf4`) are arbitrary functions from the quotient graph to the assembly
tree.
-/

set_option autoImplicit false

namespace Scotch.HOrder
open Graph

/-- Parameters of a minimum degree kernel. Arrays are indexed from 1. -/
structure HxIn where
  norig : Int
  n : Int
  iwlen : Int
  pe : Arr Int
  pfree : Int
  len : Arr Int
  iw : Arr Int
  nv : Arr Int
  elen : Arr Int

/-- Contents of arrays after a minimum degree kernel: `petab`, `nvtab`, and the work arrays that `hallOrderHxBuild` does not initialise. Arrays are indexed from 1. -/
structure HxOut where
  pe : Int → Int
  nv : Int → Int
  next : Int → Int
  leaf : Int → Int

/-- A minimum degree kernel; it fails when `ncmpa` is negative. -/
abbrev HxKern := Nat → HxIn → M (Option HxOut)

/-- Parameters of the method. `fill a b c` is the floating-point test `2 a (b - c + a) < b² fillrat`. -/
structure HxPara where
  colmin : Int
  colmax : Int
  fill : Int → Int → Int → Bool

/-! ## Quotient graph -/

/-- State of `hgraphOrderHxFill`. -/
structure HxF where
  pe : Arr Int
  len : Arr Int
  iw : Arr Int
  nv : Arr Int
  elen : Arr Int
  edgenew : Int

/-- Vertex of the quotient graph — hgraph_order_hx.c:101–128. -/
def hxFillVert (h : Hgraph) (v : Int) (s : HxF) : M HxF := do
  let b ← h.s.verttax.rd v
  let e ← h.s.rdVend v
  let new := v + (1 - h.s.baseval)
  let pe ← s.pe.wr new s.edgenew
  let len ← s.len.wr new (if v < h.vnohnnd then e - b else if b - e ≠ 0 then b - e else -1 - h.s.velosum)
  let elen ← s.elen.wr new 0
  let nv ← s.nv.wr new (← h.s.rdVelo v)
  let (iw, k) ← forUp b e (s.iw, s.edgenew) fun i t => do
    return (← t.1.wr t.2 ((← h.s.edgetax.rd i) + (1 - h.s.baseval)), t.2 + 1)
  return ⟨pe, len, iw, nv, elen, k⟩

/-- Size of the array of adjacencies — hgraph_order_hd.c:120–122. The product is the exact one, not the one of floating-point numbers. -/
def hxLen (h : Hgraph) : Int := max ((h.s.edgenbr * 6).tdiv 5 + 32) h.s.vertnbr

/-- `hgraphOrderHxFill` — hgraph_order_hx.c:75–131. -/
def hxFill (h : Hgraph) (mem : Int → Int) : M HxIn := do
  let n := h.s.vertnbr
  let a : Arr Int := ⟨1, 1 + n, mem⟩
  let s ← forUp h.s.baseval h.s.vertnnd ⟨a, a, ⟨1, 1 + hxLen h, mem⟩, a, a, 1⟩ (hxFillVert h)
  return ⟨h.s.velosum, n, hxLen h, s.pe, s.edgenew, s.len, s.iw, s.nv, s.elen⟩

/-! ## Elimination tree -/

/-- State of `hallOrderHxBuild`: arrays, number of column blocks, and number of the last root. -/
structure HxS where
  nvar : Arr Int
  size : Arr Int
  cwgt : Option (Arr Int)
  fath : Arr Int
  frst : Arr Int
  next : Arr Int
  secn : Arr Int
  desc : Arr Int
  cblknbr : Int
  root : Int

/-- `cwgttax[f] += w`. -/
def cwgtAdd (c : Option (Arr Int)) (f w : Int) : M (Option (Arr Int)) :=
  match c with
  | none => return none
  | some a => do return some (← a.wr f ((← a.rd f) + w))

/-- Secondary vertex of a principal vertex — hall_order_hx.c:197–201. -/
def hxSecn (i f w : Int) (s : HxS) : M HxS := do
  let size ← s.size.wr f ((← s.size.rd f) + 1)
  let cwgt ← cwgtAdd s.cwgt f w
  let secn ← s.secn.wr i (← s.secn.rd f)
  return { s with
    size := size
    cwgt := cwgt
    secn := (← secn.wr f i) }

/-- Principal vertex — hall_order_hx.c:156–172. -/
def hxPrin (base vnohnbr i : Int) (s : HxS) : M HxS := do
  let size ← s.size.wr i ((← s.size.rd i) + 1)
  let f ← s.fath.rd i
  if f < 0 ∧ f > -(vnohnbr + 1) then do
    let f := base - (f + 1)
    let fath ← s.fath.wr i f
    let next ← s.next.wr i (← s.frst.rd f)
    let frst ← s.frst.wr f i
    let desc ← s.desc.wr f ((← s.desc.rd f) + 1)
    return { s with
      cblknbr := s.cblknbr + 1
      size := size
      fath := fath
      next := next
      frst := frst
      desc := desc }
  else return { s with
    cblknbr := s.cblknbr + 1
    size := size
    fath := (← s.fath.wr i (-1))
    root := i }

/-- First vertex whose father is a halo vertex: it becomes a principal vertex — hall_order_hx.c:183–189. -/
def hxRep (i f w : Int) (s : HxS) : M HxS := do
  let size ← s.size.wr i 1
  let nvar ← s.nvar.wr i w
  let frst ← s.frst.wr f i
  let fath ← s.fath.wr i (-1)
  return { s with
    cblknbr := s.cblknbr + 1
    size := size
    nvar := nvar
    frst := frst
    fath := fath
    root := i }

/-- Load of a vertex — hall_order_hx.c:178. -/
def cwgtOne (c : Option (Arr Int)) (i : Int) : M Int :=
  match c with
  | none => return 1
  | some a => a.rd i

/-- Vertex of the assembly tree — hall_order_hx.c:155–202. -/
def hxVert (base vnohnbr : Int) (i : Int) (s : HxS) : M HxS := do
  if (← s.nvar.rd i) ≠ 0 then hxPrin base vnohnbr i s
  else do
    let w ← cwgtOne s.cwgt i
    let f := base - ((← s.fath.rd i) + 1)
    let fath ← s.fath.wr i f
    let s := { s with fath := fath }
    if base + vnohnbr ≤ f then do
      let r ← s.frst.rd f
      if r = -1 then hxRep i f w s
      else do
        let fath ← s.fath.wr i r
        let nvar ← s.nvar.wr r ((← s.nvar.rd r) + w)
        hxSecn i r w { s with
          fath := fath
          nvar := nvar }
    else hxSecn i f w s

/-- Leaf of the tree — hall_order_hx.c:207–210. State: `leaftab` and `leafnbr`. -/
def hxLeaf (s : HxS) (i : Int) (t : Arr Int × Int) : M (Arr Int × Int) := do
  if (← s.fath.rd i) ≠ -1 ∧ (← s.nvar.rd i) ≠ 0 ∧ (← s.frst.rd i) = -1 then return (← t.1.wr t.2 i, t.2 + 1)
  else return t

/-- Last cell of a chain — hall_order_hx.c:234. -/
def hxLast (next : Arr Int) (k : Int) : M (Loop Int Int) := do
  let n ← next.rd k
  if n = -1 then return .brk k else return .next n

/-- Cell that precedes `i` in a chain — hall_order_hx.c:250. -/
def hxPrev (next : Arr Int) (i : Int) (k : Int) : M (Loop Int Int) := do
  let n ← next.rd k
  if n = i then return .brk k else return .next n

/-- New father of the cells of a chain — hall_order_hx.c:243–245. The result has the last cell. -/
def hxAdopt (next : Arr Int) (j : Int) (t : Arr Int × Int) : M (Loop (Arr Int × Int) (Arr Int × Int)) := do
  let n ← next.rd t.2
  let fath ← t.1.wr t.2 j
  if n = -1 then return .brk (fath, t.2) else return .next (fath, n)

/-- Chain of secondary vertices of `j`, after `i` has been merged — hall_order_hx.c:231–237. -/
def hxMergeSecn (fuel : Nat) (i j : Int) (secn : Arr Int) : M (Arr Int) := do
  let si ← secn.rd i
  let sj ← secn.rd j
  let secn ←
    if si = -1 then secn.wr i sj
    else if sj ≠ -1 then do
      let k ← loopM (hxLast secn) fuel si
      secn.wr k sj
    else pure secn
  secn.wr j i

/-- Sons of `i` are put in the chain of sons, before the ones that follow `i` — hall_order_hx.c:243–246, 255–258. -/
def hxGraft (fuel : Nat) (i j fi : Int) (fath next : Arr Int) : M (Arr Int × Arr Int) := do
  let (fath, k) ← loopM (hxAdopt next j) fuel (fath, fi)
  return (fath, ← next.wr k (← next.rd i))

/-- Sons of `j`, after `i` has been merged — hall_order_hx.c:238–260. The result has `fathtax`, `frsttax` and `nexttax`. -/
def hxMergeSons (fuel : Nat) (i j : Int) (fath frst next : Arr Int) : M (Arr Int × Arr Int × Arr Int) := do
  let fi ← frst.rd i
  if (← frst.rd j) = i then do
    if fi = -1 then return (fath, ← frst.wr j (← next.rd i), next)
    else do
      let frst ← frst.wr j fi
      let (fath, next) ← hxGraft fuel i j fi fath next
      return (fath, frst, next)
  else do
    let k ← loopM (hxPrev next i) fuel (← frst.rd j)
    if fi = -1 then return (fath, frst, ← next.wr k (← next.rd i))
    else do
      let next ← next.wr k fi
      let (fath, next) ← hxGraft fuel i j fi fath next
      return (fath, frst, next)

/-- Merging of column block `i` with its father `j` — hall_order_hx.c:226–261. -/
def hxMerge (fuel : Nat) (i j w : Int) (s : HxS) : M HxS := do
  let nvar ← s.nvar.wr i 0
  let nvar ← nvar.wr j ((← nvar.rd j) + w)
  let size ← s.size.wr j ((← s.size.rd j) + (← s.size.rd i))
  let cwgt ← cwgtAdd s.cwgt j w
  let secn ← hxMergeSecn fuel i j s.secn
  let (fath, frst, next) ← hxMergeSons fuel i j s.fath s.frst s.next
  return { s with
    nvar := nvar
    size := size
    cwgt := cwgt
    secn := secn
    fath := fath
    frst := frst
    next := next
    cblknbr := s.cblknbr - 1 }

/-- Load of a column block — hall_order_hx.c:219–220. -/
def cwgtBlk (s : HxS) (i : Int) : M Int :=
  match s.cwgt with
  | none => s.size.rd i
  | some a => a.rd i

/-- Merging of column block `i` with its father `j`, if the block is small or if this creates few zeros — hall_order_hx.c:219–263. -/
def hxTry (p : HxPara) (fuel : Nat) (i j : Int) (s : HxS) : M HxS := do
  let wi ← cwgtBlk s i
  let wj ← cwgtBlk s j
  let nj ← s.nvar.rd j
  let ni ← s.nvar.rd i
  if wi + wj ≤ p.colmax ∧ (wi < p.colmin ∨ p.fill wi nj ni = true) then hxMerge fuel i j wi s else return s

/-- State of the loop on leaves: tree, `leaftab`, `leafnum` and `leafnbr`. -/
structure HxQ where
  s : HxS
  leaf : Arr Int
  num : Int
  nbr : Int

/-- Leaf of the tree, merged with its father or not — hall_order_hx.c:213–267. -/
def hxStep (p : HxPara) (fuel : Nat) (q : HxQ) : M (Loop HxQ HxS) := do
  if q.num < q.nbr then do
    let i ← q.leaf.rd q.num
    let j ← q.s.fath.rd i
    let s ← hxTry p fuel i j q.s
    let d := (← s.desc.rd j) - 1
    let desc ← s.desc.wr j d
    let s := { s with desc := desc }
    if d ≤ 0 ∧ (← s.fath.rd j) ≠ -1 then return .next ⟨s, ← q.leaf.wr q.nbr j, q.num + 1, q.nbr + 1⟩
    else return .next ⟨s, q.leaf, q.num + 1, q.nbr⟩
  else return .brk q.s

/-- Sons, in the traversal of the tree — hall_order_hx.c:361–362. State: `peritab`, the number of vertices written so far, and the current son. -/
def hxSons (rec : Arr Int × Int → Int → M (Arr Int × Int)) (next : Arr Int) (t : (Arr Int × Int) × Int) : M (Loop ((Arr Int × Int) × Int) (Arr Int × Int)) := do
  if t.2 = -1 then return .brk t.1
  else do
    let r ← rec t.1 t.2
    return .next (r, ← next.rd t.2)

/-- Secondary vertices, in the traversal of the tree — hall_order_hx.c:365–367. -/
def hxSecs (ordenum : Int) (secn : Arr Int) (t : (Arr Int × Int) × Int) : M (Loop ((Arr Int × Int) × Int) (Arr Int × Int)) := do
  if t.2 = -1 then return .brk t.1
  else do
    let peri ← t.1.1.wr (ordenum + t.1.2) t.2
    return .next ((peri, t.1.2 + 1), ← secn.rd t.2)

/-- `hallOrderHxTree` — hall_order_hx.c:348–370. -/
def hxTree (lfuel : Nat) (ordenum : Int) (s : HxS) : Nat → Arr Int × Int → Int → M (Arr Int × Int)
  | 0, _, _ => throw .fuel
  | fuel + 1, t, node => do
    let t ← loopM (hxSons (hxTree lfuel ordenum s fuel) s.next) lfuel (t, ← s.frst.rd node)
    let peri ← t.1.wr (ordenum + t.2) node
    loopM (hxSecs ordenum s.secn) lfuel ((peri, t.2 + 1), ← s.secn.rd node)

/-- Column block of a vertex — hall_order_hx.c:322–330. State: sizes of the blocks. -/
def hxBlk (ordenum : Int) (s : HxS) (peri : Arr Int) (i : Int) (l : List Int) : M (List Int) := do
  let v ← peri.rd (ordenum + i)
  if (← s.nvar.rd v) = 0 then return l
  else do
    if (l.length : Int) < s.cblknbr then return l ++ [← s.size.rd v] else throw .oob

/-- Traversal of the trees of the forest, beginning with the one of the last root — hall_order_hx.c:272–278. -/
def hxTrees (fuel : Nat) (base vnohnbr ordenum : Int) (s : HxS) (peri : Arr Int) : M (Arr Int) := do
  let t ← hxTree fuel ordenum s fuel (peri, 0) s.root
  if t.2 < vnohnbr then do
    let t ← forUp base s.root t fun i t => do if (← s.fath.rd i) = -1 then hxTree fuel ordenum s fuel t i else return t
    return t.1
  else return t.1

/-- Column blocks — hall_order_hx.c:306–331. -/
def hxBlocks (vnohnbr ordenum : Int) (s : HxS) (o : Ord) (c : Cblk) : M (Ord × Cblk) := do
  if s.cblknbr ≠ 1 then do
    let l ← forUp 0 vnohnbr [] (hxBlk ordenum s o.peritab)
    return ({ o with
      cblknbr := o.cblknbr + (s.cblknbr - 1)
      treenbr := o.treenbr + s.cblknbr }, Cblk.node ORDERCBLKSEQU c.vnodnbr s.cblknbr (l.map leafBlock))
  else return (o, c)

/-- Numbers of vertices in the original graph — hall_order_hx.c:333–336. -/
def hxRenum (vnohnbr ordenum : Int) (vnumtax : Option (Arr Int)) (peri : Arr Int) : M (Arr Int) :=
  match vnumtax with
  | none => return peri
  | some vnum => forUp 0 vnohnbr peri fun i a => do a.wr (ordenum + i) (← vnum.rd (← a.rd (ordenum + i)))

/-- `hallOrderHxBuild` — hall_order_hx.c:106–339. Arrays have been initialised. -/
def hxBuild (p : HxPara) (base vnohnbr : Int) (vnumtax : Option (Arr Int)) (ordenum : Int) (s : HxS) (leaf : Arr Int) (o : Ord) (c : Cblk) : M Res := do
  let fuel := vnohnbr.toNat + 1
  let s ← forUp base (base + vnohnbr) s (hxVert base vnohnbr)
  let (leaf, nbr) ← forUp base (base + vnohnbr) (leaf, 0) (hxLeaf s)
  let s ← loopM (hxStep p fuel) fuel ⟨s, leaf, 0, nbr⟩
  let peri ← hxTrees fuel base vnohnbr ordenum s o.peritab
  let (o, c) ← hxBlocks vnohnbr ordenum s { o with peritab := peri } c
  let peri ← hxRenum vnohnbr ordenum vnumtax o.peritab
  return (0, { o with peritab := peri }, c)

/-- Initialisation of an array — hall_order_hx.c:139–142. -/
def hxSet (lo n hi val : Int) (mem : Int → Int) : M (Arr Int) :=
  if n ≤ hi - lo then return ⟨lo, hi, fun i => if lo ≤ i ∧ i < lo + n then val else mem i⟩ else throw .oob

/-- Loads of vertices, copied before they are modified — hgraph_order_hd.c:152–157. -/
def hxLoads (h : Hgraph) : M (Option (Arr Int)) :=
  match h.s.velotax with
  | none => return none
  | some a => if a.lo ≤ h.s.baseval ∧ h.s.baseval + h.s.vertnbr ≤ a.hi then return some ⟨h.s.baseval, h.s.baseval + h.s.vertnbr, a.get⟩ else throw .oob

/-- `hgraphOrderHd` (if `hd`) and `hgraphOrderHf` — hgraph_order_hd.c:88–177, hgraph_order_hf.c:86–179. They only differ by the kernel, and by the size of array `secntab`. -/
def orderHx (env : Env) (hd : Bool) (p : HxPara) (kern : HxKern) : Method := fun h ordenum o c => do
  if h.vnlosum < p.colmin then orderSi h ordenum o c
  else do
    let n := h.s.vertnbr
    let base := h.s.baseval
    let x ← hxFill h (env.junk o.tick)
    match ← kern o.tick x with
    | none => return (1, { o with tick := o.tick + 1 }, c)
    | some r => do
      let arr (f : Int → Int) : Arr Int := ⟨base, base + n, fun i => f (i - base + 1)⟩
      let cwgt ← hxLoads h
      let desc ← hxSet base n (base + x.iwlen) 0 (env.junk o.tick)
      let size ← hxSet base n (base + n) 0 (env.junk o.tick)
      let frst ← hxSet base n (base + n) (-1) (env.junk o.tick)
      let secn ← hxSet base n (base + if hd then x.norig + 1 else n) (-1) (env.junk o.tick)
      hxBuild p base h.vnohnbr h.s.vnumtax ordenum ⟨arr r.nv, size, cwgt, arr r.pe, frst, arr r.next, secn, desc, 0, -1⟩ ⟨0, n, fun i => r.leaf (i + 1)⟩ { o with tick := o.tick + 1 } c

end Scotch.HOrder
