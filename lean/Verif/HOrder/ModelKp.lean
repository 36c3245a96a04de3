import Verif.HOrder.ModelOrder
import Verif.Rand.Model

/-!
# Ordering of graphs by parts and by blocks: model

src/libscotch/hgraph_order_kp.c and hgraph_order_bl.c. The partitioning of the graph (`kgraphMapSt` and `mapTerm`) is an arbitrary function, which gives the array of parts, or fails.
-/

set_option autoImplicit false

namespace Scotch.HOrder
open Graph Rand

/-- A partitioning strategy: `kgraphInit`, `kgraphMapSt` and `mapTerm`, for the complete architecture of the given number of vertices. -/
abbrev Parter := Nat → Graph → Int → M (Option (Arr Int))

/-- Positions of the parts, and column blocks — hgraph_order_kp.c:148–163. State: `ordetab`, `ordeadj`, and the sizes of the blocks built so far. The array of blocks has one cell per part. -/
def kpBlock (partnbr : Int) (p : Int) (s : Arr Int × Int × List Int) : M (Arr Int × Int × List Int) := do
  let n ← s.1.rd p
  let t ← s.1.wr p s.2.1
  if n ≠ 0 then do
    if (s.2.2.length : Int) < partnbr then return (t, s.2.1 + n, s.2.2 ++ [n]) else throw .oob
  else return (t, s.2.1 + n, s.2.2)

/-- Numbering of a vertex — hgraph_order_kp.c:176–187. -/
def kpVert (h : Hgraph) (parttax : Arr Int) (v : Int) (s : Arr Int × Arr Int) : M (Arr Int × Arr Int) := do
  let p ← parttax.rd v
  let i ← s.1.rd p
  let peri ← s.2.wr i (← rdOnum h.s v)
  return (← s.1.wr p (i + 1), peri)

/-- `hgraphOrderKp` — hgraph_order_kp.c:80–189. -/
def orderKp (partsiz : Int) (part : Parter) : Method := fun h ordenum o c => do
  if partsiz < 1 ∨ h.vnohnbr.tdiv partsiz ≤ 1 then orderSi h ordenum o c
  else do
    let partnbr := h.vnohnbr.tdiv partsiz
    match ← part o.tick { unhalo h with vnumtax := none } partnbr with
    | none => return (1, { o with tick := o.tick + 1 }, c)
    | some parttax => do
      let cnt ← forUp h.s.baseval h.vnohnnd (Arr.const 0 partnbr 0) fun v a => do
        let p ← parttax.rd v
        a.wr p ((← a.rd p) + 1)
      let (tab, _, sizes) ← forUp 0 partnbr (cnt, ordenum, []) (kpBlock partnbr)
      let (_, peri) ← forUp h.s.baseval h.vnohnnd (tab, o.peritab) (kpVert h parttax)
      return (0, { o with peritab := peri, treenbr := o.treenbr + sizes.length, cblknbr := o.cblknbr + (sizes.length - 1), tick := o.tick + 1 },
        .node ORDERCBLKSEQU c.vnodnbr sizes.length (sizes.map leafBlock))

/-- Bound of the next block — hgraph_order_bl.c:150–158. State: `cblkidx`; the result is `cblkidx` and `vnlomax`. -/
def blBound (vnlosum cblknbr sum : Int) (idx : Int) : M (Loop Int (Int × Int)) := do
  let m ← dataScan vnlosum cblknbr (idx + 1)
  if m ≤ sum then return .next (idx + 1) else return .brk (idx + 1, m)

/-- Vertex of a block — hgraph_order_bl.c:160–163. State: `vnlosum` and `vnodnum`. -/
def blVert (velo peri : Arr Int) (vnlomax : Int) (s : Int × Int) : M (Loop (Int × Int) (Int × Int)) := do
  let sum := s.1 + (← velo.rd (← peri.rd s.2))
  if sum < vnlomax then return .next (sum, s.2 + 1) else return .brk (sum, s.2 + 1)

/-- State of the loop on blocks of a weighted graph: `vnlosum`, `vnodnum`, `cblkidx`, and the sizes of the blocks. -/
structure BlS where
  sum : Int
  num : Int
  idx : Int
  sizes : List Int

/-- Block of a weighted graph — hgraph_order_bl.c:143–170. As in the code, the permutation is read from its beginning, and its values are taken for vertices of the graph. -/
def blBlock (velo peri : Arr Int) (vnlosum cblknbr cblksiz : Int) (fuel : Nat) (s : BlS) : M (Loop BlS (List Int)) := do
  let (idx, m) ← loopM (blBound vnlosum cblknbr s.sum) fuel s.idx
  let (sum, num) ← loopM (blVert velo peri m) fuel (s.sum, s.num)
  if (s.sizes.length : Int) < cblksiz then do
    let sizes := s.sizes ++ [num - s.num]
    if sum < vnlosum then return .next ⟨sum, num, idx, sizes⟩ else return .brk sizes
  else throw .oob

/-- Sizes of the blocks of a graph, and number of blocks that is recorded — hgraph_order_bl.c:108–173. -/
def blSizes (h : Hgraph) (peri : Arr Int) (cblkmin : Int) : M (Int × List Int) := do
  let cblknbr ← cdiv h.vnlosum cblkmin
  let cblksiz := min cblknbr h.vnohnbr
  match h.s.velotax with
  | none => return (cblknbr, ← (List.range cblksiz.toNat).mapM fun k => dataSize h.vnlosum cblknbr (k : Nat))
  | some velo => do
    let fuel := h.vnlosum.toNat + h.vnohnbr.toNat + 2
    let l ← loopM (blBlock velo peri h.vnlosum cblknbr cblksiz fuel) fuel ⟨0, 0, 0, []⟩
    return (l.length, l)

/-- Sub-blocks, one after the other — hgraph_order_bl.c:188–193. -/
def blSons (f : Ord → Cblk → M Res) : List Cblk → Nat → Ord → List Cblk → M (Int × Ord × List Cblk)
  | l, 0, o, r => return (0, o, r.reverse ++ l)
  | [], _ + 1, _, _ => throw .oob
  | c :: l, n + 1, o, r => do
    let (e, o, c) ← f o c
    if e ≠ 0 then return (1, o, r.reverse ++ c :: l) else blSons f l n o (c :: r)

/-- `hgraphOrderBl` — hgraph_order_bl.c:82–198. As in the code, sub-blocks are processed by applying the method to the whole graph again. -/
def blGo (sub : Method) (cblkmin : Int) : Nat → Method
  | 0 => fun _ _ _ _ => throw .fuel
  | fuel + 1 => fun h ordenum o c => do
    if cblkmin ≤ 0 then return (1, o, c)
    else do
      let (r, o, c) ← sub h ordenum o c
      if r ≠ 0 then return (1, o, c)
      else match c with
        | .leaf t v k => do
          if v ≤ 1 ∨ h.vnlosum < 2 * cblkmin then return (0, o, .leaf t v k)
          else do
            let (n, sizes) ← blSizes h o.peritab cblkmin
            return (0, { o with treenbr := o.treenbr + n, cblknbr := o.cblknbr + (n - 1) }, .node ORDERCBLKSEQU v n (sizes.map leafBlock))
        | .node t v k sons => do
          let (r, o, sons) ← blSons (fun o c => blGo sub cblkmin fuel h ordenum o c) sons k.toNat o []
          return (r, o, .node t v k sons)

/-- `hgraphOrderBl`, with as many nested calls as given. -/
def orderBl (fuel : Nat) (cblkmin : Int) (sub : Method) : Method := fun h ordenum o c => blGo sub cblkmin (fuel + 1) h ordenum o c

end Scotch.HOrder
