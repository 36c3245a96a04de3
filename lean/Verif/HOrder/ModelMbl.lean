import Verif.HOrder.ModelKp

/-!
# Ordering of meshes by blocks: model

src/libscotch/hmesh_order_bl.c. The ordering strategy that is applied first (`hmeshOrderSt`) is an arbitrary function of the ordering and of the column block. Allocations succeed, and sums do not overflow.
-/

set_option autoImplicit false

namespace Scotch.HOrder
open Graph Rand

/-- Sizes of the blocks a block is split into — hmesh_order_bl.c:117–122. -/
def mblSizes (v n : Int) : M (List Int) :=
  (List.range n.toNat).mapM fun k => cdiv (v + n - 1 - (k : Nat)) n

/-- `hmeshOrderBl` — hmesh_order_bl.c:77–132. The mesh and the index of the block do not change through nested calls: they are part of `sub`. As in the code, sub-blocks are processed by applying the strategy to the whole mesh again. The first
argument bounds the depth of nested calls. -/
def mblGo (sub : Ord → Cblk → M Res) (cblkmin : Int) : Nat → Ord → Cblk → M Res
  | 0, _, _ => throw .fuel
  | fuel + 1, o, c =>
    if cblkmin ≤ 0 then pure (1, o, c)
    else do
      let (r, o, c) ← sub o c
      if r ≠ 0 then pure (1, o, c)
      else match c with
        | .leaf t v k =>
          if v < 2 * cblkmin then pure (0, o, .leaf t v k)
          else do
            let n ← cdiv v cblkmin
            let sizes ← mblSizes v n
            pure (0, { o with treenbr := o.treenbr + n, cblknbr := o.cblknbr + (n - 1) }, .node ORDERCBLKSEQU v n (sizes.map leafBlock))
        | .node t v k sons => do
          let (r, o, sons) ← blSons (mblGo sub cblkmin fuel) sons k.toNat o []
          pure (r, o, .node t v k sons)

/-- A number of nodes is split evenly into blocks that have at least some size, and are not large enough to be split again. -/
structure EvenSplit (v cblkmin : Int) (l : List Int) : Prop where
  total : l.sum = v
  least : ∀ x ∈ l, cblkmin ≤ x
  most : ∀ x ∈ l, x < 2 * cblkmin
  even : ∀ x ∈ l, ∀ y ∈ l, x ≤ y + 1

end Scotch.HOrder
