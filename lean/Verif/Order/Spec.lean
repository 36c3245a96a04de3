import Verif.Order.Model

/-!
# Orderings: specification

Independent of the routines: permutations, coherent block trees, ranges, elimination trees.
-/

namespace Scotch

/-- `f 0, …, f (n-1)` is a permutation of `base, …, base+n-1`: every value is in range
and every number of the range is hit by exactly one index. -/
def IsPerm (base n : Int) (f : Int → Int) : Prop :=
  (∀ i, 0 ≤ i → i < n → base ≤ f i ∧ f i < base + n) ∧
  (∀ y, base ≤ y → y < base + n →
    ∃ i, 0 ≤ i ∧ i < n ∧ f i = y ∧ ∀ j, 0 ≤ j → j < n → f j = y → j = i)

namespace Cblk
mutual
/-- Sizes of the column blocks (leaves of the tree), in elimination order. -/
def leaves : Cblk → List Int
  | .leaf _ v _ => [v]
  | .node _ _ _ sons => leavesL sons
def leavesL : List Cblk → List Int
  | [] => []
  | s :: r => leaves s ++ leavesL r
end

mutual
/-- Number of nodes of the tree. -/
def nodes : Cblk → Int
  | .leaf _ _ _ => 1
  | .node _ _ _ sons => 1 + nodesL sons
def nodesL : List Cblk → Int
  | [] => 0
  | s :: r => nodes s + nodesL r
end

/-- Number of column blocks. -/
def width (c : Cblk) : Int := c.leaves.length

/-- Total of the vertex counts of a list of blocks. -/
def vnodsum : List Cblk → Int
  | [] => 0
  | s :: r => s.vnodnbr + vnodsum r

mutual
/-- The sub-block arrays are as long as their recorded sizes. -/
def Alloc : Cblk → Prop
  | .leaf _ _ _ => True
  | .node _ _ c sons => (sons.length : Int) = c ∧ AllocL sons
def AllocL : List Cblk → Prop
  | [] => True
  | s :: r => Alloc s ∧ AllocL r
end

mutual
/-- The block tree is coherent: leaves are non-empty blocks of leaf type without sub-blocks;
inner nodes have a legal type and number of sub-blocks (two or three for nested dissection), and
their vertex count is the total of those of their sub-blocks. -/
def Coherent : Cblk → Prop
  | .leaf t v c => t = ORDERCBLKLEAF ∧ 1 ≤ v ∧ c = 0
  | .node t v c sons =>
    (t = ORDERCBLKNEDI ∨ t = ORDERCBLKDICO ∨ t = ORDERCBLKSEQU) ∧ 1 ≤ v ∧ 1 ≤ c ∧
    (t = ORDERCBLKNEDI → c = 2 ∨ c = 3) ∧ v = vnodsum sons ∧ CoherentL sons
def CoherentL : List Cblk → Prop
  | [] => True
  | s :: r => Coherent s ∧ CoherentL r
end
end Cblk

/-- A valid ordering: `peritab` is a permutation of the vertex numbers, the block tree is
coherent and covers all vertices, and the recorded counts are those of the tree. -/
structure ValidOrder (o : Order) : Prop where
  perm : IsPerm o.baseval o.vnodnbr o.peritab.get
  tree : o.cblktre.Coherent
  size : o.vnodnbr = o.cblktre.vnodnbr
  cblk : o.cblknbr = o.cblktre.width
  node : o.treenbr = o.cblktre.nodes

/-- Memory layout needed to walk over the ordering: `peritab` has `vnodnbr` cells
and sub-block arrays have the recorded sizes. -/
structure OrderMem (o : Order) : Prop where
  peri : o.peritab.lo ≤ 0 ∧ o.vnodnbr ≤ o.peritab.hi
  tree : o.cblktre.Alloc

/-- `Anc fa k j`: block `j` is a proper ancestor of block `k` in the forest described by the
father table `fa` (where `-1` means "no father"). -/
inductive Anc (fa : Int → Int) : Int → Int → Prop where
  | father (k : Int) : fa k ≠ -1 → Anc fa k (fa k)
  | up (k j : Int) : Anc fa k j → fa j ≠ -1 → Anc fa k (fa j)

/-- A range of column blocks `[first, last)`. -/
abbrev BRange := Int × Int

/-- No block of `p` is an ancestor or a descendant of a block of `q`. -/
def Indep (fa : Int → Int) (p q : BRange) : Prop :=
  ∀ k j, p.1 ≤ k → k < p.2 → q.1 ≤ j → j < q.2 → ¬ Anc fa k j ∧ ¬ Anc fa j k

/-- Every block of `p` has the last block of `q` among its ancestors. -/
def Dep (fa : Int → Int) (p q : BRange) : Prop :=
  ∀ k, p.1 ≤ k → k < p.2 → Anc fa k (q.2 - 1)

namespace Cblk
/-- Ranges of column blocks of consecutive sub-trees, the first block having number `first`. -/
def ranges : List Cblk → Int → List BRange
  | [], _ => []
  | s :: r, first => (first, first + s.width) :: ranges r (first + s.width)

mutual
/-- The father table `fa` reflects the block tree, whose first block has number `first`: at every
node, disconnected parts are not ancestors of one another, and blocks that are
eliminated before a separator (or before a later block of a sequence) depend on it. -/
def Reflects (fa : Int → Int) : Cblk → Int → Prop
  | .leaf _ _ _, _ => True
  | .node t _ _ sons, first =>
    (t = ORDERCBLKDICO → (ranges sons first).Pairwise (Indep fa)) ∧
    (t = ORDERCBLKSEQU → (ranges sons first).Pairwise (Dep fa)) ∧
    (t = ORDERCBLKNEDI → ∀ p q, ranges sons first = [p, q] → Indep fa p q) ∧
    (t = ORDERCBLKNEDI → ∀ p q s, ranges sons first = [p, q, s] →
      Indep fa p q ∧ Dep fa p s ∧ Dep fa q s) ∧
    ReflectsL fa sons first
def ReflectsL (fa : Int → Int) : List Cblk → Int → Prop
  | [], _ => True
  | s :: r, first => Reflects fa s first ∧ ReflectsL fa r (first + s.width)
end
end Cblk

end Scotch
