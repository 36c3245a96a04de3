import Verif.Fax.Model
import Verif.Graph.Spec

/-!
# Block symbolic factorization: specification
-/

set_option autoImplicit false

namespace Scotch.Fax

/-- A valid ordering of a graph: inverse permutations of the vertices, and a partition of the columns into blocks of
consecutive columns. -/
structure Order.Valid (o : Order) (g : Graph) : Prop where
  nbr : 0 ≤ o.cblknbr
  first : o.rang.get g.baseval = g.baseval
  last : o.rang.get (g.baseval + o.cblknbr) = g.baseval + g.vertnbr
  step : ∀ k, g.baseval ≤ k → k < g.baseval + o.cblknbr → o.rang.get k < o.rang.get (k + 1)
  perm : ∀ v, g.Vertex v → g.Vertex (o.perm.get v) ∧ o.peri.get (o.perm.get v) = v
  peri : ∀ i, g.Vertex i → g.Vertex (o.peri.get i) ∧ o.perm.get (o.peri.get i) = i
  rangIn : o.rang.lo ≤ g.baseval ∧ g.baseval + o.cblknbr + 1 ≤ o.rang.hi
  permIn : o.perm.lo ≤ g.baseval ∧ g.vertnnd ≤ o.perm.hi
  periIn : o.peri.lo ≤ g.baseval ∧ g.vertnnd ≤ o.peri.hi

/-- Entries of the reordered matrix, out of the diagonal: columns whose vertices are neighbours. -/
def Entry (g : Graph) (o : Order) (i j : Int) : Prop := g.Vertex i ∧ ∃ p ∈ g.nbrs (o.peri.get i), o.perm.get p.1 = j

/-- Fill of a symmetric matrix by Gaussian elimination in increasing order of columns: the elimination of column `p`
links all the columns after `p` that it is linked to. -/
inductive Fill (E : Int → Int → Prop) : Int → Int → Prop
  | entry {i j : Int} : E i j → Fill E i j
  | elim {p i j : Int} : Fill E p i → Fill E p j → p < i → p < j → i ≠ j → Fill E i j

/-- The columns of a column block. -/
def InCblk (o : Order) (k j : Int) : Prop := o.rang.get k ≤ j ∧ j < o.rang.get (k + 1)

/-- Entries of the matrix, diagonal blocks being full. -/
def BlockEntry (g : Graph) (o : Order) (i j : Int) : Prop :=
  Entry g o i j ∨ i ≠ j ∧ ∃ k, g.baseval ≤ k ∧ k < g.baseval + o.cblknbr ∧ InCblk o k i ∧ InCblk o k j

/-- Row `i` is in an extra-diagonal block of column block `k`. -/
def Covers (S : Symbol) (k i : Int) : Prop :=
  ∃ b, (S.cblk.get k).blok < b ∧ b < (S.cblk.get (k + 1)).blok ∧ (S.blok.get b).frow ≤ i ∧ i ≤ (S.blok.get b).lrow

/-- A well-formed symbolic matrix for an ordering. -/
structure WellFormed (g : Graph) (o : Order) (S : Symbol) : Prop where
  baseval : S.baseval = g.baseval
  cblknbr : S.cblknbr = o.cblknbr
  nodenbr : S.nodenbr = g.vertnbr
  /-- arrays have the right sizes -/
  cblkIn : S.cblk.lo = g.baseval ∧ S.cblk.hi = g.baseval + o.cblknbr + 1
  blokIn : S.blok.lo = g.baseval ∧ S.blok.hi = g.baseval + S.bloknbr
  /-- column blocks are those of the ordering -/
  cols : ∀ k, g.baseval ≤ k → k < g.baseval + o.cblknbr → (S.cblk.get k).fcol = o.rang.get k ∧ (S.cblk.get k).lcol = o.rang.get (k + 1) - 1
  /-- the blocks of column blocks follow each other -/
  first : (S.cblk.get g.baseval).blok = g.baseval
  step : ∀ k, g.baseval ≤ k → k < g.baseval + o.cblknbr → (S.cblk.get k).blok < (S.cblk.get (k + 1)).blok
  last : S.cblk.get (g.baseval + o.cblknbr) = ⟨g.baseval + g.vertnbr, g.baseval + g.vertnbr, g.baseval + S.bloknbr⟩
  /-- the first block of a column block is its diagonal block -/
  diag : ∀ k, g.baseval ≤ k → k < g.baseval + o.cblknbr → S.blok.get (S.cblk.get k).blok = ⟨o.rang.get k, o.rang.get (k + 1) - 1, k⟩
  /-- every other block is below, and within the rows of the column block it faces -/
  face : ∀ k b, g.baseval ≤ k → k < g.baseval + o.cblknbr → (S.cblk.get k).blok < b → b < (S.cblk.get (k + 1)).blok →
    k < (S.blok.get b).cblk ∧ (S.blok.get b).cblk < g.baseval + o.cblknbr ∧ (S.blok.get b).frow ≤ (S.blok.get b).lrow ∧
    InCblk o (S.blok.get b).cblk (S.blok.get b).frow ∧ InCblk o (S.blok.get b).cblk (S.blok.get b).lrow
  /-- blocks are in increasing order, and those that face the same column block are not contiguous -/
  order : ∀ k b, g.baseval ≤ k → k < g.baseval + o.cblknbr → (S.cblk.get k).blok < b → b + 1 < (S.cblk.get (k + 1)).blok →
    (S.blok.get b).cblk < (S.blok.get (b + 1)).cblk ∨ ((S.blok.get b).cblk = (S.blok.get (b + 1)).cblk ∧ (S.blok.get b).lrow + 1 < (S.blok.get (b + 1)).frow)

end Scotch.Fax
