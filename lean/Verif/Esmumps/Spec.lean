import Verif.Esmumps.Model
import Verif.Build.Spec
import Verif.Fax.Spec

/-!
# Interface of MUMPS: specification

The assembly tree of a block ordering. Variables are numbered from 1.
-/

set_option autoImplicit false

namespace Scotch.Esmumps
open Fax

/-- Column block of an ordering. -/
def IsBlock (g : Graph) (o : Order) (k : Int) : Prop := g.baseval ≤ k ∧ k < g.baseval + o.cblknbr

/-- Principal variable of a column block: its first column. -/
def principal (o : Order) (k : Int) : Int := o.peri.get (o.rang.get k)

/-- Row of the factor below the columns of a block. Blocks are full. -/
def Below (g : Graph) (o : Order) (k i : Int) : Prop := o.rang.get (k + 1) ≤ i ∧ i < g.vertnnd ∧ Fill (BlockEntry g o) (o.rang.get (k + 1) - 1) i

/-- The assembly tree. -/
structure Tree (g : Graph) (o : Order) (w pe nv : Int → Int) : Prop where
  /-- secondary variables: no rows, and they refer to their principal variable -/
  second : ∀ k j, IsBlock g o k → InCblk o k j → j ≠ o.rang.get k → nv (o.peri.get j) = 0 ∧ pe (o.peri.get j) = - principal o k
  /-- a principal variable has the weight of all the rows of its front: those of its columns, and those below -/
  front : ∀ k, IsBlock g o k → ∀ (dec : ∀ i, Decidable (InCblk o k i ∨ Below g o k i)),
    nv (principal o k) = sumI g.baseval g.vertnnd (fun i => if InCblk o k i ∨ Below g o k i then w (o.peri.get i) else 0)
  /-- it is a root if there are no rows below -/
  root : ∀ k, IsBlock g o k → (∀ i, ¬ Below g o k i) → pe (principal o k) = 0
  /-- else its father is the principal variable of the block of the first row below -/
  father : ∀ k i, IsBlock g o k → Below g o k i → (∀ j, Below g o k j → i ≤ j) → ∃ f, IsBlock g o f ∧ k < f ∧ InCblk o f i ∧ pe (principal o k) = - principal o f

end Scotch.Esmumps
