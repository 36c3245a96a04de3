import Verif.TextIO.Model

/-!
# Reading sequences of integers

Loaders of the library read integers one after another with `intLoad`, and stop at the first failure.
-/

set_option autoImplicit false

namespace Scotch
open Text

/-- Sequence of two steps, the first of which may fail (`none`: the C function returns an error). -/
def andThen {α β : Type} (x : M (Option α)) (f : α → M (Option β)) : M (Option β) := do
  match ← x with
  | none => return none
  | some a => f a

infixl:55 " >?> " => andThen

/-- Call of `intLoad`, the result of which is tested against 1. -/
def getInt (intMax : Int) (s : Stream) : M (Option (Int × Stream)) := do
  match ← intLoad intMax s with
  | (none, _) => return none
  | (some v, s) => return some (v, s)

/-- A test that makes the function return an error when it is false. -/
def guardO (c : Prop) [Decidable c] : M (Option Unit) := return if c then some () else none

/-- `for (i = lo; i < hi; i ++) body`, where the body may make the function return an error. -/
def loopO {σ : Type} (lo hi : Int) (st : σ) (body : Int → σ → M (Option σ)) : M (Option σ) := do
  match ← forUpB lo hi st fun i st => do
      match ← body i st with
      | none => return (.brk () : Loop σ Unit)
      | some st => return .next st with
  | .brk _ => return none
  | .next st => return some st

end Scotch
