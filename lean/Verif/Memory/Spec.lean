import Verif.Memory.Model

/-!
# Memory: specification
-/

set_option autoImplicit false

namespace Scotch.Memory

/-- Multiple of 8 which follows `n`. -/
def up8 (n : Nat) : Nat := (n + 7) / 8 * 8

/-- Number of bytes needed by arrays of given sizes, all of them but the last being padded to multiples of 8. -/
def need : List Nat → Nat
  | [] => 0
  | [s] => s
  | s :: l => up8 s + need l

/-- Arrays of given sizes at given addresses of a block of `n` bytes: aligned, disjoint, and within the block. -/
structure Layout (sizes offs : List Nat) (n : Nat) : Prop where
  length : offs.length = sizes.length
  aligned : ∀ o ∈ offs, o % 8 = 0
  inside : ∀ (i : Nat) o s, offs[i]? = some o → sizes[i]? = some s → o + s ≤ n
  disjoint : ∀ (i j : Nat) o s o', i < j → offs[i]? = some o → sizes[i]? = some s → offs[j]? = some o' → o + s ≤ o'

/-- Blocks in use, seen by the user: allocation adds a block, reallocation replaces it, and freeing removes it. -/
def live (L : List (Int × Int)) : Op → List (Int × Int)
  | .alloc _ none => L
  | .alloc n (some p) => (p, n) :: L
  | .realloc _ _ none => L
  | .realloc p n (some q) => (q, n) :: L.filter (fun b => b.1 ≠ p)
  | .free p => L.filter (fun b => b.1 ≠ p)

/-- Sizes of all blocks. -/
def bytes (L : List (Int × Int)) : Int := (L.map Prod.snd).sum

/-- Legal calls: sizes are not negative, blocks that are reallocated and freed are in use, and new blocks are not already in use. -/
def Legal (L : List (Int × Int)) : Op → Prop
  | .alloc n a => 0 ≤ n ∧ ∀ p, a = some p → p ∉ L.map Prod.fst
  | .realloc p n a => 0 ≤ n ∧ p ∈ L.map Prod.fst ∧ ∀ q, a = some q → q ∉ (L.filter (fun b => b.1 ≠ p)).map Prod.fst
  | .free p => p ∈ L.map Prod.fst

/-- Blocks in use after a sequence of calls. -/
def history (L : List (Int × Int)) : List Op → List (List (Int × Int))
  | [] => [L]
  | o :: l => L :: history (live L o) l

/-- Legal sequences. -/
def LegalAll (L : List (Int × Int)) : List Op → Prop
  | [] => True
  | o :: l => Legal L o ∧ LegalAll (live L o) l

end Scotch.Memory
