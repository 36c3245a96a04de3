import Verif.Util
import Verif.Base

/-!
# Target architectures: specification

What the routines of an architecture class must satisfy, in terms of sets of processors.
Nothing here depends on the way a class represents its domains.
-/

namespace Scotch

/-- The routines of an architecture class, for a given architecture: one field per entry of the
table of routines — src/libscotch/arch.h:152–172 (`ArchClass`). `term` and `bipart` return `none`
when the routine returns a non-zero code. -/
structure ArchOps (D : Type) where
  num : D → M Int
  term : Int → M (Option D)
  size : D → M Int
  wght : D → M Int
  dist : D → D → M Int
  frst : M D
  bipart : D → M (Option (D × D))
  incl : D → D → M Bool

open Classical in
/-- Sum of the weights of the processors of `[0, n)` that satisfy `P`. -/
noncomputable def tally (n : Int) (w : Int → Int) (P : Int → Prop) : Int :=
  sumI 0 n (fun k => if P k then w k else 0)

/-- Laws of an architecture of `n` processors, the processor `k` having weight `w k`. `Valid d` says
that `d` is a domain of the architecture, and `Has d k` that the processor of number `k` belongs to
the domain `d`. -/
structure ArchLaws {D : Type} (o : ArchOps D) (n : Int) (w : Int → Int) (Valid : D → Prop)
    (Has : D → Int → Prop) : Prop where
  /-- processors are numbered from 0 to `n - 1` -/
  within : ∀ d k, Valid d → Has d k → 0 ≤ k ∧ k < n
  /-- the first domain is valid and contains all the processors -/
  frst : Holds o.frst (fun d => Valid d ∧ ∀ k, 0 ≤ k → k < n → Has d k)
  /-- the size of a domain is its number of processors -/
  size : ∀ d, Valid d → Holds (o.size d) (fun s => s = tally n (fun _ => 1) (Has d))
  /-- the weight of a domain is the sum of the weights of its processors -/
  wght : ∀ d, Valid d → Holds (o.wght d) (fun s => s = tally n w (Has d))
  /-- a domain is split if and only if it has several processors; its processors are then shared out
  between two domains which are not empty -/
  bipart : ∀ d, Valid d → Holds (o.bipart d) (fun r => match r with
    | none => ∃ k, ∀ j, Has d j ↔ j = k
    | some (d0, d1) => Valid d0 ∧ Valid d1 ∧ (∃ k, Has d0 k) ∧ (∃ k, Has d1 k) ∧
        (∀ k, Has d k ↔ Has d0 k ∨ Has d1 k) ∧ ∀ k, ¬ (Has d0 k ∧ Has d1 k))
  /-- the number of a domain is the number of one of its processors -/
  num : ∀ d, Valid d → Holds (o.num d) (Has d)
  /-- every processor number gives the domain that consists of this processor only… -/
  term : ∀ k, 0 ≤ k → k < n → Holds (o.term k) (fun r => ∃ d, r = some d ∧ Valid d ∧
    (∀ j, Has d j ↔ j = k) ∧ ∀ d', Valid d' → (∀ j, Has d' j ↔ j = k) → d' = d)
  /-- … and numbers that are too big are rejected -/
  term_big : ∀ k, n ≤ k → Holds (o.term k) (fun r => r = none)

/-- Inclusion of domains is inclusion of their sets of processors. -/
def InclLaw {D : Type} (o : ArchOps D) (Valid : D → Prop) (Has : D → Int → Prop) : Prop :=
  ∀ d0 d1, Valid d0 → Valid d1 → Holds (o.incl d0 d1) (fun r => r = true ↔ ∀ k, Has d1 k → Has d0 k)

/-- Recursive bisection of a domain, down to domains that cannot be split: numbers of the terminal
domains, in the order in which they are reached. `fuel` bounds the depth of the recursion. -/
def bisectAll {D : Type} (o : ArchOps D) : Nat → D → M (List Int)
  | 0, _ => .error .fuel
  | f + 1, d => do
    match ← o.bipart d with
    | none => return [← o.num d]
    | some (d0, d1) => return (← bisectAll o f d0) ++ (← bisectAll o f d1)

/-- Recursive bisection of the whole architecture reaches every processor exactly once. -/
def Bisects {D : Type} (o : ArchOps D) (n : Int) : Prop :=
  Holds (do bisectAll o n.toNat (← o.frst)) (fun l => l.Nodup ∧ ∀ k, k ∈ l ↔ 0 ≤ k ∧ k < n)

/-- Numbering of processors: every number `k` of `[0, n)` gives a domain of size one that cannot be split
and the number of which is `k`; conversely a domain that cannot be split is the one its number gives;
numbers beyond `n` are rejected; and the first domain contains all the processors. -/
structure NumberLaws {D : Type} (o : ArchOps D) (n : Int) (Valid : D → Prop) (Has : D → Int → Prop) : Prop where
  there : ∀ k, 0 ≤ k → k < n → ∃ d, o.term k = .ok (some d) ∧ Valid d ∧ o.num d = .ok k ∧ o.size d = .ok 1 ∧
    o.bipart d = .ok none
  back : ∀ d, Valid d → o.bipart d = .ok none → ∃ k, o.num d = .ok k ∧ o.term k = .ok (some d)
  big : ∀ k, n ≤ k → o.term k = .ok none
  all : ∃ d, o.frst = .ok d ∧ Valid d ∧ ∀ k, 0 ≤ k → k < n → Has d k

end Scotch

/-! ## Distances between processors -/

namespace Scotch.ArchSpec

/-- Grid distance between processors `a` and `b` of a mesh of extents `cs`, numbered in mixed radix: sum
of the differences of coordinates. -/
def manhattan : List Int → Int → Int → Int
  | [], _, _ => 0
  | c :: cs, a, b => ((a % c - b % c).natAbs : Int) + manhattan cs (a / c) (b / c)

/-- Same with wrap-around: along a dimension of extent `c`, one may turn either way. -/
def torus : List Int → Int → Int → Int
  | [], _, _ => 0
  | c :: cs, a, b =>
    min ((a % c - b % c).natAbs : Int) (c - (a % c - b % c).natAbs) + torus cs (a / c) (b / c)

/-- Number of bits of rank below `n` that differ. -/
def hamming (n a b : Nat) : Nat := ((List.range n).filter fun i => a.testBit i != b.testBit i).length

/-- A distance on the processors `[0, n)`: symmetric, zero exactly between a processor and itself, and
satisfying the triangle inequality. -/
def IsMetric (n : Int) (f : Int → Int → Int) : Prop :=
  ∀ a b c, 0 ≤ a → a < n → 0 ≤ b → b < n → 0 ≤ c → c < n →
    0 ≤ f a b ∧ f a b = f b a ∧ (f a b = 0 ↔ a = b) ∧ f a c ≤ f a b + f b c

end Scotch.ArchSpec

namespace Scotch

/-- The distance routine of a class computes `f` on terminal domains, given by their numbers. -/
def DistLaw {D : Type} (o : ArchOps D) (n : Int) (f : Int → Int → Int) : Prop :=
  ∀ a b, 0 ≤ a → a < n → 0 ≤ b → b < n →
    ∃ da db, o.term a = .ok (some da) ∧ o.term b = .ok (some db) ∧ o.dist da db = .ok (f a b)

end Scotch
