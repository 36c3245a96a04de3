import Verif.Arch.ModelDeco

/-!
# Decomposition-defined architectures: specification

A decomposition is given by a binary tree of domains, numbered from 1 as in a heap, whose leaves are the processors.
-/

set_option autoImplicit false

namespace Scotch.Deco

/-- Domains obtained by splitting domain `m` recursively, `m` included. -/
inductive Under (m : Int) : Int → Prop
  | self : Under m m
  | left {k : Int} : Under m k → Under m (2 * k)
  | right {k : Int} : Under m k → Under m (2 * k + 1)

/-- Domains that have processors. -/
def Used (n : Int) (t : Arr TermVert) (m : Int) : Prop := 1 ≤ m ∧ ∃ i, 0 ≤ i ∧ i < n ∧ Under m (t.get i).num

/-- Processors of a domain, by their labels. -/
def Has (n : Int) (t : Arr TermVert) (m k : Int) : Prop := ∃ i, 0 ≤ i ∧ i < n ∧ Under m (t.get i).num ∧ (t.get i).labl = k

/-- What the description of `n` processors, of domain numbers up to `max`, must satisfy. -/
structure Legal (n max : Int) (t : Arr TermVert) (d : Arr Int) : Prop where
  some : 1 ≤ n
  vert : t.lo ≤ 0 ∧ n ≤ t.hi
  dist : d.lo ≤ 0 ∧ n * (n - 1) / 2 ≤ d.hi
  /-- labels are the numbers from 0 to `n - 1` -/
  labl : ∀ i, 0 ≤ i → i < n → 0 ≤ (t.get i).labl ∧ (t.get i).labl < n
  other : ∀ i j, 0 ≤ i → i < n → 0 ≤ j → j < n → (t.get i).labl = (t.get j).labl → i = j
  num : ∀ i, 0 ≤ i → i < n → 1 ≤ (t.get i).num ∧ (t.get i).num ≤ max
  /-- a processor is not split -/
  apart : ∀ i j, 0 ≤ i → i < n → 0 ≤ j → j < n → Under (t.get i).num (t.get j).num → i = j
  /-- other domains have two halves -/
  full : ∀ m, Used n t m → (∀ i, 0 ≤ i → i < n → (t.get i).num ≠ m) → Used n t (2 * m) ∧ Used n t (2 * m + 1)

/-- Distances given for processors: those of the second one to the first one, then those of the third one to the first two ones, and so on. -/
def given (d : Arr Int) (i j : Int) : Int := d.get (i * (i - 1) / 2 + j)

/-- Distances between domains. They are symmetric and those of processors are given. Else, they are the averages of the distances of their halves, rounded to the nearest integer. -/
structure DistLaws (n : Int) (t : Arr TermVert) (d : Arr Int) (D : Int → Int → Int) : Prop where
  same : ∀ i, D i i = 0
  symm : ∀ i j, D i j = D j i
  term : ∀ i j, 0 ≤ j → j < i → i < n → D (t.get i).num (t.get j).num = given d i j
  both : ∀ i j, Used n t i → Used n t j → i ≠ j → (∀ k, 0 ≤ k → k < n → (t.get k).num ≠ i) → (∀ k, 0 ≤ k → k < n → (t.get k).num ≠ j) →
    D i j = (D (2 * i) (2 * j) + D (2 * i) (2 * j + 1) + D (2 * i + 1) (2 * j) + D (2 * i + 1) (2 * j + 1) + 2) / 4
  one : ∀ i j, Used n t i → i ≠ (t.get j).num → 0 ≤ j → j < n → (∀ k, 0 ≤ k → k < n → (t.get k).num ≠ i) →
    D i (t.get j).num = (D (2 * i) (t.get j).num + D (2 * i + 1) (t.get j).num + 1) / 2

end Scotch.Deco
