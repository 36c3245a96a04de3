import Verif.MapIO.Model

/-!
# Input and output of mappings: specification
-/

set_option autoImplicit false

namespace Scotch.MapIO

/-- In a file of `N` entries `f 0`, …, `f (N - 1)` (label, part), `p` is the part of label `l`: the one of the entry of this label, or −1 if there is none. -/
def PartOf (f : Int → Int × Int) (N l p : Int) : Prop :=
  (∃ i, 0 ≤ i ∧ i < N ∧ (f i).1 = l ∧ (f i).2 = p) ∨ ((∀ i, 0 ≤ i → i < N → (f i).1 ≠ l) ∧ p = -1)

/-- The entries have different labels. -/
def Distinct (f : Int → Int × Int) (N : Int) : Prop := ∀ i j, 0 ≤ i → i < j → j < N → (f i).1 ≠ (f j).1

/-- Label of the vertex of index `v` (from 0): its label, or its number. -/
def vertLabel (g : Graph) (v : Int) : Int :=
  match g.vlbltax with
  | none => g.baseval + v
  | some a => a.get (g.baseval + v)

/-- The graph has an array of labels for all its vertices, which are all different, or it has no labels. -/
def Labelled (g : Graph) : Prop :=
  ∀ a, g.vlbltax = some a → a.lo ≤ g.baseval ∧ g.baseval + g.vertnbr ≤ a.hi ∧ ∀ i j, g.baseval ≤ i → i < j → j < g.baseval + g.vertnbr → a.get i ≠ a.get j

end Scotch.MapIO
