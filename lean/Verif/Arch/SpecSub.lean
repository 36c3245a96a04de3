import Verif.Arch.ModelSub
import Verif.Arch.SpecMatch

/-!
# Sub-architectures: specification
-/

set_option autoImplicit false

namespace Scotch.Arch.Sub

/-- A list of `q` distinct terminals of an architecture of `N` terminals. -/
structure Picks (N q : Int) (vnum : Arr Int) : Prop where
  lo : vnum.lo ≤ 0
  hi : q ≤ vnum.hi
  range : ∀ i, 0 ≤ i → i < q → 0 ≤ vnum.get i ∧ vnum.get i < N
  inj : ∀ i j, 0 ≤ i → i < q → 0 ≤ j → j < q → vnum.get i = vnum.get j → i = j

/-- `a` is an architecture of `q` processors, of which the processor `i` has the weight of the processor `vnum i` of the original architecture, and which are at the same distances. -/
def SubOf {D : Type} (o : ArchOps D) (N : Int) (w : Int → Int) (q : Int) (vnum : Arr Int) (a : Arch) : Prop :=
  ∃ (Valid : Int → Prop) (Has : Int → Int → Prop), ArchLaws (ops o a) q (fun i => w (vnum.get i)) Valid Has ∧ InclLaw (ops o a) Valid Has ∧ Bisects (ops o a) q ∧ NumberLaws (ops o a) q Valid Has ∧
    ∀ f, DistLaw o N f → DistLaw (ops o a) q (fun i j => f (vnum.get i) (vnum.get j))

end Scotch.Arch.Sub
