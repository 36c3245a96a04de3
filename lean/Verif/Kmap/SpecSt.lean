import Verif.Kmap.ModelSt
import Verif.Kmap.Spec

/-! # Static mapping: specification of strategies -/

set_option autoImplicit false

namespace Scotch.Kmap

variable {D : Type}

/-- Memory of the state. -/
structure Mem (g : Graph) (k : KState D) : Prop where
  part : k.m.parttax.lo ≤ g.baseval ∧ g.vertnnd ≤ k.m.parttax.hi
  domn : k.m.domntab.lo ≤ 0 ∧ k.m.domnmax ≤ k.m.domntab.hi
  avg : k.comploadavg.lo ≤ 0 ∧ k.m.domnmax ≤ k.comploadavg.hi
  dlt : k.comploaddlt.lo ≤ 0 ∧ k.m.domnmax ≤ k.comploaddlt.hi
  fron : k.frontab.lo ≤ 0 ∧ g.vertnbr ≤ k.frontab.hi
  nbr : 0 ≤ k.m.domnnbr ∧ k.m.domnnbr ≤ k.m.domnmax
  frnb : 0 < k.m.domnnbr → 0 ≤ k.fronnbr ∧ k.fronnbr ≤ g.vertnbr

/-- Communication cost of a mapping, the distance between domains being `F`. -/
def costOf (F : D → D → Int) (g : Graph) (part : Int → Int) (dom : Int → D) : Int :=
  sumI g.baseval g.vertnnd fun v => sumI g.baseval v fun w => if part v = part w then 0 else g.wgt v w * F (dom (part v)) (dom (part w))

/-- A complete mapping: every vertex has a domain, and the frontier, the communication cost and the loads are the ones of the mapping. -/
structure KValid (F : D → D → Int) (g : Graph) (k : KState D) : Prop where
  some : 1 ≤ k.m.domnnbr
  part : ∀ v, g.Vertex v → 0 ≤ k.m.parttax.get v ∧ k.m.parttax.get v < k.m.domnnbr
  fron : Enum k.frontab k.fronnbr (Bipart.Frontier g k.m.parttax.get)
  comm : k.commload = costOf F g k.m.parttax.get k.m.domntab.get
  load : ∀ i, 0 ≤ i → i < k.m.domnnbr → k.comploadavg.get i + k.comploaddlt.get i = Bipart.over g k.m.parttax.get i g.velo

/-- Two states stand for the same mapping. -/
structure Agree (g : Graph) (k k' : KState D) : Prop where
  nbr : k'.m.domnnbr = k.m.domnnbr
  fronnbr : k'.fronnbr = k.fronnbr
  comm : k'.commload = k.commload
  bal : k'.bal = k.bal
  part : 0 < k.m.domnnbr → ∀ v, g.Vertex v → k'.m.parttax.get v = k.m.parttax.get v
  domn : ∀ i, 0 ≤ i → i < k.m.domnnbr → k'.m.domntab.get i = k.m.domntab.get i
  avg : ∀ i, 0 ≤ i → i < k.m.domnnbr → k'.comploadavg.get i = k.comploadavg.get i
  dlt : ∀ i, 0 ≤ i → i < k.m.domnnbr → k'.comploaddlt.get i = k.comploaddlt.get i
  fron : 0 < k.m.domnnbr → ∀ i, 0 ≤ i → i < k.fronnbr → k'.frontab.get i = k.frontab.get i

/-- No part is too far from its average load. -/
def Balanced (k : KState D) : Prop := ∀ i, 0 ≤ i → i < k.m.domnnbr → |k.comploaddlt.get i| ≤ k.bal (k.comploadavg.get i)

/-- Sum of the differences between the loads of parts and their average loads. -/
def unbal (k : KState D) : Int := sumI 0 k.m.domnnbr fun i => |k.comploaddlt.get i|

/-- `k` is at least as good as `k'`: balanced if `k'` is; then, communication cost comes first if both are balanced, and unbalance if none is. -/
def NoWorse (k k' : KState D) : Prop :=
  (Balanced k' → Balanced k) ∧
  (Balanced k → Balanced k' → k.commload < k'.commload ∨ (k.commload = k'.commload ∧ unbal k ≤ unbal k')) ∧
  (¬ Balanced k → ¬ Balanced k' → unbal k < unbal k' ∨ (unbal k = unbal k' ∧ k.commload ≤ k'.commload))

/-- What a method gives. -/
structure KRes (F : D → D → Int) (g : Graph) (sure : Bool) (k : KState D) (r : Int × KState D) : Prop where
  mem : Mem g r.2
  max : k.m.domnmax ≤ r.2.m.domnmax
  code : r.1 = 0 ∨ r.1 = 1
  sure : sure = true → r.1 = 0
  valid : r.1 = 0 → KValid F g r.2

/-- Meaning of a method: flag `init` tells that it is only applied to complete mappings; a `sure` method never fails. -/
def MapMethod (F : D → D → Int) (g : Graph) (sure init : Bool) (f : KState D → M (Int × KState D)) : Prop :=
  ∀ k, Mem g k → (init = true → KValid F g k) → Holds (f k) (KRes F g sure k)

/-- Strategies that may be used: the empty strategy, and conditions without an alternative, need a complete mapping; strategies of a selection must be sure (see `C62_select_wrong`). -/
def KGood (F : D → D → Int) (g : Graph) : Bool → Bool → KStrat D → Prop
  | _, init, .empty => init = true
  | sure, init, .concat s t => KGood F g sure init s ∧ KGood F g sure true t
  | sure, init, .cond c s t => (sure = true → ∀ p k, c p k ≠ none) ∧ KGood F g sure init s ∧ KGood F g sure init t
  | sure, init, .cond1 c s => init = true ∧ (sure = true → ∀ p k, c p k ≠ none) ∧ KGood F g sure init s
  | _, init, .select s t => KGood F g true init s ∧ KGood F g true init t
  | sure, init, .meth f => ∀ p, MapMethod F g sure init (f p)

end Scotch.Kmap
