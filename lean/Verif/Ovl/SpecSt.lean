import Verif.Ovl.ModelSt
import Verif.Ovl.Spec
import Verif.Coarsen.Use

/-! # Partitioning with overlap: specification of strategies -/

set_option autoImplicit false

namespace Scotch.Ovl

/-- Classes of graphs that are kept by the removal of labels and by the construction of induced subgraphs. -/
structure Closed (scls : Graph → Prop) : Prop where
  label : ∀ g, scls g → scls { g with vlbltax := none }
  induce : ∀ g l g', scls g → g.Consistent → (∀ x ∈ l, g.Vertex x) → l.Nodup → Graph.InducedBy g l g' → g'.Consistent → g'.Allocated → scls g'

/-- Numbers of parts that do not lead to the null pointer: powers of two. -/
def Even2 (nul : Bool) (siz : Int) : Prop := nul = true ∨ ∃ k : Nat, siz = 2 ^ k

/-- What a method gives: the graph and the sizes of arrays do not change; if it succeeds, the partition is valid. A sure method always succeeds. If it fails, the number of frontier vertices remains usable. -/
structure Res (sure : Bool) (b : Wgraph) (r : Int × Wgraph) : Prop where
  same : SameProblem b r.2
  sure : sure = true → r.1 = 0
  valid : r.1 = 0 → Valid r.2
  fron : r.1 ≠ 0 → 0 ≤ b.fronnbr → b.fronnbr ≤ b.s.vertnbr → 0 ≤ r.2.fronnbr ∧ r.2.fronnbr ≤ b.s.vertnbr

/-- Meaning of a method: flag `init` tells that it is only applied to valid partitions. It is applied to graphs of class `cls` and to `n` parts. -/
def PartMethod (cls : Graph → Prop) (n : Int) (nul tot sure init : Bool) (f : Wgraph → M (Int × Wgraph)) : Prop :=
  ∀ b, Pre b → cls b.s → b.partnbr = n → (init = true → Valid b) → Mt nul tot (f b) (Res sure b)

/-- Coarse graphs are contractions, and belong to the class. Accesses to shared arrays may be done in any order. -/
structure WEnv.Ok (cls : Graph → Prop) (env : WEnv) : Prop where
  al : env.rb.al = 1 ∨ env.rb.al = 2
  order : ∀ l, (env.rb.order l).Perm l
  coarsen : ∀ p g, g.Consistent → g.Allocated → 0 ≤ g.baseval → cls g → Holds (env.coarsen p g) (fun o => Coarsen.Shrinks g o ∧ ∀ r, o = some r → cls r.graph ∧ r.graph.vnumtax = none)

/-- Strategies that may be used: the zero method, the empty strategy and a selection need a valid initial partition (`init`); the second strategy of a selection must be sure. -/
def WGood (cls : Graph → Prop) (env : WEnv) (n : Int) (nul tot : Bool) : Bool → Bool → WStrat → Prop
  | _, init, .empty => init = true
  | _, init, .zr => init = true
  | sure, _, .rb sep => Even2 nul n ∧ ∃ scls, Closed scls ∧ (∀ g, cls g → scls g) ∧ env.sep.Ok scls ∧ Separ.SGood scls tot sure sep
  | sure, _, .ml asc low => WGood cls env n nul tot sure true asc ∧ WGood cls env n nul tot sure true low
  | sure, init, .concat s t => WGood cls env n nul tot sure init s ∧ WGood cls env n nul tot sure true t
  | sure, init, .cond c s t => (sure = true → ∀ p b, c p b ≠ none) ∧ WGood cls env n nul tot sure init s ∧ WGood cls env n nul tot sure init t
  | sure, init, .cond1 c s => init = true ∧ (sure = true → ∀ p b, c p b ≠ none) ∧ WGood cls env n nul tot sure init s
  | sure, init, .select s t => init = true ∧ WGood cls env n nul tot sure true s ∧ WGood cls env n nul tot true true t
  | sure, init, .ext f => ∀ p, PartMethod cls n nul tot sure init (f p)

end Scotch.Ovl
