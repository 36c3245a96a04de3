import Verif.Arch.Model
import Verif.Arch.Spec

/-!
# Target architectures: meaning of domains

For each class, which values are domains of an architecture (`Valid`), and which processors a domain
consists of (`Has`). Processors are given by their numbers. These definitions do not use the routines
of the model, but only the types of its data.
-/

set_option autoImplicit false

namespace Scotch.Arch.Cmplt

/-- Domain of an architecture of `n` processors: non-empty interval of `[0, n)`. -/
def Valid (n : Int) (d : Dom) : Prop := 0 ≤ d.termmin ∧ 1 ≤ d.termnbr ∧ d.termmin + d.termnbr ≤ n

/-- Processors of a domain. -/
def Has (d : Dom) (k : Int) : Prop := d.termmin ≤ k ∧ k < d.termmin + d.termnbr

end Scotch.Arch.Cmplt

namespace Scotch.Arch.Cmpltw

/-- Well-formed weighted complete graph: the records are those of the processors `0 … n - 1`, in some
order, with their weights. -/
structure WF (a : Arch) (w : Int → Int) : Prop where
  nbr : 1 ≤ a.vertnbr
  lo : a.velotab.lo ≤ 0
  hi : a.vertnbr ≤ a.velotab.hi
  inj : IsInj 0 0 a.vertnbr (fun i => (a.velotab.get i).2)
  velo : ∀ i, 0 ≤ i → i < a.vertnbr → (a.velotab.get i).1 = w (a.velotab.get i).2
  pos : ∀ k, 0 ≤ k → k < a.vertnbr → 0 < w k
  sum : a.velosum = sumI 0 a.vertnbr (fun i => (a.velotab.get i).1)

/-- Processors of a domain. -/
def Has (a : Arch) (d : Dom) (k : Int) : Prop :=
  ∃ i, d.vertmin ≤ i ∧ i < d.vertmin + d.vertnbr ∧ (a.velotab.get i).2 = k

/-- Domains: non-empty ranges of records, with the sum of their weights. -/
structure Valid (a : Arch) (d : Dom) : Prop where
  min : 0 ≤ d.vertmin
  nbr : 1 ≤ d.vertnbr
  max : d.vertmin + d.vertnbr ≤ a.vertnbr
  velo : d.veloval = sumI d.vertmin (d.vertmin + d.vertnbr) (fun i => (a.velotab.get i).1)

end Scotch.Arch.Cmpltw

namespace Scotch.Arch.Hcub

/-- Domain of a hypercube of `n` dimensions: the bits below `dimncur` are free, and not set in
`bitsset`. -/
def Valid (n : Nat) (d : Dom) : Prop := d.dimncur ≤ n ∧ 2 ^ d.dimncur ∣ d.bitsset ∧ d.bitsset < 2 ^ n

/-- Processors of a domain: those the bits of which are the ones of `bitsset`, but for the free ones. -/
def Has (d : Dom) (k : Int) : Prop := 0 ≤ k ∧ k.toNat / 2 ^ d.dimncur = d.bitsset / 2 ^ d.dimncur

end Scotch.Arch.Hcub

namespace Scotch.Arch.Mesh

/-- Number of processors of a mesh of extents `cs`. -/
def total : List Int → Int
  | [] => 1
  | c :: cs => c * total cs

/-- Processors of a box: the coordinates of processor `k` are `k mod c₀`, `(k / c₀) mod c₁`, etc. -/
def Has : List Int → Dom → Int → Prop
  | [], [], k => k = 0
  | c :: cs, p :: ps, k => p.1 ≤ k % c ∧ k % c ≤ p.2 ∧ Has cs ps (k / c)
  | _, _, _ => False

/-- Boxes of a mesh: as many dimensions as the mesh, each with a non-empty range. -/
def Valid : List Int → Dom → Prop
  | [], [] => True
  | c :: cs, p :: ps => 0 ≤ p.1 ∧ p.1 ≤ p.2 ∧ p.2 < c ∧ Valid cs ps
  | _, _ => False

/-- All extents are positive. -/
def Pos : List Int → Prop
  | [] => True
  | c :: cs => 1 ≤ c ∧ Pos cs

end Scotch.Arch.Mesh

namespace Scotch.Arch.Tleaf

/-- Number of leaves below a node which is `m` levels above the leaves. -/
def spanN (a : Arch) : Nat → Int
  | 0 => 1
  | m + 1 => a.sizetab.get (a.levlnbr - m - 1) * spanN a m

/-- Number of leaves below a node of level `l`. -/
def span (a : Arch) (l : Int) : Int := spanN a (a.levlnbr - l).toNat

/-- Well-formed architecture, as checked or computed by `archTleafArchLoad` (arch_tleaf.c:128–138): nodes
have at least two sons, links have a positive cost, and the number of processors is the number of
leaves. -/
structure WF (a : Arch) : Prop where
  lev : 0 ≤ a.levlnbr
  slo : a.sizetab.lo ≤ 0
  shi : a.levlnbr ≤ a.sizetab.hi
  llo : a.linktab.lo ≤ 0
  lhi : a.levlnbr ≤ a.linktab.hi
  size : ∀ l, 0 ≤ l → l < a.levlnbr → 2 ≤ a.sizetab.get l
  link : ∀ l, 0 ≤ l → l < a.levlnbr → 1 ≤ a.linktab.get l
  term : a.termnbr = span a 0

/-- Processors of a domain: leaves the ancestor of which, at the level of the domain, is in the index
range of the domain. -/
def Has (a : Arch) (d : Dom) (k : Int) : Prop :=
  d.indxmin ≤ k / span a d.levlnum ∧ k / span a d.levlnum < d.indxmin + d.indxnbr

/-- Domains of the architecture: the root, or some, but not all, of the sons of a node. -/
structure Valid (a : Arch) (d : Dom) : Prop where
  lev0 : 0 ≤ d.levlnum
  lev1 : d.levlnum ≤ a.levlnbr
  min : 0 ≤ d.indxmin
  nbr : 1 ≤ d.indxnbr
  max : (d.indxmin + d.indxnbr) * span a d.levlnum ≤ a.termnbr
  root : d.levlnum = 0 → d.indxmin = 0 ∧ d.indxnbr = 1
  sons : 1 ≤ d.levlnum → ∃ f, f * a.sizetab.get (d.levlnum - 1) ≤ d.indxmin ∧
    d.indxmin + d.indxnbr ≤ (f + 1) * a.sizetab.get (d.levlnum - 1) ∧
    d.indxnbr < a.sizetab.get (d.levlnum - 1)

/-- Distance between two leaves: sum of the costs of the links of all the levels below their lowest
common ancestor. The ancestor of leaf `x` at level `l` is the node of index `x / span a l`. -/
def leafDist (a : Arch) (x y : Int) : Int :=
  sumI 0 a.levlnbr (fun l => if x / span a (l + 1) = y / span a (l + 1) then 0 else a.linktab.get l)

/-- Labels are a permutation, `peritab` being its inverse, as computed by `archLtleafArchLoad` —
arch_tleaf.c:712–735. The number of labels divides the number of leaves. -/
structure WFL (a : Arch) : Prop where
  wf : WF a
  nbr : 1 ≤ a.permnbr
  dvd : a.permnbr ∣ a.termnbr
  plo : a.permtab.lo ≤ 0
  phi : a.permnbr ≤ a.permtab.hi
  ilo : a.peritab.lo ≤ 0
  ihi : a.permnbr ≤ a.peritab.hi
  perm : ∀ i, 0 ≤ i → i < a.permnbr → 0 ≤ a.permtab.get i ∧ a.permtab.get i < a.permnbr ∧
    a.peritab.get (a.permtab.get i) = i
  peri : ∀ i, 0 ≤ i → i < a.permnbr → 0 ≤ a.peritab.get i ∧ a.peritab.get i < a.permnbr ∧
    a.permtab.get (a.peritab.get i) = i

/-- Label of the leaf at place `x`. -/
def label (a : Arch) (x : Int) : Int := x - x % a.permnbr + a.permtab.get (x % a.permnbr)

/-- Place of the leaf of label `k`. -/
def place (a : Arch) (k : Int) : Int := k - k % a.permnbr + a.peritab.get (k % a.permnbr)

/-- Processors of a domain, known by their labels. -/
def HasL (a : Arch) (d : Dom) (k : Int) : Prop := ∃ x, Has a d x ∧ label a x = k

end Scotch.Arch.Tleaf

namespace Scotch.Arch.Var

/-- Domains that the routines handle: the number has as many bits as the level says. -/
def Valid (d : Dom) : Prop := 2 ^ d.termlvl ≤ d.termnum ∧ d.termnum < 2 ^ (d.termlvl + 1)

/-- Processors of a domain, when the architecture is cut at depth `L`: processors are then numbered from
`2 ^ L` to `2 ^ (L + 1) - 1`, and the ancestors of a processor are obtained by halving its number. -/
def Has (L : Nat) (d : Dom) (k : Nat) : Prop := k / 2 ^ (L - d.termlvl) = d.termnum

end Scotch.Arch.Var

