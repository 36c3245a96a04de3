import Verif.ArchIO.Model
import Verif.Arch.Domains

/-!
# Target architectures and domains in files: specification
-/

set_option autoImplicit false

namespace Scotch.ArchIO
open Text

/-- The cells `[0, n)` exist and satisfy `P`. -/
structure Cells {α : Type} (a : Arr α) (n : Int) (P : α → Prop) : Prop where
  nbr : 0 ≤ n
  lo : a.lo ≤ 0
  hi : n ≤ a.hi
  all : ∀ i, 0 ≤ i → i < n → P (a.get i)

/-- Values between `lo` and the largest `Anum`. -/
def Upto (E : Env) (lo v : Int) : Prop := lo ≤ v ∧ v ≤ E.numMax

/-- Values the absolute value of which is at most the largest `Anum`. -/
def Fits (E : Env) (v : Int) : Prop := -E.numMax ≤ v ∧ v ≤ E.numMax

/-- Tree-leaf architectures the values of which are `Anum`s. -/
structure TleafOk (E : Env) (a : Arch.Tleaf.Arch) : Prop where
  wf : Arch.Tleaf.WF a
  levl : a.levlnbr * 2 + 1 ≤ E.numMax
  size : ∀ l, 0 ≤ l → l < a.levlnbr → a.sizetab.get l ≤ E.numMax
  link : ∀ l, 0 ≤ l → l < a.levlnbr → a.linktab.get l ≤ E.numMax
  term : a.termnbr ≤ E.numMax

/-- Architectures that can be built, all the values of which are `Anum`s. -/
def Valid (E : Env) : AnyArch → Prop
  | .cmplt n => Upto E 1 n
  | .cmpltw a => (∃ w, Arch.Cmpltw.WF a w) ∧ a.vertnbr ≤ E.numMax ∧ a.vertnbr < 2 ^ 31 ∧ a.velosum ≤ E.numMax
  | .deco a => 1 ≤ a.domtermnbr ∧ a.domtermnbr ≤ a.domvertnbr ∧ a.domvertnbr ≤ E.numMax ∧ a.domvertnbr * (a.domvertnbr - 1) ≤ E.numMax ∧
      Cells a.domverttab a.domvertnbr (fun v => Fits E v.1 ∧ Fits E v.2.1 ∧ Fits E v.2.2) ∧ Cells a.domdisttab ((a.domvertnbr * (a.domvertnbr - 1)) / 2) (Fits E)
  | .dist c a => Fits E c ∧ Valid E a
  | .hcub d => Upto E 1 d ∧ d ≤ E.width
  | .tleaf a => TleafOk E a
  | .ltleaf a => TleafOk E a ∧ Arch.Tleaf.WFL a ∧ a.permnbr ≤ E.numMax
  | .mesh2 c0 c1 => Upto E 1 c0 ∧ Upto E 1 c1
  | .mesh3 c0 c1 c2 => Upto E 1 c0 ∧ Upto E 1 c1 ∧ Upto E 1 c2
  | .meshX n c => n ≤ dimnMax ∧ dimnMax ≤ E.numMax ∧ Cells c n (Upto E 1)
  | .sub n t a => n ≤ E.numMax ∧ Cells t n (Fits E) ∧ Valid E a
  | .torus2 c0 c1 => Upto E 1 c0 ∧ Upto E 1 c1
  | .torus3 c0 c1 c2 => Upto E 1 c0 ∧ Upto E 1 c1 ∧ Upto E 1 c2
  | .torusX n c => n ≤ dimnMax ∧ dimnMax ≤ E.numMax ∧ Cells c n (Upto E 1)
  | .vcmplt => True
  | .vhcub => True

/-- No class in the architecture is the one that multiplies distances. -/
def NoDist : AnyArch → Prop
  | .dist _ _ => False
  | .sub _ _ a => NoDist a
  | _ => True

/-- The same levels, sizes and links. -/
def SameTree (a b : Arch.Tleaf.Arch) : Prop :=
  a.termnbr = b.termnbr ∧ a.levlnbr = b.levlnbr ∧ ∀ l, 0 ≤ l → l < a.levlnbr → a.sizetab.get l = b.sizetab.get l ∧ a.linktab.get l = b.linktab.get l

/-- The same number of cells, with the same contents. -/
def SameCells {α : Type} (n m : Int) (a b : Arr α) : Prop := n = m ∧ ∀ i, 0 ≤ i → i < n → a.get i = b.get i

/-- The same architecture: same class, same parameters. For weighted complete graphs, the same processors, with the same weights. -/
def Same : AnyArch → AnyArch → Prop
  | .cmplt n, .cmplt m => n = m
  | .cmpltw a, .cmpltw b => a.vertnbr = b.vertnbr ∧ a.velosum = b.velosum ∧ ∃ w, Arch.Cmpltw.WF a w ∧ Arch.Cmpltw.WF b w
  | .deco a, .deco b => a.domtermnbr = b.domtermnbr ∧ SameCells a.domvertnbr b.domvertnbr a.domverttab b.domverttab ∧
      ∀ i, 0 ≤ i → i < (a.domvertnbr * (a.domvertnbr - 1)) / 2 → a.domdisttab.get i = b.domdisttab.get i
  | .dist c a, .dist d b => c = d ∧ Same a b
  | .hcub c, .hcub d => c = d
  | .tleaf a, .tleaf b => SameTree a b
  | .ltleaf a, .ltleaf b => SameTree a b ∧ SameCells a.permnbr b.permnbr a.permtab b.permtab ∧ SameCells a.permnbr b.permnbr a.peritab b.peritab
  | .mesh2 c0 c1, .mesh2 d0 d1 => c0 = d0 ∧ c1 = d1
  | .mesh3 c0 c1 c2, .mesh3 d0 d1 d2 => c0 = d0 ∧ c1 = d1 ∧ c2 = d2
  | .meshX n c, .meshX m d => SameCells n m c d
  | .sub n t a, .sub m u b => SameCells n m t u ∧ Same a b
  | .torus2 c0 c1, .torus2 d0 d1 => c0 = d0 ∧ c1 = d1
  | .torus3 c0 c1 c2, .torus3 d0 d1 d2 => c0 = d0 ∧ c1 = d1 ∧ c2 = d2
  | .torusX n c, .torusX m d => SameCells n m c d
  | .vcmplt, .vcmplt => True
  | .vhcub, .vhcub => True
  | _, _ => False

/-- Sub-architectures can be built again from the same parameters. -/
def Builds (E : Env) : AnyArch → Prop
  | .sub n t a => Builds E a ∧ ∀ a' t', Same a a' → SameCells n n t t' → t'.lo = 0 → t'.hi = n → E.subBuild a' n t' = .ok true
  | .dist _ a => Builds E a
  | _ => True

/-- Domains of an architecture that can be saved. Loads of the domains of weighted complete graphs are the sums of the loads of their processors; levels of domains of
variable-sized architectures are logarithms. -/
def DomOk (E : Env) : AnyArch → AnyDom → Prop
  | .cmplt n, .cmplt d => n ≤ E.numMax ∧ 0 ≤ d.termmin ∧ 1 ≤ d.termnbr ∧ d.termmin + d.termnbr ≤ n
  | .cmpltw a, .cmpltw d => a.vertnbr ≤ E.numMax ∧ a.velosum ≤ E.numMax ∧ (∃ w, Arch.Cmpltw.WF a w) ∧ Arch.Cmpltw.Valid a d
  | .deco a, .deco n => a.domvertnbr ≤ E.numMax ∧ 1 ≤ n ∧ n ≤ a.domvertnbr
  | .dist _ a, d => DomOk E a d
  | .hcub n, .hcub d b => Fits E d ∧ Fits E b ∧ d ≤ n
  | .tleaf a, .tleaf d => 0 ≤ d.levlnum ∧ d.levlnum ≤ a.levlnbr ∧ Fits E d.levlnum ∧ Fits E d.indxmin ∧ Fits E d.indxnbr
  | .ltleaf a, .tleaf d => 0 ≤ d.levlnum ∧ d.levlnum ≤ a.levlnbr ∧ Fits E d.levlnum ∧ Fits E d.indxmin ∧ Fits E d.indxnbr
  | .mesh2 _ _, .mesh c => Cells c 2 (fun p => 0 ≤ p.1 ∧ p.1 ≤ p.2 ∧ p.2 ≤ E.numMax)
  | .mesh3 _ _ _, .mesh c => Cells c 3 (fun p => 0 ≤ p.1 ∧ p.1 ≤ p.2 ∧ p.2 ≤ E.numMax)
  | .meshX n _, .mesh c => n ≤ dimnMax ∧ Cells c n (fun p => 0 ≤ p.1 ∧ p.1 ≤ p.2 ∧ p.2 ≤ E.numMax)
  | .sub n _ _, .sub i => n ≤ E.numMax ∧ i ≤ E.numMax ∧ 0 ≤ i ∧ i < 2 * n - 1
  | .torus2 _ _, .mesh c => Cells c 2 (fun p => 0 ≤ p.1 ∧ p.1 ≤ p.2 ∧ p.2 ≤ E.numMax)
  | .torus3 _ _ _, .mesh c => Cells c 3 (fun p => 0 ≤ p.1 ∧ p.1 ≤ p.2 ∧ p.2 ≤ E.numMax)
  | .torusX n _, .mesh c => n ≤ dimnMax ∧ Cells c n (fun p => 0 ≤ p.1 ∧ p.1 ≤ p.2 ∧ p.2 ≤ E.numMax)
  | .vcmplt, .var n l => Upto E 1 n ∧ 0 ≤ l ∧ 2 ^ l.toNat ≤ n.toNat ∧ n.toNat < 2 ^ (l.toNat + 1)
  | .vhcub, .var n l => Upto E 1 n ∧ 0 ≤ l ∧ 2 ^ l.toNat ≤ n.toNat ∧ n.toNat < 2 ^ (l.toNat + 1)
  | _, _ => False

/-- The same domain. Boxes of meshes have `n` dimensions. -/
def SameDom (n : Int) : AnyDom → AnyDom → Prop
  | .mesh c, .mesh d => ∀ i, 0 ≤ i → i < n → c.get i = d.get i
  | d, e => d = e

/-- Number of dimensions of a mesh. -/
def dimn : AnyArch → Int
  | .mesh2 _ _ => 2
  | .torus2 _ _ => 2
  | .mesh3 _ _ _ => 3
  | .torus3 _ _ _ => 3
  | .meshX n _ => n
  | .torusX n _ => n
  | .dist _ a => dimn a
  | _ => 0

/-- The architecture on which domains are defined is a weighted complete graph. -/
def IsWeighted : AnyArch → Prop
  | .cmpltw _ => True
  | .dist _ a => IsWeighted a
  | _ => False

/-- What is true of all the architectures that are read. -/
def Sane (E : Env) : AnyArch → Prop
  | .cmplt n => 1 ≤ n
  | .cmpltw a => ∃ w, Arch.Cmpltw.WF a w
  | .deco a => 1 ≤ a.domtermnbr ∧ a.domtermnbr ≤ a.domvertnbr ∧ Cells a.domverttab a.domvertnbr (fun _ => True) ∧ Cells a.domdisttab ((a.domvertnbr * (a.domvertnbr - 1)) / 2) (fun _ => True)
  | .dist _ _ => False
  | .hcub d => 1 ≤ d ∧ d ≤ E.width
  | .tleaf a => Arch.Tleaf.WF a
  | .ltleaf a => Arch.Tleaf.WF a ∧ 1 ≤ a.permnbr ∧ Cells a.permtab a.permnbr (fun v => 0 ≤ v ∧ v < a.permnbr) ∧ Cells a.peritab a.permnbr (fun _ => True)
  | .mesh2 c0 c1 => 1 ≤ c0 ∧ 1 ≤ c1
  | .mesh3 c0 c1 c2 => 1 ≤ c0 ∧ 1 ≤ c1 ∧ 1 ≤ c2
  | .meshX n c => n ≤ dimnMax ∧ ∀ i, 0 ≤ i → i < n → 1 ≤ c.get i
  | .sub n t a => Cells t n (fun _ => True) ∧ Sane E a
  | .torus2 c0 c1 => 1 ≤ c0 ∧ 1 ≤ c1
  | .torus3 c0 c1 c2 => 1 ≤ c0 ∧ 1 ≤ c1 ∧ 1 ≤ c2
  | .torusX n c => n ≤ dimnMax ∧ ∀ i, 0 ≤ i → i < n → 1 ≤ c.get i
  | .vcmplt => True
  | .vhcub => True

/-- A computation that can only fail by overflow or by use of a null pointer. -/
def Mild {α : Type} (x : M α) (Q : α → Prop) : Prop :=
  match x with
  | .ok a => Q a
  | .error e => e = .overflow ∨ e = .null

end Scotch.ArchIO
