import Verif.Arch.Model

/-!
# Matchings of architectures: model

An architecture is coarsened by successive matchings. Each routine keeps its state in a structure; `multtab` gives, for each
coarse vertex, one or two fine vertices. Allocation succeeds; `junk` gives the content of freshly allocated memory.
-/

set_option autoImplicit false

namespace Scotch.Arch

/-- `ArchCoarsenMulti` — src/libscotch/arch.h:108–110. -/
abbrev Multi := Int × Int

/-- A coarse vertex made of one fine vertex: `multtab[c].vertnum[0] = multtab[c].vertnum[1] = f ++`, then `c ++` —
arch_cmplt.c:215–217, 224–226; arch_tleaf.c:333–335, 343–345. State: array, `c`, `f`. -/
def putOne (s : Arr Multi × Int × Int) : M (Arr Multi × Int × Int) := do
  let a ← s.1.wr s.2.1 (s.2.2, s.2.2)
  return (a, s.2.1 + 1, s.2.2 + 1)

/-- A coarse vertex made of two consecutive fine vertices — arch_cmplt.c:220–221; arch_hcub.c:205–206; arch_tleaf.c:338–340. -/
def putTwo (s : Arr Multi × Int × Int) : M (Arr Multi × Int × Int) := do
  let a ← s.1.wr s.2.1 (s.2.2, s.2.2 + 1)
  return (a, s.2.1 + 1, s.2.2 + 2)

/-- Singleton put under a condition. -/
def putIf (p : Prop) [Decidable p] (s : Arr Multi × Int × Int) : M (Arr Multi × Int × Int) := if p then putOne s else return s

/-! ## Complete graphs -/

namespace Cmplt

/-- `ArchCmpltMatch` — arch_cmplt.h:90–94. -/
structure Match where
  multtab : Arr Multi
  vertnbr : Int
  passnum : Int

/-- `archCmpltMatchInit` — arch_cmplt.c:152–170. -/
def matchInit (junk : Int → Multi) (termnbr : Int) : Match := ⟨⟨0, (termnbr + 1) / 2, junk⟩, termnbr, 0⟩

/-- `archCmpltMatchMate` — arch_cmplt.c:192–242. `passnum` is 0 or 1: `finevertnbr & passnum` is not zero when `passnum` is 1
and `finevertnbr` is odd. -/
def matchMate (m : Match) : M (Int × Match) :=
  if m.vertnbr ≤ 1 then return (-1, m)
  else do
    let s ← putIf (m.passnum = 1 ∧ m.vertnbr % 2 = 1) (m.multtab, 0, 0)
    let s ← forUp s.2.1 (m.vertnbr / 2) s fun _ s => putTwo s
    let s ← putIf (m.passnum = 0 ∧ m.vertnbr % 2 = 1) s
    return (s.2.1, { m with multtab := s.1, vertnbr := s.2.1 })

end Cmplt

/-! ## Hypercubes -/

namespace Hcub

/-- `ArchHcubMatch` — arch_hcub.h:87–90. -/
structure Match where
  multtab : Arr Multi
  vertnbr : Int

/-- `archHcubMatchInit` — arch_hcub.c:151–167. -/
def matchInit (junk : Int → Multi) (dimnnbr : Nat) : M Match := do
  let n ← shl1 dimnnbr
  return ⟨⟨0, n / 2, junk⟩, n⟩

/-- `archHcubMatchMate` — arch_hcub.c:189–213. -/
def matchMate (m : Match) : M (Int × Match) :=
  if m.vertnbr / 2 ≤ 0 then return (-1, m)
  else do
    let s ← forUp 0 (m.vertnbr / 2) (m.multtab, 0, 0) fun _ s => putTwo s
    return (m.vertnbr / 2, { m with multtab := s.1, vertnbr := m.vertnbr / 2 })

end Hcub

/-! ## Tree-leaf architectures -/

namespace Tleaf

/-- `ArchTleafMatch` — arch_tleaf.h:97–105. -/
structure Match where
  multtab : Arr Multi
  passnum : Int
  levlnum : Int
  levlsiz : Int
  vertnbr : Int

/-- `archTleafMatchInit` — arch_tleaf.c:229–259. -/
def matchInit (junk : Int → Multi) (a : Arch) : M Match := do
  let v ← forUp 0 (a.levlnbr - 1) 1 fun l v => do return v * (← a.sizetab.rd l)
  let s ← a.sizetab.rd (max 0 (a.levlnbr - 1))
  let t ← a.sizetab.rd (a.levlnbr - 1)
  return ⟨⟨0, v * ((s + 1) / 2), junk⟩, 0, a.levlnbr - 1, t, v * s⟩

/-- Search of a level to coarsen — arch_tleaf.c:295–306; `none` if there is none. State: `passnum`, `levlnum`, `levlsiz`. -/
def matchLevel (a : Arch) (m : Match) : M (Option (Int × Int × Int)) :=
  loopM (fun (s : Int × Int × Int) => do
    if s.2.2 = 1 then
      if s.2.1 - 1 < 0 then return .brk none
      else do
        let z ← a.sizetab.rd (s.2.1 - 1)
        return .next (0, s.2.1 - 1, z)
    else return .brk (some s)) (m.levlnum.toNat + 2) (m.passnum, m.levlnum, m.levlsiz)

/-- A block of vertices — arch_tleaf.c:330–346. -/
def matchBlock (passnum bloksiz : Int) (s : Arr Multi × Int × Int) : M (Arr Multi × Int × Int) := do
  let s ← putIf (passnum = 0) s
  let s ← forUp 0 bloksiz s fun _ s => putTwo s
  putIf (passnum = 1) s

/-- `archTleafMatchMate` — arch_tleaf.c:281–358. When there is no level to coarsen, the C code returns -1 after some fields were
changed. -/
def matchMate (a : Arch) (m : Match) : M (Int × Match) := do
  match ← matchLevel a m with
  | none => return (-1, { m with passnum := 0, levlnum := 0 })
  | some (pass, levl, siz) =>
    let bloknbr ← cdiv m.vertnbr siz
    let pass' := if siz % 2 = 1 then 1 - pass else pass
    let passnum := if siz % 2 = 1 then 1 - pass else -1
    let s ← forUp 0 bloknbr (m.multtab, 0, 0) fun _ s => matchBlock passnum (siz / 2) s
    return (s.2.1, ⟨s.1, pass', levl, (siz + 1) / 2, ((siz + 1) / 2) * bloknbr⟩)

end Tleaf

/-! ## Meshes and tori -/

namespace Mesh

/-- `ArchMeshXMatch` — arch_mesh.h:93–101. -/
structure Match where
  multtab : Arr Multi
  dimnnum : Nat
  dimntab : List Int
  passtab : List Int

/-- Reading a cell of an array of dimensions. -/
def rdL (l : List Int) (k : Nat) : M Int := match l[k]? with | some x => .ok x | none => .error .oob

/-- `archMeshXMatchInit` — arch_mesh.c:704–731. -/
def matchInit (junk : Int → Multi) (cs : List Int) : M Match := do
  let c0 ← rdL cs 0
  let multnbr := (cs.drop 1).foldl (fun s c => s * c) ((c0 + 1) / 2)
  return ⟨⟨0, multnbr, junk⟩, 0, cs, cs.map fun _ => 0⟩

/-- Search of a dimension to coarsen — arch_mesh.c:773–779; `none` if there is none. -/
def matchDim (m : Match) : M (Option Nat) :=
  let n := m.dimntab.length
  loopM (fun (k : Nat) => do
    let c ← rdL m.dimntab k
    if c ≤ 1 then
      if k = (m.dimnnum + n - 1) % n then return .brk none
      else return .next ((k + 1) % n)
    else return .brk (some k)) (n + 1) m.dimnnum

/-- State of the loop on fine vertices. -/
structure Pairing where
  multtab : Arr Multi
  coar : Int
  indx : Int
  tmp : Int

/-- Coarse vertex that starts at a fine vertex, if any — arch_mesh.c:803–812. -/
def pairPut (delta passnum indxval v : Int) (s : Pairing) : M Pairing :=
  if s.indx = indxval then do
    let a ← s.multtab.wr s.coar (v, v)
    return { s with multtab := a, coar := s.coar + 1 }
  else if s.indx % 2 = passnum then do
    let a ← s.multtab.wr s.coar (v, v + delta)
    return { s with multtab := a, coar := s.coar + 1 }
  else return s

/-- Body of the loop on fine vertices — arch_mesh.c:803–817. -/
def pairStep (delta indxnbr passnum indxval v : Int) (s : Pairing) : M Pairing := do
  let s ← pairPut delta passnum indxval v s
  if v = s.tmp then return { s with indx := (s.indx + 1) % indxnbr, tmp := s.tmp + delta } else return s

/-- `archMeshXMatchMate` — arch_mesh.c:753–830. -/
def matchMate (m : Match) : M (Int × Match) := do
  match ← matchDim m with
  | none => return (-1, m)
  | some k =>
    let delta := (m.dimntab.take k).foldl (fun s c => s * c) 1
    let nbr := (m.dimntab.drop k).foldl (fun s c => s * c) delta
    let indxnbr ← rdL m.dimntab k
    let pass ← rdL m.passtab k
    let odd := indxnbr % 2 = 1
    let passnum := if odd then 1 - pass else 0
    let indxval := if odd then (if passnum ≠ 0 then 0 else indxnbr - 1) else -1
    let s ← forUp 0 nbr (⟨m.multtab, 0, 0, delta - 1⟩ : Pairing) fun v s => pairStep delta indxnbr passnum indxval v s
    return (s.coar, ⟨s.multtab, (k + 1) % m.dimntab.length, m.dimntab.set k ((indxnbr + 1) / 2),
      if odd then m.passtab.set k passnum else m.passtab⟩)

end Mesh

end Scotch.Arch
