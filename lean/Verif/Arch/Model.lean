import Verif.Arch.Spec
import Verif.Sort.Model
import Verif.TextIO.Model

/-!
# Target architectures: model

One namespace per class. `Anum` values are unbounded integers, except for the shifts of hypercubes and
of variable-sized classes, the widths of which matter. Domains written by a routine through its
output parameters are returned as values.
-/

namespace Scotch.Arch

open Scotch.Text

/-! ## Complete graphs — src/libscotch/arch_cmplt.c -/

namespace Cmplt

/-- `ArchCmpltDom` — src/libscotch/arch_cmplt.h. -/
structure Dom where
  termmin : Int
  termnbr : Int
  deriving DecidableEq, Repr

/-- `archCmpltDomNum` — arch_cmplt.c:249–255. -/
def num (d : Dom) : M Int := return d.termmin

/-- `archCmpltDomTerm` — arch_cmplt.c:265–279. -/
def term (termnbr domnnum : Int) : M (Option Dom) :=
  if domnnum < termnbr then return some ⟨domnnum, 1⟩ else return none

/-- `archCmpltDomSize` — arch_cmplt.c:285–291 (`archCmpltDomWght` is the same routine). -/
def size (d : Dom) : M Int := return d.termnbr

/-- `archCmpltDomDist` — arch_cmplt.c:298–306. -/
def dist (d0 d1 : Dom) : M Int :=
  return if d0.termmin = d1.termmin ∧ d0.termnbr = d1.termnbr then 0 else 1

/-- `archCmpltDomFrst` — arch_cmplt.c:316–325. -/
def frst (termnbr : Int) : M Dom := return ⟨0, termnbr⟩

/-- `archCmpltDomBipart` — arch_cmplt.c:387–403. -/
def bipart (d : Dom) : M (Option (Dom × Dom)) :=
  if d.termnbr ≤ 1 then return none
  else
    let n0 := d.termnbr.tdiv 2
    return some (⟨d.termmin, n0⟩, ⟨d.termmin + n0, d.termnbr - n0⟩)

/-- `archCmpltDomIncl` — arch_cmplt.c:413–424. -/
def incl (d0 d1 : Dom) : M Bool :=
  return decide (d1.termmin ≥ d0.termmin ∧ d1.termmin + d1.termnbr ≤ d0.termmin + d0.termnbr)

/-- `archCmpltDomSave` — arch_cmplt.c:363–377: `"%d %d "`. -/
def domSave (d : Dom) : Stream := printInt d.termmin ++ [32] ++ printInt d.termnbr ++ [32]

/-- `archCmpltDomLoad` — arch_cmplt.c:334–354. -/
def domLoad (intMax termnbr : Int) (s : Stream) : M (Option Dom × Stream) := do
  match ← intLoad intMax s with
  | (none, s) => return (none, s)
  | (some termmin, s) =>
    match ← intLoad intMax s with
    | (none, s) => return (none, s)
    | (some nbr, s) =>
      if nbr < 1 then return (none, s)
      else do
        let sum ← chk intMax (nbr + termmin)
        if sum > termnbr then return (none, s) else return (some ⟨termmin, nbr⟩, s)

/-- The class, for an architecture of `termnbr` processors. -/
def ops (termnbr : Int) : ArchOps Dom where
  num := num
  term := term termnbr
  size := size
  wght := size
  dist := dist
  frst := frst termnbr
  bipart := bipart
  incl := incl

end Cmplt

/-! ## Weighted complete graphs — src/libscotch/arch_cmpltw.c -/

namespace Cmpltw

/-- `ArchCmpltwLoad` (src/libscotch/arch_cmpltw.h): load and number of a vertex. -/
abbrev Rec := Int × Int

/-- `ArchCmpltwDom` — src/libscotch/arch_cmpltw.h. -/
structure Dom where
  vertmin : Int
  vertnbr : Int
  veloval : Int
  deriving DecidableEq, Repr

/-- `ArchCmpltw` — src/libscotch/arch_cmpltw.h. -/
structure Arch where
  vertnbr : Int
  velotab : Arr Rec
  velosum : Int

/-- `memMov`/`memCpy (dst + dstoff, src + srcoff, n)`: all cells are checked, then copied at once (the
two arrays of `memCpy` are distinct here). -/
def move {α : Type} (dst : Arr α) (dstoff : Int) (src : Arr α) (srcoff n : Int) : M (Arr α) :=
  if 0 ≤ n ∧ (n = 0 ∨ (dst.lo ≤ dstoff ∧ dstoff + n ≤ dst.hi ∧ src.lo ≤ srcoff ∧ srcoff + n ≤ src.hi)) then
    .ok { dst with get := fun i => if dstoff ≤ i ∧ i < dstoff + n then src.get (i - dstoff + srcoff) else dst.get i }
  else .error .oob

/-- State of the loop of `archCmpltwArchBuild3`. -/
structure BState where
  velo : Arr Rec
  veso : Arr Rec
  vel0sum : Int
  vel1sum : Int
  ver0num : Int
  ver1num : Int

/-- Body of the loop — arch_cmpltw.c:98–105; `off` is the place of `velotab` in the whole array. -/
def buildStep (off vertnum : Int) (s : BState) : M BState := do
  let r ← s.velo.rd (off + vertnum)
  if s.vel1sum < s.vel0sum then do
    let veso ← s.veso.wr (off + s.ver1num) r
    return { s with veso := veso, vel1sum := s.vel1sum + r.1, ver1num := s.ver1num - 1 }
  else do
    let velo ← s.velo.wr (off + s.ver0num) r
    return { s with velo := velo, vel0sum := s.vel0sum + r.1, ver0num := s.ver0num - 1 }

/-- Rearrangement of the two parts — arch_cmpltw.c:108–123. Returns the arrays, the size of the first
part. (The load sums passed to the recursive calls are not used by them.) -/
def buildMerge (off n : Int) (s : BState) : M (Arr Rec × Int) := do
  if s.vel0sum ≥ s.vel1sum then do
    let ver0nbr := n - s.ver0num - 1
    let ver1nbr := n - ver0nbr
    let velo ← move s.velo off s.velo (off + ver1nbr) ver0nbr
    let velo ← move velo (off + ver0nbr) s.veso (off + ver0nbr) ver1nbr
    return (velo, ver0nbr)
  else do
    let ver0nbr := n - s.ver1num - 1
    let ver1nbr := n - ver0nbr
    let velo ← move s.velo off s.veso (off + ver1nbr) ver0nbr
    return (velo, ver0nbr)

/-- `archCmpltwArchBuild3` — arch_cmpltw.c:78–129. The loop on `vertnum` is decreasing: round `i` of the
model has `vertnum = n - 2 - i`. -/
def build3 : Nat → Int → Int → Arr Rec → Arr Rec → M (Arr Rec × Arr Rec)
  | 0, _, _, _, _ => .error .fuel
  | fuel + 1, off, n, velo, veso => do
    let last ← velo.rd (off + (n - 1))
    let s ← forUp 0 (n - 1) (⟨velo, veso, last.1, 0, n - 2, n - 1⟩ : BState)
      fun i s => buildStep off (n - 2 - i) s
    let (velo, ver0nbr) ← buildMerge off n s
    let ver1nbr := n - ver0nbr
    let (velo, veso) ← if ver0nbr > 2 then build3 fuel off ver0nbr velo s.veso else pure (velo, s.veso)
    if ver1nbr > 2 then build3 fuel (off + ver0nbr) ver1nbr velo veso else pure (velo, veso)

/-- `archCmpltwArchBuild2` — arch_cmpltw.c:131–155. `vesotab` is the content of the freshly allocated
work array. -/
def build2 (a : Arch) (vesotab : Int → Rec) : M Arch :=
  if a.vertnbr < 3 then return a
  else do
    let velo ← Sorting.sort Sorting.lt2asc2 32 a.velotab a.vertnbr
    let (velo, _) ← build3 (a.vertnbr.toNat + 1) 0 a.vertnbr velo ⟨0, a.vertnbr, vesotab⟩
    return { a with velotab := velo }

/-- `archCmpltwArchBuild` — arch_cmpltw.c:157–205; `none` is the error return. `junk` gives the
content of freshly allocated memory. -/
def build (vertnbr : Int) (velotab : Arr Int) (junk : Int → Rec) : M (Option Arch) :=
  if vertnbr ≤ 0 then return none
  else do
    let r ← forUpB 0 vertnbr ((⟨0, vertnbr, junk⟩ : Arr Rec), (0 : Int))
      fun vertnum (s : Arr Rec × Int) => do
        let veloval ← velotab.rd vertnum
        if veloval ≤ 0 then return .brk ()
        else do
          let t ← s.1.wr vertnum (veloval, vertnum)
          return .next (t, s.2 + veloval)
    match r with
    | .brk () => return none
    | .next (t, sum) => do
      let a ← build2 ⟨vertnbr, t, sum⟩ junk
      return some a

/-- `archCmpltwDomNum` — arch_cmpltw.c:356–362. -/
def num (a : Arch) (d : Dom) : M Int := do
  let r ← a.velotab.rd d.vertmin
  return r.2

/-- `archCmpltwDomTerm` — arch_cmpltw.c:373–401. -/
def term (a : Arch) (domnnum : Int) : M (Option Dom) :=
  if domnnum < a.vertnbr then do
    let r ← forUpB 0 a.vertnbr () fun vertnum _ => do
      let r ← a.velotab.rd vertnum
      if r.2 = domnnum then return .brk vertnum else return .next ()
    let vertnum := match r with | .brk v => v | .next _ => max 0 a.vertnbr
    let r ← a.velotab.rd vertnum
    return some ⟨vertnum, 1, r.1⟩
  else return none

/-- `archCmpltwDomSize` — arch_cmpltw.c:407–413. -/
def size (d : Dom) : M Int := return d.vertnbr

/-- `archCmpltwDomWght` — arch_cmpltw.c:419–425. -/
def wght (d : Dom) : M Int := return d.veloval

/-- `archCmpltwDomDist` — arch_cmpltw.c:432–440. -/
def dist (d0 d1 : Dom) : M Int :=
  return if d0.vertmin = d1.vertmin ∧ d0.vertnbr = d1.vertnbr then 0 else 1

/-- `archCmpltwDomFrst` — arch_cmpltw.c:450–460. -/
def frst (a : Arch) : M Dom := return ⟨0, a.vertnbr, a.velosum⟩

/-- Loop of `archCmpltwDomBipart` — arch_cmpltw.c:549–556. State: `vertnum`, `velosum1`. -/
def bipartLoop (a : Arch) (vertmin velosum2 : Int) (fuel : Nat) (vertnum velosum1 : Int) : M (Int × Int) :=
  loopM (fun (s : Int × Int) => do
    if s.1 > vertmin then do
      let r ← a.velotab.rd s.1
      let velotmp := s.2 + r.1
      if velotmp > velosum2 then return .brk s else return .next (s.1 - 1, velotmp)
    else return .brk s) fuel (vertnum, velosum1)

/-- `archCmpltwDomBipart` — arch_cmpltw.c:532–566. -/
def bipart (a : Arch) (d : Dom) : M (Option (Dom × Dom)) :=
  if d.vertnbr ≤ 1 then return none
  else do
    let vertnum := d.vertmin + d.vertnbr - 1
    let r ← a.velotab.rd vertnum
    let (vertnum, velosum1) ← bipartLoop a d.vertmin (d.veloval.tdiv 2) (d.vertnbr.toNat + 1) (vertnum - 1) r.1
    let m1 := vertnum + 1
    let n0 := m1 - d.vertmin
    return some (⟨d.vertmin, n0, d.veloval - velosum1⟩, ⟨m1, d.vertnbr - n0, velosum1⟩)

/-- `archCmpltwDomIncl` — arch_cmpltw.c:576–587. -/
def incl (d0 d1 : Dom) : M Bool :=
  return decide (d1.vertmin ≥ d0.vertmin ∧ d1.vertmin + d1.vertnbr ≤ d0.vertmin + d0.vertnbr)

/-- The class, for a given architecture. -/
def ops (a : Arch) : ArchOps Dom where
  num := num a
  term := term a
  size := size
  wght := wght
  dist := dist
  frst := frst a
  bipart := bipart a
  incl := incl

end Cmpltw

/-! ## Hypercubes — src/libscotch/arch_hcub.c -/

namespace Hcub

/-- `ArchHcubDom` — src/libscotch/arch_hcub.h. `bitsset` is a bit set, modelled as a natural. -/
structure Dom where
  dimncur : Nat
  bitsset : Nat
  deriving DecidableEq, Repr

/-- `1 << k` on `int` operands of 32 bits: undefined unless the result is an `int`. -/
def shl1 (k : Nat) : M Int := if k ≤ 30 then .ok (2 ^ k) else .error .shift

/-- Acceptance test of `archHcubArchLoad` — arch_hcub.c:104–109, for `Anum` of `w` bits. -/
def archAccepts (w : Nat) (dimnnbr : Int) : Bool := decide (1 ≤ dimnnbr ∧ dimnnbr ≤ w)

/-- `archHcubDomNum` — arch_hcub.c:220–226. -/
def num (d : Dom) : M Int := return d.bitsset

/-- `archHcubDomTerm` — arch_hcub.c:236–250. Simplification: a negative number, which the C code
accepts, gives the domain of its absolute value; no theorem uses negative numbers. -/
def term (dimnnbr : Nat) (domnnum : Int) : M (Option Dom) := do
  let n ← shl1 dimnnbr
  if domnnum < n then return some ⟨0, domnnum.natAbs⟩ else return none

/-- `archHcubDomSize` — arch_hcub.c:256–262 (`archHcubDomWght` is the same routine). -/
def size (d : Dom) : M Int := shl1 d.dimncur

/-- Number of ones among the `i` low order bits of `k` — loop of arch_hcub.c:286–289. -/
def onesLoop : Nat → Nat → Nat → Nat
  | 0, _, j => j
  | i + 1, k, j => onesLoop i (k >>> 1) (j + (k &&& 1))

/-- `archHcubDomDist` — arch_hcub.c:268–292. -/
def dist (dimnnbr : Nat) (d0 d1 : Dom) : M Int :=
  let i := if d0.dimncur > d1.dimncur then d0.dimncur else d1.dimncur
  let j := if d0.dimncur > d1.dimncur then i - d1.dimncur else i - d0.dimncur
  return (onesLoop (dimnnbr - i) ((d0.bitsset ^^^ d1.bitsset) >>> i) (j / 2) : Nat)

/-- `archHcubDomFrst` — arch_hcub.c:302–311. -/
def frst (dimnnbr : Nat) : M Dom := return ⟨dimnnbr, 0⟩

/-- `archHcubDomBipart` — arch_hcub.c:367–383. -/
def bipart (d : Dom) : M (Option (Dom × Dom)) :=
  if d.dimncur = 0 then return none
  else do
    let b ← shl1 (d.dimncur - 1)
    return some (⟨d.dimncur - 1, d.bitsset⟩, ⟨d.dimncur - 1, d.bitsset ||| b.toNat⟩)

/-- `archHcubDomIncl` — arch_hcub.c:393–404. -/
def incl (d0 d1 : Dom) : M Bool :=
  return decide (d0.dimncur ≥ d1.dimncur ∧ (d0.bitsset ^^^ d1.bitsset) >>> d0.dimncur = 0)

/-- The class, for an architecture of `dimnnbr` dimensions. -/
def ops (dimnnbr : Nat) : ArchOps Dom where
  num := num
  term := term dimnnbr
  size := size
  wght := size
  dist := dist dimnnbr
  frst := frst dimnnbr
  bipart := bipart
  incl := incl

end Hcub

/-! ## Tree-leaf architectures — src/libscotch/arch_tleaf.c -/

namespace Tleaf

/-- `ArchTleaf` — src/libscotch/arch_tleaf.h:81–89 (the permutation fields are those of labelled
architectures). -/
structure Arch where
  termnbr : Int
  levlnbr : Int
  sizetab : Arr Int
  linktab : Arr Int
  permnbr : Int
  permtab : Arr Int
  peritab : Arr Int

/-- `ArchTleafDom` — arch_tleaf.h:91–95. -/
structure Dom where
  levlnum : Int
  indxmin : Int
  indxnbr : Int
  deriving DecidableEq, Repr

/-- Product of the sizes of the levels from `levlnum` on — arch_tleaf.c:373–375, 424–426, 794–796. -/
def sizeFrom (a : Arch) (levlnum : Int) : M Int :=
  forUp levlnum a.levlnbr 1 fun l sizeval => do return sizeval * (← a.sizetab.rd l)

/-- `archTleafDomNum` — arch_tleaf.c:365–378. -/
def num (a : Arch) (d : Dom) : M Int := do
  let sizeval ← sizeFrom a d.levlnum
  return d.indxmin * sizeval

/-- `archTleafDomTerm` — arch_tleaf.c:388–410. -/
def term (a : Arch) (domnnum : Int) : M (Option Dom) :=
  if domnnum < a.termnbr then return some ⟨a.levlnbr, domnnum, 1⟩ else return none

/-- `archTleafDomSize` — arch_tleaf.c:416–429 (`archTleafDomWght` is the same routine). -/
def size (a : Arch) (d : Dom) : M Int := do
  let sizeval ← sizeFrom a d.levlnum
  return sizeval * d.indxnbr

/-- Integer division of C, on an array element that may be zero. -/
def cdiv (x y : Int) : M Int := if y = 0 then .error .divZero else .ok (x.tdiv y)

/-- The `do … while (lev > target)` loops of arch_tleaf.c:464–468 and 472–476 (`distval` is accumulated),
entered with `lev > target`. State: level, index, distance. -/
def climb (a : Arch) (target : Int) (fuel : Nat) (lev idx distval : Int) : M (Int × Int × Int) :=
  loopM (fun (s : Int × Int × Int) => do
    let lev := s.1 - 1
    let idx ← cdiv s.2.1 (← a.sizetab.rd lev)
    let distval := s.2.2 + (← a.linktab.rd lev)
    if lev > target then return .next (lev, idx, distval) else return .brk (lev, idx, distval))
    fuel (lev, idx, distval)

/-- Last loop of `archTleafDomDist` — arch_tleaf.c:489–500. State: level, both indices, distance. -/
def climb2 (a : Arch) (fuel : Nat) (lev idx0 idx1 distval : Int) : M Int :=
  loopM (fun (s : Int × Int × Int × Int) => do
    let lev := s.1 - 1
    let size ← a.sizetab.rd lev
    let idx0 ← cdiv s.2.1 size
    let idx1 ← cdiv s.2.2.1 size
    let distval := s.2.2.2 + (← a.linktab.rd lev)
    if idx0 ≠ idx1 then return .next (lev, idx0, idx1, distval) else return .brk distval)
    fuel (lev, idx0, idx1, distval)

/-- End of `archTleafDomDist`, once the levels are the same — arch_tleaf.c:480–502. -/
def distSame (a : Arch) (lev idx0min idx0nbr idx1min idx1nbr distval : Int) : M Int :=
  if (if idx0min ≤ idx1min then idx0min + idx0nbr ≥ idx1min + idx1nbr
      else idx0min + idx0nbr ≤ idx1min + idx1nbr) then
    return distval.tdiv 2
  else climb2 a (lev.toNat + 1) lev idx0min idx1min distval

/-- `archTleafDomDist` — arch_tleaf.c:436–503. -/
def dist (a : Arch) (d0 d1 : Dom) : M Int :=
  if d0.levlnum > d1.levlnum then do
    let (lev, idx, dv) ← climb a d1.levlnum (d0.levlnum.toNat + 1) d0.levlnum d0.indxmin 0
    distSame a lev idx 1 d1.indxmin d1.indxnbr dv
  else if d0.levlnum < d1.levlnum then do
    let (_, idx, dv) ← climb a d0.levlnum (d1.levlnum.toNat + 1) d1.levlnum d1.indxmin 0
    distSame a d0.levlnum d0.indxmin d0.indxnbr idx 1 dv
  else distSame a d0.levlnum d0.indxmin d0.indxnbr d1.indxmin d1.indxnbr 0

/-- `archTleafDomFrst` — arch_tleaf.c:513–523. -/
def frst : M Dom := return ⟨0, 0, 1⟩

/-- Level, first index and number of indices to share out — arch_tleaf.c:591–607. -/
def bipartRange (a : Arch) (d : Dom) : M (Option (Int × Int × Int)) :=
  if d.indxnbr ≤ 1 then
    if d.levlnum ≥ a.levlnbr then return none
    else do
      let sizeval ← a.sizetab.rd d.levlnum
      return some (d.levlnum + 1, d.indxmin * sizeval, sizeval)
  else return some (d.levlnum, d.indxmin, d.indxnbr)

/-- `archTleafDomBipart` — arch_tleaf.c:582–614. -/
def bipart (a : Arch) (d : Dom) : M (Option (Dom × Dom)) := do
  match ← bipartRange a d with
  | none => return none
  | some (levl, indxmin, sizeval) =>
    let n0 := (sizeval + 1) / 2
    return some (⟨levl, indxmin, n0⟩, ⟨levl, indxmin + n0, sizeval - n0⟩)

/-- The loop of `archTleafDomIncl` — arch_tleaf.c:649–652. State: level, index. -/
def climbIncl (a : Arch) (target : Int) (fuel : Nat) (lev idx : Int) : M Int :=
  loopM (fun (s : Int × Int) => do
    let lev := s.1 - 1
    let idx ← cdiv s.2 (← a.sizetab.rd lev)
    if lev > target then return .next (lev, idx) else return .brk idx) fuel (lev, idx)

/-- Final test of `archTleafDomIncl` — arch_tleaf.c:658–659. -/
def overlap (idx0min idx0nbr idx1min idx1nbr : Int) : Bool :=
  !decide (idx0min ≥ idx1min + idx1nbr ∨ idx1min ≥ idx0min + idx0nbr)

/-- `archTleafDomIncl` — arch_tleaf.c:624–660. -/
def incl (a : Arch) (d0 d1 : Dom) : M Bool :=
  if d0.levlnum ≠ d1.levlnum then
    if d1.levlnum > d0.levlnum then do
      let idx1 ← climbIncl a d0.levlnum (d1.levlnum.toNat + 1) d1.levlnum d1.indxmin
      return overlap d0.indxmin d0.indxnbr idx1 1
    else return false
  else return overlap d0.indxmin d0.indxnbr d1.indxmin d1.indxnbr

/-- The class, for a given architecture. -/
def ops (a : Arch) : ArchOps Dom where
  num := num a
  term := term a
  size := size a
  wght := size a
  dist := dist a
  frst := frst
  bipart := bipart a
  incl := incl a

/-- `archLtleafDomNum` — arch_tleaf.c:784–802. -/
def numL (a : Arch) (d : Dom) : M Int := do
  let sizeval ← sizeFrom a d.levlnum
  let domnnum := d.indxmin * sizeval
  if a.permnbr = 0 then .error .divZero
  else do
    let permnum := domnnum.tmod a.permnbr
    return domnnum - permnum + (← a.permtab.rd permnum)

/-- `archLtleafDomTerm` — arch_tleaf.c:812–838. -/
def termL (a : Arch) (domnnum : Int) : M (Option Dom) :=
  if domnnum < a.termnbr then
    if a.permnbr = 0 then .error .divZero
    else do
      let permnum := domnnum.tmod a.permnbr
      return some ⟨a.levlnbr, domnnum - permnum + (← a.peritab.rd permnum), 1⟩
  else return none

/-- Labelled tree-leaf class: all other routines are those of tree-leaf architectures —
arch_tleaf.h:141–158. -/
def opsL (a : Arch) : ArchOps Dom := { ops a with num := numL a, term := termL a }

end Tleaf

/-! ## Meshes and tori — src/libscotch/arch_mesh.c, src/libscotch/arch_torus.c

The array `c` of `ArchMeshX` and that of `ArchMeshXDom` are modelled as lists of length `dimnnbr`;
loops on dimensions become recursions on lists. -/

namespace Mesh

/-- Domain: for each dimension, first and last coordinates — `ArchMeshXDom`,
src/libscotch/arch_mesh.h:90–92. -/
abbrev Dom := List (Int × Int)

/-- C remainder and division by an array element. -/
def cmod (x y : Int) : M Int := if y = 0 then .error .divZero else .ok (x.tmod y)
def cdiv (x y : Int) : M Int := if y = 0 then .error .divZero else .ok (x.tdiv y)

/-- `archMeshXDomNum` — arch_mesh.c:837–849. With no dimension, the C code reads `c[-1]`. -/
def numX : List Int → Dom → M Int
  | [_], [d] => return d.1
  | c :: cs, d :: ds => do
    let n ← numX cs ds
    return n * c + d.1
  | _, _ => .error .oob

/-- Loop of `archMeshXDomTerm` — arch_mesh.c:868–872: domain and remaining quotient. -/
def termLoop : List Int → Int → M (Dom × Int)
  | [], t => return ([], t)
  | c :: cs, t => do
    let m ← cmod t c
    let q ← cdiv t c
    let (d, r) ← termLoop cs q
    return ((m, m) :: d, r)

/-- `archMeshXDomTerm` — arch_mesh.c:859–878. -/
def termX (cs : List Int) (domnnum : Int) : M (Option Dom) := do
  let (d, t) ← termLoop cs domnnum
  if t > 0 then return none else return some d

/-- `archMeshXDomSize` — arch_mesh.c:884–896. -/
def sizeX (d : Dom) : M Int := return d.foldl (fun s p => s * (p.2 - p.1 + 1)) 1

/-- Distance along one dimension, doubled, with wrap-around — arch_mesh.c:914–916, and
arch_torus.c:102–104, 172–174. `abs` takes `int` values, assumed to hold the difference. -/
def wrap (c : Int) (p q : Int × Int) : Int :=
  let disttmp : Int := (p.1 + p.2 - q.1 - q.2).natAbs
  if disttmp > c then 2 * c - disttmp else disttmp

/-- Sum over the dimensions. -/
def wrapSum : List Int → Dom → Dom → Int
  | c :: cs, p :: ps, q :: qs => wrap c p q + wrapSum cs ps qs
  | _, _, _ => 0

/-- `archMeshXDomDist` — arch_mesh.c:903–920; also `archTorusXDomDist`, arch_torus.c:160–178. -/
def distX (cs : List Int) (d0 d1 : Dom) : M Int := return wrapSum cs d0 d1 / 2

/-- `archMeshXDomFrst` — arch_mesh.c:930–943. -/
def frstX (cs : List Int) : M Dom := return cs.map fun c => (0, c - 1)

/-- State of the loop of `archMeshXDomBipart`: best architecture size, best domain size, chosen
dimension, and whether some dimension is not trivial (`domndimflg != 0`). -/
structure Best where
  archmax : Int
  domnmax : Int
  dimval : Nat
  flg : Bool

/-- Body of the loop — arch_mesh.c:1034–1046. The `|=` of the sizes is modelled by its comparison to
zero. -/
def bestStep (c : Int) (p : Int × Int) (k : Nat) (b : Best) : Best :=
  let s := p.2 - p.1
  let b := { b with flg := b.flg || decide (s ≠ 0) }
  if s < b.domnmax then b
  else if s = b.domnmax ∧ c ≤ b.archmax then b
  else { b with archmax := c, domnmax := s, dimval := k }

/-- Loop on decreasing dimensions — arch_mesh.c:1022–1047; `k` is the number of the first dimension of
the lists. -/
def bestDim : List Int → Dom → Nat → Best → Best
  | c :: cs, p :: ps, k, b => bestStep c p k (bestDim cs ps (k + 1) b)
  | _, _, _, b => b

/-- Split of the dimension `k` of the domain at its middle — arch_mesh.c:1052–1054 (and 256–271,
541–576): the two domains differ in this dimension only. -/
def splitAt : Dom → Nat → Dom × Dom
  | [], _ => ([], [])
  | p :: ps, 0 =>
    let m := (p.1 + p.2).tdiv 2
    ((p.1, m) :: ps, (m + 1, p.2) :: ps)
  | p :: ps, k + 1 => (p :: (splitAt ps k).1, p :: (splitAt ps k).2)

/-- `archMeshXDomBipart` — arch_mesh.c:1008–1057. -/
def bipartX (cs : List Int) (d : Dom) : M (Option (Dom × Dom)) :=
  let b := bestDim cs d 0 ⟨0, -1, cs.length - 1, false⟩
  if b.flg = false then return none else return some (splitAt d b.dimval)

/-- `archMeshXDomIncl` — arch_mesh.c:1067–1082. -/
def inclX (d0 d1 : Dom) : M Bool :=
  return (d0.zip d1).all fun pq => decide (¬ (pq.2.1 < pq.1.1 ∨ pq.2.2 > pq.1.2))

/-- Multi-dimensional meshes (class `meshXD`). -/
def opsX (cs : List Int) : ArchOps Dom where
  num := numX cs
  term := termX cs
  size := sizeX
  wght := sizeX
  dist := distX cs
  frst := frstX cs
  bipart := bipartX cs
  incl := inclX

/-! ### Two-dimensional meshes -/

/-- `archMesh2DomNum` — arch_mesh.c:162–168. -/
def num2 (c0 _c1 : Int) : Dom → M Int
  | [p0, p1] => return p1.1 * c0 + p0.1
  | _ => .error .oob

/-- `archMesh2DomTerm` — arch_mesh.c:178–194. -/
def term2 (c0 c1 domnum : Int) : M (Option Dom) :=
  if domnum < c0 * c1 then do
    let x ← cmod domnum c0
    let y ← cdiv domnum c0
    return some [(x, x), (y, y)]
  else return none

/-- `archMesh2DomSize` — arch_mesh.c:200–207. -/
def size2 : Dom → M Int
  | [p0, p1] => return (p0.2 - p0.1 + 1) * (p1.2 - p1.1 + 1)
  | _ => .error .oob

/-- Distance between centres along one dimension — arch_mesh.c:221–222. -/
def centre (p q : Int × Int) : Int := (((p.1 + p.2 - q.1 - q.2).natAbs : Int) + 1).tdiv 2

/-- `archMesh2DomDist` — arch_mesh.c:215–225. -/
def dist2 : Dom → Dom → M Int
  | [p0, p1], [q0, q1] => return centre p0 q0 + centre p1 q1
  | _, _ => .error .oob

/-- Dimension to split — arch_mesh.c:251–254. -/
def dim2 (c0 c1 s0 s1 : Int) : Nat := if s0 > s1 ∨ (s0 = s1 ∧ c0 > c1) then 0 else 1

/-- `archMesh2DomBipart` — arch_mesh.c:235–274. `x | y == 0` is `x = 0 ∧ y = 0`. -/
def bipart2 (c0 c1 : Int) : Dom → M (Option (Dom × Dom))
  | [p0, p1] =>
    let s0 := p0.2 - p0.1
    let s1 := p1.2 - p1.1
    if s0 = 0 ∧ s1 = 0 then return none
    else return some (splitAt [p0, p1] (dim2 c0 c1 s0 s1))
  | _ => .error .oob

/-- `archMesh2DomIncl` — arch_mesh.c:347–360. -/
def incl2 : Dom → Dom → M Bool
  | [p0, p1], [q0, q1] =>
    return decide (p0.1 ≤ q0.1 ∧ p0.2 ≥ q0.2 ∧ p1.1 ≤ q1.1 ∧ p1.2 ≥ q1.2)
  | _, _ => .error .oob

/-- Two-dimensional meshes (class `mesh2D`). -/
def ops2 (c0 c1 : Int) : ArchOps Dom where
  num := num2 c0 c1
  term := term2 c0 c1
  size := size2
  wght := size2
  dist := dist2
  frst := frstX [c0, c1]
  bipart := bipart2 c0 c1
  incl := incl2

/-! ### Three-dimensional meshes -/

/-- `archMesh3DomNum` — arch_mesh.c:434–442. -/
def num3 (c0 c1 _c2 : Int) : Dom → M Int
  | [p0, p1, p2] => return (p2.1 * c1 + p1.1) * c0 + p0.1
  | _ => .error .oob

/-- `archMesh3DomTerm` — arch_mesh.c:452–470. -/
def term3 (c0 c1 c2 domnum : Int) : M (Option Dom) :=
  if domnum < c0 * c1 * c2 then do
    let x ← cmod domnum c0
    let q ← cdiv domnum c0
    let y ← cmod q c1
    let z ← cdiv domnum (c0 * c1)
    return some [(x, x), (y, y), (z, z)]
  else return none

/-- `archMesh3DomSize` — arch_mesh.c:476–484. -/
def size3 : Dom → M Int
  | [p0, p1, p2] => return (p0.2 - p0.1 + 1) * (p1.2 - p1.1 + 1) * (p2.2 - p2.1 + 1)
  | _ => .error .oob

/-- `archMesh3DomDist` — arch_mesh.c:491–503. -/
def dist3 : Dom → Dom → M Int
  | [p0, p1, p2], [q0, q1, q2] => return centre p0 q0 + centre p1 q1 + centre p2 q2
  | _, _ => .error .oob

/-- Selection of a size by its index. -/
def sel (s0 s1 s2 : Int) (k : Nat) : Int := if k = 0 then s0 else if k = 1 then s1 else s2

/-- Dimension to split — arch_mesh.c:531–539. -/
def dim3 (c0 c1 c2 s0 s1 s2 : Int) : Nat :=
  let v := if c1 > c0 then 1 else 0
  let v := if c2 > sel c0 c1 c2 v then 2 else v
  let t := v
  let v := if sel s0 s1 s2 ((t + 1) % 3) > sel s0 s1 s2 v then (t + 1) % 3 else v
  if sel s0 s1 s2 ((t + 2) % 3) > sel s0 s1 s2 v then (t + 2) % 3 else v

/-- `archMesh3DomBipart` — arch_mesh.c:513–579. -/
def bipart3 (c0 c1 c2 : Int) : Dom → M (Option (Dom × Dom))
  | [p0, p1, p2] =>
    let s0 := p0.2 - p0.1
    let s1 := p1.2 - p1.1
    let s2 := p2.2 - p2.1
    if s0 = 0 ∧ s1 = 0 ∧ s2 = 0 then return none
    else return some (splitAt [p0, p1, p2] (dim3 c0 c1 c2 s0 s1 s2))
  | _ => .error .oob

/-- `archMesh3DomIncl` — arch_mesh.c:589–604. -/
def incl3 : Dom → Dom → M Bool
  | [p0, p1, p2], [q0, q1, q2] =>
    return decide (p0.1 ≤ q0.1 ∧ p0.2 ≥ q0.2 ∧ p1.1 ≤ q1.1 ∧ p1.2 ≥ q1.2 ∧ p2.1 ≤ q2.1 ∧ p2.2 ≥ q2.2)
  | _, _ => .error .oob

/-- Three-dimensional meshes (class `mesh3D`). -/
def ops3 (c0 c1 c2 : Int) : ArchOps Dom where
  num := num3 c0 c1 c2
  term := term3 c0 c1 c2
  size := size3
  wght := size3
  dist := dist3
  frst := frstX [c0, c1, c2]
  bipart := bipart3 c0 c1 c2
  incl := incl3

/-! ### Tori: same routines as meshes, but for distances — src/libscotch/arch_torus.h -/

/-- `archTorus2DomDist` — arch_torus.c:93–111. -/
def torusDist2 (c0 c1 : Int) : Dom → Dom → M Int
  | [p0, p1], [q0, q1] => return (wrap c0 p0 q0 + wrap c1 p1 q1) / 2
  | _, _ => .error .oob

/-- `archTorus3DomDist` — arch_torus.c:124–146. -/
def torusDist3 (c0 c1 c2 : Int) : Dom → Dom → M Int
  | [p0, p1, p2], [q0, q1, q2] => return (wrap c0 p0 q0 + wrap c1 p1 q1 + wrap c2 p2 q2) / 2
  | _, _ => .error .oob

/-- Two-dimensional tori (class `torus2D`). -/
def opsT2 (c0 c1 : Int) : ArchOps Dom := { ops2 c0 c1 with dist := torusDist2 c0 c1 }
/-- Three-dimensional tori (class `torus3D`). -/
def opsT3 (c0 c1 c2 : Int) : ArchOps Dom := { ops3 c0 c1 c2 with dist := torusDist3 c0 c1 c2 }
/-- Multi-dimensional tori (class `torusXD`). -/
def opsTX (cs : List Int) : ArchOps Dom := { opsX cs with dist := distX cs }

end Mesh

/-! ## Variable-sized classes — src/libscotch/arch_vcmplt.c, src/libscotch/arch_vhcub.c -/

namespace Var

/-- `ArchVcmpltDom` and `ArchVhcubDom`: level in the tree of domains, number in this tree. -/
structure Dom where
  termlvl : Nat
  termnum : Nat
  deriving DecidableEq, Repr

/-- `for (termnum = domnum, termlvl = 0; termnum > 1; termnum >>= 1, termlvl ++) ;` —
arch_vcmplt.c:124, arch_vhcub.c:106. The fuel is the number itself. -/
def level : Nat → Nat → Nat → Nat
  | 0, _, l => l
  | f + 1, t, l => if t > 1 then level f (t >>> 1) (l + 1) else l

/-- `archVcmpltDomNum` — arch_vcmplt.c:94–100; `archVhcubDomNum`. -/
def num (d : Dom) : M Int := return d.termnum

/-- `archVcmpltDomTerm` — arch_vcmplt.c:110–131; `archVhcubDomTerm`, arch_vhcub.c:92–113. Negative
numbers other than `ARCHDOMNOTTERM` (−1) are not modelled. -/
def term (domnum : Nat) : M (Option Dom) :=
  if domnum = 0 then return none else return some ⟨level domnum domnum 0, domnum⟩

/-- `archVcmpltDomDist` — arch_vcmplt.c:149–156. -/
def distC (d0 d1 : Dom) : M Int := return if d0.termnum = d1.termnum then 0 else 1

/-- `for (dom0num ^= dom1num; dom0num != 0; distval += (dom0num & 1), dom0num >>= 1) ;` —
arch_vhcub.c:152–153; the fuel is the number itself. -/
def ones : Nat → Nat → Nat → Nat
  | 0, _, d => d
  | f + 1, n, d => if n ≠ 0 then ones f (n >>> 1) (d + (n &&& 1)) else d

/-- `archVhcubDomDist` — arch_vhcub.c:131–156. -/
def distH (d0 d1 : Dom) : M Int :=
  let n0 := if d0.termlvl > d1.termlvl then d0.termnum >>> (d0.termlvl - d1.termlvl) else d0.termnum
  let n1 := if d0.termlvl > d1.termlvl then d1.termnum else d1.termnum >>> (d1.termlvl - d0.termlvl)
  let dv := if d0.termlvl > d1.termlvl then (d0.termlvl - d1.termlvl) >>> 1
            else (d1.termlvl - d0.termlvl) >>> 1
  return (ones (n0 ^^^ n1) (n0 ^^^ n1) dv : Nat)

/-- `archVcmpltDomFrst` — arch_vcmplt.c:166–175. -/
def frst : M Dom := return ⟨0, 1⟩

/-- `archVcmpltDomBipart` — arch_vcmplt.c:234–247; `archVhcubDomBipart`, arch_vhcub.c:234–247.
`numMax` is the largest `Anum`: beyond it, `<<` overflows, which is undefined (the test of line 246
comes too late). -/
def bipart (numMax : Nat) (d : Dom) : M (Option (Dom × Dom)) :=
  if d.termnum <<< 1 > numMax then .error .overflow
  else if d.termnum <<< 1 + 1 > numMax then .error .overflow
  else return some (⟨d.termlvl + 1, d.termnum <<< 1⟩, ⟨d.termlvl + 1, d.termnum <<< 1 + 1⟩)

/-- `archVcmpltDomIncl` — arch_vcmplt.c:257–268. -/
def incl (d0 d1 : Dom) : M Bool :=
  return decide (d1.termlvl ≥ d0.termlvl ∧ d1.termnum >>> (d1.termlvl - d0.termlvl) = d0.termnum)

end Var

end Scotch.Arch
