import Verif.Build.Model
import Verif.Fax.Model

/-!
# Interface of MUMPS: model

`esmumps` and `esmumpsv`, that is `esmumps2` — src/esmumps/esmumps.c:106–236, library_esmumps.c. The ordering of the graph (`orderGraph`) is an arbitrary function. Its return value is not used: when it fails, the ordering has
no column blocks. The return value of the symbolic factorization is not used either; it is 0 here since allocations are supposed to succeed. Permutations, which are only written for debugging, are not modelled.

Arrays are indexed from 1 (`nvtax`, `petax`), but for the parameters.
-/

set_option autoImplicit false

namespace Scotch.Esmumps
open Build Fax

/-- Ends of the adjacency lists — esmumps.c:136–137. -/
def emEnds (n : Int) (pe len : Arr Int) (junk : Int → Int) : M (Arr Int) :=
  forUp 0 n ⟨0, n, junk⟩ fun v a => do a.wr v ((← pe.rd v) + (← len.rd v))

/-- Rows of a block: their number, or the sum of their weights — esmumps.c:206, 213–215. -/
def emBlok (weighted : Bool) (peri nv : Arr Int) (b : Blok) (d : Int) : M Int :=
  if weighted then forUp b.frow (b.lrow + 1) d fun r d => do return d + (← nv.rd (← peri.rd r))
  else return d + (b.lrow - b.frow + 1)

/-- Number of rows of a column block — esmumps.c:203–217. Weights are read from the array that is being written: `velotab` is `nvtab`. -/
def emDegr (weighted : Bool) (S : Symbol) (peri nv : Arr Int) (b0 b1 : Int) : M Int :=
  forUp b0 b1 0 fun i d => do emBlok weighted peri nv (← S.blok.rd i) d

/-- Father of a column block — esmumps.c:219–221. -/
def emFath (S : Symbol) (peri : Arr Int) (b0 b1 : Int) : M Int := do
  if b0 = b1 - 1 then return 0
  else do
    let b ← S.blok.rd (b0 + 1)
    return - (← peri.rd (← S.cblk.rd b.cblk).fcol)

/-- Secondary variable — esmumps.c:225–226. -/
def emSecn (peri : Arr Int) (fcol j : Int) (s : Arr Int × Arr Int) : M (Arr Int × Arr Int) := do
  let nv ← s.2.wr (← peri.rd j) 0
  let pe ← s.1.wr (← peri.rd j) (- (← peri.rd fcol))
  return (pe, nv)

/-- Column block — esmumps.c:198–228. State: `petax` and `nvtax`. -/
def emCblk (weighted : Bool) (S : Symbol) (peri : Arr Int) (k : Int) (s : Arr Int × Arr Int) : M (Arr Int × Arr Int) := do
  let c ← S.cblk.rd k
  let n ← S.cblk.rd (k + 1)
  let d ← emDegr weighted S peri s.2 c.blok n.blok
  let p ← peri.rd c.fcol
  let nv ← s.2.wr p d
  let f ← emFath S peri c.blok n.blok
  let pe ← s.1.wr p f
  forUp (c.fcol + 1) (c.lcol + 1) (pe, nv) (emSecn peri c.fcol)

/-- What the environment provides: the ordering, memory contents, the number of bits of integers (less one), and memory available after the end of the array of blocks. -/
structure Env where
  order : Graph → M Order
  slack : Int
  bits : Nat
  junk : Int → Junk
  ends : Int → Int

/-- `esmumps2` — esmumps.c:106–236, for `esmumpsv` if `weighted`, else for `esmumps`. The result has `petab` and `nvtab`. -/
def esmumps2 (env : Env) (weighted : Bool) (n pfree : Int) (pe len iw nv : Arr Int) : M (Int × Arr Int × Arr Int) := do
  let ends ← emEnds n pe len env.ends
  let g ← graphBuild ⟨1, n, pe, some ends, if weighted then some nv else none, none, pfree - 1, iw, none⟩
  let o ← env.order g
  let S ← symbolFax env.slack env.bits env.junk g o
  let (pe, nv) ← forUp 1 (S.cblknbr + 1) (based 1 pe, based 1 nv) (emCblk weighted S o.peri)
  return (0, unbased 1 pe, unbased 1 nv)

end Scotch.Esmumps
