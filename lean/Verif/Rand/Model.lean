import Verif.Base
import Verif.TextIO.Model
import Verif.Sort.Model

/-!
# Pseudo-random generator, random permutation, block distribution, GCD

Model of src/libscotch/common_integer.c:140–470 and 585–612, and of the macros of
src/libscotch/common.h:501–502.  `w` is the number of bits of `INT` (32 or 64): `UINT` values are
naturals below `2^w`.
-/

namespace Scotch.Rand

open Scotch.Text

/-- `UINT64` -/
abbrev U64 := BitVec 64

/-- `IntRandState` — src/libscotch/common.h:283–285. -/
structure State where
  t0 : U64
  t1 : U64
  deriving DecidableEq, Repr

/-- `IntRandContext` — src/libscotch/common.h:289–294. `procval` is an `int`. -/
structure Ctx where
  flagval : Int
  procval : Int
  seedval : U64
  stat : State
  deriving DecidableEq, Repr

/-- `intRandProc` — common_integer.c:208–214. -/
def proc (c : Ctx) (p : Int) : Ctx := { c with procval := p }

/-- `intRandSeed2` — common_integer.c:222–235. The argument is a `UINT`, hence truncated to `w`
bits before it is widened again. -/
def seed2 (w : Nat) (randval : U64) : State :=
  let seedval : U64 := (BitVec.ofNat 64 (randval.toNat % 2 ^ w)) ||| 1#64
  ⟨seedval ^^^ (seedval <<< 15), seedval ^^^ (seedval <<< 24)⟩

/-- `intRandReset` — common_integer.c:237–247. `INT` truncation of the product happens in `seed2`. -/
def reset (w : Nat) (c : Ctx) : Ctx :=
  let randval := (c.seedval ||| 1#64) * (BitVec.ofInt 64 c.procval + 1#64)
  { c with flagval := 1, stat := seed2 w randval }

/-- `intRandSeed` — common_integer.c:249–256. The `INT` seed is converted to `UINT64`. -/
def seed (w : Nat) (c : Ctx) (seedval : Int) : Ctx :=
  reset w { c with seedval := BitVec.ofInt 64 seedval }

/-- Conversion `(INT) x` of a `UINT64`: two's complement value of the `w` low order bits. -/
def toINT (w : Nat) (x : U64) : Int :=
  let v := x.toNat % 2 ^ w
  if v < 2 ^ (w - 1) then v else (v : Int) - 2 ^ w

/-- `intRandSpawn` — common_integer.c:272–283: new generator, from the state of the old one. -/
def spawn (w : Nat) (old : Ctx) (procnum : Int) (new : Ctx) : Ctx :=
  seed w { new with procval := procnum } (toINT w old.stat.t0)

/-- `intRandInit` — common_integer.c:298–310. `now` is the value of `(INT) time (NULL)`. -/
def init (w : Nat) (now : Int) (c : Ctx) : Ctx :=
  if c.flagval = 0 then reset w { c with seedval := BitVec.ofInt 64 now } else c

/-- State update of `intRandVal3` — common_integer.c:424–435. -/
def stepState (s : State) : State :=
  let x := s.t0
  let y := s.t1
  let x := x ^^^ (x <<< 23)
  let x := x ^^^ y ^^^ (x >>> 17) ^^^ (y >>> 26)
  ⟨y, x⟩

/-- `intRandVal3` — common_integer.c:419–436: value `(UINT) (x + y)` and new state. -/
def val3 (w : Nat) (s : State) : Nat × State :=
  let s' := stepState s
  ((s'.t1 + s.t1).toNat % 2 ^ w, s')

/-- `intRandVal` — common_integer.c:445–458. -/
def val (w : Nat) (c : Ctx) (randmax : Nat) : M (Nat × Ctx) :=
  let (v, s) := val3 w c.stat
  if randmax = 0 then .error .divZero else .ok (v % randmax, { c with stat := s })

/-- `intRandVal2` — common_integer.c:460–465. -/
def val2 (w : Nat) (c : Ctx) : Nat × Ctx :=
  let (v, s) := val3 w c.stat
  (v, { c with stat := s })

/-! ## Saving and loading -/

/-- `intRandSave` and `intRandSave2` — common_integer.c:370–409. Returns the error code and the text
written: format `"1\n%d\t%lu\n"`, then `"%lu\t%lu\n"`. Output errors of the stream are not
modelled. -/
def save (c : Ctx) : Int × Stream :=
  if c.flagval = 0 then (1, [])
  else (0, [49, 10] ++ printInt c.procval ++ [9] ++ printNat c.seedval.toNat ++ [10]
        ++ printNat c.stat.t0.toNat ++ [9] ++ printNat c.stat.t1.toNat ++ [10])

/-- Skips white space, as conversions of `fscanf` do. -/
def skipSpace : Stream → Stream
  | [] => []
  | c :: r => if isspace c then skipSpace r else c :: r

/-- Value of the longest sequence of digits at the head of the stream. -/
def scanDigits : Stream → Nat → Nat × Stream
  | [], v => (v, [])
  | c :: r, v => if isdigit c then scanDigits r (v * 10 + (c - 48)) else (v, c :: r)

/-- Conversion `%d`/`%u` of `fscanf` (trusted C library): white space, optional sign, digits. `none`
if there is no number. -/
def scanNum (s : Stream) : Option (Int × Stream) :=
  match skipSpace s with
  | [] => none
  | c :: r =>
    let (neg, t) := if c = 45 then (true, r) else if c = 43 then (false, r) else (false, c :: r)
    match t with
    | [] => none
    | d :: _ =>
      if isdigit d then
        let (v, u) := scanDigits t 0
        some (if neg then - (v : Int) else v, u)
      else none

/-- `fscanf (stream, "%d", …)`: a number which is not an `int` is undefined behaviour. -/
def scanD (s : Stream) : M (Option (Int × Stream)) :=
  match scanNum s with
  | none => .ok none
  | some (v, r) => if -2 ^ 31 ≤ v ∧ v < 2 ^ 31 then .ok (some (v, r)) else .error .overflow

/-- `fscanf (stream, "%" PRIu64, …)`: a number whose absolute value exceeds 64 bits is undefined
behaviour; negative numbers wrap around. -/
def scanU64 (s : Stream) : M (Option (U64 × Stream)) :=
  match scanNum s with
  | none => .ok none
  | some (v, r) => if v.natAbs < 2 ^ 64 then .ok (some (BitVec.ofInt 64 v, r)) else .error .overflow

/-- Rest of `intRandLoad`, after the process number and the seed have been read —
common_integer.c:319–332 and 358–360. -/
def load2 (c : Ctx) (s : Stream) : M (Int × Ctx) := do
  match ← scanU64 s with
  | none => return (2, c)
  | some (t0, s) =>
    let c := { c with stat := { c.stat with t0 := t0 } }
    match ← scanU64 s with
    | none => return (2, c)
    | some (t1, _) => return (0, { c with stat := { c.stat with t1 := t1 } })

/-- `intRandLoad` — common_integer.c:334–361. -/
def load (intMax : Int) (c : Ctx) (s : Stream) : M (Int × Ctx) := do
  match ← intLoad intMax s with
  | (none, _) => return (2, c)
  | (some vers, s) =>
    if vers ≠ 1 then return (2, c)
    else
      match ← scanD s with
      | none => return (2, c)
      | some (p, s) =>
        let c := { c with procval := p }
        match ← scanU64 s with
        | none => return (2, c)
        | some (sd, s) => load2 { c with seedval := sd, flagval := 1 } s

/-! ## Random permutation -/

/-- `intAscn` — common_integer.c:147–160. The array is based. -/
def intAscn (permtax : Arr Int) (permnbr baseval : Int) : M (Arr Int) :=
  forUp baseval (baseval + permnbr) permtax fun permnum permtax => permtax.wr permnum permnum

/-- Loop of `intPerm` — common_integer.c:177–188; `permptr` is an index, `permrmn` the number of cells
that remain. -/
def intPermLoop (w : Nat) : Nat → Int → Arr Int → Ctx → M (Arr Int × Ctx)
  | 0, _, a, c => .ok (a, c)
  | permrmn + 1, permptr, a, c => do
    let (permnum, c) ← val w c (permrmn + 1)
    let a ← Sorting.swap a permptr (permptr + permnum)
    intPermLoop w permrmn (permptr + 1) a c

/-- `intPerm` — common_integer.c:168–189, on an array of `permnbr` cells of indices from 0. -/
def intPerm (w : Nat) (permtab : Arr Int) (permnbr : Nat) (c : Ctx) : M (Arr Int × Ctx) :=
  intPermLoop w permnbr 0 permtab c

/-! ## Block distribution -/

/-- C division (truncation towards zero), faulting on a zero divisor. -/
def cdiv (a b : Int) : M Int := if b = 0 then .error .divZero else .ok (a.tdiv b)
/-- C remainder. -/
def cmod (a b : Int) : M Int := if b = 0 then .error .divZero else .ok (a.tmod b)

/-- `DATASIZE (n, p, i)` — src/libscotch/common.h:501. -/
def dataSize (n p i : Int) : M Int := cdiv (n + (p - 1 - i)) p

/-- `DATASCAN (n, p, i)` — src/libscotch/common.h:502. -/
def dataScan (n p i : Int) : M Int := do
  let q ← cdiv n p
  let r ← cmod n p
  return i * q + (if i > r then r else i)

/-! ## Greatest common divisor -/

/-- Loop of `intGcd` — common_integer.c:605–609. -/
def gcdLoop : Nat → Int → Int → M Int :=
  fun fuel u v => loopM (fun (uv : Int × Int) =>
    if uv.2 ≠ 0 then return .next (uv.2, uv.1.tmod uv.2) else return .brk uv.1) fuel (u, v)

/-- `intGcd` — common_integer.c:592–612. Fuel: the second operand decreases at each round. -/
def intGcd (u v : Int) : M Int :=
  if v < u then gcdLoop (u.natAbs + 2) v u else gcdLoop (v.natAbs + 2) u v

end Scotch.Rand
