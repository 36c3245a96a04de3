import Verif.Base
import Verif.TextIO.Model

/-!
# Option values of contexts: model

src/libscotch/common_values.c, src/libscotch/context.c and the option routines of src/libscotch/library_context.c.
Data structures are memory blocks of a heap, designated by their address: contexts start by sharing the block of default
values. Values of type `double` are those of an arbitrary type `D`, with the test `==` of the C language as a parameter
(it is not equality: −0 == 0, and a NaN is not equal to itself).
-/

set_option autoImplicit false

namespace Scotch.Ctx

variable {D : Type}

/-- A data structure: the array of `INT` values and the array of `double` values — context.c:58–73. -/
structure Block (D : Type) where
  vint : Arr Int
  vdbl : Arr D

/-- `ValuesContext` — src/libscotch/common_values.h:53–61. Offsets in the data structure are replaced by the names of
the two arrays. -/
structure Values where
  dainptr : Nat
  dataptr : Nat
  vintnbr : Int
  vdblnbr : Int

/-- Memory: a block that has not been allocated or that has been freed is `none`. `next` is the address of
the next block to be allocated, and `ctxs` gives the contexts, designated by numbers. -/
structure World (D : Type) where
  mem : Nat → Option (Block D)
  next : Nat
  ctxs : Nat → Option Values

/-- Access to a block. -/
def World.blk (w : World D) (p : Nat) : M (Block D) :=
  match w.mem p with
  | none => .error .oob
  | some b => .ok b

/-- Access to a context. -/
def World.ctx (w : World D) (c : Nat) : M Values :=
  match w.ctxs c with
  | none => .error .null
  | some v => .ok v

/-- Replacement of a block. -/
def World.put (w : World D) (p : Nat) (b : Option (Block D)) : World D :=
  { w with mem := fun q => if q = p then b else w.mem q }

/-- Replacement of a context. -/
def World.putCtx (w : World D) (c : Nat) (v : Option Values) : World D :=
  { w with ctxs := fun d => if d = c then v else w.ctxs d }

/-- `contextValuesInit` — common_values.c:69–99, called by `contextOptionsInit` — context.c:87–94 and
`SCOTCH_contextInit` — library_context.c:100–119. `p` is the address of the default values. -/
def init (w : World D) (c p : Nat) (vintnbr vdblnbr : Int) : World D :=
  w.putCtx c (some ⟨p, p, vintnbr, vdblnbr⟩)

/-- `contextValuesGetInt` — common_values.c:125–141. `none` is the error code. -/
def getInt (w : World D) (c : Nat) (valunum : Int) : M (Option Int) := do
  let v ← w.ctx c
  if valunum < 0 ∨ valunum ≥ v.vintnbr then return none
  else do
    let b ← w.blk v.dataptr
    return some (← b.vint.rd valunum)

/-- `contextValuesGetDbl` — common_values.c:107–123. -/
def getDbl (w : World D) (c : Nat) (valunum : Int) : M (Option D) := do
  let v ← w.ctx c
  if valunum < 0 ∨ valunum ≥ v.vdblnbr then return none
  else do
    let b ← w.blk v.dataptr
    return some (← b.vdbl.rd valunum)

/-- `contextValuesAllocate` — common_values.c:149–167. Allocation succeeds. -/
def allocate (w : World D) (c : Nat) : M (World D) := do
  let v ← w.ctx c
  if v.dataptr = v.dainptr then do
    let b ← w.blk v.dainptr
    let w := w.put w.next (some b)
    return { w with next := w.next + 1 }.putCtx c (some { v with dataptr := w.next })
  else return w

/-- End of `contextValuesSetInt` — common_values.c:205–208. -/
def storeInt (w : World D) (c : Nat) (valunum vintval : Int) : M (World D) := do
  let w ← allocate w c
  let v ← w.ctx c
  let b ← w.blk v.dataptr
  let a ← b.vint.wr valunum vintval
  return w.put v.dataptr (some { b with vint := a })

/-- `contextValuesSetInt` — common_values.c:190–211: error code and new state. -/
def setInt (w : World D) (c : Nat) (valunum vintval : Int) : M (Int × World D) := do
  let v ← w.ctx c
  if valunum < 0 ∨ valunum ≥ v.vintnbr then return (1, w)
  else do
    let b ← w.blk v.dataptr
    if (← b.vint.rd valunum) = vintval then return (0, w)
    else do return (0, ← storeInt w c valunum vintval)

/-- End of `contextValuesSetDbl` — common_values.c:182–185. -/
def storeDbl (w : World D) (c : Nat) (valunum : Int) (vdblval : D) : M (World D) := do
  let w ← allocate w c
  let v ← w.ctx c
  let b ← w.blk v.dataptr
  let a ← b.vdbl.wr valunum vdblval
  return w.put v.dataptr (some { b with vdbl := a })

/-- `contextValuesSetDbl` — common_values.c:169–188. `eqD` is `==`. -/
def setDbl (eqD : D → D → Bool) (w : World D) (c : Nat) (valunum : Int) (vdblval : D) : M (Int × World D) := do
  let v ← w.ctx c
  if valunum < 0 ∨ valunum ≥ v.vdblnbr then return (1, w)
  else do
    let b ← w.blk v.dataptr
    if eqD (← b.vdbl.rd valunum) vdblval then return (0, w)
    else do return (0, ← storeDbl w c valunum vdblval)

/-- Part of `contextExit` that handles values — common_context.c:99–103. -/
def exit (w : World D) (c : Nat) : M (World D) := do
  let v ← w.ctx c
  if v.dataptr ≠ v.dainptr then do
    let _ ← w.blk v.dataptr
    return (w.put v.dataptr none).putCtx c none
  else return w.putCtx c none

/-! ## Library routines -/

/-- `CONTEXTOPTIONNUMDETERMINISTIC`, `CONTEXTOPTIONNUMRANDOMFIXEDSEED`, `CONTEXTOPTIONNUMNBR` — context.h:59–63. -/
def DETERMINISTIC : Int := 0
def RANDOMFIXEDSEED : Int := 1
def OPTIONNUMNBR : Int := 2

/-- `SCOTCH_contextOptionGetNum` — library_context.c:278–285. -/
def optionGetNum (w : World D) (c : Nat) (optinum : Int) : M (Option Int) := getInt w c optinum

/-- `SCOTCH_contextOptionSetNum` — library_context.c:294–324. Note the `switch` on the *value* of the option. -/
def optionSetNum (w : World D) (c : Nat) (optinum optival : Int) : M (Int × World D) :=
  if optival = RANDOMFIXEDSEED then do
    let optitmp := if optival ≠ 0 then 1 else optival
    setInt w c optinum optitmp
  else if optival = DETERMINISTIC then
    if optival ≠ 0 then do
      let (o, w) ← setInt w c RANDOMFIXEDSEED 1
      if o ≠ 0 then return (1, w) else setInt w c optinum 1
    else setInt w c optinum optival
  else return (1, w)

/-- `contextOptionTab` — library_context.c:334–339: characters `d`, `u`, `f`, `r`. -/
def optionOf (c : Int) : Option (Int × Int) :=
  if c = 100 then some (DETERMINISTIC, 1)
  else if c = 117 then some (DETERMINISTIC, 0)
  else if c = 102 then some (RANDOMFIXEDSEED, 1)
  else if c = 114 then some (RANDOMFIXEDSEED, 0)
  else none

/-- `isspace`. -/
def isSpace (c : Int) : Bool := c = 32 ∨ (9 ≤ c ∧ c ≤ 13)
/-- `isalpha`. -/
def isAlpha (c : Int) : Bool := (65 ≤ c ∧ c ≤ 90) ∨ (97 ≤ c ∧ c ≤ 122)

/-- `while (isspace (paraval = *paraptr)) paraptr ++` — library_context.c:352–353, 371–372: character and place. -/
def skip (str : Arr Int) (fuel : Nat) (p : Int) : M (Int × Int) :=
  loopM (fun p => do
    let ch ← str.rd p
    if isSpace ch then return .next (p + 1) else return .brk (ch, p)) fuel p

/-- Body of the loop of `SCOTCH_contextOptionParse` — library_context.c:348–377. State: place in the string, memory. -/
def parseStep (str : Arr Int) (fuel : Nat) (c : Nat) (s : Int × World D) : M (Loop (Int × World D) (Int × World D)) := do
  if (← str.rd s.1) = 0 then return .brk (0, s.2)
  else do
    let (ch, p) ← skip str fuel s.1
    if ¬ isAlpha ch then return .brk (1, s.2)
    else
      match optionOf ch with
      | none => return .brk (1, s.2)
      | some (num, val) => do
        let (_, w) ← optionSetNum s.2 c num val
        let (ch, p) ← skip str fuel (p + 1)
        if ch = 0 then return .brk (0, w)
        else if ch = 44 then return .next (p + 1, w)
        else return .next (p, w)

/-- `SCOTCH_contextOptionParse` — library_context.c:341–380. -/
def optionParse (w : World D) (c : Nat) (str : Arr Int) : M (Int × World D) :=
  loopM (parseStep str (str.hi.toNat + 1) c) (str.hi.toNat + 1) (0, w)

end Scotch.Ctx
