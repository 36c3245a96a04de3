import Verif.Base

/-!
# Gain tables: model

src/libscotch/gain.c and gain.h: bucket arrays of doubly linked lists, with linear or logarithmic indexing.

Pointers are modelled as `Ptr`: a table entry, a link, or the shared dummy link which ends all lists. Links are identified by their
address (an integer), so that `gainTablMove` can be expressed. Links are allocated by the caller: accesses to links are not checked; accesses to
table entries are. `GainEntr` and `GainLink` share their first field, `next`. The computation of `tabl + gain` by
`gainTablAddLin`, which may point out of the table (undefined in standard C), is done on integers.
Debug checks (`SCOTCH_DEBUG_GAIN*`) are off.
-/

set_option autoImplicit false

namespace Scotch.Gain

/-- Pointers to structures that hold a `next` field. -/
inductive Ptr where
  /-- `gainLinkDummy` -/
  | dummy
  /-- table entry, by index with respect to `tabk` -/
  | entr (i : Int)
  /-- link -/
  | link (l : Int)
  deriving DecidableEq, Repr

/-- `GainTabl`, gain.h:87–97, and contents of the links. Entry pointers are indices with respect to `tabk`. -/
structure Tabl where
  /-- `tablAdd == gainTablAddLog` -/
  logflag : Bool
  subbits : Int
  submask : Int
  totsize : Int
  tmin : Int
  tmax : Int
  tend : Int
  /-- index of `tabl` -/
  tabl : Int
  next : Ptr → Ptr
  prev : Ptr → Ptr
  /-- field `tabl` of links -/
  ltab : Int → Int

def GAIN_LINMAX : Int := 1024

def setF {α : Type} (f : Ptr → α) (p : Ptr) (v : α) : Ptr → α := fun q => if q = p then v else f q
def setI (f : Int → Int) (p v : Int) : Int → Int := fun q => if q = p then v else f q

/-- `gainTablInit`, gain.c:145–187; `w` is the number of bits of an `INT`. The contents of links are arbitrary. -/
def init (w : Nat) (gainmax : Int) (subbits : Nat) (next prev : Ptr → Ptr) (ltab : Int → Int) : Tabl :=
  let logflag := gainmax ≥ GAIN_LINMAX
  let totsize : Int := if logflag then ((w : Int) - subbits) * 2 ^ (subbits + 1) else 2 * GAIN_LINMAX
  { logflag := logflag
    subbits := if logflag then subbits else 0
    submask := if logflag then 2 ^ (subbits + 1) - 1 else 0
    totsize := totsize
    tabl := totsize / 2
    tend := totsize - 1
    tmin := totsize - 1
    tmax := 0
    next := fun p => match p with
      | .entr i => if 0 ≤ i ∧ i ≤ totsize - 1 then .dummy else next p
      | _ => next p
    prev := prev
    ltab := ltab }

/-- `gainTablFree`, gain.c:207–219. -/
def free (t : Tabl) : Tabl :=
  { t with
    next := fun p => match p with
      | .entr i => if t.tmin ≤ i ∧ i ≤ t.tmax then .dummy else t.next p
      | _ => t.next p
    tmin := t.tend
    tmax := 0 }

/-- Index of the entry, linear tables, gain.c:244–248. -/
def idxLin (t : Tabl) (gain : Int) : Int :=
  let entr := t.tabl + gain
  if entr < 0 then 0 else if entr > t.tend then t.tend else entr

/-- Loop of gain.c:287 and 291: number of shifts and remaining value. The fuel is the number of bits. -/
def shifts (submask : Int) : Nat → Int → Int → Int × Int
  | 0, i, j => (i, j)
  | fuel + 1, i, j => if j > submask then shifts submask fuel (i + 1) (j / 2) else (i, j)

/-- Index of the entry, logarithmic tables, gain.c:286–294. -/
def idxLog (w : Nat) (t : Tabl) (gain : Int) : Int :=
  if gain ≥ 0 then
    let r := shifts t.submask w 0 gain
    t.tabl + (r.1 * 2 ^ t.subbits.toNat + r.2)
  else
    let r := shifts t.submask w 0 (- (gain + 1))
    t.tabl + (- (r.1 * 2 ^ t.subbits.toNat + r.2 + 1))

/-- Insertion at the head of an entry, gain.c:250–260 and 296–315. -/
def addAt (t : Tabl) (l : Int) (e : Int) : M Tabl :=
  let tmin := if e < t.tmin then e else t.tmin
  let tmax := if e > t.tmax then e else t.tmax
  if 0 ≤ e ∧ e < t.totsize then
    let h := t.next (.entr e)
    .ok { t with
      tmin := tmin, tmax := tmax
      ltab := setI t.ltab l e
      prev := setF (setF t.prev h (.link l)) (.link l) (.entr e)
      next := setF (setF t.next (.link l) h) (.entr e) (.link l) }
  else .error .oob

/-- `gainTablAdd`: `gainTablAddLin`, gain.c:228–261, or `gainTablAddLog`, gain.c:270–316. -/
def add (w : Nat) (t : Tabl) (l : Int) (gain : Int) : M Tabl :=
  addAt t l (if t.logflag then idxLog w t gain else idxLin t gain)

/-- `gainTablDel`, gain.h:129–130. -/
def del (t : Tabl) (l : Int) : Tabl :=
  let nx := t.next (.link l)
  let prev := setF t.prev nx (t.prev (.link l))
  -- the second statement reads the fields again
  { t with prev := prev, next := setF t.next (prev (.link l)) nx }

/-- First entry that is not empty, from `e` on, among `k` entries. -/
def scan (t : Tabl) : Nat → Int → Option Int
  | 0, _ => none
  | k + 1, e => if t.next (.entr e) ≠ .dummy then some e else scan t k (e + 1)

/-- `gainTablFrst`, gain.c:355–388. -/
def frst (t : Tabl) : Tabl × Option Ptr :=
  if t.next (.entr t.tmin) ≠ .dummy then (t, some (t.next (.entr t.tmin)))
  else match scan t (t.tend - t.tmin).toNat (t.tmin + 1) with
    | some e => ({ t with tmin := e }, some (t.next (.entr e)))
    | none => ({ t with tmin := t.tend, tmax := 0 }, none)

/-- `gainTablNext`, gain.c:397–428. The bound of the loop is `entrptr < tablptr->tend`: the last entry is never considered. -/
def next (t : Tabl) (l : Int) : Option Ptr :=
  if t.next (.link l) ≠ .dummy then some (t.next (.link l))
  else match scan t (t.tend - (t.ltab l + 1)).toNat (t.ltab l + 1) with
    | some e => some (t.next (.entr e))
    | none => none

/-- Translation of a pointer to a link; the dummy link does not move. -/
def shiftP (d : Int) : Ptr → Ptr
  | .link l => .link (l + d)
  | p => p

/-- Inner loop of `gainTablMove`, gain.c:456–460, which starts on link `p`; the fuel is the length of the list. -/
def moveChain (d : Int) : Nat → Int → Tabl → Tabl
  | 0, _, t => t
  | k + 1, p, t =>
    match t.next (.link p) with
    | .link q =>
      moveChain d k (q + d) { t with
        next := setF t.next (.link p) (.link (q + d))
        prev := setF t.prev (.link (q + d)) (.link p) }
    | _ => t

/-- `gainTablMove`, gain.c:438–471, from entry `e`, `k` entries; `len` bounds the lengths of the lists. -/
def moveFrom (d : Int) (len : Nat) : Nat → Int → Tabl → Tabl
  | 0, _, t => t
  | k + 1, e, t =>
    match t.next (.entr e) with
    | .link l => moveFrom d len k (e + 1) (moveChain d len (l + d) { t with next := setF t.next (.entr e) (.link (l + d)) })
    | _ => moveFrom d len k (e + 1) t

def move (d : Int) (len : Nat) (t : Tabl) : Tabl := moveFrom d len (t.tmax - t.tmin + 1).toNat t.tmin t

/-- `gainTablEmpty`, gain.h:126. -/
def isEmpty (t : Tabl) : Bool := t.tmin == t.tend

end Scotch.Gain
