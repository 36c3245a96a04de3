import Verif.Base

/-!
# Fibonacci heaps: model

src/libscotch/fibo.c and fibo.h. Nodes are identified by their addresses (integers); `rootdat` is the address of the dummy node of the heap. Node structures belong to the
callers, which embed them in structures of their own: the model holds a total map for each of their fields. Pointers which may be null
(`pareptr`, `chldptr`, entries of `degrtab`) are options. The comparison routine is the comparison of integer keys. `degrmax` is `FIBO_DEGRMAX`, the
size of array `degrtab`; accesses to this array are checked. Debug checks are off.
-/

set_option autoImplicit false

namespace Scotch.Fibo

/-- Address of `treeptr->rootdat`. -/
def rootdat : Int := -1

/-- Fields of nodes, fibo.h:83–107, and contents of `degrtab`. -/
structure Heap where
  next : Int → Int
  prev : Int → Int
  pare : Int → Option Int
  chld : Int → Option Int
  defl : Int → Int
  degr : Int → Option Int

def upd {α : Type} (f : Int → α) (p : Int) (v : α) : Int → α := fun q => if q = p then v else f q

/-- `fiboHeapInit`, fibo.c:82–96; the fields of nodes are arbitrary. -/
def init (h : Heap) : Heap :=
  { h with next := upd h.next rootdat rootdat, prev := upd h.prev rootdat rootdat, degr := fun _ => none }

/-- `fiboHeapFree`, fibo.c:119–124. -/
def free (h : Heap) : Heap :=
  { h with next := upd h.next rootdat rootdat, prev := upd h.prev rootdat rootdat }

/-- `fiboHeapLinkAfter`, fibo.h:113–120. -/
def linkAfter (h : Heap) (o n : Int) : Heap :=
  let nextptr := h.next o
  let nx := upd h.next n nextptr
  let pv := upd h.prev n o
  let pv := upd pv nextptr n
  let nx := upd nx o n
  { h with next := nx, prev := pv }

/-- `fiboHeapUnlink`, fibo.h:122–125. The second statement reads the fields again. -/
def unlink (h : Heap) (n : Int) : Heap :=
  let nx := upd h.next (h.prev n) (h.next n)
  let pv := upd h.prev (nx n) (h.prev n)
  { h with next := nx, prev := pv }

/-- `fiboHeapAdd`, fibo.h:127–132. -/
def add (h : Heap) (n : Int) : Heap :=
  let h := { h with pare := upd h.pare n none, chld := upd h.chld n none, defl := upd h.defl n 0 }
  linkAfter h rootdat n

/-- Value of `chldptr` when a child is removed, fibo.h:145 and 200. -/
def newChld (deflval rght : Int) : Option Int := if deflval ≤ 1 then none else some rght

/-- `fiboHeapMoveToRoot`, fibo.h:136–147. -/
def moveToRoot (h : Heap) (n p : Int) : Heap :=
  let rghtptr := h.next n
  let h := unlink h n
  let h := { h with pare := upd h.pare n none, defl := upd h.defl n (h.defl n / 2 * 2) }
  let deflval := h.defl p - 2
  let h := { h with defl := upd h.defl p deflval, chld := upd h.chld p (newChld deflval rghtptr) }
  linkAfter h rootdat n

/-- Loop of `fiboHeapDecrease`, fibo.h:157–165, entered with `gdpaptr` the parent of `p`. -/
def decreaseLoop : Nat → Heap → Int → M Heap
  | 0, _, _ => .error .fuel
  | fuel + 1, h, p =>
    match h.pare p with
    | none => .ok h
    | some g =>
      if h.defl p % 2 = 0 then .ok { h with defl := upd h.defl p (h.defl p / 2 * 2 + 1) }
      else decreaseLoop fuel (moveToRoot h p g) g

/-- `fiboHeapDecrease`, fibo.h:149–167; `key` holds the new value of the key of `n`. -/
def decrease (fuel : Nat) (key : Int → Int) (h : Heap) (n : Int) : M Heap :=
  match h.pare n with
  | none => .ok h
  | some p => if key n < key p then decreaseLoop fuel (moveToRoot h n p) p else .ok h

/-- Loop of `fiboHeapCutChildren`, fibo.h:175–181. -/
def cutLoop : Nat → Int → Int → Heap → M Heap
  | 0, _, _, _ => .error .fuel
  | fuel + 1, cendptr, c, h =>
    let nextptr := h.next c
    let h := { h with pare := upd h.pare c none }
    let h := linkAfter h rootdat c
    if nextptr ≠ cendptr then cutLoop fuel cendptr nextptr h else .ok h

/-- `fiboHeapCutChildren`, fibo.h:169–183. -/
def cutChildren (fuel : Nat) (h : Heap) (n : Int) : M Heap :=
  match h.chld n with
  | none => .ok h
  | some c => cutLoop fuel c c h

/-- Loop of `fiboHeapDel`, fibo.h:194–208. -/
def delLoop : Nat → Heap → Int → Int → M Heap
  | 0, _, _, _ => .error .fuel
  | fuel + 1, h, p, rghtptr =>
    let deflval := h.defl p - 2
    let h := { h with defl := upd h.defl p (deflval / 2 * 2 + 1), chld := upd h.chld p (newChld deflval rghtptr) }
    if deflval % 2 = 0 then .ok h
    else match h.pare p with
      | none => .ok h
      | some g =>
        let rght := h.next p
        let h := unlink h p
        let h := { h with pare := upd h.pare p none }
        let h := linkAfter h rootdat p
        delLoop fuel h g rght

/-- `fiboHeapDel`, fibo.h:185–209. -/
def del (fuel : Nat) (h : Heap) (n : Int) : M Heap := do
  let pareptr := h.pare n
  let h := unlink h n
  let h ← cutChildren fuel h n
  match pareptr with
  | none => .ok h
  | some p => delLoop fuel h p (h.next n)

/-- Makes root `o` a child of root `r`, fibo.c:176–190. -/
def link (h : Heap) (o r : Int) : Heap :=
  let h := unlink h o
  let h := { h with defl := upd h.defl o (h.defl o / 2 * 2), pare := upd h.pare o (some r) }
  match h.chld r with
  | some c => linkAfter { h with defl := upd h.defl r (h.defl r + 2) } c o
  | none =>
    { h with defl := upd h.defl r 2, chld := upd h.chld r (some o), prev := upd h.prev o o, next := upd h.next o o }

/-- First loop of `fiboHeapConsolidate`, fibo.c:148–192. Returns the heap and the maximum degree. -/
def consLoop (degrmax : Int) (key : Int → Int) : Nat → Heap → Int → Int → Int → M (Heap × Int)
  | 0, _, _, _, _ => .error .fuel
  | fuel + 1, h, rootptr, nextptr, dmax =>
    if rootptr = rootdat then .ok (h, dmax)
    else
      let degrval := h.defl rootptr / 2
      if ¬ (0 ≤ degrval ∧ degrval < degrmax) then .error .oob
      else match h.degr degrval with
        | none =>
          let dmax := if degrval > dmax then degrval else dmax
          let h := { h with degr := upd h.degr degrval (some rootptr) }
          consLoop degrmax key fuel h nextptr (h.next nextptr) dmax
        | some old =>
          let h := { h with degr := upd h.degr degrval none }
          if key old ≤ key rootptr then consLoop degrmax key fuel (link h rootptr old) old nextptr dmax
          else consLoop degrmax key fuel (link h old rootptr) rootptr nextptr dmax

/-- Best of a root found in the table and of the previous best one, fibo.c:197 and 205–206. -/
def pickBest (key : Int → Int) (r : Int) (best : Option Int) : Int := match best with
  | none => r
  | some b => if key r < key b then r else b

/-- Second and third loops of `fiboHeapConsolidate`, fibo.c:194–209, from degree `d` on: `best` is the best root found so far. The first of these loops is the
case when there is none. -/
def bestLoop (degrmax : Int) (key : Int → Int) : Nat → Int → Heap → Option Int → M (Heap × Option Int)
  | 0, _, h, best => .ok (h, best)
  | k + 1, d, h, best =>
    if ¬ (0 ≤ d ∧ d < degrmax) then .error .oob
    else match h.degr d with
      | none => bestLoop degrmax key k (d + 1) h best
      | some r =>
        bestLoop degrmax key k (d + 1) { h with degr := upd h.degr d none } (some (pickBest key r best))

/-- `fiboHeapConsolidate`, fibo.c:136–221, which is `fiboHeapMin`. -/
def consolidate (degrmax : Int) (fuel : Nat) (key : Int → Int) (h : Heap) : M (Heap × Option Int) := do
  let r := h.next rootdat
  let q ← consLoop degrmax key fuel h r (h.next r) 0
  bestLoop degrmax key (q.2 + 1).toNat 0 q.1 none

end Scotch.Fibo
