import Verif.Base

/-!
# Sorting: model of common_sort.c

Records are values of an arbitrary type `α`; the array is modelled at the level of records
(pointers become record indices).  `lt a b` is the comparison `INTSORTCMP` of the records.
-/

namespace Scotch.Sorting

variable {α : Type}

/-- `MAX_THRESH` — src/libscotch/common_sort.c:48. -/
def maxThresh : Int := 6

/-- `INTSORTSWAP` — e.g. src/libscotch/common_integer.c:483 and 500 (all variants exchange the two
records). -/
def swap (a : Arr α) (p q : Int) : M (Arr α) := do
  let t ← a.rd p
  let u ← a.rd q
  let a ← a.wr p u
  a.wr q t

/-- `if (INTSORTCMP (p, q)) INTSORTSWAP (p, q);` — common_sort.c:132–133 and 137–138. -/
def swapIfLt (lt : α → α → Bool) (a : Arr α) (p q : Int) : M (Arr α) := do
  if lt (← a.rd p) (← a.rd q) then swap a p q else pure a

/-- Choice of the pivot among `lo`, `mid`, `hi` — common_sort.c:132–139. -/
def medianOfThree (lt : α → α → Bool) (a : Arr α) (lo mid hi : Int) : M (Arr α) := do
  let a ← swapIfLt lt a mid lo
  if lt (← a.rd hi) (← a.rd mid) then do
    let a ← swap a mid hi
    swapIfLt lt a mid lo
  else pure a

/-- `while (INTSORTCMP (left_ptr, mid)) left_ptr ++` — common_sort.c:149–150. -/
def scanLeft (lt : α → α → Bool) (a : Arr α) (mid : Int) (fuel : Nat) (left : Int) : M Int :=
  loopM (fun left => do
    if lt (← a.rd left) (← a.rd mid) then return .next (left + 1) else return .brk left) fuel left

/-- `while (INTSORTCMP (mid, right_ptr)) right_ptr --` — common_sort.c:152–153. -/
def scanRight (lt : α → α → Bool) (a : Arr α) (mid : Int) (fuel : Nat) (right : Int) : M Int :=
  loopM (fun right => do
    if lt (← a.rd mid) (← a.rd right) then return .next (right - 1) else return .brk right) fuel right

/-- State of the partition loop. -/
structure PState (α : Type) where
  arr : Arr α
  left : Int
  right : Int
  mid : Int

/-- One round of the `do … while (left_ptr <= right_ptr)` loop — common_sort.c:147–172. -/
def partStep (lt : α → α → Bool) (fuel : Nat) (s : PState α) : M (Loop (PState α) (PState α)) := do
  let left ← scanLeft lt s.arr s.mid fuel s.left
  let right ← scanRight lt s.arr s.mid fuel s.right
  if left < right then do
    let arr ← swap s.arr left right
    let mid := if s.mid = left then right else if s.mid = right then left else s.mid
    let left := left + 1
    let right := right - 1
    let s : PState α := ⟨arr, left, right, mid⟩
    if left ≤ right then return .next s else return .brk s
  else if left = right then
    return .brk ⟨s.arr, left + 1, right - 1, s.mid⟩
  else
    let s : PState α := ⟨s.arr, left, right, s.mid⟩
    if left ≤ right then return .next s else return .brk s

/-- State of the quicksort loop: array, current segment, stack of pending segments. -/
structure QState (α : Type) where
  arr : Arr α
  lo : Int
  hi : Int
  stack : List (Int × Int)

/-- `PUSH` — common_sort.c:58; the stack array has `stackSize` cells. -/
def push (stackSize : Nat) (st : List (Int × Int)) (p : Int × Int) : M (List (Int × Int)) :=
  if st.length < stackSize then .ok (p :: st) else .error .oob

/-- `(size_t) (d) <= max_thresh` — common_sort.c:179, 181, 188: the conversion to an unsigned type
makes negative differences large. -/
def small (d : Int) : Bool := 0 ≤ d ∧ d ≤ maxThresh

/-- Choice of the next segment — common_sort.c:179–202. -/
def nextSegment (stackSize : Nat) (lo hi : Int) (st : List (Int × Int)) (p : PState α) :
    M (QState α) :=
  if small (p.right - lo) then
    if small (hi - p.left) then
      match st with
      | [] => .error .oob
      | top :: st => .ok ⟨p.arr, top.1, top.2, st⟩
    else .ok ⟨p.arr, p.left, hi, st⟩
  else if small (hi - p.left) then .ok ⟨p.arr, lo, p.right, st⟩
  else if p.right - lo > hi - p.left then do
    let st ← push stackSize st (lo, p.right)
    return ⟨p.arr, p.left, hi, st⟩
  else do
    let st ← push stackSize st (p.left, hi)
    return ⟨p.arr, lo, p.right, st⟩

/-- One round of the quicksort loop — common_sort.c:120–203. The loop condition
`STACK_NOT_EMPTY` is evaluated at the end of the round (it holds on entry). -/
def quickStep (lt : α → α → Bool) (stackSize fuel : Nat) (s : QState α) :
    M (Loop (QState α) (Arr α)) := do
  let lo := s.lo
  let hi := s.hi
  let mid := lo + (hi - lo) / 2
  let a ← medianOfThree lt s.arr lo mid hi
  let p ← loopM (partStep lt fuel) fuel ⟨a, lo + 1, hi - 1, mid⟩
  let s ← nextSegment stackSize lo hi s.stack p
  match s.stack with
  | [] => return .brk s.arr
  | _ :: _ => return .next s

/-- Quicksort part — common_sort.c:110–204. The sentinel `PUSH (NULL, NULL)` is the pair `(0, 0)`
(never used as a segment). -/
def quickPart (lt : α → α → Bool) (stackSize : Nat) (a : Arr α) (n : Int) : M (Arr α) :=
  if n > maxThresh then do
    let st ← push stackSize [] (0, 0)
    loopM (quickStep lt stackSize n.toNat) (2 * n.toNat) ⟨a, 0, n - 1, st⟩
  else pure a

/-- Index of a smallest record among the first ones — common_sort.c:222–224. -/
def minIndex (lt : α → α → Bool) (a : Arr α) (thresh : Int) : M Int :=
  forUp 1 (thresh + 1) 0 fun run tmp => do
    if lt (← a.rd run) (← a.rd tmp) then return run else return tmp

/-- Search of the insertion place — common_sort.c:234–236. -/
def insertPlace (lt : α → α → Bool) (a : Arr α) (run : Int) (fuel : Nat) : M Int :=
  loopM (fun tmp => do
    if lt (← a.rd run) (← a.rd tmp) then return .next (tmp - 1) else return .brk tmp) fuel (run - 1)

/-- Shift of the records `[tmp, run)` by one place and insertion — common_sort.c:243–252. The C
code does this byte by byte; the model does it record by record. -/
def insertShift (a : Arr α) (tmp run : Int) : M (Arr α) := do
  let c ← a.rd run
  let r ← forUp 0 (run - tmp) (a, run) fun _ (s : Arr α × Int) => do
    let v ← s.1.rd (s.2 - 1)
    let a ← s.1.wr s.2 v
    return (a, s.2 - 1)
  r.1.wr r.2 c

/-- Insertion sort part — common_sort.c:212–255. -/
def insertPart (lt : α → α → Bool) (a : Arr α) (n : Int) : M (Arr α) := do
  let endv := n - 1
  let thresh := min endv maxThresh
  let tmp ← minIndex lt a thresh
  let a ← if tmp ≠ 0 then swap a tmp 0 else pure a
  forUp 2 (endv + 1) a fun run a => do
    let tmp ← insertPlace lt a run n.toNat
    let tmp := tmp + 1
    if tmp ≠ run then insertShift a tmp run else pure a

/-- `INTSORTNAME` — src/libscotch/common_sort.c:99–256. `stackSize` is the number of cells of the
explicit stack, `CHAR_BIT * sizeof (INT)`. -/
def sort (lt : α → α → Bool) (stackSize : Nat) (a : Arr α) (n : Int) : M (Arr α) :=
  if n = 0 then pure a
  else do
    let a ← quickPart lt stackSize a n
    insertPart lt a n

/-- `INTSORTCMP` of `intSort1asc1` — src/libscotch/common_integer.c:484. -/
def lt1 (p q : Int) : Bool := p < q
/-- `INTSORTCMP` of `intSort2asc1` — src/libscotch/common_integer.c:501. -/
def lt2asc1 (p q : Int × Int) : Bool := p.1 < q.1
/-- `INTSORTCMP` of `intSort2asc2` — src/libscotch/common_integer.c:519. -/
def lt2asc2 (p q : Int × Int) : Bool := p.1 < q.1 || (p.1 = q.1 && p.2 < q.2)
/-- `INTSORTCMP` of `intSort3asc1` — src/libscotch/common_integer.c:536. -/
def lt3asc1 (p q : Int × Int × Int) : Bool := p.1 < q.1
/-- `INTSORTCMP` of `intSort3asc2` — src/libscotch/common_integer.c:554. -/
def lt3asc2 (p q : Int × Int × Int) : Bool := p.1 < q.1 || (p.1 = q.1 && p.2.1 < q.2.1)

end Scotch.Sorting
