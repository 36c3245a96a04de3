import Verif.Sort.Model

/-!
# Partial sorting: model of common_psort.c

The pivot choice and the partition loop (common_psort.c:129–171) are textually those of common_sort.c, hence are modelled by the same functions.
-/

set_option autoImplicit false

namespace Scotch.Sorting

variable {α : Type}

/-- State of the loop: array, current segment and its level, stack of pending segments with their levels. -/
structure LState (α : Type) where
  arr : Arr α
  lo : Int
  hi : Int
  lvl : Int
  stack : List (Int × Int × Int)

/-- `PUSH` — common_psort.c:59. -/
def pushL (stackSize : Nat) (st : List (Int × Int × Int)) (p : Int × Int × Int) : M (List (Int × Int × Int)) :=
  if st.length < stackSize then .ok (p :: st) else .error .oob

/-- Choice of the next segment — common_psort.c:185–208. -/
def pickSegment (stackSize : Nat) (lo hi lvl : Int) (st : List (Int × Int × Int)) (p : PState α) : M (LState α) :=
  if small (p.right - lo) then
    if small (hi - p.left) then
      match st with
      | [] => .error .oob
      | top :: st => .ok ⟨p.arr, top.1, top.2.1, top.2.2, st⟩
    else .ok ⟨p.arr, p.left, hi, lvl, st⟩
  else if small (hi - p.left) then .ok ⟨p.arr, lo, p.right, lvl, st⟩
  else if p.right - lo > hi - p.left then do
    let st ← pushL stackSize st (lo, p.right, lvl)
    return ⟨p.arr, p.left, hi, lvl, st⟩
  else do
    let st ← pushL stackSize st (p.left, hi, lvl)
    return ⟨p.arr, lo, p.right, lvl, st⟩

/-- End of a round: level test, then choice of the next segment — common_psort.c:178–208. -/
def nextSegmentL (stackSize : Nat) (maxLevels lo hi lvl : Int) (st : List (Int × Int × Int)) (p : PState α) : M (LState α) :=
  let lvl := lvl + 1
  if lvl ≥ maxLevels then pickSegment stackSize p.right p.left lvl st p
  else pickSegment stackSize lo hi lvl st p

/-- One round of the loop — common_psort.c:118–209. -/
def psortStep (lt : α → α → Bool) (stackSize fuel : Nat) (maxLevels : Int) (s : LState α) : M (Loop (LState α) (Arr α)) := do
  let lo := s.lo
  let hi := s.hi
  let mid := lo + (hi - lo) / 2
  let a ← medianOfThree lt s.arr lo mid hi
  let p ← loopM (partStep lt fuel) fuel ⟨a, lo + 1, hi - 1, mid⟩
  let s ← nextSegmentL stackSize maxLevels lo hi s.lvl s.stack p
  match s.stack with
  | [] => return .brk s.arr
  | _ :: _ => return .next s

/-- `INTSORTNAME` of common_psort.c:101–211, e.g. `intPsort2asc1`, common_integer.c:574–578. -/
def psort (lt : α → α → Bool) (stackSize : Nat) (maxLevels : Int) (a : Arr α) (n : Int) : M (Arr α) :=
  if n > maxThresh then do
    let st ← pushL stackSize [] (0, 0, 0)
    loopM (psortStep lt stackSize n.toNat maxLevels) (2 * n.toNat) ⟨a, 0, n - 1, 0, st⟩
  else pure a

end Scotch.Sorting
