import Verif.Base

/-!
# Collective operations between threads: model

`threadReduce` and `threadScan` — src/libscotch/common_thread.c:396–576, in their two variants.

The routine that is executed by a thread only depends on its rank: shared memory is accessed through the function that is
given as a parameter only. Hence, a call is modelled as the list of the *segments* of operations that the thread executes
between two successive barriers. An execution of the group of threads takes, for each segment, any
interleaving of the operations of the threads (`Inter`), and segments do not overlap (`Runs`): this is the property of the barrier
that is proved in `Verif.Thread.PropsBarrier`. The last segment ends with the final barrier.

A memory location is a pair: rank of the cell (index with respect to the cell of thread 0 in the array that is indexed by threads),
and phase (0 or 1; always 0 for reductions).
-/

set_option autoImplicit false

namespace Scotch.Thread

/-- A location: cell, and phase. -/
abbrev Loc := Int × Nat

/-- One call to the user function: `loc[dst] = f (loc[a], rem[b])`, or `loc[dst] = loc[a]` when there is no remote cell. -/
structure Op where
  dst : Loc
  a : Loc
  b : Option Loc
  deriving DecidableEq, Repr

/-- Locations that are read. -/
def Op.reads (o : Op) : List Loc := o.a :: o.b.toList

/-- Memory. -/
abbrev Mem (α : Type) := Loc → α

/-- Effect of a call to the user function; `f` takes the local value first. -/
def Op.exec {α : Type} (f : α → α → α) (o : Op) (m : Mem α) : Mem α :=
  let v := match o.b with
    | none => m o.a
    | some b => f (m o.a) (m b)
  fun x => if x = o.dst then v else m x

/-- Execution of a list of operations. -/
def execs {α : Type} (f : α → α → α) : List Op → Mem α → Mem α
  | [], m => m
  | o :: l, m => execs f l (o.exec f m)

/-- Replacement of what a thread still has to do. -/
def setP {β : Type} (p : Nat → β) (i : Nat) (v : β) : Nat → β := fun j => if j = i then v else p j

/-- `Inter n p l`: `l` is an interleaving of the lists `p 0`, …, `p (n - 1)`. -/
inductive Inter (n : Nat) : (Nat → List Op) → List Op → Prop where
  | done (p : Nat → List Op) : (∀ i, i < n → p i = []) → Inter n p []
  | next (p : Nat → List Op) (i : Nat) (o : Op) (rest l : List Op) :
      i < n → p i = o :: rest → Inter n (setP p i rest) l → Inter n p (o :: l)

/-- `Runs n f p m m'`: the `n` threads, which execute the lists of segments `p`, may bring the memory from `m` to `m'`. -/
inductive Runs (n : Nat) {α : Type} (f : α → α → α) : (Nat → List (List Op)) → Mem α → Mem α → Prop where
  | done (p : Nat → List (List Op)) (m : Mem α) : (∀ i, i < n → p i = []) → Runs n f p m m
  | seg (p : Nat → List (List Op)) (l : List Op) (m m' : Mem α) :
      (∀ i, i < n → p i ≠ []) → Inter n (fun i => (p i).headD []) l →
      Runs n f (fun i => (p i).tail) (execs f l m) m' → Runs n f p m m'

/-- Operations that are done before what follows, up to the next barrier. -/
def prepend (ops : List Op) : List (List Op) → List (List Op)
  | [] => [ops]
  | s :: l => (ops ++ s) :: l

/-! ## Reduction, common_thread.c:396–486 -/

/-- Loop of the canonical reduction, common_thread.c:424–443. `dat` is the cell which is given by the caller. The fuel bounds the number of
turns: as the mask doubles, `thrdnbr` turns are enough. -/
def reduceLoop (thrdnbr rootnum thrdnum : Nat) (dat : Int) : Nat → Nat → Nat → List (List Op)
  | 0, _, _ => [[]]
  | fuel + 1, thrdmsk, thrdnsk =>
    if thrdmsk < thrdnbr then
      let thrdesk := thrdnsk ^^^ thrdmsk
      [] :: (if thrdesk < thrdnbr then
          if thrdesk > thrdnsk then
            let thrdend := (thrdesk + rootnum) % thrdnbr
            let thrddlt : Int := (thrdend : Int) - thrdnum
            prepend [⟨(dat, 0), (dat, 0), some (dat + thrddlt, 0)⟩]
              (reduceLoop thrdnbr rootnum thrdnum dat fuel (thrdmsk * 2) thrdnsk)
          else reduceLoop thrdnbr rootnum thrdnum dat fuel (thrdmsk * 2) (thrdnsk + thrdnbr)
        else reduceLoop thrdnbr rootnum thrdnum dat fuel (thrdmsk * 2) thrdnsk)
    else [[]]

/-- `threadReduce`, canonical variant, common_thread.c:396–446. -/
def reduceCan (thrdnbr rootnum thrdnum : Nat) (dat : Int) : List (List Op) :=
  if thrdnbr ≤ 1 then []
  else reduceLoop thrdnbr rootnum thrdnum dat thrdnbr 1 ((thrdnum + thrdnbr - rootnum) % thrdnbr)

/-- Loop of the root, common_thread.c:473–480, from `thrdtmp`, `len` turns. -/
def reduceRoot (thrdnbr rootnum : Nat) (dat : Int) : Nat → Nat → List Op
  | 0, _ => []
  | len + 1, thrdtmp =>
    let thrdesk : Int := ((rootnum + thrdtmp) % thrdnbr : Nat) - (rootnum : Int)
    ⟨(dat, 0), (dat, 0), some (dat + thrdesk, 0)⟩ :: reduceRoot thrdnbr rootnum dat len (thrdtmp + 1)

/-- `threadReduce`, default variant, common_thread.c:448–485. -/
def reduceSeq (thrdnbr rootnum thrdnum : Nat) (dat : Int) : List (List Op) :=
  if thrdnbr ≤ 1 then []
  else [[], if thrdnum = rootnum then reduceRoot thrdnbr rootnum dat (thrdnbr - 1) 1 else []]

/-! ## Prefix scan, common_thread.c:501–576 -/

/-- Loop and final move of the canonical scan, common_thread.c:523–543. -/
def scanLoop (thrdnbr thrdnum : Nat) (dat : Int) : Nat → Nat → Bool → Nat → List (List Op)
  | 0, _, _, _ => [[]]
  | fuel + 1, thrdmsk, active, phasnum =>
    if thrdmsk < thrdnbr then
      [] :: (if active then
          let thrdend : Int := (thrdnum : Int) - thrdmsk
          if thrdend ≥ 0 then
            prepend [⟨(dat, phasnum ^^^ 1), (dat, phasnum), some (dat - thrdmsk, phasnum)⟩]
              (scanLoop thrdnbr thrdnum dat fuel (thrdmsk * 2) true (phasnum ^^^ 1))
          else
            prepend [⟨(dat, phasnum ^^^ 1), (dat, phasnum), none⟩]
              (scanLoop thrdnbr thrdnum dat fuel (thrdmsk * 2) false 0)
        else scanLoop thrdnbr thrdnum dat fuel (thrdmsk * 2) false phasnum)
    else if phasnum ≠ 0 then [[⟨(dat, 0), (dat, phasnum), none⟩]]
    else [[]]

/-- `threadScan`, canonical variant, common_thread.c:501–546. -/
def scanCan (thrdnbr thrdnum : Nat) (dat : Int) : List (List Op) :=
  if thrdnbr ≤ 1 then [] else scanLoop thrdnbr thrdnum dat (thrdnbr + 1) 1 true 0

/-- Loop of thread 0, common_thread.c:567–569. -/
def scanRoot : Nat → Int → List Op
  | 0, _ => []
  | len + 1, cell => ⟨(cell + 1, 0), (cell + 1, 0), some (cell, 0)⟩ :: scanRoot len (cell + 1)

/-- `threadScan`, default variant, common_thread.c:548–575. -/
def scanSeq (thrdnbr thrdnum : Nat) (dat : Int) : List (List Op) :=
  if thrdnbr ≤ 1 then [] else [[], if thrdnum = 0 then scanRoot (thrdnbr - 1) dat else []]

/-! ## Specification -/

/-- `c a ⊕ c (a + 1) ⊕ … ⊕ c (a + k)`. -/
def foldFrom {α : Type} (op : α → α → α) (c : Nat → α) (a : Nat) : Nat → α
  | 0 => c a
  | k + 1 => op (foldFrom op c a k) (c (a + (k + 1)))

/-- Two operations of different threads conflict when one of them writes a location that the other one accesses. -/
def Conflict (o o' : Op) : Prop :=
  o.dst = o'.dst ∨ o.dst ∈ o'.reads ∨ o'.dst ∈ o.reads

/-- No data race: within a segment, operations of different threads never conflict. -/
def RaceFree (n : Nat) (p : Nat → List (List Op)) : Prop :=
  ∀ k t u, t < n → u < n → t ≠ u → ∀ o ∈ (p t).getD k [], ∀ o' ∈ (p u).getD k [], ¬ Conflict o o'

/-- All accesses are inside the cells of the threads. -/
def InCells (n : Nat) (p : Nat → List (List Op)) : Prop :=
  ∀ t, t < n → ∀ s ∈ p t, ∀ o ∈ s, ∀ x ∈ o.dst :: o.reads, 0 ≤ x.1 ∧ x.1 < n ∧ x.2 < 2

/-- All threads go through the same number of barriers. -/
def SameBarriers (n : Nat) (p : Nat → List (List Op)) : Prop :=
  ∀ t u, t < n → u < n → (p t).length = (p u).length

end Scotch.Thread
