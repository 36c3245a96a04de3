import Verif.Base

/-!
# Memory: model

src/libscotch/common_memory.c. Sizes are `size_t` values, computed modulo `W`, a power of two which is a multiple of 8 = `sizeof (double)`. Blocks are given by `malloc` and `realloc`, whose choices are arbitrary.
-/

set_option autoImplicit false

namespace Scotch.Memory

/-- `memoff = (memoff + (sizeof (double) - 1)) & (~ (sizeof (double) - 1))` — common_memory.c:502, 517, 552, 563, 595. Clearing the lowest three bits subtracts the remainder by 8. -/
def align (W off : Nat) : Nat := (off + 7) % W - (off + 7) % W % 8

/-- Pass which computes the size of the block — common_memory.c:498–506 and 549–555. -/
def total (W : Nat) : Nat → List Nat → Nat
  | off, [] => off
  | off, s :: l => total W ((align W off + s) % W) l

/-- Pass which sets the addresses, here relative to that of the block — common_memory.c:513–522, 560–567 and 592–599. Returns the addresses, and the last offset. -/
def place (W : Nat) : Nat → List Nat → List Nat × Nat
  | off, [] => ([], off)
  | off, s :: l =>
    let off := align W off
    let r := place W ((off + s) % W) l
    (off :: r.1, r.2)

/-- `memAllocGroup` and `memReallocGroup`, when memory is available: size requested for the block, and relative addresses of arrays — common_memory.c:488–525 and 539–570. -/
def allocGroup (W : Nat) (sizes : List Nat) : Nat × List Nat := (total W 0 sizes, (place W 0 sizes).1)

/-- `memOffset`: addresses of arrays relative to the given one, and end of the block — common_memory.c:583–602. -/
def offset (W : Nat) (sizes : List Nat) : List Nat × Nat := place W 0 sizes

/-! ## Accounting (`COMMON_MEMORY_TRACE`) -/

/-- Blocks in use, with the size written in their header; `memorysiz` and `memorymax` — common_memory.c:277–278. -/
structure State where
  blocks : List (Int × Int)
  siz : Int
  max : Int

/-- Initial state. -/
def State.init : State := ⟨[], 0, 0⟩

/-- Header of a block. -/
def State.header (s : State) (p : Int) : M Int :=
  match s.blocks.find? (fun b => b.1 = p) with
  | some b => .ok b.2
  | none => .error .oob

/-- Accounting of a new size — common_memory.c:307–309, 355–357. -/
def State.count (s : State) (newsiz : Int) : State :=
  let siz := s.siz + newsiz
  { s with siz := siz, max := if s.max < siz then siz else s.max }

/-- `memAllocRecord`; `addr` is the block given by `malloc`, if any — common_memory.c:292–324. -/
def State.alloc (s : State) (newsiz : Int) (addr : Option Int) : State × Option Int :=
  match addr with
  | none => (s, none)
  | some p =>
    let s := s.count newsiz
    ({ s with blocks := (p, newsiz) :: s.blocks }, some p)

/-- `memReallocRecord`; `addr` is the block given by `realloc`, if any — common_memory.c:333–372. -/
def State.realloc (s : State) (p newsiz : Int) (addr : Option Int) : M (State × Option Int) := do
  let oldsiz ← s.header p
  match addr with
  | none => return (s, none)
  | some q =>
    let s := { s with siz := s.siz - oldsiz }.count newsiz
    return ({ s with blocks := (q, newsiz) :: s.blocks.filter (fun b => b.1 ≠ p) }, some q)

/-- `memFreeRecord` — common_memory.c:380–405. -/
def State.free (s : State) (p : Int) : M State := do
  let oldsiz ← s.header p
  return { s with blocks := s.blocks.filter (fun b => b.1 ≠ p), siz := s.siz - oldsiz }

/-- `memCur` — common_memory.c:414–430. -/
def State.memCur (s : State) : Int := s.siz

/-- `memMax` — common_memory.c:439–455. -/
def State.memMax (s : State) : Int := s.max

/-- Calls. -/
inductive Op where
  | alloc (newsiz : Int) (addr : Option Int)
  | realloc (p newsiz : Int) (addr : Option Int)
  | free (p : Int)

/-- Effect of a call on the state. -/
def State.step (s : State) : Op → M State
  | .alloc n a => return (s.alloc n a).1
  | .realloc p n a => do return (← s.realloc p n a).1
  | .free p => s.free p

/-- Effect of a sequence of calls. -/
def State.run (s : State) : List Op → M State
  | [] => return s
  | o :: l => do (← s.step o).run l

end Scotch.Memory
