import Verif.Base

/-!
# Thread pool: model

`threadLaunch`, `threadWait`, `threadWaitBarrier` and `threadContextExit2` — src/libscotch/common_thread.c:175–200, 272–382 — for a context of
`n + 1` threads: the master thread (number 0) and `n` slave threads, which have gone through the initial barrier.

A transition is what a thread does while it owns the mutex (critical sections are atomic; `Verif.Thread.Barrier` models the statements of a
barrier one by one), or the call to the function, which is not protected by the mutex. A thread that waits on the condition is asleep
until a broadcast, or a spurious wake-up.

Functions are identified by the number of the launch (1 for the first one); the log of a thread holds the functions that it has called.
Launches of a single thread, and failures of thread creation, are not modelled.
-/

set_option autoImplicit false

namespace Scotch.Thread.Pool

/-- `ThreadContextStatus`, common_thread.h. -/
inductive Stat where
  | rdy | run | dwn
  deriving DecidableEq, Repr

/-- Place of a thread in its program. -/
inductive Pc where
  /-- master only: outside of `threadLaunch` -/
  | idle
  /-- slave, line 328: about to read the status -/
  | chk
  /-- slave, line 329: waits on the condition -/
  | slp
  /-- lines 335, 379: about to call the function -/
  | go
  /-- lines 337, 381: about to enter the final barrier -/
  | bar
  /-- line 298: waits on the condition, with the value of `bainnum` that has been saved -/
  | bslp (bainnum : Nat)
  /-- line 299: awake -/
  | bchk (bainnum : Nat)
  /-- slave, line 345: about to acknowledge termination -/
  | ack
  /-- master, line 192 -/
  | spin
  /-- terminated -/
  | fin
  deriving DecidableEq, Repr

structure Th where
  pc : Pc
  log : List Nat

/-- Shared state and threads. `calls` is the number of calls to `threadLaunch` (it is not used by the program). -/
structure St (n : Nat) where
  statval : Stat
  barrnbr : Int
  bainnum : Nat
  funcnum : Nat
  calls : Nat
  th : Fin (n + 1) → Th

variable {n : Nat}

def upd (f : Fin (n + 1) → Th) (i : Fin (n + 1)) (t : Th) : Fin (n + 1) → Th := fun j => if j = i then t else f j

/-- `pthread_cond_broadcast`: all threads which are asleep wake up. -/
def wake : Pc → Pc
  | .slp => .chk
  | .bslp b => .bchk b
  | p => p

def broadcast (f : Fin (n + 1) → Th) : Fin (n + 1) → Th := fun j => { f j with pc := wake (f j).pc }

/-- Where a thread goes after the final barrier. -/
def afterBar (i : Fin (n + 1)) : Pc := if i = 0 then .idle else .chk

inductive Act (n : Nat) where
  /-- the thread executes its next transition -/
  | run (i : Fin (n + 1))
  /-- the master calls `threadLaunch` -/
  | launch
  /-- the master calls `threadContextExit` -/
  | exit
  /-- spurious wake-up -/
  | spurious (i : Fin (n + 1))

/-- `threadWaitBarrier`, common_thread.c:279–297, first critical section. -/
def enterBar (W : Nat) (s : St n) (i : Fin (n + 1)) : St n :=
  let barrnbr := s.barrnbr + 1
  if barrnbr = (n : Int) + 1 then
    { s with statval := .rdy, barrnbr := 0, bainnum := (s.bainnum + 1) % W
             th := upd (broadcast s.th) i { s.th i with pc := afterBar i } }
  else { s with barrnbr := barrnbr, th := upd s.th i { s.th i with pc := .bslp s.bainnum } }

def runTh (W : Nat) (s : St n) (i : Fin (n + 1)) : Option (St n) :=
  let t := s.th i
  match t.pc with
  | .idle => none
  | .chk =>
    match s.statval with
    | .rdy => some { s with th := upd s.th i { t with pc := .slp } }
    | .run => some { s with th := upd s.th i { t with pc := .go } }
    | .dwn => some { s with th := upd s.th i { t with pc := .ack } }
  | .slp => none
  | .go => some { s with th := upd s.th i { pc := .bar, log := t.log ++ [s.funcnum] } }
  | .bar => some (enterBar W s i)
  | .bslp _ => none
  | .bchk b =>
    if s.bainnum = b then some { s with th := upd s.th i { t with pc := .bslp b } }
    else some { s with th := upd s.th i { t with pc := afterBar i } }
  | .ack => some { s with barrnbr := s.barrnbr + 1, th := upd s.th i { t with pc := .fin } }
  | .spin => if s.barrnbr = n then some { s with th := upd s.th i { t with pc := .fin } } else none
  | .fin => none

def step (W : Nat) (s : St n) : Act n → Option (St n)
  | .run i => runTh W s i
  | .launch =>
    if (s.th 0).pc = .idle then
      some { s with funcnum := s.calls + 1, calls := s.calls + 1, statval := .run
                    th := upd (broadcast s.th) 0 { s.th 0 with pc := .go } }
    else none
  | .exit =>
    if (s.th 0).pc = .idle then
      some { s with statval := .dwn, th := upd (broadcast s.th) 0 { s.th 0 with pc := .spin } }
    else none
  | .spurious i => match (s.th i).pc with
    | .slp => some { s with th := upd s.th i { s.th i with pc := .chk } }
    | .bslp b => some { s with th := upd s.th i { s.th i with pc := .bchk b } }
    | _ => none

/-- All threads have left the initial barrier of `threadContextInit`. -/
def init (bain : Nat) (func : Nat) : St n :=
  ⟨.rdy, 0, bain, func, 0, fun i => ⟨if i = 0 then .idle else .chk, []⟩⟩

inductive Reach (W : Nat) : St n → Prop where
  | init (bain func : Nat) : bain < W → Reach W (init bain func)
  | step (s s' : St n) (a : Act n) : Reach W s → step W s a = some s' → Reach W s'

end Scotch.Thread.Pool
