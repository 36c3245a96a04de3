import Verif.Base

/-!
# Thread barrier: model

`threadContextBarrier` — src/libscotch/common_thread.c:228–262, for a context of `n` threads, as a transition system: one
transition per statement, interleaved in any order. `threadWaitBarrier` — common_thread.c:272–303 — is the same
routine, but for its return value and for the status that the last thread sets, and behaves in the same way.

* The mutex is owned by at most one thread; `pthread_mutex_lock` can be passed only when it is free.
* `pthread_cond_wait` releases the mutex and blocks; a blocked thread is woken up by `pthread_cond_broadcast`, or at any
  time (spurious wake-ups); it must then get the mutex again.
* Outside of barriers, threads may do anything but modify the two counters; they may take the mutex
  (as `threadLaunch` and `threadWait` do) and broadcast, which is a case of spurious wake-up.
* `bainnum` is an `unsigned int`: it is incremented modulo `W` (`W` is 2^32).

Initialisation and destruction of the mutex are not modelled.
-/

set_option autoImplicit false

namespace Scotch.Thread

/-- Place of a thread in its program. -/
inductive Pc where
  /-- outside of the barrier -/
  | out
  /-- outside of the barrier, owns the mutex -/
  | client
  /-- line 241: has got the mutex -/
  | e1
  /-- line 246 -/
  | e2
  /-- line 248 -/
  | e3
  /-- line 249 -/
  | e4
  /-- line 259: about to release the mutex and return -/
  | ret
  /-- line 255: about to wait -/
  | w0
  /-- blocked on the condition -/
  | w1
  /-- woken up, waits for the mutex -/
  | w2
  /-- line 256 -/
  | w3
  deriving DecidableEq, Repr

/-- Local variables of a thread, number of barriers it has entered, and values returned so far by its barriers
(oldest first). -/
structure Th where
  pc : Pc
  barrnbr : Int
  bainnum : Nat
  o : Int
  ent : Nat
  rets : List Int

/-- Number of barriers that the thread has left. -/
def Th.left (t : Th) : Nat := t.rets.length

/-- Shared state (fields of `ThreadContext`), and threads. -/
structure St (n : Nat) where
  lock : Option (Fin n)
  barrnbr : Int
  bainnum : Nat
  th : Fin n → Th

/-- `PTHREAD_BARRIER_SERIAL_THREAD`. -/
def SERIAL : Int := -1

/-- What may happen. -/
inductive Act (n : Nat) where
  /-- thread `i` executes its next statement -/
  | run (i : Fin n)
  /-- thread `i`, outside of the barrier, takes or releases the mutex -/
  | client (i : Fin n)
  /-- thread `i`, which is blocked, wakes up spontaneously -/
  | spurious (i : Fin n)

variable {n : Nat}

/-- Replacement of the local state of a thread. -/
def upd (f : Fin n → Th) (i : Fin n) (t : Th) : Fin n → Th := fun j => if j = i then t else f j

/-- Threads after `pthread_cond_broadcast`. -/
def broadcast (f : Fin n → Th) : Fin n → Th := fun j => if (f j).pc = .w1 then { f j with pc := .w2 } else f j

/-- Execution of the next statement of a thread; `none` when it is blocked. -/
def runTh (W : Nat) (s : St n) (i : Fin n) : Option (St n) :=
  let t := s.th i
  match t.pc with
  | .out =>
    if s.lock = none then some { s with lock := some i, th := upd s.th i { t with pc := .e1, ent := t.ent + 1 } } else none
  | .client => none
  | .e1 => some { s with th := upd s.th i { t with pc := .e2, barrnbr := s.barrnbr + 1, bainnum := s.bainnum, o := 0 } }
  | .e2 =>
    if t.barrnbr = n then some { s with barrnbr := 0, th := upd s.th i { t with pc := .e3 } }
    else some { s with barrnbr := t.barrnbr, th := upd s.th i { t with pc := .w0 } }
  | .e3 => some { s with bainnum := (t.bainnum + 1) % W, th := upd s.th i { t with pc := .e4 } }
  | .e4 => some { s with th := upd (broadcast s.th) i { t with pc := .ret, o := SERIAL } }
  | .ret => some { s with lock := none, th := upd s.th i { t with pc := .out, rets := t.rets ++ [t.o] } }
  | .w0 => some { s with lock := none, th := upd s.th i { t with pc := .w1 } }
  | .w1 => none
  | .w2 => if s.lock = none then some { s with lock := some i, th := upd s.th i { t with pc := .w3 } } else none
  | .w3 =>
    if s.bainnum = t.bainnum then some { s with th := upd s.th i { t with pc := .w0 } }
    else some { s with th := upd s.th i { t with pc := .ret } }

/-- One transition. -/
def step (W : Nat) (s : St n) : Act n → Option (St n)
  | .run i => runTh W s i
  | .client i =>
    match (s.th i).pc with
    | .out => if s.lock = none then some { s with lock := some i, th := upd s.th i { s.th i with pc := .client } } else none
    | .client => some { s with lock := none, th := upd s.th i { s.th i with pc := .out } }
    | _ => none
  | .spurious i =>
    if (s.th i).pc = .w1 then some { s with th := upd s.th i { s.th i with pc := .w2 } } else none

/-- Initial state: `threadContextInit`, common_thread.c:122–123; local variables are not initialised. -/
def init (junk : Fin n → Int × Nat × Int) : St n :=
  ⟨none, 0, 0, fun i => ⟨.out, (junk i).1, (junk i).2.1, (junk i).2.2, 0, []⟩⟩

/-- States that can be reached. -/
inductive Reach (W : Nat) : St n → Prop where
  | init (junk : Fin n → Int × Nat × Int) : Reach W (init junk)
  | step (s s' : St n) (a : Act n) : Reach W s → step W s a = some s' → Reach W s'

end Scotch.Thread
