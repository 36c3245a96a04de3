import Verif.Match.LemmasEnd
import Verif.Graph.Decide

/-!
# Matching: property C20
-/

set_option autoImplicit false

namespace Scotch.Match

/-- **C20**, one thread. Whatever the valid graph, constraints and initial contents of memory, the sequential matching ends without fault (no access outside of arrays), and yields a complete
matching: mates are vertices and are mutual; two vertices are matched only if they have the same fixed part and the same old part, and are neighbours (or one is isolated and merging
is allowed); the matching is maximal; and the number of coarse vertices is right. -/
theorem C20_sequential (E : Env) (V : Valid E) (bits : Nat) (junk : Int → Int × Int) (hb : E.g.vertnbr < 2 ^ bits) :
    Holds (matchSeq E bits junk) (fun r => Mating E r.1.get ∧ r.2 = coarseCount E r.1.get) :=
  (matchSeq_holds V bits junk hb).mono fun _ h => h.2

/-- States reached by `n` threads from the initial one: at each time, any thread may make a step. -/
inductive Reach (E : Env) (n : Nat) (bas : Nat → Int) (queue : Nat → Arr Int) : Sys → Prop
  | init : Reach E n bas queue (sysInit E bas queue)
  | step {s s' : Sys} (i : Nat) (w1 w2 : Int → Int) : Reach E n bas queue s → i < n → Admissible s w1 w2 → sysStep E w1 w2 i s = .ok s' → Reach E n bas queue s'

theorem Reach.inv {E : Env} (V : Valid E) {n : Nat} {bas : Nat → Int} (R : Ranges E n bas) {queue : Nat → Arr Int} (hq : ∀ i, i < n → QueueOf (bas i) (bas (i + 1)) (queue i)) {s : Sys}
    (h : Reach E n bas queue s) : ∃ m, TInv E n bas s m := by
  induction h with
  | init => exact ⟨_, sysInit_inv V R hq⟩
  | step i w1 w2 _ hi hw he ih =>
    obtain ⟨m, I⟩ := ih
    exact ((sysStep_holds V R I hi hw).elim he).1

/-- Queues are those made by `graphMatchQueueSort` for consecutive ranges of vertices. -/
def Queues (E : Env) (n : Nat) (bas : Nat → Int) (queue : Nat → Arr Int) : Prop :=
  ∀ i, i < n → ∃ bits junk, bas (i + 1) - bas i < 2 ^ bits ∧ queueSort E.g bits junk (bas i) (bas (i + 1)) = .ok (queue i)

theorem Queues.of {E : Env} (V : Valid E) {n : Nat} {bas : Nat → Int} (R : Ranges E n bas) {queue : Nat → Arr Int} (h : Queues E n bas queue) :
    ∀ i, i < n → QueueOf (bas i) (bas (i + 1)) (queue i) := by
  intro i hi
  obtain ⟨bits, junk, h1, h2⟩ := h i hi
  have a := R.le i 0 (by omega) (by omega)
  have b := R.le n (i + 1) (by omega) (by omega)
  exact (queueSort_holds V bits junk (by have := R.first; omega) (R.mono i hi) (by have := R.last; omega) h1).elim h2

/-- **C20**, any number of threads, safety and progress: in any state that can be reached, whatever the schedule and the outdated values read from the mating array, a step of any thread is free of faults, and
a step of a thread which is not done decreases a measure of its own remaining work, which is changed by no other thread: no thread waits for another, hence all of them end. -/
theorem C20_threads_progress (E : Env) (V : Valid E) (n : Nat) (bas : Nat → Int) (R : Ranges E n bas) (queue : Nat → Arr Int) (hq : Queues E n bas queue) :
    ∃ left : Nat → Thr → Nat, ∀ s, Reach E n bas queue s → ∀ i, i < n → ∀ w1 w2, Admissible s w1 w2 →
      ∃ s', sysStep E w1 w2 i s = .ok s' ∧ ((s.thr i).pc ≠ .done → left i (s'.thr i) < left i (s.thr i)) ∧ (∀ j, j ≠ i → s'.thr j = s.thr j) := by
  refine ⟨fun i t => (work (1 + 2 * (bas (i + 1) - bas i)) t).toNat, fun s h i hi w1 w2 hw => ?_⟩
  obtain ⟨m, I⟩ := h.inv V R (hq.of V R)
  obtain ⟨s', he, ⟨m', I'⟩, h1, h2⟩ := Holds_iff_exists.1 (sysStep_holds V R I hi hw)
  refine ⟨s', he, fun hd => ?_, h1⟩
  have := h2 hd
  have hl := (I'.thr i hi).leq
  have : 0 ≤ work (1 + 2 * (bas (i + 1) - bas i)) (s'.thr i) := by
    unfold work
    split <;> omega
  dsimp only
  omega

/-- **C20**, any number of threads: when all threads are done, whatever the schedule, the final sequential pass ends without fault and yields a complete matching, with the right number of
coarse vertices. -/
theorem C20_threads (E : Env) (V : Valid E) (n : Nat) (bas : Nat → Int) (R : Ranges E n bas) (queue : Nat → Arr Int) (hq : Queues E n bas queue) (s : Sys) (hs : Reach E n bas queue s)
    (hdone : ∀ i, i < n → (s.thr i).pc = .done) :
    Holds (finish E s n 0 s.sh.mate 0) (fun r => Mating E r.1.get ∧ r.2 = coarseCount E r.1.get) := by
  obtain ⟨m, I⟩ := hs.inv V R (hq.of V R)
  exact done_mating V R I hdone

/-! ## A case -/

/-- Path 0 – 1 – 2 and isolated vertex 3; vertices 1 and 2 have different fixed parts. -/
def exE : Env where
  g := { baseval := 0, vertnbr := 4, vertnnd := 4, verttax := Arr.ofList 0 [0, 1, 3, 4, 4], vendtax := none, velotax := none, velosum := 4, vnumtax := none, vlbltax := none,
         edgenbr := 4, edgetax := Arr.ofList 0 [1, 0, 2, 1], edlotax := none, edlosum := 4, degrmax := 2 }
  fix := true
  pfix := some (Arr.ofList 0 [-1, -1, 5, -1])
  paro := none
  nomerge := false

example : Valid exE :=
  ⟨Graph.consB_sound (by decide +kernel), Graph.allocB_sound (by decide +kernel), by decide +kernel, by intro t h; cases h; decide +kernel, by intro t h; cases h⟩

-- Vertices 0 and 1 are mates; vertex 2 stays alone, and so does vertex 3, which no longer finds a mate.
example : (matchSeq exE 31 (fun _ => (0, 0))).map (fun r => (r.1.toList, r.2)) = .ok ([1, 0, 2, 3], 3) := by decide +kernel

-- The hypotheses of the threaded theorems, with two threads: ranges are [0, 2) and [2, 4).
example : Ranges exE 2 (fun i => 2 * i) := ⟨rfl, rfl, fun i _ => by omega⟩

/-- Two neighbours, handled by two threads. -/
def exE2 : Env where
  g := { baseval := 0, vertnbr := 2, vertnnd := 2, verttax := Arr.ofList 0 [0, 1, 2], vendtax := none, velotax := none, velosum := 2, vnumtax := none, vlbltax := none,
         edgenbr := 2, edgetax := Arr.ofList 0 [1, 0], edlotax := none, edlosum := 2, degrmax := 1 }
  fix := false
  pfix := none
  paro := none
  nomerge := false

def exRun (E : Env) : List Nat → Sys → M Sys
  | [], s => .ok s
  | i :: l, s => do exRun E l (← sysStep E s.sh.mate.get s.sh.mate.get i s)

def exQueue (i : Nat) : Arr Int :=
  match queueSort exE2.g 31 (fun _ => (0, 0)) i (i + 1) with
  | .ok q => q
  | .error _ => Arr.const 0 0 0

theorem exE2_valid : Valid exE2 :=
  ⟨Graph.consB_sound (by decide +kernel), Graph.allocB_sound (by decide +kernel), by decide +kernel, (by intro t h; cases h), (by intro t h; cases h)⟩

example : Ranges exE2 2 (fun i => i) ∧ Queues exE2 2 (fun i => i) exQueue := by
  refine ⟨⟨rfl, rfl, fun i _ => by omega⟩, ?_⟩
  intro i hi
  obtain ⟨q, hq, -⟩ := Holds_iff_exists.1 (queueSort_holds exE2_valid 31 (fun _ => (0, 0)) (bas := i) (nnd := i + 1) (by simp only [exE2]; omega) (by omega)
    (by simp only [exE2]; omega) (by omega))
  refine ⟨31, fun _ => (0, 0), by dsimp only; omega, ?_⟩
  have : exQueue i = q := by unfold exQueue; rw [hq]
  rw [this]; exact hq

-- Each of both threads locks its vertex and fails to lock the other: both vertices are left to the final pass, which matches them.
example : ((exRun exE2 [0, 0, 0, 1, 1, 1, 0, 1, 0, 1, 0, 1] (sysInit exE2 (fun i => i) exQueue)).bind fun s =>
    (finish exE2 s 2 0 s.sh.mate 0).map fun r => (s.sh.mate.toList, decide ((s.thr 0).pc = .done ∧ (s.thr 1).pc = .done), (s.thr 0).qnew, (s.thr 1).qnew, r.1.toList, r.2)) =
    .ok ([-1, -1], true, 1, 1, [1, 0], 1) := by decide +kernel

end Scotch.Match
