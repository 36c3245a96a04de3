import Verif.Graph.Model
import Verif.Sort.Partial

/-!
# Matching: model

src/libscotch/graph_match.c and graph_match_scan.c. The eight variants of the scan routine, which are produced by preprocessor definitions, are modelled by parameters:
`seq` (`GRAPHMATCHSCANSEQ`), `fix` (`GRAPHMATCHSCANPFIXTAB`), and the presence of edge loads (`GRAPHMATCHSCANEDLOTAB`, selected when the graph has edge loads).

The threaded variant is modelled as a transition system: each access to memory which is shared by threads and may be modified (mating array, locks) is a step, except
for the reads of the mating array that are performed during the search for a mate. Since these reads are spread over time, the search
is given arbitrary views of the mating array, which may be outdated; see `Admissible`.
-/

set_option autoImplicit false

namespace Scotch.Match

/-- Data common to all threads: fields of `GraphCoarsenData`, graph_coarsen.h:146–164. `fix` is bit 2 of `fumaval`, graph_match.c:208–209;
`nomerge` is `flagval & GRAPHCOARSENNOMERGE`. -/
structure Env where
  g : Graph
  fix : Bool
  pfix : Option (Arr Int)
  paro : Option (Arr Int)
  nomerge : Bool

/-- `(tax == NULL) || (tax[a] == tax[b])` — graph_match_scan.c:134–135, 158–159. -/
def sameTax (tax : Option (Arr Int)) (a b : Int) : M Bool :=
  match tax with
  | none => return true
  | some t => do return decide ((← t.rd a) = (← t.rd b))

/-- Compatibility test of two vertices — graph_match_scan.c:133–136, 157–160. -/
def compatible (E : Env) (a b : Int) : M Bool :=
  if E.fix then do
    if ← sameTax E.pfix a b then sameTax E.paro a b else return false
  else return true

/-- `while ((finequeunnd > finequeunum) && (finematetax[finequeutab[finequeunnd - finequeudlt]] >= 0))` — graph_match_scan.c:123–125. -/
def trimEnd (mate queue : Arr Int) (dlt qnum : Int) : Nat → Int → M Int
  | 0, _ => .error .fuel
  | fuel + 1, nnd =>
    if nnd > qnum then do
      let x ← queue.rd (nnd - dlt)
      if (← mate.rd x) ≥ 0 then trimEnd mate queue dlt qnum fuel (nnd - dlt) else return nnd
    else return nnd

/-- Loop on the candidates for an isolated vertex — graph_match_scan.c:127–147. The result is the candidate found, if any, with the value of `finequisnnd`. -/
def isoLoop (E : Env) (mate queue : Arr Int) (dlt qnum v : Int) : Nat → Int → M (Option (Int × Int))
  | 0, _ => .error .fuel
  | fuel + 1, quisnnd =>
    if quisnnd > qnum then do
      let x ← queue.rd (quisnnd - dlt)
      let quisnnd := quisnnd - dlt
      if (← mate.rd x) < 0 then do
        if ← compatible E x v then return some (x, quisnnd)
        else isoLoop E mate queue dlt qnum v fuel quisnnd
      else isoLoop E mate queue dlt qnum v fuel quisnnd
    else return none

/-- Test of a neighbour — graph_match_scan.c:154–164: the load of the arc if the neighbour is a better candidate. -/
def nbrTest (E : Env) (mate : Arr Int) (v e edlobst : Int) : M (Option (Int × Int)) := do
  let x ← E.g.edgetax.rd e
  if (← mate.rd x) < 0 then do
    if ← compatible E x v then
      match E.g.edlotax with
      | none => return some (x, edlobst)
      | some a => do
        let l ← a.rd e
        if l > edlobst then return some (x, l) else return none
    else return none
  else return none

/-- Loop on the neighbours — graph_match_scan.c:151–172. Without edge loads, the first candidate is taken. -/
def nbrLoop (E : Env) (mate : Arr Int) (v : Int) : Nat → Int → Int → Int → M Int
  | 0, _, bst, _ => .ok bst
  | k + 1, e, bst, edlobst => do
    match ← nbrTest E mate v e edlobst with
    | none => nbrLoop E mate v k (e + 1) bst edlobst
    | some (x, l) =>
      match E.g.edlotax with
      | none => return x
      | some _ => nbrLoop E mate v k (e + 1) x l

/-- New end of queue — graph_match_scan.c:139–143. -/
def nndAfter (seq fix : Bool) (nnd quisnnd : Int) : Int := if seq && !fix then quisnnd else nnd

/-- Search for a mate of `v` — graph_match_scan.c:115–173. Returns `finevertbst` and `finequeunnd`. The mating arrays `mate1` and `mate2` that are read while the end
of the queue is trimmed, and then, are the same in the sequential case. -/
def findMate (E : Env) (seq : Bool) (mate1 mate2 queue : Arr Int) (dlt qnum nnd v : Int) : M (Int × Int) := do
  let vert ← E.g.verttax.rd v
  let vend ← E.g.rdVend v
  if vert = vend then
    if E.nomerge then return (v, nnd)
    else do
      let nnd ← trimEnd mate1 queue dlt qnum (nnd - qnum + 1).toNat nnd
      match ← isoLoop E mate2 queue dlt qnum v (nnd - qnum + 1).toNat nnd with
      | none => return (v, nnd)
      | some (x, quisnnd) => return (x, nndAfter seq E.fix nnd quisnnd)
  else do
    let bst ← nbrLoop E mate2 v (vend - vert).toNat vert v (-1)
    return (bst, nnd)

/-- State of the sequential scan. -/
structure SState where
  mate : Arr Int
  qnum : Int
  nnd : Int
  cnt : Int

/-- One iteration of the main loop of the sequential variants — graph_match_scan.c:102–192. -/
def seqStep (E : Env) (queue : Arr Int) (dlt : Int) (s : SState) : M (Loop SState SState) :=
  if s.qnum < s.nnd then do
    let v ← queue.rd s.qnum
    if (← s.mate.rd v) ≥ 0 then return .next { s with qnum := s.qnum + dlt }
    else do
      let r ← findMate E true s.mate s.mate queue dlt s.qnum s.nnd v
      let mate ← s.mate.wr r.1 v
      let mate ← mate.wr v r.1
      return .next ⟨mate, s.qnum + dlt, r.2, s.cnt + 1⟩
  else return .brk s

/-- `GRAPHMATCHSCANNAME`, sequential variants — graph_match_scan.c:71–197. `dlt` is `finequeudlt` (2 or 1) and `n` is `finequeunbr`. Returns the mating array and the
number of coarse vertices. -/
def scanSeq (E : Env) (mate queue : Arr Int) (dlt n cnt : Int) : M (Arr Int × Int) := do
  let s ← loopM (seqStep E queue dlt) (n.toNat + 1) ⟨mate, dlt / 2, dlt / 2 + n * dlt, cnt⟩
  return (s.mate, s.cnt)

/-! ## Queue -/

/-- `graphMatchQueueSort` — graph_match.c:156–178. Sorting is performed on pairs; the queue is the same memory seen as an array of single values. The contents of the newly
allocated array are arbitrary. -/
def queueSort (g : Graph) (bits : Nat) (junk : Int → Int × Int) (bas nnd : Int) : M (Arr Int) := do
  let a ← forUp bas nnd ⟨0, nnd - bas, junk⟩ fun v (a : Arr (Int × Int)) => do
    let vend ← g.rdVend v
    a.wr (v - bas) (vend - (← g.verttax.rd v), v)
  let a ← Sorting.psort Sorting.lt2asc1 (bits + 1) 3 a (nnd - bas)
  return ⟨0, 2 * (nnd - bas), fun i => if i % 2 = 0 then (a.get (i / 2)).1 else (a.get (i / 2)).2⟩

/-- `graphMatch` when `finelocktax` is null: one thread performs the matching — graph_match.c:287–377. The contents of the mating array are arbitrary on entry. -/
def matchSeq (E : Env) (bits : Nat) (junk : Int → Int × Int) : M (Arr Int × Int) := do
  let mate := Arr.const E.g.baseval E.g.vertnnd (-1)
  let queue ← queueSort E.g bits junk E.g.baseval E.g.vertnnd
  scanSeq E mate queue 2 E.g.vertnbr 0

/-! ## Threaded scan -/

/-- Program counter of a thread in the main loop of the threaded variants. -/
inductive Pc where
  /-- beginning of an iteration, graph_match_scan.c:102–113 -/
  | top
  /-- the current vertex was not mated: search for a mate, 115–173 -/
  | search (v : Int)
  /-- acquisition of the lock of the current vertex, 176 -/
  | lock1 (v b : Int)
  /-- acquisition of the lock of the other vertex, 180 -/
  | lock2 (v b : Int)
  /-- release of the lock of the current vertex, 181–183 -/
  | unlock (v b : Int)
  /-- writing of the mate of the other vertex, 185 -/
  | write1 (v b : Int)
  /-- writing of the mate of the current vertex, 190 -/
  | write2 (v b : Int)
  /-- end of the routine -/
  | done
  deriving DecidableEq

/-- Local state of a thread. -/
structure Thr where
  pc : Pc
  queue : Arr Int
  qnum : Int
  qnew : Int
  nnd : Int
  cnt : Int

/-- Shared state. -/
structure Shared where
  mate : Arr Int
  lock : Arr Int

/-- One step of a thread. `w1` and `w2` are the views of the mating array used by the search. In the threaded pass, `finequeudlt` is 2, graph_match.c:304. -/
def thrStep (E : Env) (w1 w2 : Int → Int) (s : Shared) (t : Thr) : M (Shared × Thr) :=
  match t.pc with
  | .top =>
    if t.qnum < t.nnd then do
      let v ← t.queue.rd t.qnum
      if (← s.mate.rd v) ≥ 0 then return (s, { t with qnum := t.qnum + 2 })
      else return (s, { t with pc := .search v })
    else return (s, { t with pc := .done })
  | .search v => do
    let r ← findMate E false { s.mate with get := w1 } { s.mate with get := w2 } t.queue 2 t.qnum t.nnd v
    return (s, { t with pc := .lock1 v r.1, nnd := r.2 })
  | .lock1 v b => do
    if (← s.lock.rd v) ≠ 0 then return (s, { t with pc := .top, qnum := t.qnum + 2 })
    else do
      let lock ← s.lock.wr v 1
      return ({ s with lock := lock }, { t with pc := if b ≠ v then .lock2 v b else .write2 v b })
  | .lock2 v b => do
    if (← s.lock.rd b) ≠ 0 then return (s, { t with pc := .unlock v b })
    else do
      let lock ← s.lock.wr b 1
      return ({ s with lock := lock }, { t with pc := .write1 v b })
  | .unlock v _ => do
    let lock ← s.lock.wr v 0
    let queue ← t.queue.wr t.qnew v
    return ({ s with lock := lock }, { t with pc := .top, qnum := t.qnum + 2, qnew := t.qnew + 1, queue := queue })
  | .write1 v b => do
    let mate ← s.mate.wr b v
    return ({ s with mate := mate }, { t with pc := .write2 v b })
  | .write2 v b => do
    let mate ← s.mate.wr v b
    return ({ s with mate := mate }, { t with pc := .top, qnum := t.qnum + 2, cnt := t.cnt + 1 })
  | .done => return (s, t)

/-- State of the whole system: threads are numbered from 0 on. -/
structure Sys where
  sh : Shared
  thr : Nat → Thr

/-- A step of thread `i`. -/
def sysStep (E : Env) (w1 w2 : Int → Int) (i : Nat) (s : Sys) : M Sys := do
  let r ← thrStep E w1 w2 s.sh (s.thr i)
  return ⟨r.1, fun j => if j = i then r.2 else s.thr j⟩

/-- Reads of the mating array, performed at any time before the current one, may not have returned a mate for a vertex that has none now, since the mating array is never reset:
the views are only constrained by this. -/
def Admissible (s : Sys) (w1 w2 : Int → Int) : Prop := ∀ x, (0 ≤ w1 x ∨ 0 ≤ w2 x) → 0 ≤ s.sh.mate.get x

/-- State after initialisation, when all threads enter the scan routine — graph_match.c:298–335 and graph_match_scan.c:99–101. `queue i` is the queue of thread `i`, which handles vertices
`[bas i, bas (i + 1))`. -/
def sysInit (E : Env) (bas : Nat → Int) (queue : Nat → Arr Int) : Sys where
  sh := ⟨Arr.const E.g.baseval E.g.vertnnd (-1), Arr.const E.g.baseval E.g.vertnnd 0⟩
  thr := fun i => ⟨.top, queue i, 1, 0, 1 + 2 * (bas (i + 1) - bas i), 0⟩

/-- Last part of `graphMatch`: thread 0 runs the sequential routine on the remaining queues — graph_match.c:339–348. Parameter `k` is the number of threads still to handle;
sums are accumulated as in the C code. -/
def finish (E : Env) (s : Sys) : Nat → Nat → Arr Int → Int → M (Arr Int × Int)
  | 0, _, mate, sum => .ok (mate, sum)
  | k + 1, i, mate, sum => do
    let r ← scanSeq E mate (s.thr i).queue 1 (s.thr i).qnew (s.thr i).cnt
    finish E s k (i + 1) r.1 (sum + r.2)

end Scotch.Match
