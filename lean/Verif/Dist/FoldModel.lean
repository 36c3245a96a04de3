import Verif.MapIO.Model

/-!
# Folding of distributed graphs: communication plan

`dgraphFoldComm` of src/libscotch/dgraph_fold_comm.c, and the renumbering search of src/libscotch/dgraph_fold.c. Every process
runs the routine on the same ranges of vertices, and must find the same plan. In the code, the tables of the process are
filled in as messages are decided; no decision reads these tables, so that the model first computes the list of messages,
then fills in the tables by processing this list.
-/

set_option autoImplicit false

namespace Scotch.Fold

open Scotch.MapIO (view)

/-- One message of the plan: `num` vertices starting from global number `adj` go from process `snd` to process `rcv`. It is
the message of rank `sidx` of its sender and of rank `ridx` of its receiver. Flag `both` tells that the sender is one of the
processes that keep vertices (`DGRAPHFOLDCOMMSEND | DGRAPHFOLDCOMMRECV`) — dgraph_fold_comm.c:370–397, 409–450. -/
structure Move where
  snd : Int
  adj : Int
  num : Int
  rcv : Int
  sidx : Int
  ridx : Int
  both : Bool
  deriving DecidableEq

/-- Parameters of the routine that are the same on all processes: `procglbnbr` processes, the first vertex and the number of
vertices of each of them, the sum of these numbers, and the part to which to fold. -/
structure FoldIn where
  procglbnbr : Int
  baseval : Int
  vertglbnbr : Int
  procvrttab : Arr Int
  proccnttab : Arr Int
  partval : Int

namespace FoldIn
variable (f : FoldIn)

/-- Ranges of receiving and sending processes — dgraph_fold_comm.c:171–184. -/
def half : Int := (f.procglbnbr + 1) / 2
def procrcvbas : Int := if f.partval = 0 then 0 else f.half
def procrcvnnd : Int := if f.partval = 0 then f.half else f.procglbnbr
def procsndbas : Int := if f.partval = 0 then f.half else 0
def procsndnnd : Int := if f.partval = 0 then f.procglbnbr else f.half
def procfldnbr : Int := if f.partval = 0 then f.half else f.procglbnbr - f.half

end FoldIn

/-- Macro `DATASIZE (n, p, i)` — common.h:501. -/
def dataSize (n p i : Int) : Int := (n + (p - 1 - i)) / p

/-- The part of an array that is handed over to a routine: only its own cells can be accessed. -/
def part (tab : Arr (Int × Int)) (bas n : Int) : Arr (Int × Int) :=
  ⟨0, n, fun k => if 0 ≤ k ∧ k < n then tab.get (bas + k) else (0, 0)⟩

/-- `intSort2asc1 (tab + bas, n)` — dgraph_fold_comm.c:207, 224. The routine works on the part only. -/
def sortAt (tab : Arr (Int × Int)) (bas n : Int) : M (Arr (Int × Int)) := do
  let a ← Sorting.sort Sorting.lt2asc1 32 (part tab bas n) n
  return ⟨tab.lo, tab.hi, fun k => if bas ≤ k ∧ k < bas + n then a.get (k - bas) else tab.get k⟩

/-- Sorted table of the senders — dgraph_fold_comm.c:203–207. -/
def sortSnd (f : FoldIn) (tab : Arr (Int × Int)) : M (Arr (Int × Int)) := do
  let tab ← forUp f.procsndbas f.procsndnnd tab (fun p tab => do tab.wr p ((← f.proccnttab.rd p), p))
  sortAt tab f.procsndbas (f.procsndnnd - f.procsndbas)

/-- Sorted table of the receivers: number of vertices in excess of the average — dgraph_fold_comm.c:220–224. -/
def sortRcv (f : FoldIn) (tab : Arr (Int × Int)) : M (Arr (Int × Int)) := do
  let tab ← forUp f.procrcvbas f.procrcvnnd tab (fun p tab => do
    tab.wr p ((← f.proccnttab.rd p) - dataSize f.vertglbnbr f.procfldnbr (p - f.procrcvbas), p))
  sortAt tab f.procrcvbas (f.procrcvnnd - f.procrcvbas)

/-- Skips the senders that have no vertices — dgraph_fold_comm.c:226–229. -/
def skipEmpty (f : FoldIn) (tab : Arr (Int × Int)) : M Int := do
  match ← forUpB f.procsndbas f.procsndnnd () (fun i _ => do
    if (← tab.rd i).1 ≠ 0 then return .brk i else return .next ()) with
  | .brk i => return i
  | .next _ => return f.procsndnnd

/-- State of the main loop — dgraph_fold_comm.c:270–274. -/
structure Ctl where
  tab : Arr (Int × Int)
  sortsndbas : Int
  sortsndnnd : Int
  sortrcvnum : Int
  sortrcvnnd : Int
  commrcvnum : Int
  vertglbdlt : Int
  moves : List Move

/-- Outcome of the choice of the next sender — dgraph_fold_comm.c:288–313. -/
inductive Pick where
  | redo
  | done
  | go (sortsndnum vertsndnbr : Int) (both : Bool) (c : Ctl)

/-- Largest remaining sender, if any — dgraph_fold_comm.c:288–293. -/
def pickSnd (c : Ctl) : M (Int × Ctl) :=
  if c.sortsndnnd ≥ c.sortsndbas then do
    let t ← c.tab.rd c.sortsndnnd
    return (t.1, { c with sortsndnnd := c.sortsndnnd - 1 })
  else return (0, c)

/-- Choice of the next sender — dgraph_fold_comm.c:288–313. -/
def pick (c : Ctl) : M Pick := do
  let a ← pickSnd c
  if c.sortrcvnnd ≥ c.sortrcvnum then do
    let t ← c.tab.rd c.sortrcvnnd
    if t.1 > a.1 ∧ t.1 > c.vertglbdlt then
      if t.1 - c.vertglbdlt ≤ 0 then return .done
      else return .go c.sortrcvnnd (t.1 - c.vertglbdlt) true { a.2 with
        sortsndnnd := (if a.1 > 0 then a.2.sortsndnnd + 1 else a.2.sortsndnnd), sortrcvnnd := c.sortrcvnnd - 1 }
    else if a.1 ≤ 0 then return .done
    else return .go c.sortsndnnd a.1 false a.2
  else if a.1 > 0 then return .redo
  else return .done

/-- Number of receivers that can be used, and what they can receive — dgraph_fold_comm.c:316–318. -/
def capacity (commmax : Int) (c : Ctl) : M (Int × Int) := do
  let commnbr := max 0 (min commmax (c.sortrcvnnd + 1 - c.sortrcvnum))
  let vertrcvnbr ← forUp 0 commnbr (0 : Int) (fun k s => do
    let t ← c.tab.rd (c.sortrcvnum + k)
    return s + (c.vertglbdlt - t.1))
  return (commnbr, vertrcvnbr)

/-- Raise of the average so that the receivers can take all vertices: the new value, the number of vertices to send and the
capacity that is left — dgraph_fold_comm.c:315, 319–333. -/
def raise (both : Bool) (commnbr vertrcvnbr vertsndnbr vertglbdlt : Int) : M (Int × Int × Int) :=
  if vertrcvnbr < vertsndnbr then
    if both = false then
      if commnbr = 0 then throw .divZero
      else return (vertglbdlt + (vertsndnbr - vertrcvnbr + (commnbr - 1)) / commnbr, vertsndnbr, 0)
    else
      return (vertglbdlt + (vertsndnbr - vertrcvnbr + commnbr) / (commnbr + 1),
        vertsndnbr - (vertsndnbr - vertrcvnbr + commnbr) / (commnbr + 1), 0)
  else if both = false then return (vertglbdlt, vertsndnbr, 0)
  else return (vertglbdlt, vertsndnbr, vertrcvnbr - vertsndnbr)

/-- State of the loop on the receivers of a sender. -/
structure Inn where
  c : Ctl
  vertsndnbr : Int
  vertrcvdlt : Int
  vertadjval : Int
  commsndnum : Int
  /-- current receiver -/
  procrcvnum : Int
  vertrcvnbr : Int

/-- Reads the next receiver — dgraph_fold_comm.c:356–358, 402–404. -/
def nextRcv (s : Inn) : M Inn := do
  let t ← s.c.tab.rd s.c.sortrcvnum
  return { s with procrcvnum := t.2, vertrcvnbr := s.c.vertglbdlt - t.1 }

/-- Message from the smallest sender, to be received before the one of the current sender — dgraph_fold_comm.c:370–405. -/
def small (f : FoldIn) (s : Inn) : M Inn := do
  let t ← s.c.tab.rd s.c.sortsndbas
  let adj ← f.procvrttab.rd t.2
  let m : Move := ⟨t.2, adj, t.1, s.procrcvnum, 0, s.c.commrcvnum, false⟩
  let s : Inn := { s with
    vertrcvdlt := s.vertrcvdlt - t.1
    vertrcvnbr := s.vertrcvnbr - t.1
    c := { s.c with sortsndbas := s.c.sortsndbas + 1, commrcvnum := s.c.commrcvnum + 1, moves := s.c.moves ++ [m] } }
  if s.vertrcvnbr ≤ 0 then
    nextRcv { s with c := { s.c with sortrcvnum := s.c.sortrcvnum + 1, commrcvnum := 0 } }
  else return s

/-- Condition for sending the vertices of the smallest sender — dgraph_fold_comm.c:360–364. -/
def smallCond (s : Inn) : M Bool :=
  if s.vertrcvdlt > 0 ∧ s.c.commrcvnum = 0 ∧ s.c.sortsndbas ≤ s.c.sortsndnnd then do
    let t ← s.c.tab.rd s.c.sortsndbas
    return decide (s.vertrcvdlt ≥ t.1 ∧ s.vertrcvnbr ≥ t.1)
  else return false

/-- Message of the current sender — dgraph_fold_comm.c:408–456. -/
def bigMove (commmax snd : Int) (both : Bool) (s : Inn) : Inn :=
  let n := if s.vertsndnbr < s.vertrcvnbr then s.vertsndnbr else s.vertrcvnbr
  let m : Move := ⟨snd, s.vertadjval, n, s.procrcvnum, s.commsndnum, s.c.commrcvnum, both⟩
  let adv := decide (¬ s.vertsndnbr < s.vertrcvnbr ∨ s.c.commrcvnum + 1 = commmax)
  { s with
    c := { s.c with
      sortrcvnum := if adv then s.c.sortrcvnum + 1 else s.c.sortrcvnum
      commrcvnum := if adv then 0 else s.c.commrcvnum + 1
      moves := s.c.moves ++ [m] }
    vertsndnbr := s.vertsndnbr - n
    vertrcvnbr := n
    commsndnum := s.commsndnum + 1
    vertadjval := s.vertadjval + n }

/-- Body of the loop on the receivers of a sender — dgraph_fold_comm.c:340–457. -/
def giveStep (f : FoldIn) (commmax snd : Int) (both : Bool) (s : Inn) : M (Loop Inn Inn) := do
  let s ← nextRcv s
  let s ← (do if (← smallCond s) then small f s else return s)
  let s := bigMove commmax snd both s
  if s.vertsndnbr > 0 then return .next s else return .brk s

/-- Update of the last receiver — dgraph_fold_comm.c:458–468. -/
def tail (s : Inn) : M Ctl :=
  if s.c.commrcvnum > 0 then do
    let t ← s.c.tab.rd s.c.sortrcvnum
    if t.1 + s.vertrcvnbr < 0 then do
      let tab ← s.c.tab.wr s.c.sortrcvnum (t.1 + s.vertrcvnbr, t.2)
      return { s.c with tab := tab }
    else return { s.c with sortrcvnum := s.c.sortrcvnum + 1, commrcvnum := 0 }
  else return s.c

/-- Body of the main loop — dgraph_fold_comm.c:275–469. The result tells if more messages per process are needed. -/
def planStep (f : FoldIn) (commmax : Int) (c : Ctl) : M (Loop Ctl (Bool × List Move)) := do
  match ← pick c with
  | .redo => return .brk (false, c.moves)
  | .done => return .brk (true, c.moves)
  | .go sortsndnum vertsndnbr both c => do
    let cap ← capacity commmax c
    let r ← raise both cap.1 cap.2 vertsndnbr c.vertglbdlt
    let snd ← c.tab.rd sortsndnum
    let adj := (← f.procvrttab.rd snd.2) + (← f.proccnttab.rd snd.2) - r.2.1
    let s ← loopM (giveStep f commmax snd.2 both) (f.procglbnbr.toNat + 2)
      ⟨{ c with vertglbdlt := r.1 }, r.2.1, r.2.2, adj, 0, 0, 0⟩
    let c ← tail s
    return .next c

/-- Body of the loop on the number of messages — dgraph_fold_comm.c:210–471. -/
def foldTry (f : FoldIn) (st : Int × Arr (Int × Int)) : M (Loop (Int × Arr (Int × Int)) (Int × List Move)) := do
  let tab ← sortRcv f st.2
  let sortsndbas ← skipEmpty f tab
  let r ← loopM (planStep f st.1) (f.procglbnbr.toNat + 1)
    ⟨tab, sortsndbas, f.procsndnnd - 1, f.procrcvbas, f.procrcvnnd - 1, 0, 0, []⟩
  if r.1 then return .brk (st.1, r.2) else return .next (st.1 + 1, tab)

/-- The plan: maximum number of messages per process, and messages — dgraph_fold_comm.c:203–472. Array `junk` is the content
of the sort table as allocated. -/
def foldPlan (f : FoldIn) (junk : Int → Int × Int) : M (Int × List Move) := do
  let tab ← sortSnd f (part ⟨0, f.procglbnbr, junk⟩ 0 f.procglbnbr)
  loopM (foldTry f) (f.procglbnbr.toNat + 1) (4, tab)

/-! ## Tables of a process -/

/-- Tables of a process — dgraph_fold_comm.c:133–148. -/
structure Tables where
  commtypval : Int
  commdattab : Arr (Int × Int)
  commvrttab : Arr Int
  vertadjtab : Arr Int
  vertdlttab : Arr Int
  /-- based at the first slot of the first receiver -/
  slotsndtax : Arr Int

/-- Tells if the process receives — dgraph_fold_comm.c:186–193. -/
def FoldIn.isRcv (f : FoldIn) (me : Int) : Bool := decide (f.procrcvbas ≤ me ∧ me < f.procrcvnnd)

/-- Initial tables — dgraph_fold_comm.c:186–193, 234–268. -/
def tablesInit (f : FoldIn) (me commmax : Int) (j1 j2 : Int → Int) : M Tables := do
  let commsiz := if f.isRcv me then commmax + 1 else 0
  let t : Tables :=
    { commtypval := if f.isRcv me then 2 else 1
      commdattab := Arr.const 0 commmax (0, -1)
      commvrttab := ⟨0, commmax, j1⟩
      vertadjtab := Arr.const 0 (commsiz * f.procglbnbr) (-1)
      vertdlttab := ⟨0, commsiz * f.procglbnbr, j2⟩
      slotsndtax := Arr.const (f.procrcvbas * commsiz) (f.procrcvbas * commsiz + commsiz * f.procfldnbr) (-1) }
  if f.isRcv me then
    forUp f.procrcvbas f.procrcvnnd t (fun p t => do
      let vertadjtab ← t.vertadjtab.wr (p * commsiz) (← f.procvrttab.rd p)
      let vertdlttab ← t.vertdlttab.wr (p * commsiz) (← f.proccnttab.rd p)
      let slotsndtax ← t.slotsndtax.wr (p * commsiz) (p * commsiz)
      return { t with vertadjtab := vertadjtab, vertdlttab := vertdlttab, slotsndtax := slotsndtax })
  else return t

/-- A process records a message in which it takes part — dgraph_fold_comm.c:379–381, 425–427, 431–433, 443–445. -/
def Tables.comm (t : Tables) (i num proc adj : Int) : M Tables := do
  let commdattab ← t.commdattab.wr i (num, proc)
  let commvrttab ← t.commvrttab.wr i adj
  return { t with commdattab := commdattab, commvrttab := commvrttab }

/-- The sender is a receiver that keeps some vertices — dgraph_fold_comm.c:419–429. -/
def Tables.both (t : Tables) (me commsiz : Int) (m : Move) : M Tables :=
  if m.both then do
    let vertdlttab ← t.vertdlttab.wr (m.snd * commsiz) ((← t.vertdlttab.rd (m.snd * commsiz)) - m.num)
    let t := { t with vertdlttab := vertdlttab }
    if m.snd = me then ({ t with commtypval := 3 } : Tables).comm m.sidx m.num m.rcv m.adj
    else return t
  else return t

/-- Updates of the tables by one message — dgraph_fold_comm.c:377–394, 415–447. -/
def Tables.emit (t : Tables) (f : FoldIn) (me commmax : Int) (m : Move) : M Tables :=
  if f.isRcv me then do
    let commsiz := commmax + 1
    let t ← t.both me commsiz m
    let t ← (if m.rcv = me then t.comm m.ridx m.num m.snd m.adj else return t)
    let slot := (if m.both then 1 else 0) + m.snd * commsiz + m.sidx
    let vertadjtab ← t.vertadjtab.wr slot m.adj
    let vertdlttab ← t.vertdlttab.wr slot m.num
    let slotsndtax ← t.slotsndtax.wr (m.rcv * commsiz + 1 + m.ridx) slot
    return { t with vertadjtab := vertadjtab, vertdlttab := vertdlttab, slotsndtax := slotsndtax }
  else if m.snd = me then t.comm m.sidx m.num m.rcv m.adj
  else return t

/-- Updates of the tables by a list of messages. -/
def Tables.emits (f : FoldIn) (me commmax : Int) : List Move → Tables → M Tables
  | [], t => .ok t
  | m :: l, t => do
    let t ← t.emit f me commmax m
    Tables.emits f me commmax l t

/-- State of the loop that computes shifts — dgraph_fold_comm.c:505–507. -/
structure Shift where
  vertdlttab : Arr Int
  fldproccnttab : Arr Int
  fldprocnum : Int
  fldvertlocnbr : Int
  commnum : Int
  vertadjsum : Int

/-- Body of the loop that computes shifts — dgraph_fold_comm.c:511–524. -/
def shiftStep (t : Tables) (commsiz rcvbas : Int) (slot : Int) (s : Shift) : M Shift := do
  let s ← (if s.commnum = commsiz then do
      let cnt ← s.fldproccnttab.wr s.fldprocnum s.fldvertlocnbr
      return { s with fldproccnttab := cnt, fldprocnum := s.fldprocnum + 1, fldvertlocnbr := 0, commnum := 0 }
    else return s)
  let slotsndnum ← t.slotsndtax.rd (rcvbas * commsiz + slot)
  if slotsndnum = -1 then return { s with commnum := s.commnum + 1 }
  else do
    let n ← s.vertdlttab.rd slotsndnum
    let adj ← t.vertadjtab.rd slotsndnum
    let vertdlttab ← s.vertdlttab.wr slotsndnum (s.vertadjsum - adj)
    return { s with vertdlttab := vertdlttab, vertadjsum := s.vertadjsum + n, fldvertlocnbr := s.fldvertlocnbr + n, commnum := s.commnum + 1 }

/-- Body of the loop that compacts the tables — dgraph_fold_comm.c:529–534. -/
def packStep (slot : Int) (s : Int × Arr Int × Arr Int) : M (Int × Arr Int × Arr Int) := do
  let a ← s.2.1.rd slot
  if a ≠ -1 then do
    let vertadjtab ← s.2.1.wr s.1 a
    let vertdlttab ← s.2.2.wr s.1 (← s.2.2.rd slot)
    return (s.1 + 1, vertadjtab, vertdlttab)
  else return s

/-- Result of the routine on a receiver. -/
structure FoldOut where
  tables : Tables
  fldproccnttab : Arr Int
  vertadjnbr : Int
  vertadjtab : Arr Int
  vertdlttab : Arr Int

/-- Computation of ranges and shifts by a receiver — dgraph_fold_comm.c:492–541. -/
def foldFinish (f : FoldIn) (commmax : Int) (t : Tables) (j3 : Int → Int) : M FoldOut := do
  let commsiz := commmax + 1
  let s ← forUp 0 (commsiz * f.procfldnbr) (⟨t.vertdlttab, ⟨0, f.procfldnbr, j3⟩, 0, 0, 0, f.baseval⟩ : Shift)
    (shiftStep t commsiz f.procrcvbas)
  let cnt ← s.fldproccnttab.wr s.fldprocnum s.fldvertlocnbr
  let p ← forUp 0 (commsiz * f.procglbnbr) ((0, t.vertadjtab, s.vertdlttab) : Int × Arr Int × Arr Int) packStep
  let vertadjtab ← p.2.1.wr p.1 (← f.procvrttab.rd f.procglbnbr)
  return ⟨t, cnt, p.1, vertadjtab, p.2.2⟩

/-- Tables of process `me` for a plan — dgraph_fold_comm.c:186–193, 231–268, 377–394, 415–447. -/
def foldTables (f : FoldIn) (me : Int) (plan : Int × List Move) (j1 j2 : Int → Int) : M Tables := do
  let t ← tablesInit f me plan.1 j1 j2
  Tables.emits f me plan.1 plan.2 t

/-- Renumbering of the end of an arc — dgraph_fold.c:552–562, 675–685. -/
def renum (o : FoldOut) (v : Int) : M Int := do
  let i ← loopM (fun (s : Int × Int) => do
    if ¬ (s.2 - s.1 > 1) then return .brk s.1
    else do
      let med := (s.2 + s.1) / 2
      if (← o.vertadjtab.rd med) ≤ v then return .next (med, s.2) else return .next (s.1, med)) (o.vertadjnbr.toNat + 1) (0, o.vertadjnbr)
  return v + (← o.vertdlttab.rd i)

end Scotch.Fold
