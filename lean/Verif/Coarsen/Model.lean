import Verif.Graph.Model

/-!
# Coarse graph building: model

src/libscotch/graph_coarsen.c, from line 216 on, and graph_coarsen_edge.c. Memory allocation succeeds. `numMax` is the largest `Gnum`.
-/

set_option autoImplicit false

namespace Scotch.Coarsen

/-- `GraphCoarsenHash` — graph_coarsen.h:118–122. -/
structure Cell where
  org : Int
  vend : Int
  edge : Int

/-- `GRAPHCOARSENHASHPRIME` — graph_coarsen.h:88. -/
def hashPrime : Int := 1049

/-- Bitwise and of non-negative values. -/
def land (a b : Int) : Int := ((a.toNat &&& b.toNat : Nat) : Int)

/-- Size of the hash table: `for (coarhashmsk = 31; coarhashmsk < degrmax; coarhashmsk = coarhashmsk * 2 + 1) ;` — graph_coarsen.c:509. -/
def maskLoop (degrmax : Int) : Nat → Int → M Int
  | 0, _ => .error .fuel
  | n + 1, msk => if msk < degrmax then maskLoop degrmax n (msk * 2 + 1) else .ok msk

/-- `coarhashmsk` — graph_coarsen.c:509–510. -/
def hashMask (degrmax : Int) : M Int := do return (← maskLoop degrmax (degrmax.toNat + 1) 31) * 4 + 3

/-! ## Numbering -/

/-- State of the numbering loop. -/
structure NState where
  coar : Arr Int
  mult : Arr (Int × Int)
  num : Int

/-- Body of the sequential numbering loop — graph_coarsen.c:346–355. The mating array becomes the fine-to-coarse array. -/
def numberBody (v : Int) (s : NState) : M NState := do
  let mate ← s.coar.rd v
  if mate ≥ v then do
    let mult ← s.mult.wr s.num (v, mate)
    let coar ← s.coar.wr v s.num
    let coar ← coar.wr mate s.num
    return ⟨coar, mult, s.num + 1⟩
  else return s

/-- Sequential numbering — graph_coarsen.c:343–356. -/
def numberSeq (g : Graph) (mate : Arr Int) (mult : Arr (Int × Int)) : M NState :=
  forUp g.baseval g.vertnnd ⟨mate, mult, g.baseval⟩ numberBody

/-- Number of coarse vertices created by a range of fine vertices — graph_coarsen.c:284–291. -/
def countRange (mate : Arr Int) (bas nnd : Int) : M Int :=
  forUp bas nnd 0 fun v (n : Int) => do if (← mate.rd v) ≥ v then return n + 1 else return n

/-- Filling of the multinode array by a thread, from its first coarse number on — graph_coarsen.c:307–318. -/
def multRange (mate : Arr Int) (bas nnd start : Int) (mult : Arr (Int × Int)) : M (Arr (Int × Int) × Int) :=
  forUp bas nnd (mult, start) fun v s => do
    let m ← mate.rd v
    if m ≥ v then do return (← s.1.wr s.2 (v, m), s.2 + 1) else return s

/-- Filling of the fine-to-coarse array by a thread — graph_coarsen.c:325–329. -/
def coarRange (mult : Arr (Int × Int)) (bas nnd : Int) (coar : Arr Int) : M (Arr Int) :=
  forUp bas nnd coar fun c (coar : Arr Int) => do
    let p ← mult.rd c
    let coar ← coar.wr p.2 c
    coar.wr p.1 c

/-- Phase of the multinode array for threads `i`, `i + 1`, …: `start` is the first coarse number of the thread, which is obtained by `threadScan` — graph_coarsen.c:293–307. -/
def multPhase (mate : Arr Int) (fbas : Nat → Int) : Nat → Nat → Int → Arr (Int × Int) → M (Arr (Int × Int))
  | 0, _, _, mult => .ok mult
  | k + 1, i, start, mult => do
    let n ← countRange mate (fbas i) (fbas (i + 1))
    let r ← multRange mate (fbas i) (fbas (i + 1)) start mult
    multPhase mate fbas k (i + 1) (start + n) r.1

/-- Phase of the fine-to-coarse array. -/
def coarPhase (mult : Arr (Int × Int)) (cbas : Nat → Int) : Nat → Nat → Arr Int → M (Arr Int)
  | 0, _, coar => .ok coar
  | k + 1, i, coar => do coarPhase mult cbas k (i + 1) (← coarRange mult (cbas i) (cbas (i + 1)) coar)

/-! ## Edges -/

/-- Search in the hash table, graph_coarsen_edge.c:124–150: the slot found, and whether it is free. -/
def hashLoop (tab : Arr Cell) (msk c e : Int) : Nat → Int → M (Int × Bool)
  | 0, _ => .error .fuel
  | n + 1, h => do
    let cell ← tab.rd h
    if cell.org ≠ c then return (h, true)
    else if cell.vend = e then return (h, false)
    else hashLoop tab msk c e n (land (h + 1) msk)

/-- First slot — graph_coarsen_edge.c:124. The product must not overflow. -/
def hashStart (numMax msk e : Int) : M Int :=
  if e * hashPrime ≤ numMax then .ok (land (e * hashPrime) msk) else .error .overflow

/-- State of edge building. `edge` and `edlo` are the arrays of the coarse graph. -/
structure EState where
  tab : Arr Cell
  edge : Arr Int
  edlo : Arr Int
  num : Int
  adj : Int

/-- Load of a fine arc: 1 if there are no loads. -/
def fineEdlo (g : Graph) (e : Int) : M Int := match g.edlotax with | none => return 1 | some a => a.rd e

/-- Addition of an arc to end `ce`, of load `l`, graph_coarsen_edge.c:124–150. -/
def addArcM (numMax msk c ce l : Int) (s : EState) : M EState := do
  let h ← hashStart numMax msk ce
  let r ← hashLoop s.tab msk c ce (msk.toNat + 2) h
  if r.2 then do
    let tab ← s.tab.wr r.1 ⟨c, ce, s.num⟩
    let edge ← s.edge.wr s.num ce
    let edlo ← s.edlo.wr s.num l
    return { s with tab := tab, edge := edge, edlo := edlo, num := s.num + 1 }
  else do
    let cell ← s.tab.rd r.1
    let old ← s.edlo.rd cell.edge
    let edlo ← s.edlo.wr cell.edge (old + l)
    return { s with edlo := edlo }

/-- Handling of a fine arc — graph_coarsen_edge.c:117–161. -/
def arcBody (numMax : Int) (g : Graph) (coar : Arr Int) (msk c : Int) (e : Int) (s : EState) : M EState := do
  let w ← g.edgetax.rd e
  let ce ← coar.rd w
  let l ← fineEdlo g e
  if ce ≠ c then addArcM numMax msk c ce l s else return { s with adj := s.adj - l }

/-- Handling of a fine vertex — graph_coarsen_edge.c:112–161. -/
def fineBody (numMax : Int) (g : Graph) (coar : Arr Int) (msk c v : Int) (s : EState) : M EState := do
  let vert ← g.verttax.rd v
  let vend ← g.rdVend v
  forUp vert vend s (arcBody numMax g coar msk c)

/-- Load of a fine vertex — graph_coarsen_edge.c:114. -/
def fineVelo (g : Graph) (v : Int) : M Int := match g.velotax with | none => return 1 | some a => a.rd v

/-- State of the loop on coarse vertices. `vend` is only used for non-compact graphs. -/
structure CState where
  vert : Arr Int
  vend : Option (Arr Int)
  velo : Arr Int
  es : EState
  degrmax : Int

/-- `coargrafptr->vendtax[coarvertnum] = coaredgenum`, when not compact — graph_coarsen_edge.c:170–171. -/
def wrVend (vend : Option (Arr Int)) (c v : Int) : M (Option (Arr Int)) :=
  match vend with
  | none => return none
  | some a => do return some (← a.wr c v)

/-- Both fine vertices of a coarse vertex, and their load: `do … while (i ++, finevertnum != coarmulttax[coarvertnum].vertnum[1])` — graph_coarsen_edge.c:108–162. -/
def pairBody (numMax : Int) (g : Graph) (coar : Arr Int) (msk c : Int) (p : Int × Int) (s : EState) : M (EState × Int) := do
  let l0 ← fineVelo g p.1
  let s ← fineBody numMax g coar msk c p.1 s
  if p.1 ≠ p.2 then do
    let l1 ← fineVelo g p.2
    let s ← fineBody numMax g coar msk c p.2 s
    return (s, l0 + l1)
  else return (s, l0)

/-- Handling of a coarse vertex — graph_coarsen_edge.c:97–173. -/
def coarBody (numMax : Int) (g : Graph) (coar : Arr Int) (mult : Arr (Int × Int)) (msk : Int) (c : Int) (s : CState) : M CState := do
  let vert ← s.vert.wr c s.es.num
  let p ← mult.rd c
  let r ← pairBody numMax g coar msk c p s.es
  let velo ← s.velo.wr c r.2
  let vend ← wrVend s.vend c r.1.num
  return ⟨vert, vend, velo, r.1, max s.degrmax (r.1.num - s.es.num)⟩

/-- `graphCoarsenEdgeLl`, `graphCoarsenEdgeLu`: building of the edges of coarse vertices `[bas, nnd)`, starting at edge index `num` and with a fresh hash table — graph_coarsen_edge.c:90–181,
graph_coarsen.c:368–380. -/
def edgeRange (numMax : Int) (g : Graph) (coar : Arr Int) (mult : Arr (Int × Int)) (msk bas nnd num : Int) (s : CState) : M CState :=
  forUp bas nnd { s with es := { s.es with tab := Arr.const 0 (msk + 1) ⟨-1, -1, -1⟩, num := num, adj := 0 }, degrmax := 0 } (coarBody numMax g coar mult msk)

/-! ## Counting variant -/

/-- `graphCoarsenEdgeCt`: state is the hash table and the number of edges. -/
def ctArc (numMax : Int) (g : Graph) (coar : Arr Int) (msk c : Int) (e : Int) (s : Arr Cell × Int) : M (Arr Cell × Int) := do
  let w ← g.edgetax.rd e
  let ce ← coar.rd w
  if ce ≠ c then do
    let h ← hashStart numMax msk ce
    let r ← hashLoop s.1 msk c ce (msk.toNat + 2) h
    if r.2 then do return (← s.1.wr r.1 ⟨c, ce, s.2⟩, s.2 + 1) else return s
  else return s

def ctFine (numMax : Int) (g : Graph) (coar : Arr Int) (msk c v : Int) (s : Arr Cell × Int) : M (Arr Cell × Int) := do
  let vert ← g.verttax.rd v
  let vend ← g.rdVend v
  forUp vert vend s (ctArc numMax g coar msk c)

def ctCoar (numMax : Int) (g : Graph) (coar : Arr Int) (mult : Arr (Int × Int)) (msk : Int) (c : Int) (s : Arr Cell × Int) : M (Arr Cell × Int) := do
  let p ← mult.rd c
  let s ← ctFine numMax g coar msk c p.1 s
  if p.1 ≠ p.2 then ctFine numMax g coar msk c p.2 s else return s

/-- `graphCoarsenEdgeCt` — graph_coarsen_edge.c:90–181 without the parts excluded by `GRAPHCOARSENEDGECOUNT`, graph_coarsen.c:412–413. -/
def ctRange (numMax : Int) (g : Graph) (coar : Arr Int) (mult : Arr (Int × Int)) (msk bas nnd : Int) : M Int := do
  let r ← forUp bas nnd (Arr.const 0 (msk + 1) ⟨-1, -1, -1⟩, 0) (ctCoar numMax g coar mult msk)
  return r.2

/-- Sum of fine degrees, which is used instead in the non-compact case — graph_coarsen.c:397–409. -/
def degRange (g : Graph) (mult : Arr (Int × Int)) (bas nnd : Int) : M Int :=
  forUp bas nnd 0 fun c (n : Int) => do
    let p ← mult.rd c
    let n := n + ((← g.rdVend p.1) - (← g.verttax.rd p.1))
    if p.1 ≠ p.2 then do return n + ((← g.rdVend p.2) - (← g.verttax.rd p.2)) else return n

/-! ## Assembly -/

/-- Values that threads reduce: `coaredgebas`, `coaredloadj`, `coardegrmax` — graph_coarsen.c:117–128. -/
structure Sums where
  edgenbr : Int
  loadj : Int
  degrmax : Int

/-- Number of edge slots reserved by a thread — graph_coarsen.c:389–415. -/
def slotsOf (numMax : Int) (g : Graph) (coar : Arr Int) (mult : Arr (Int × Int)) (msk : Int) (compact : Bool) (bas nnd : Int) : M Int :=
  if compact then ctRange numMax g coar mult msk bas nnd else degRange g mult bas nnd

/-- Edge building by threads `i`, `i + 1`, …. Since threads write in cells of their own and only read, besides, what is written no more, they are run one after the other. The start
indices are obtained by `threadScan` — graph_coarsen.c:416–452. -/
def edgePhase (numMax : Int) (g : Graph) (coar : Arr Int) (mult : Arr (Int × Int)) (msk : Int) (compact : Bool) (cbas : Nat → Int) :
    Nat → Nat → Int → CState → Sums → M (CState × Sums)
  | 0, _, _, s, r => .ok (s, r)
  | k + 1, i, num, s, r => do
    let n ← slotsOf numMax g coar mult msk compact (cbas i) (cbas (i + 1))
    let s ← edgeRange numMax g coar mult msk (cbas i) (cbas (i + 1)) num s
    edgePhase numMax g coar mult msk compact cbas k (i + 1) (num + n) s ⟨r.edgenbr + (s.es.num - num), r.loadj + s.es.adj, max r.degrmax s.degrmax⟩

/-- Contents of newly allocated memory. -/
structure Junk where
  vert : Int → Int
  vend : Int → Int
  velo : Int → Int
  edge : Int → Int
  edlo : Int → Int
  mult : Int → Int × Int

/-- Arrays of the coarse graph, graph_coarsen.c:240–271. -/
def initState (g : Graph) (cnbr : Int) (compact : Bool) (J : Junk) : CState where
  vert := ⟨g.baseval, g.baseval + cnbr + (if compact then 1 else 0), J.vert⟩
  vend := if compact then none else some ⟨g.baseval, g.baseval + cnbr, J.vend⟩
  velo := ⟨g.baseval, g.baseval + cnbr, J.velo⟩
  es := { tab := Arr.const 0 0 ⟨-1, -1, -1⟩, edge := ⟨g.baseval, g.baseval + g.edgenbr, J.edge⟩, edlo := ⟨g.baseval, g.baseval + g.edgenbr, J.edlo⟩, num := 0, adj := 0 }
  degrmax := 0

/-- `coargrafptr->verttax[coargrafptr->vertnnd] = …`, when compact — graph_coarsen.c:461–467. -/
def wrLast (compact : Bool) (vert : Arr Int) (i v : Int) : M (Arr Int) := if compact then vert.wr i v else return vert

/-- Completion of the coarse graph — graph_coarsen.c:243–248, 457–472. Reallocation of the edge arrays only shrinks them to the number of edges of the graph. -/
def assemble (g : Graph) (cnbr : Int) (compact : Bool) (s : CState) (r : Sums) : M Graph := do
  let vert ← wrLast compact s.vert (g.baseval + cnbr) (r.edgenbr + g.baseval)
  return { baseval := g.baseval, vertnbr := cnbr, vertnnd := cnbr + g.baseval, verttax := vert, vendtax := s.vend, velotax := some s.velo, velosum := g.velosum,
           vnumtax := none, vlbltax := none, edgenbr := r.edgenbr,
           edgetax := if compact then { s.es.edge with hi := g.baseval + r.edgenbr } else s.es.edge,
           edlotax := some (if compact then { s.es.edlo with hi := g.baseval + r.edgenbr } else s.es.edlo),
           edlosum := r.loadj + g.edlosum, degrmax := r.degrmax }

/-- Result of coarsening: the coarse graph, the fine-to-coarse array and the multinode array. -/
structure Result where
  graph : Graph
  coar : Arr Int
  mult : Arr (Int × Int)

/-- `graphCoarsen3` with one thread, from a mating array — graph_coarsen.c:216–473. Then, graphs are always compact, graph_coarsen.c:521–524. -/
def buildSeq (numMax : Int) (g : Graph) (mate : Arr Int) (cnbr : Int) (J : Junk) : M Result := do
  let msk ← hashMask g.degrmax
  let n ← numberSeq g mate ⟨g.baseval, g.baseval + cnbr, J.mult⟩
  let s ← edgeRange numMax g n.coar n.mult msk g.baseval (g.baseval + cnbr) g.baseval (initState g cnbr true J)
  let cg ← assemble g cnbr true s ⟨s.es.num - g.baseval, s.es.adj, s.degrmax⟩
  return ⟨cg, n.coar, n.mult⟩

/-- `graphCoarsen3` with `n` threads: `fbas` and `cbas` are the bounds of the ranges of fine and coarse vertices of the threads. -/
def buildThr (numMax : Int) (g : Graph) (mate : Arr Int) (cnbr : Int) (J : Junk) (compact : Bool) (n : Nat) (fbas cbas : Nat → Int) : M Result := do
  let msk ← hashMask g.degrmax
  let mult ← multPhase mate fbas n 0 g.baseval ⟨g.baseval, g.baseval + cnbr, J.mult⟩
  let coar ← coarPhase mult cbas n 0 mate
  let r ← edgePhase numMax g coar mult msk compact cbas n 0 g.baseval (initState g cnbr compact J) ⟨0, 0, 0⟩
  let cg ← assemble g cnbr compact r.1 r.2
  return ⟨cg, coar, mult⟩

end Scotch.Coarsen
