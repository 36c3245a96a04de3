import Verif.Graph.Access
import Verif.Graph.Induce
import Verif.Arch.Spec
import Verif.Hash
import Verif.Bipart.ModelGp
import Verif.Arch.Model

/-!
# Static mapping by recursive bipartitioning: model

src/libscotch/mapping.c, kgraph.c, kgraph_map_rb.c, kgraph_map_rb_part.c, kgraph_map_rb_map.c, and the part of
library_graph_map.c that calls them. Only architectures of fixed size are modelled (`archVar (archptr) == 0`).

The call to `bgraphBipartSt`, which bipartitions a graph between two domains, is an arbitrary function of its place in the run,
of the graph and of the domains: `none` if it fails, else the array of parts and the number of vertices of part 0
(`compsize0`). The graph that it works on is built by `kgraphMapRbBgraph`, from data (external gains, loads of
fixed vertices, bounds computed in floating point) that only matter to the way it chooses the parts.
-/

set_option autoImplicit false

namespace Scotch.Kmap

variable {D : Type}

/-! ## Mappings -/

/-- `Mapping` — mapping.h:78–92: the part of each vertex and the domain of each part. -/
structure Mapping (D : Type) where
  parttax : Arr Int
  domntab : Arr D
  domnnbr : Int
  domnmax : Int

/-- Reallocation: cells that are added have any content. -/
def grow (junk : Int → D) (a : Arr D) (n : Int) : Arr D := ⟨a.lo, n, fun i => if i < a.hi then a.get i else junk i⟩

/-- `mapResize` — mapping.c:172–189. -/
def mapResize (junk : Int → D) (m : Mapping D) (domnmax : Int) : Mapping D :=
  { m with domntab := grow junk m.domntab domnmax, domnmax := domnmax }

/-- `memSet (parttax + baseval, 0, vertnbr * sizeof (Anum))` — mapping.c:203, kgraph_map_rb_part.c:141. -/
def fill0 (baseval vertnbr : Int) (a : Arr Int) : M (Arr Int) := forUp baseval (baseval + vertnbr) a fun v a => a.wr v 0

/-- `mapFrst` — mapping.c:196–204. -/
def mapFrst (g : Graph) (m : Mapping D) (d : D) : M (Mapping D) := do
  let domntab ← m.domntab.wr 0 d
  let parttax ← fill0 g.baseval g.vertnbr m.parttax
  return { m with domnnbr := 1, domntab := domntab, parttax := parttax }

/-- `mapTerm` with an allocated mapping — mapping.c:491–496. -/
def mapTerm (o : ArchOps D) (g : Graph) (m : Mapping D) (termtax : Arr Int) : M (Arr Int) :=
  forUp g.baseval g.vertnnd termtax fun v a => do a.wr v (← o.num (← m.domntab.rd (← m.parttax.rd v)))

/-! ## Recursive bipartitioning, partitioning version -/

/-- A cut, for reference: graph `g` has been cut between domains `d0` and `d1`. -/
structure Cut (D : Type) where
  g : Graph
  d0 : D
  d1 : D
  part : Arr Int

/-- `KgraphMapRbPartSplit` and its entry `splttab[spltnum]` — kgraph_map_rb_part.h:71–84: part `val` of graph `g` (all of
`g` if there is no part array), made of `nbr` vertices, is to be mapped onto `dom`. -/
structure Split (D : Type) where
  g : Graph
  part : Option (Arr Int)
  val : Int
  nbr : Int
  dom : D

/-- What the run depends on. `bip` is the bipartitioning method; `mem` the content of the memory allocated by
`graphInducePart`; `junk` that of domains; `seq` says whether `contextThreadLaunchSplit` declines to run both halves
in parallel; `order` is the order in which terminal domains are recorded; `pick` is the job of highest priority. -/
structure Env (D : Type) where
  bip : List Nat → Graph → D → D → M (Option (Arr Int × Int))
  mem : List Nat → Graph.IndMem
  al : Int
  junk : Int → D
  seq : List Nat → Bool
  order : List (Split D) → List (Split D)
  pick : Nat → Nat

/-- Number of the vertex in the mapped graph — kgraph_map_rb_part.c:140–189. -/
def orgNum (g : Graph) (v : Int) : M Int :=
  match g.vnumtax with
  | none => return v
  | some a => a.rd v

/-- Assignment of vertices to a part — kgraph_map_rb_part.c:133–190. -/
def part3Write (s : Split D) (k : Int) (parttax : Arr Int) : M (Arr Int) :=
  match s.part, s.g.vnumtax with
  | none, none => fill0 s.g.baseval s.g.vertnbr parttax
  | none, some vn => forUp s.g.baseval s.g.vertnnd parttax fun v a => do a.wr (← vn.rd v) k
  | some p, _ => forUp s.g.baseval s.g.vertnnd parttax fun v a => do
      if (← p.rd v) = s.val then a.wr (← orgNum s.g v) k else return a

/-- `kgraphMapRbPart3` — kgraph_map_rb_part.c:99–193. Part numbers are taken and domains are recorded under a lock;
the cells of the part array that are written by different calls are different. Calls are run one after
the other, in any order. -/
def part3 (junk : Int → D) (s : Split D) (m : Mapping D) : M (Mapping D) := do
  let k := m.domnnbr
  let m := if k ≥ m.domnmax then mapResize junk m (k + k / 4 + 8) else m
  let domntab ← m.domntab.wr k s.dom
  let parttax ← part3Write s k m.parttax
  return { m with domnnbr := k + 1, domntab := domntab, parttax := parttax }

/-- Graph to bipartition — kgraph_map_rb_part.c:243–251. -/
def indGraph (env : Env D) (p : List Nat) (s : Split D) : M Graph :=
  match s.part with
  | none => return s.g
  | some a => if s.nbr < s.g.vertnbr then Graph.inducePart env.al s.g (env.mem p) a s.nbr s.val else return s.g

/-- `kgraphMapRbPart2` — kgraph_map_rb_part.c:205–339: error code, parts to record by `kgraphMapRbPart3`, cuts. `p` is the
place in the tree of calls; `fuel` bounds its depth. -/
def part2 (o : ArchOps D) (env : Env D) : Nat → List Nat → Split D → M (Int × List (Split D) × List (Cut D))
  | 0, _, _ => .error .fuel
  | f + 1, p, s => do
    match ← o.bipart s.dom with
    | none => return (0, [s], [])
    | some (d0, d1) => do
      let h ← indGraph env p s
      match ← env.bip p h d0 d1 with
      | none => return (1, [], [])
      | some (part, size0) =>
        if size0 = 0 then do
          let (c, ls, log) ← part2 o env f (0 :: p) { s with dom := d1 }
          return (c, ls, ⟨h, d0, d1, part⟩ :: log)
        else if size0 = h.vertnbr then do
          let (c, ls, log) ← part2 o env f (0 :: p) { s with dom := d0 }
          return (c, ls, ⟨h, d0, d1, part⟩ :: log)
        else do
          let (c0, l0, log0) ← part2 o env f (1 :: p) ⟨h, some part, 0, size0, d0⟩
          if c0 ≠ 0 ∧ env.seq p = true then return (c0, l0, ⟨h, d0, d1, part⟩ :: log0)
          else do
            let (c1, l1, log1) ← part2 o env f (2 :: p) ⟨h, some part, 1, h.vertnbr - size0, d1⟩
            return (if c1 ≠ 0 then c1 else c0, l0 ++ l1, ⟨h, d0, d1, part⟩ :: (log0 ++ log1))

/-- Recording of terminal domains, one after the other. -/
def runAll (junk : Int → D) : List (Split D) → Mapping D → M (Mapping D)
  | [], m => return m
  | s :: ls, m => do runAll junk ls (← part3 junk s m)

/-- `kgraphMapRbPart` — kgraph_map_rb_part.c:351–398, with the list of cuts. -/
def rbPart (o : ArchOps D) (env : Env D) (fuel : Nat) (g : Graph) (domnorg : D) (m : Mapping D) : M (Int × Mapping D × List (Cut D)) := do
  let (c, ls, log) ← part2 o env fuel [] ⟨g, none, 0, g.vertnbr, domnorg⟩
  let m ← runAll env.junk (env.order ls) { m with domnnbr := 0 }
  return (c, m, log)

/-! ## Recursive bipartitioning, mapping version -/

/-- `KgraphMapRbMapJob` — kgraph_map_rb_map.h:76–90: part `num` of the mapping. -/
structure Job (D : Type) where
  num : Int
  g : Graph
  dom : D

/-- `KgraphMapRbMapPoolData` — kgraph_map_rb_map.h:96–111, with the mapping. Of the two domain arrays, only `t0` is used if they
are the same; likewise for job pools. Priorities are not modelled: any job may be chosen. -/
structure Pool (D : Type) where
  q0 : List (Job D)
  q1 : List (Job D)
  t0 : Arr D
  t1 : Arr D
  parttax : Arr Int
  domnnbr : Int
  domnmax : Int
  calls : Nat
  log : List (Cut D)

/-- Parameters of the method: whether pools and maps are tied — kgraph_map_rb.h:95–101. -/
structure Flags where
  jobtie : Bool
  maptie : Bool

/-- `kgraphMapRbMapPoolSwap` — kgraph_map_rb_map.c:222–235. -/
def poolSwap (fl : Flags) (s : Pool D) : Pool D :=
  let s := if fl.jobtie then s else { s with q0 := s.q1, q1 := s.q0 }
  if fl.maptie then s else { s with t0 := s.t1, t1 := s.t0 }

/-- `kgraphMapRbMapPoolAdd (poolptr->pooltab[1], ...)` — kgraph_map_rb_map.c:327–337, 574, 686. -/
def poolAdd (fl : Flags) (js : List (Job D)) (s : Pool D) : Pool D :=
  if fl.jobtie then { s with q0 := js ++ s.q0 } else { s with q1 := js ++ s.q1 }

/-- `kgraphMapRbMapPoolResize` — kgraph_map_rb_map.c:248–310. -/
def poolResize (junk : Int → D) (s : Pool D) : Pool D :=
  let n := s.domnmax + s.domnmax / 4 + 8
  { s with t0 := grow junk s.t0 n, t1 := grow junk s.t1 n, domnmax := n }

/-- `domntab[1][num] = d` — kgraph_map_rb_map.c:1007. -/
def wr1 (fl : Flags) (s : Pool D) (num : Int) (d : D) : M (Pool D) := do
  if fl.maptie then return { s with t0 := ← s.t0.wr num d } else return { s with t1 := ← s.t1.wr num d }

/-- `kgraphMapRbMapPartBoth` — kgraph_map_rb_map.c:764–805. The expression `(part - 1) & dlt` is `dlt` for part 0 and zero
for part 1: no other value appears. -/
def partBoth (g : Graph) (part : Arr Int) (n0 n1 : Int) (parttax : Arr Int) : M (Arr Int) :=
  forUp g.baseval g.vertnnd parttax fun v a => do
    let p ← part.rd v
    a.wr (← orgNum g v) (n1 + if p = 0 then n0 - n1 else 0)

/-- `kgraphMapRbMapPartOne` — kgraph_map_rb_map.c:809–850. -/
def partOne (g : Graph) (part : Arr Int) (n1 : Int) (parttax : Arr Int) : M (Arr Int) :=
  forUp g.baseval g.vertnnd parttax fun v a => do
    if (← part.rd v) = 1 then a.wr (← orgNum g v) n1 else return a

/-- All vertices in the same part: the job goes on with half of the domain, unless it is terminal — kgraph_map_rb_map.c:978–992. -/
def jobSame (o : ArchOps D) (fl : Flags) (j : Job D) (d : D) (s : Pool D) : M (Pool D) := do
  let s := { s with t0 := ← s.t0.wr j.num d }
  if (← o.size d) ≤ 1 then return s
  else return poolAdd fl [{ j with dom := d }] s

/-- Job for a half, if its domain is not terminal — kgraph_map_rb_map.c:1017–1045. -/
def jobSub (o : ArchOps D) (env : Env D) (k i : Nat) (g : Graph) (part : Arr Int) (n size : Int) (d : D) : M (List (Job D)) := do
  if (← o.size d) ≤ 1 then return []
  else return [⟨n, ← Graph.inducePart env.al g (env.mem [k, i]) part size i, d⟩]

/-- Update of the parts — kgraph_map_rb_map.c:1010–1020. -/
def partUpd (fl : Flags) (g : Graph) (part : Arr Int) (n0 n1 : Int) (parttax : Arr Int) : M (Arr Int) :=
  if fl.maptie then partOne g part n1 parttax else partBoth g part n0 n1 parttax

/-- Split of a job — kgraph_map_rb_map.c:995–1052. -/
def jobSplit (o : ArchOps D) (env : Env D) (fl : Flags) (k : Nat) (j : Job D) (d0 d1 : D) (part : Arr Int) (size0 : Int) (s : Pool D) : M (Pool D) := do
  let s := if s.domnnbr = s.domnmax then poolResize env.junk s else s
  let n1 := s.domnnbr
  let s ← wr1 fl s n1 j.dom
  let t0 ← s.t0.wr j.num d0
  let t0 ← t0.wr n1 d1
  let parttax ← partUpd fl j.g part j.num n1 s.parttax
  let j1 ← jobSub o env k 1 j.g part n1 (j.g.vertnbr - size0) d1
  let j0 ← jobSub o env k 0 j.g part j.num size0 d0
  return poolAdd fl (j0 ++ j1) { s with domnnbr := n1 + 1, t0 := t0, parttax := parttax }

/-- Processing of a job; `none` in case of failure — kgraph_map_rb_map.c:933–1054. -/
def jobRun (o : ArchOps D) (env : Env D) (fl : Flags) (j : Job D) (s : Pool D) : M (Option (Pool D)) := do
  match ← o.bipart j.dom with
  | none => return none
  | some (d0, d1) => do
    match ← env.bip [s.calls] j.g d0 d1 with
    | none => return none
    | some (part, size0) => do
      let k := s.calls
      let s := { s with calls := k + 1, log := s.log ++ [⟨j.g, d0, d1, part⟩] }
      if size0 = 0 then return some (← jobSame o fl j d1 s)
      else if size0 = j.g.vertnbr then return some (← jobSame o fl j d0 s)
      else return some (← jobSplit o env fl k j d0 d1 part size0 s)

/-- `kgraphMapRbMapPoolGet` — kgraph_map_rb_map.c:348–370. -/
def poolGet (i : Nat) (q : List (Job D)) : Option (Job D × List (Job D)) :=
  (q[i % q.length]?).map fun j => (j, q.eraseIdx (i % q.length))

/-- Body of the two nested loops — kgraph_map_rb_map.c:924–1058. -/
def poolStep (o : ArchOps D) (env : Env D) (fl : Flags) (s : Pool D) : M (Loop (Pool D) (Int × Pool D)) := do
  match poolGet (env.pick s.calls) s.q0 with
  | none =>
    let s := poolSwap fl s
    if s.q0.length = 0 then return .brk (0, s) else return .next s
  | some (j, q) => do
    match ← jobRun o env fl j { s with q0 := q } with
    | none => return .brk (1, { s with q0 := q })
    | some s => return .next s

/-- `kgraphMapRbMapPoolExit` — kgraph_map_rb_map.c:188–212. -/
def poolExit (fl : Flags) (s : Pool D) : Mapping D := ⟨s.parttax, if fl.maptie then s.t0 else s.t1, s.domnnbr, s.domnmax⟩

/-- `kgraphMapRbMap` — kgraph_map_rb_map.c:867–1063. `s` is the mapped graph, and `g` its subgraph without the fixed vertices. -/
def rbMap (o : ArchOps D) (env : Env D) (fl : Flags) (fuel : Nat) (s g : Graph) (domnorg : D) (m : Mapping D) : M (Int × Mapping D × List (Cut D)) := do
  let m ← mapFrst s m domnorg
  let pool : Pool D := ⟨[], [], m.domntab, ⟨0, m.domnmax, env.junk⟩, m.parttax, m.domnnbr, m.domnmax, 0, []⟩
  if (← o.size domnorg) ≤ 1 then return (0, poolExit fl pool, [])
  else do
    let (c, pool) ← loopM (poolStep o env fl) fuel { pool with q0 := [⟨0, g, domnorg⟩] }
    return (c, poolExit fl pool, pool.log)

/-! ## Fixed vertices -/

/-- `for (hashsiz = 0, hashmsk = hashnbr; hashmsk != 0; hashsiz ++, hashmsk >>= 1) ; hashsiz = 1 << (hashsiz + 2);` —
kgraph_map_rb.c:242–243, 468–469. The shift is done on an `int`. -/
def hashSize (hashnbr : Int) : M Int :=
  let n := (hashnbr.toNat.log2 + if hashnbr.toNat = 0 then 0 else 1) + 2
  if n < 31 then return (2 : Int) ^ n else .error .shift

/-- `KGRAPHMAPRBVFLOHASHPRIME` — kgraph_map_rb.h:77. -/
abbrev vfloPrime : Int := 17

/-- Search of a terminal domain in a hash table: the slot, and whether it is free — kgraph_map_rb.c:268–278, 482–490, 514–531. -/
def hashFind (tab : Arr Int) (siz k : Int) : M (Int × Bool) :=
  Hash.find (fun h => do
    let t ← tab.rd h
    if t = k then return some false else if t = -1 then return some true else return none) (siz - 1) (siz.toNat + 1) (Coarsen.land (k * vfloPrime) (siz - 1))

/-- State of the scan of fixed vertices. -/
structure FixSt where
  term : Arr Int
  velo : Arr Int
  part : Arr Int
  velomsk : Bool

/-- Body of the scan of fixed vertices — kgraph_map_rb.c:257–283. Only whether `velomsk` is zero matters. -/
def fixBody (g : Graph) (pfix : Arr Int) (siz : Int) (v : Int) (s : FixSt) : M FixSt := do
  let k ← pfix.rd v
  if k ≥ 0 then do
    let w ← g.rdVelo v
    let (h, free) ← hashFind s.term siz k
    let x ← if free then pure 0 else s.velo.rd h
    return ⟨← s.term.wr h k, ← s.velo.wr h (x + w), ← s.part.wr v 1, s.velomsk || decide (w ≠ 0)⟩
  else return { s with part := ← s.part.wr v 0 }

/-- Number of slots in use, the records being moved to the beginning of the table — kgraph_map_rb.c:298–303. -/
def fixPack (siz : Int) (term velo : Arr Int) : M (Int × Arr Int × Arr Int) :=
  forUp 0 siz (0, term, velo) fun h s => do
    if (← s.2.1.rd h) ≠ -1 then return (s.1 + 1, ← s.2.1.wr s.1 (← s.2.1.rd h), ← s.2.2.wr s.1 (← s.2.2.rd h))
    else return s

/-- Number of slots to provide for — kgraph_map_rb.c:234–241. -/
def fixHashNbr (n vfixnbr : Int) : Int := if vfixnbr < n then vfixnbr else n

/-- `kgraphMapRbVfloBuild` — kgraph_map_rb.c:212–309: the graph without the fixed vertices, the number of terminal domains to which
vertices are fixed, and the table of their numbers and loads. `junk` is the content of allocated memory. -/
def vfloBuild (o : ArchOps D) (env : Env D) (junk : Int → Int) (g : Graph) (vfixnbr : Int) (pfix : Arr Int) : M (Graph × Int × Arr Int × Arr Int) := do
  let n ← o.size (← o.frst)
  let siz ← hashSize (fixHashNbr n vfixnbr)
  let st ← forUp g.baseval g.vertnnd ⟨Arr.const 0 siz (-1), Arr.const 0 siz (-1), ⟨g.baseval, g.baseval + g.vertnbr, junk⟩, false⟩ (fixBody g pfix siz)
  let h ← Graph.inducePart env.al g (env.mem []) st.part (g.vertnbr - vfixnbr) 0
  if st.velomsk = false then return (h, 0, ⟨0, 0, junk⟩, ⟨0, 0, junk⟩)
  else do
    let (nbr, term, velo) ← fixPack siz st.term st.velo
    return (h, nbr, ⟨0, nbr, term.get⟩, ⟨0, nbr, velo.get⟩)

/-- State of `kgraphMapRbVfloMerge`: terminal number and part of each slot of the hash table; `domnnum`. -/
structure MergeSt (D : Type) where
  term : Arr Int
  dnum : Arr Int
  domnnum : Int
  m : Mapping D

/-- Domains of the mapping — kgraph_map_rb.c:478–491. -/
def mergeDom (o : ArchOps D) (siz : Int) (i : Int) (s : MergeSt D) : M (MergeSt D) := do
  let t ← o.num (← s.m.domntab.rd i)
  let (h, free) ← hashFind s.term siz t
  if free then return { s with term := ← s.term.wr h t, dnum := ← s.dnum.wr h i } else return s

/-- Domain of a fixed vertex that no vertex is mapped onto yet — kgraph_map_rb.c:518–529. `archDomTerm` leaves
the domain as it is when the number is invalid. -/
def mergeNew (o : ArchOps D) (junk : Int → D) (h k : Int) (s : MergeSt D) : M (MergeSt D) := do
  let m := if s.domnnum ≥ s.m.domnmax then mapResize junk s.m (s.m.domnmax + s.m.domnmax / 4 + 8) else s.m
  let old ← m.domntab.rd s.domnnum
  let d := (← o.term k).getD old
  let domntab ← m.domntab.wr s.domnnum d
  return ⟨← s.term.wr h k, ← s.dnum.wr h s.domnnum, s.domnnum + 1, { m with domntab := domntab }⟩

/-- A vertex — kgraph_map_rb.c:493–533. -/
def mergeVert (o : ArchOps D) (junk : Int → D) (siz : Int) (pfix : Arr Int) (v : Int) (s : MergeSt D) : M (MergeSt D) := do
  let k ← pfix.rd v
  if k < 0 then return s
  else do
    let (h, free) ← hashFind s.term siz k
    let s ← if free then mergeNew o junk h k s else pure s
    let parttax ← s.m.parttax.wr v (← s.dnum.rd h)
    return { s with m := { s.m with parttax := parttax } }

/-- `kgraphMapRbVfloMerge` — kgraph_map_rb.c:449–539. -/
def vfloMerge (o : ArchOps D) (junk : Int → D) (g : Graph) (m : Mapping D) (pfix : Arr Int) (vflonbr : Int) : M (Mapping D) := do
  let siz ← hashSize (m.domnnbr + vflonbr)
  let s : MergeSt D := ⟨Arr.const 0 siz (-1), Arr.const 0 siz (-1), m.domnnbr, m⟩
  let s ← forUp 0 m.domnnbr s (mergeDom o siz)
  let s ← forUp g.baseval g.vertnnd s (mergeVert o junk siz pfix)
  return { s.m with domnnbr := s.domnnum }

/-! ## Cost and frontier of a mapping -/

/-- `kgraphFron` — kgraph.c:334–362: array of frontier vertices, and their number. -/
def kgraphFron (g : Graph) (m : Mapping D) (frontab : Arr Int) : M (Arr Int × Int) :=
  forUp g.baseval g.vertnnd (frontab, 0) fun v s => do
    let p ← m.parttax.rd v
    match ← forUpB (← g.verttax.rd v) (← g.rdVend v) () fun e _ => do
        if (← m.parttax.rd (← g.edgetax.rd e)) ≠ p then return .brk () else return .next () with
    | .next _ => return s
    | .brk _ => return (← s.1.wr s.2 v, s.2 + 1)

/-- State of the loop on arcs of `kgraphCost`: `partlst`, `distlst` and `commload`. -/
structure CostA where
  plst : Int
  dlst : Int
  comm : Int

/-- Arc — kgraph.c:259–284. -/
def costArc (o : ArchOps D) (g : Graph) (m : Mapping D) (v p e : Int) (s : CostA) : M CostA := do
  let w ← g.edgetax.rd e
  if w > v then return s
  else do
    let q ← m.parttax.rd w
    if p ≠ q then do
      let d ← if q ≠ s.plst then o.dist (← m.domntab.rd p) (← m.domntab.rd q) else pure s.dlst
      return ⟨q, d, s.comm + d * (← g.rdEdlo e)⟩
    else return s

/-- Vertex — kgraph.c:238–285. -/
def costVert (o : ArchOps D) (g : Graph) (m : Mapping D) (v : Int) (s : Arr Int × Int) : M (Arr Int × Int) := do
  let p ← m.parttax.rd v
  let w ← g.rdVelo v
  let comp ← s.1.wr p ((← s.1.rd p) + w)
  let a ← forUp (← g.verttax.rd v) (← g.rdVend v) ⟨-1, -1, s.2⟩ (costArc o g m v p)
  return (comp, a.comm)

/-- `kgraphCost` — kgraph.c:212–325: `commload`, `comploadavg` and `comploaddlt`. `avg i` is the average load of part `i`, computed in
floating point (line 323). The special case of anchors never does anything, since the loop of lines 294–296 always goes to
its end. -/
def kgraphCost (o : ArchOps D) (avg : Int → Int) (g : Graph) (m : Mapping D) (comploadavg comploaddlt : Arr Int) : M (Int × Arr Int × Arr Int) := do
  let dlt ← forUp 0 m.domnnbr comploaddlt fun i a => a.wr i 0
  let (dlt, comm) ← forUp g.baseval g.vertnnd (dlt, 0) (costVert o g m)
  let (a, d) ← forUp 0 m.domnnbr (comploadavg, dlt) fun i s => do
    let _ ← m.domntab.rd i
    let a ← s.1.wr i (avg i)
    let d ← s.2.wr i ((← s.2.rd i) - avg i)
    return (a, d)
  return (comm, a, d)

/-! ## The method, and the library routines -/

/-- `Kgraph` — kgraph.h:98–119: the fields that the method sets. -/
structure Kgraph (D : Type) where
  m : Mapping D
  frontab : Arr Int
  fronnbr : Int
  comploadavg : Arr Int
  comploaddlt : Arr Int
  commload : Int

/-- Graph that is mapped and number of terminal domains of fixed vertices — kgraph_map_rb.c:143–155. -/
def rbGraph (o : ArchOps D) (env : Env D) (junk : Int → Int) (g : Graph) (vfixnbr : Int) (pfix : Option (Arr Int)) : M (Graph × Int) :=
  match pfix with
  | none => return (g, 0)
  | some a => do
    let r ← vfloBuild o env junk g vfixnbr a
    return (r.1, r.2.1)

/-- Domains of fixed vertices — kgraph_map_rb.c:159–167. -/
def rbMerge (o : ArchOps D) (env : Env D) (g : Graph) (pfix : Option (Arr Int)) (vflonbr : Int) (m : Mapping D) : M (Mapping D) :=
  match pfix with
  | none => return m
  | some a => vfloMerge o env.junk g m a vflonbr

/-- `kgraphMapRb` on a graph that has just been initialised — kgraph_map_rb.c:109–193; `mapInit` and `mapAlloc`, mapping.c:97–163;
kgraph.c:121. `apart` is `archPart`. -/
def mapRb (o : ArchOps D) (env : Env D) (fl : Flags) (apart : Bool) (fuel : Nat) (junk : Int → Int) (avg : Int → Int) (g : Graph) (domnorg : D) (vfixnbr : Int)
    (pfix : Option (Arr Int)) : M (Int × Kgraph D × List (Cut D)) := do
  let domnmax := (← o.size domnorg) + 1
  let m : Mapping D := ⟨⟨g.baseval, g.baseval + g.vertnbr, junk⟩, ⟨0, domnmax, env.junk⟩, 0, domnmax⟩
  let (h, vflonbr) ← rbGraph o env junk g vfixnbr pfix
  let (c, m, log) ← if apart then rbPart o env fuel h domnorg m else rbMap o env fl fuel g h domnorg m
  let m ← rbMerge o env g pfix vflonbr m
  let (frontab, fronnbr) ← kgraphFron g m ⟨0, g.vertnbr, junk⟩
  let (commload, a, d) ← kgraphCost o avg g m ⟨0, m.domnmax, junk⟩ ⟨0, m.domnmax, junk⟩
  return (c, ⟨m, frontab, fronnbr, a, d, commload⟩, log)

/-- `graphMapCompute2` without an old mapping, when the strategy is recursive bipartitioning — library_graph_map.c:148–302. `parttab` is
accessed through based indices. -/
def mapCompute2 (o : ArchOps D) (env : Env D) (fl : Flags) (apart : Bool) (junk : Int → Int) (avg : Int → Int) (g : Graph) (vfixnbr : Int) (parttab : Arr Int) :
    M (Int × Arr Int × List (Cut D)) := do
  let domnorg ← o.frst
  if vfixnbr > 0 ∧ vfixnbr ≥ g.vertnbr then return (0, parttab, [])
  else do
    let n ← o.size domnorg
    let (c, k, log) ← mapRb o env fl apart (4 * n.toNat + 4) junk avg g domnorg vfixnbr (if vfixnbr > 0 then some parttab else none)
    let parttab ← mapTerm o g k.m parttab
    return (c, parttab, log)

/-- `SCOTCH_graphMapCompute` — library_graph_map.c:313–319. -/
def graphMap (o : ArchOps D) (env : Env D) (fl : Flags) (apart : Bool) (junk : Int → Int) (avg : Int → Int) (g : Graph) (parttab : Arr Int) : M (Int × Arr Int × List (Cut D)) :=
  mapCompute2 o env fl apart junk avg g 0 parttab

/-- `SCOTCH_graphMapFixedCompute` — library_graph_map.c:331–337, 369–390. -/
def graphMapFixed (o : ArchOps D) (env : Env D) (fl : Flags) (apart : Bool) (junk : Int → Int) (avg : Int → Int) (g : Graph) (parttab : Arr Int) : M (Int × Arr Int × List (Cut D)) := do
  let vfixnbr ← forUp g.baseval (g.baseval + g.vertnbr) (0 : Int) fun v n => do
    if (← parttab.rd v) ≠ -1 then return n + 1 else return n
  mapCompute2 o env fl apart junk avg g vfixnbr parttab

/-- Bipartitioning, by the greedy graph growing method, of a graph that is to be mapped onto two domains: `kgraphMapRbBgraph` when the architecture is of complete graph
type and when there are neither fixed vertices nor an old mapping, kgraph_map_rb.c:557–603; then `bgraphBipartSt`, kgraph_map_rb_part.c:253–275. The bounds on the load of part 0, which are computed in between, are not used by this method and are left out. -/
def gpBip (o : ArchOps D) (avgOf : Int → Int → Int → Int) (junk : Int → Int) (b : Bipart.Bgraph) (passnbr : Int) (_ : List Nat) (g : Graph) (d0 d1 : D) : M (Option (Arr Int × Int)) := do
  let b ← Bipart.init avgOf junk junk b g (← o.dist d0 d1) (← o.wght d0) (← o.wght d1) 0 0
  let b ← Bipart.bipartGp junk passnbr b
  return some (b.parttax, b.compsize0)

/-- `SCOTCH_graphPart` — library_graph_map.c:519–534: mapping onto a complete graph, whose class has the property `ARCHPART`, arch.c:102. -/
def graphPart (env : Env Arch.Cmplt.Dom) (fl : Flags) (junk avg : Int → Int) (g : Graph) (partnbr : Int) (parttab : Arr Int) : M (Int × Arr Int × List (Cut Arch.Cmplt.Dom)) :=
  graphMap (Arch.Cmplt.ops partnbr) env fl true junk avg g parttab

/-- `SCOTCH_graphPartFixed` — library_graph_map.c:545–561. -/
def graphPartFixed (env : Env Arch.Cmplt.Dom) (fl : Flags) (junk avg : Int → Int) (g : Graph) (partnbr : Int) (parttab : Arr Int) : M (Int × Arr Int × List (Cut Arch.Cmplt.Dom)) :=
  graphMapFixed (Arch.Cmplt.ops partnbr) env fl true junk avg g parttab

end Scotch.Kmap
