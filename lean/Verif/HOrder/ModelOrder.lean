import Verif.HOrder.Model
import Verif.Separ.ModelSt
import Verif.Order.Model

/-!
# Ordering of graphs: model

src/libscotch/hgraph_order_si.c, hgraph_order_gp.c, hgraph_order_cc.c and hgraph_order_nd.c. The two halves of a nested dissection are ordered one after
the other; when they are ordered by two threads, they write disjoint cells of the permutation, and update the counters under a lock.
-/

set_option autoImplicit false

namespace Scotch.HOrder
open Graph

/-- The fields of `Order` that ordering methods change — order.h:124–135 — and the number of memory allocations done so far. -/
structure Ord where
  peritab : Arr Int
  treenbr : Int
  cblknbr : Int
  tick : Nat

/-- Result of a method: return code, ordering, column block. -/
abbrev Res := Int × Ord × Cblk

/-- Contents of the memory that successive allocations return. -/
structure Env where
  /-- number of words the alignment of memory blocks is counted in -/
  al : Int
  hmem : Nat → HMem
  imem : Nat → IndMem
  junk : Nat → Int → Int

/-- A method: `hgraphOrder*`. -/
abbrev Method := Hgraph → Int → Ord → Cblk → M Res

/-- Cells of an array. -/
def cells (a : Arr Int) (off : Int) (n : Nat) : M (List Int) := (List.range n).mapM fun i => a.rd (off + (i : Nat))

/-- `(vnumtax == NULL) ? v : vnumtax[v]`. -/
def rdOnum (g : Graph) (v : Int) : M Int := match g.vnumtax with | none => return v | some a => a.rd v

/-- `hgraphOrderSi` — hgraph_order_si.c:78–104. -/
def orderSi : Method := fun h ordenum o c => do
  let peri ← forUp h.s.baseval h.vnohnnd o.peritab fun v p => do p.wr (ordenum + (v - h.s.baseval)) (← rdOnum h.s v)
  return (0, { o with peritab := peri }, c)

/-- Queue and vertex data of `hgraphOrderGp`. -/
structure GpQ where
  qtab : Arr Int
  head : Int
  tail : Int
  pass : Arr Int
  dist : Arr Int

/-- `hgraphOrderGpQueuePut` — hgraph_order_gp.h:76. -/
def GpQ.put (q : GpQ) (v : Int) : M GpQ := return { q with qtab := ← q.qtab.wr q.tail v, tail := q.tail + 1 }

/-- Arc of a search — hgraph_order_gp.c:169–182. -/
def gpArc (passnum vertdist : Int) (_e w : Int) (q : GpQ) : M GpQ := do
  if (← q.pass.rd w) < passnum then do
    let q ← q.put w
    return { q with pass := ← q.pass.wr w passnum, dist := ← q.dist.wr w vertdist }
  else return q

/-- Best vertex found so far. -/
structure GpD where
  num : Int
  dist : Int
  degr : Int
  flag : Int

/-- `vnhdtax[v] - verttax[v]`. -/
def rdDegr (g : Graph) (v : Int) : M Int := do return (← g.rdVend v) - (← g.verttax.rd v)

/-- Choice of the farthest vertex — hgraph_order_gp.c:156–163. -/
def gpBest (g : Graph) (v vertdist : Int) (d : GpD) : M GpD := do
  if vertdist > d.dist then return ⟨v, vertdist, ← rdDegr g v, 0⟩
  else if vertdist = d.dist then do
    let dg ← rdDegr g v
    if dg < d.degr then return ⟨v, vertdist, dg, 0⟩ else return d
  else return d

/-- Vertex of a search — hgraph_order_gp.c:146–184. -/
def gpVisit (g : Graph) (passnum : Int) (s : GpQ × GpD) : M (Loop (GpQ × GpD) (GpQ × GpD)) := do
  let v ← s.1.qtab.rd s.1.head
  let vertdist ← s.1.dist.rd v
  let d ← gpBest g v vertdist s.2
  let q ← g.forArcs v { s.1 with head := s.1.head + 1 } (gpArc passnum (vertdist + 1))
  if q.head = q.tail then return .brk (q, d) else return .next (q, d)

/-- State of the loop on passes. -/
structure GpP where
  q : GpQ
  d : GpD
  passnum : Int

/-- A pass — hgraph_order_gp.c:135–185. -/
def gpPass (g : Graph) (passnbr : Int) (fuel : Nat) (s : GpP) : M (Loop GpP GpP) := do
  if s.d.flag = 0 ∧ s.passnum ≤ passnbr then do
    let q ← ({ s.q with head := 0, tail := 0 } : GpQ).put s.d.num
    let q := { q with pass := ← q.pass.wr s.d.num s.passnum, dist := ← q.dist.wr s.d.num 0 }
    let dg ← rdDegr g s.d.num
    let (q, d) ← loopM (gpVisit g s.passnum) fuel (q, { s.d with degr := dg, flag := s.d.flag + 1 })
    return .next ⟨q, d, s.passnum + 1⟩
  else return .brk { s with d := { s.d with flag := s.d.flag + 1 } }

/-- State of the last traversal of a component. -/
structure GpC where
  q : GpQ
  peri : Arr Int
  ordeval : Int

/-- Arc of the last traversal; the next vertex of the chain is `none` until it is found — hgraph_order_gp.c:206–220, 222–230. -/
def gpChainArc (passnum vertdist : Int) (_e w : Int) (s : GpQ × Option Int) : M (GpQ × Option Int) := do
  let p ← s.1.pass.rd w
  if s.2 = none ∧ (← s.1.dist.rd w) = vertdist ∧ p ≤ passnum then return (s.1, some w)
  else if p < passnum then do
    let q ← s.1.put w
    return ({ q with pass := ← q.pass.wr w passnum }, s.2)
  else return s

/-- Vertex of a chain — hgraph_order_gp.c:201–231. The value `~0` of `vertnum` is represented by `none`: vertex numbers are not negative. -/
def gpLink (h : Hgraph) (passnum vertdist : Int) (s : GpC × Int) : M (Loop (GpC × Int) GpC) := do
  let (st, v) := s
  let peri ← st.peri.wr st.ordeval (← rdOnum h.s v)
  let q := { st.q with pass := ← st.q.pass.wr v (passnum + 1) }
  let (q, nxt) ← (unhalo h).forArcs v (q, none) (gpChainArc passnum vertdist)
  let st : GpC := ⟨q, peri, st.ordeval + 1⟩
  match nxt with
  | some w => return .next (st, w)
  | none => return .brk st

/-- Vertex of the queue of the last traversal: a chain starts from it if it has not been ordered yet — hgraph_order_gp.c:192–232. The test of `continue` is the one of the end of the loop. -/
def gpPop (h : Hgraph) (passnum : Int) (fuel : Nat) (st : GpC) : M (Loop GpC GpC) := do
  let v ← st.q.qtab.rd st.q.head
  let st := { st with q := { st.q with head := st.q.head + 1 } }
  let st ← (do
    if (← st.q.pass.rd v) > passnum then return st
    else do
      let vertdist ← st.q.dist.rd v
      loopM (gpLink h passnum vertdist) fuel (st, v))
  if st.q.head = st.q.tail then return .brk st else return .next st

/-- State of the loop on components. -/
structure GpG where
  c : GpC
  root : Int

/-- Search of the next root — hgraph_order_gp.c:122–131. -/
def gpRoot (pass : Arr Int) (r : Int) : M (Loop Int Int) := do
  if (← pass.rd r) ≠ 0 then return .next (r + 1) else return .brk r

/-- Component — hgraph_order_gp.c:119–233. -/
def gpComp (h : Hgraph) (passnbr ordevnd : Int) (fuel : Nat) (s : GpG) : M (Loop GpG GpG) := do
  if s.c.ordeval < ordevnd then do
    let root ← loopM (gpRoot s.c.q.pass) fuel s.root
    let p ← loopM (gpPass (unhalo h) passnbr fuel) (passnbr.toNat + 1) ⟨s.c.q, ⟨root, 0, 0, 0⟩, 1⟩
    let q ← ({ p.q with head := 0, tail := 0 } : GpQ).put p.d.num
    let q := { q with pass := ← q.pass.wr p.d.num p.passnum }
    let c ← loopM (gpPop h p.passnum fuel) fuel { s.c with q := q }
    return .next ⟨c, root⟩
  else return .brk s

/-- `hgraphOrderGp` — hgraph_order_gp.c:81–248. -/
def orderGp (env : Env) (passnbr : Int) : Method := fun h ordenum o c => do
  let n := h.vnohnbr
  let base := h.s.baseval
  let q : GpQ := ⟨⟨0, n, env.junk o.tick⟩, 0, 0, Arr.const base (base + n) 0, Arr.const base (base + n) 0⟩
  let fuel := n.toNat + 1
  let s ← loopM (gpComp h passnbr (ordenum + n) fuel) fuel ⟨⟨q, o.peritab, ordenum⟩, base⟩
  return (0, { o with peritab := s.c.peri, tick := o.tick + 1 }, c)

/-- State of the search of connected components. -/
structure CcS where
  queu : Arr Int
  flag : Arr Int
  root : Arr Int
  qhed : Int
  qtal : Int
  rootnbr : Int
  vrot : Int

/-- Arc — hgraph_order_cc.c:131–137. -/
def ccArc (_e w : Int) (s : CcS) : M CcS := do
  if (← s.flag.rd w) < 0 then
    return { s with flag := ← s.flag.wr w s.rootnbr, queu := ← s.queu.wr s.qtal w, qtal := s.qtal + 1 }
  else return s

/-- Vertex — hgraph_order_cc.c:118–147. -/
def ccVisit (g : Graph) (s : CcS) : M (Loop CcS CcS) := do
  if s.qhed < s.qtal then do
    let v ← s.queu.rd s.qhed
    return .next (← g.forArcs v { s with qhed := s.qhed + 1 } ccArc)
  else return .brk s

/-- Search of a root — hgraph_order_cc.c:112–113. -/
def ccRoot (flag : Arr Int) (r : Int) : M (Loop Int Int) := do
  if (← flag.rd r) ≥ 0 then return .next (r + 1) else return .brk r

/-- Component — hgraph_order_cc.c:111–150. -/
def ccComp (g : Graph) (fuel : Nat) (s : CcS) : M (Loop CcS CcS) := do
  if s.qtal < g.vertnbr then do
    let vrot ← loopM (ccRoot s.flag) fuel s.vrot
    let root ← s.root.wr s.rootnbr s.qtal
    let flag ← s.flag.wr vrot s.rootnbr
    let queu ← s.queu.wr s.qtal vrot
    let s ← loopM (ccVisit g) fuel { s with vrot := vrot, root := root, flag := flag, queu := queu, qtal := s.qtal + 1 }
    return .next { s with rootnbr := s.rootnbr + 1 }
  else return .brk s

/-- Ordering of a component — hgraph_order_cc.c:180–203. State: the ordering, the number of the next vertex, and the blocks built so far, last one first. -/
def ccOrder (env : Env) (h : Hgraph) (sub : Method) (queu root : Arr Int) : List Int → Ord × Int × List Cblk → M (Int × Ord × List Cblk)
  | [], s => return (0, s.1, s.2.2.reverse)
  | k :: ks, s => do
    let b ← root.rd k
    let e ← root.rd (k + 1)
    let l ← cells queu b (e - b).toNat
    let i ← hinduce h (env.hmem s.1.tick) l (h.s.vertnbr - h.vnohnbr)
    let (r, o, c) ← sub i s.2.1 { s.1 with tick := s.1.tick + 1 } (.leaf ORDERCBLKLEAF (e - b) 0)
    if r ≠ 0 then return (1, o, (c :: s.2.2).reverse)
    else ccOrder env h sub queu root ks (o, s.2.1 + (e - b), c :: s.2.2)

/-- `hgraphOrderCc` — hgraph_order_cc.c:75–208. As in the code, components are numbered from 0 on, not from `ordenum` on. -/
def orderCc (env : Env) (sub : Method) : Method := fun h ordenum o c => do
  let n := h.vnohnbr
  let base := h.s.baseval
  let fuel := n.toNat + 1
  let s ← loopM (ccComp (unhalo h) fuel) fuel
    ⟨⟨0, n, env.junk o.tick⟩, Arr.const base (base + n) (-1), ⟨0, n + 1, env.junk (o.tick + 1)⟩, 0, 0, 0, base⟩
  let root ← s.root.wr s.rootnbr s.qtal
  let o := { o with tick := o.tick + 2 }
  if s.rootnbr = 1 then sub h ordenum o c
  else do
    let o := { o with treenbr := o.treenbr + s.rootnbr, cblknbr := o.cblknbr + s.rootnbr - 1 }
    let (r, o, sons) ← ccOrder env h sub s.queu root ((List.range s.rootnbr.toNat).map (Int.ofNat ·)) (o, 0, [])
    return (r, o, .node ORDERCBLKDICO c.vnodnbr s.rootnbr sons)

/-- The graph to separate — hgraph_order_nd.c:145–168. -/
def ndGraph (env : Env) (h : Hgraph) (tick : Nat) : Separ.Vgraph :=
  let s := unhalo h
  { s := s
    parttax := Arr.const s.baseval (s.baseval + s.vertnbr) 0
    frontab := ⟨0, s.vertnbr, env.junk tick⟩
    fronnbr := 0
    compsize0 := s.vertnbr
    compsize1 := 0
    compload0 := s.velosum
    compload1 := 0
    compload2 := 0
    comploaddlt := s.velosum
    dwgt0 := 1
    dwgt1 := 1 }

/-- Lists of vertices of the parts and of the separator, written over the frontier array — hgraph_order_nd.c:188–192. State: the array and the three positions. -/
def ndList (b : Separ.Vgraph) : M (Arr Int) := do
  let s ← forUp b.s.baseval b.s.vertnnd (b.frontab, b.fronnbr, b.fronnbr + b.compsize0, (0 : Int)) fun v s => do
    let p ← b.parttax.rd v
    if p = 0 then return (← s.1.wr s.2.1 v, s.2.1 + 1, s.2.2.1, s.2.2.2)
    else if p = 1 then return (← s.1.wr s.2.2.1 v, s.2.1, s.2.2.1 + 1, s.2.2.2)
    else if p = 2 then return (← s.1.wr s.2.2.2 v, s.2.1, s.2.2.1, s.2.2.2 + 1)
    else throw .oob
  return s.1

/-- A graph seen as a halo graph without halo — hgraph_order_nd.c:261–267, library_graph_order.c:294–300. -/
def noHalo (g : Graph) (levlnum : Int) : Hgraph := ⟨g, g.vertnbr, g.vertnnd, g.vendtax, g.velosum, g.edgenbr, g.edlosum, levlnum⟩

/-- A leaf block — hgraph_order_nd.c:229–232. -/
def leafBlock (n : Int) : Cblk := .leaf ORDERCBLKLEAF n 0

/-- Ordering of the separator — hgraph_order_nd.c:238–285. -/
def ndSep (env : Env) (ose : Method) (h : Hgraph) (ordenum : Int) (o : Ord) (l2 : List Int) (n01 : Int) : M (Int × Ord × List Cblk) := do
  if (l2.length : Int) ≠ 0 then do
    let o := { o with cblknbr := o.cblknbr + 2, treenbr := o.treenbr + 3 }
    let g ← induceList env.al h.s (env.imem o.tick) l2.length (Arr.ofList 0 l2)
    let (r, o, c) ← ose (noHalo g h.levlnum) (ordenum + n01) { o with tick := o.tick + 1 } (leafBlock l2.length)
    return (r, o, [c])
  else return (0, { o with cblknbr := o.cblknbr + 1, treenbr := o.treenbr + 2 }, [])

/-- `hgraphOrderNd` and `hgraphOrderNd2` — hgraph_order_nd.c:85–117, 132–317. -/
def ndGo (env : Env) (sep : Nat → Separ.Vgraph → M (Option Separ.Vgraph)) (ole ose : Method) : Nat → Method
  | 0 => fun _ _ _ _ => throw .fuel
  | fuel + 1 => fun h ordenum o c => do
    let b0 := ndGraph env h o.tick
    let r ← sep (o.tick + 1) b0
    let o := { o with tick := o.tick + 2 }
    match r with
    | none => return (1, o, c)
    | some b =>
      if b.compsize0 = 0 ∨ b.compsize1 = 0 then do
        let (_, o, c) ← ole h ordenum o c
        return (0, o, c)
      else do
        let tab ← ndList b
        let l0 ← cells tab b.fronnbr b.compsize0.toNat
        let l1 ← cells tab (b.fronnbr + b.compsize0) b.compsize1.toNat
        let l2 ← cells tab 0 b.fronnbr.toNat
        let (r2, o, c2) ← ndSep env ose h ordenum o l2 (b.compsize0 + b.compsize1)
        let blk := fun c0 c1 => Cblk.node ORDERCBLKNEDI c.vnodnbr (2 + c2.length) (c0 :: c1 :: c2)
        if r2 ≠ 0 then return (r2, o, blk (leafBlock b.compsize0) (leafBlock b.compsize1))
        else do
          let halonbr := b.fronnbr + h.s.vertnbr - h.vnohnbr
          let h0 ← hinduce h (env.hmem o.tick) l0 halonbr
          let (r0, o, c0) ← ndGo env sep ole ose fuel h0 ordenum { o with tick := o.tick + 1 } (leafBlock b.compsize0)
          if r0 ≠ 0 then return (1, o, blk c0 (leafBlock b.compsize1))
          else do
            let h1 ← hinduce h (env.hmem o.tick) l1 halonbr
            let (r1, o, c1) ← ndGo env sep ole ose fuel h1 (ordenum + b.compsize0) { o with tick := o.tick + 1 } (leafBlock b.compsize1)
            return (if r1 ≠ 0 then 1 else 0, o, blk c0 c1)

/-- `hgraphOrderNd`: recursive calls are on smaller graphs. -/
def orderNd (env : Env) (sep : Nat → Separ.Vgraph → M (Option Separ.Vgraph)) (ole ose : Method) : Method := fun h ordenum o c =>
  ndGo env sep ole ose (h.vnohnbr.toNat + 1) h ordenum o c

/-- Separation strategy of a nested dissection: parameter `sepstrat` — hgraph_order_nd.c:170. -/
def sepOf (senv : Separ.SEnv) (fuel : Nat) (s : Separ.SStrat) (t : Nat) (b : Separ.Vgraph) : M (Option Separ.Vgraph) := do
  let (o, b) ← Separ.separateSt senv fuel s [t] b
  if o = 0 then return some b else return none

end Scotch.HOrder
