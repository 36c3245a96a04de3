import Verif.Graph.Access
import Verif.Sort.Model

/-!
# Distributed graphs: ranges, ghost vertices and halo exchange

Functions of src/libscotch/dgraph_build.c, dgraph_ghst.c, dgraph_halo.c and dgraph_halo_fill.c. All processes run the same
routine on their own data; collective communications are modelled by their results, as defined by the MPI standard.
-/

set_option autoImplicit false

namespace Scotch.Dist

/-! ## Ranges -/

/-- Conversion `(int) x` of a `Gnum`: the low-order 32 bits. -/
def toInt32 (x : Int) : Int := (x + 2147483648) % 4294967296 - 2147483648

/-- Range arrays of `Dgraph` — dgraph.h:153–193. -/
structure Ranges where
  procdsptab : Arr Int
  procvrttab : Arr Int
  proccnttab : Arr Int

/-- Content of `procngbtab` after `MPI_Allgather` — dgraph_build.c:202–208: the two values of each process. The array
itself has `procglbnbr` cells, and the other ones are those of array `procrcvtab`, which follows it in the block. -/
def gathered (procglbnbr : Int) (vertlocnbr vertlocmax : Int → Int) : Arr Int :=
  ⟨0, 2 * procglbnbr, fun i => if i % 2 = 0 then toInt32 (vertlocnbr (i / 2)) else toInt32 (vertlocmax (i / 2))⟩

/-- Computation of ranges in `dgraphBuild2` — dgraph_build.c:175–222: `none` is the error exit. The functions give the
parameters of each process; a process that fails to allocate its arrays contributes −1 and −1. -/
def build2 (procglbnbr baseval : Int) (vertlocnbr vertlocmax : Int → Int) (j1 j2 j3 : Int → Int) : M (Option Ranges) := do
  let procngbtab := gathered procglbnbr vertlocnbr vertlocmax
  let procdsptab ← (⟨0, procglbnbr + 1, j1⟩ : Arr Int).wr 0 baseval
  let procvrttab ← (⟨0, procglbnbr + 1, j2⟩ : Arr Int).wr 0 baseval
  match ← forUpB 0 procglbnbr (⟨procdsptab, procvrttab, ⟨0, procglbnbr, j3⟩⟩ : Ranges) (fun p r => do
    if (← procngbtab.rd p) < 0 then return .brk ()
    else do
      let procdsptab ← r.procdsptab.wr (p + 1) ((← r.procdsptab.rd p) + (← procngbtab.rd (2 * p)))
      let procvrttab ← r.procvrttab.wr (p + 1) ((← r.procvrttab.rd p) + (← procngbtab.rd (2 * p + 1)))
      let proccnttab ← r.proccnttab.wr p ((← procdsptab.rd (p + 1)) - (← procdsptab.rd p))
      return .next ⟨procdsptab, procvrttab, proccnttab⟩) with
  | .brk () => return none
  | .next r => return some r

/-- Search for the process that owns a vertex — dgraph_ghst.c:197–206. -/
def ownerOf (procvrttab : Arr Int) (procglbnbr v : Int) : M Int :=
  loopM (fun (s : Int × Int) => do
    if ¬ (s.2 - s.1 > 1) then return .brk s.1
    else do
      let med := (s.2 + s.1) / 2
      if (← procvrttab.rd med) ≤ v then return .next (med, s.2) else return .next (s.1, med)) (procglbnbr.toNat + 1) (0, procglbnbr)

/-! ## Ghost vertices -/

/-- Data of a process: `g` holds the local arrays, where the ends of arcs are global numbers. -/
structure Local where
  procglbnbr : Int
  proclocnum : Int
  procvrttab : Arr Int
  g : Graph

/-- `DGRAPHGHSTSIDMAX` — dgraph_ghst.h:64. -/
def sidMax : Int := 2147483646

/-- Variables of the loop on local vertices. -/
structure Ghst1 where
  edgegsttax : Arr Int
  sortloctab : Arr (Int × Int)
  sortlocnbr : Int
  procsndtab : Arr Int
  vertsidtab : Arr Int
  procsidtab : Arr Int
  procsidnbr : Int
  vertsidnum : Int

/-- Long jumps — dgraph_ghst.c:212–215. -/
def ghstJump (v : Int) (fuel : Nat) (s : Ghst1) : M Ghst1 :=
  loopM (fun (s : Ghst1) => do
    if ¬ (v - s.vertsidnum ≥ sidMax) then return .brk s
    else do
      let procsidtab ← s.procsidtab.wr s.procsidnbr (- sidMax)
      return .next { s with procsidtab := procsidtab, procsidnbr := s.procsidnbr + 1, vertsidnum := s.vertsidnum + sidMax }) fuel s

/-- Last jump — dgraph_ghst.c:216–219. -/
def ghstLast (v : Int) (s : Ghst1) : M Ghst1 := do
  if s.vertsidnum ≠ v then do
    let procsidtab ← s.procsidtab.wr s.procsidnbr (- (v - s.vertsidnum))
    return { s with procsidtab := procsidtab, procsidnbr := s.procsidnbr + 1, vertsidnum := v }
  else return s

/-- Record of a vertex to send — dgraph_ghst.c:208–221. -/
def ghstSend (L : Local) (v q : Int) (s : Ghst1) : M Ghst1 := do
  if (← s.vertsidtab.rd q) ≠ v then do
    let vertsidtab ← s.vertsidtab.wr q v
    let procsndtab ← s.procsndtab.wr q ((← s.procsndtab.rd q) + 1)
    let s ← ghstJump v (L.g.vertnbr.toNat + 1) { s with vertsidtab := vertsidtab, procsndtab := procsndtab }
    let s ← ghstLast v s
    let procsidtab ← s.procsidtab.wr s.procsidnbr q
    return { s with procsidtab := procsidtab, procsidnbr := s.procsidnbr + 1 }
  else return s

/-- Body of the loop on arcs — dgraph_ghst.c:176–222. -/
def ghstArc (L : Local) (v e w : Int) (s : Ghst1) : M Ghst1 := do
  let vertlocmin ← L.procvrttab.rd L.proclocnum
  let vertlocmax ← L.procvrttab.rd (L.proclocnum + 1)
  if w ≥ vertlocmin ∧ w < vertlocmax then do
    let edgegsttax ← s.edgegsttax.wr e (w - (vertlocmin - L.g.baseval))
    return { s with edgegsttax := edgegsttax }
  else do
    let sortloctab ← s.sortloctab.wr s.sortlocnbr (w, e)
    let q ← ownerOf L.procvrttab L.procglbnbr w
    ghstSend L v q { s with sortloctab := sortloctab, sortlocnbr := s.sortlocnbr + 1 }

/-- Loop on local vertices — dgraph_ghst.c:162–224. The arrays that are allocated have arbitrary content. -/
def ghstPhase1 (L : Local) (gst : Arr Int) (jsort : Int → Int × Int) (jsid : Int → Int) : M Ghst1 :=
  forUp L.g.baseval L.g.vertnnd
    ⟨gst, ⟨0, L.g.edgenbr + 1, jsort⟩, 0, Arr.const 0 L.procglbnbr 0, Arr.const 0 L.procglbnbr (-1),
      ⟨0, L.g.edgenbr + L.g.vertnbr, jsid⟩, 0, L.g.baseval⟩
    fun v s => L.g.forArcs v s (ghstArc L v)

/-- Variables of the loop on sorted remote ends. -/
structure Ghst2 where
  edgegsttax : Arr Int
  procrcvtab : Arr Int
  procngbtab : Arr Int
  procngbnbr : Int
  procsndnbr : Int
  vertgstnum : Int
  vertgstbas : Int
  sortlocnum : Int
  procngbnum : Int

/-- `while (procvrttab[++ procngbnum + 1] <= x) ;` — dgraph_ghst.c:241–252. -/
def ghstProc (vrt : Arr Int) (x : Int) (fuel : Nat) (p : Int) : M Int :=
  loopM (fun p => do if (← vrt.rd (p + 1 + 1)) ≤ x then return .next (p + 1) else return .brk (p + 1)) fuel p

/-- One turn of the inner loop — dgraph_ghst.c:263–273. -/
def ghstInner (vrt : Arr Int) (sort : Arr (Int × Int)) (nbr : Int) (s : Ghst2) : M (Loop Ghst2 Ghst2) := do
  let s := { s with sortlocnum := s.sortlocnum + 1 }
  if ¬ (s.sortlocnum < nbr) then return .brk s
  else do
    let cur ← sort.rd s.sortlocnum
    let pre ← sort.rd (s.sortlocnum - 1)
    if cur.1 ≠ pre.1 then do
      let s := { s with vertgstnum := s.vertgstnum + 1 }
      if (← vrt.rd (s.procngbnum + 1)) ≤ cur.1 then do
        let rcv ← s.procrcvtab.wr s.procngbnum (s.vertgstnum - s.vertgstbas)
        return .brk { s with procrcvtab := rcv }
      else do
        let gst ← s.edgegsttax.wr cur.2 s.vertgstnum
        return .next { s with edgegsttax := gst }
    else do
      let gst ← s.edgegsttax.wr cur.2 s.vertgstnum
      return .next { s with edgegsttax := gst }

/-- One turn of the outer loop — dgraph_ghst.c:239–274. -/
def ghstOuter (L : Local) (snd : Arr Int) (sort : Arr (Int × Int)) (nbr : Int) (s : Ghst2) : M (Loop Ghst2 Ghst2) := do
  let cur ← sort.rd s.sortlocnum
  let gst ← s.edgegsttax.wr cur.2 s.vertgstnum
  let q ← ghstProc L.procvrttab cur.1 (L.procglbnbr.toNat + 1) s.procngbnum
  let sndval ← snd.rd q
  let ngb ← s.procngbtab.wr s.procngbnbr q
  let s ← loopM (ghstInner L.procvrttab sort nbr) (nbr.toNat + 1)
    { s with edgegsttax := gst, vertgstbas := s.vertgstnum, procngbnum := q, procsndnbr := s.procsndnbr + sndval, procngbtab := ngb,
             procngbnbr := s.procngbnbr + 1 }
  if s.sortlocnum < nbr then return .next s else return .brk s

/-- Results of `dgraphGhst2`. -/
structure Ghost where
  edgegsttax : Arr Int
  vertgstnbr : Int
  procngbtab : Arr Int
  procngbnbr : Int
  procrcvtab : Arr Int
  procsndtab : Arr Int
  procsndnbr : Int
  procsidtab : Arr Int
  procsidnbr : Int

/-- Numbering of ghost vertices — dgraph_ghst.c:226–285. -/
def ghstPhase2 (L : Local) (ngb : Arr Int) (k : Nat) (s : Ghst1) : M Ghost := do
  if s.sortlocnbr > 0 then do
    let sort ← Sorting.sort Sorting.lt2asc1 (k + 1) s.sortloctab s.sortlocnbr
    let r ← loopM (ghstOuter L s.procsndtab sort s.sortlocnbr) (L.procglbnbr.toNat + 1)
      ⟨s.edgegsttax, Arr.const 0 L.procglbnbr 0, ngb, 0, 0, L.g.vertnnd, L.g.vertnnd, 0, -1⟩
    let rcv ← r.procrcvtab.wr r.procngbnum (r.vertgstnum + 1 - r.vertgstbas)
    return ⟨r.edgegsttax, r.vertgstnum + 1 - L.g.baseval, r.procngbtab, r.procngbnbr, rcv, s.procsndtab, r.procsndnbr, s.procsidtab, s.procsidnbr⟩
  else
    return ⟨s.edgegsttax, L.g.vertnnd - L.g.baseval, ngb, 0, Arr.const 0 L.procglbnbr 0, s.procsndtab, 0, s.procsidtab, s.procsidnbr⟩

/-- `dgraphGhst2` — dgraph_ghst.c:89–314, when ghost data have not been computed yet and array `edgegsttax` is distinct
from `edgeloctax`; `2 ^ k` bounds the sizes of arrays to sort. -/
def ghst (L : Local) (gst ngb : Arr Int) (jsort : Int → Int × Int) (jsid : Int → Int) (k : Nat) : M Ghost := do
  ghstPhase2 L ngb k (← ghstPhase1 L gst jsort jsid)

/-! ## Halo exchange -/

section
variable {α : Type}

/-- State of `dgraphHaloFill`: position in the attribute array, send array, and pointers of processes. -/
structure Fill (α : Type) where
  pos : Int
  attrsndtab : Arr α
  attrdsptab : Arr Int

/-- Cumulated counts: `dsp[0] = first; dsp[p] = dsp[p - 1] + cnt[p - 1]` — dgraph_halo.c:124–126, 137–139 and
234–236. -/
def cumul (procglbnbr first : Int) (cnt : Arr Int) (junk : Int → Int) : M (Arr Int) := do
  let a ← (⟨0, procglbnbr, junk⟩ : Arr Int).wr 0 first
  forUp 1 procglbnbr a fun p a => do a.wr p ((← a.rd (p - 1)) + (← cnt.rd (p - 1)))

/-- `dgraphHaloFill` — dgraph_halo.c:112–140 and dgraph_halo_fill.c:57–82. Items are values of any type, instead of
groups of bytes. -/
def haloFill (procglbnbr : Int) (G : Ghost) (attr : Arr α) (jsnd : Int → α) (jdsp : Int → Int) : M (Arr α) := do
  let dsp ← cumul procglbnbr 0 G.procsndtab jdsp
  let r ← forUp 0 G.procsidnbr (⟨0, ⟨0, G.procsndnbr, jsnd⟩, dsp⟩ : Fill α) fun i s => do
    let x ← G.procsidtab.rd i
    if x < 0 then return { s with pos := s.pos - x }
    else do
      let d ← s.attrdsptab.rd x
      let attrdsptab ← s.attrdsptab.wr x (d + 1)
      let attrsndtab ← s.attrsndtab.wr d (← attr.rd s.pos)
      return { s with attrsndtab := attrsndtab, attrdsptab := attrdsptab }
  return r.attrsndtab

/-- What a process gives to the exchange. -/
structure Message (α : Type) where
  procsndtab : Arr Int
  senddsptab : Arr Int
  attrsndtab : Arr α

/-- Preparation of the exchange by a process — dgraph_halo.c:230 and 112–140. -/
def message (procglbnbr : Int) (G : Ghost) (attr : Arr α) (jsnd : Int → α) (jdsp : Int → Int) : M (Message α) := do
  let attrsndtab ← haloFill procglbnbr G attr jsnd jdsp
  let senddsptab ← cumul procglbnbr 0 G.procsndtab jdsp
  return ⟨G.procsndtab, senddsptab, attrsndtab⟩

/-- Reception by process `p` of the message of process `q`, at its displacement. Counts must match. -/
def receive (p q : Int) (G : Ghost) (dsp : Arr Int) (m : Message α) (attr : Arr α) : M (Arr α) := do
  let cnt ← G.procrcvtab.rd q
  let snd ← m.procsndtab.rd p
  if cnt ≠ snd then throw .oob
  else do
    let d ← dsp.rd q
    let o ← m.senddsptab.rd p
    forUp 0 cnt attr fun k attr => do attr.wr (d + k) (← m.attrsndtab.rd (o + k))

/-- `MPI_Alltoallv`, as seen by process `p` — dgraph_halo.c:316–318. -/
def alltoallv (procglbnbr p : Int) (G : Ghost) (dsp : Arr Int) (msgs : Int → Message α) (attr : Arr α) : M (Arr α) :=
  forUp 0 procglbnbr attr fun q attr => receive p q G dsp (msgs q) attr

/-- A process sends a message to `p` — dgraph_halo.c:299–309. -/
def posts (p : Int) (G : Ghost) : Bool := (List.range G.procngbnbr.toNat).any fun i => G.procngbtab.get (i : Nat) = p

/-- Point-to-point exchange, as seen by process `p` — dgraph_halo.c:286–310: messages are received from neighbour
processes only. When the neighbour does not send its message, `p` waits forever. -/
def ptop (p : Int) (Gs : Int → Ghost) (dsp : Arr Int) (msgs : Int → Message α) (attr : Arr α) : M (Arr α) :=
  forUp 0 (Gs p).procngbnbr attr fun i attr => do
    let q ← (Gs p).procngbtab.rd ((Gs p).procngbnbr - 1 - i)
    if posts p (Gs q) then receive p q (Gs p) dsp (msgs q) attr else throw .fuel

/-- End of `dgraphHaloSync`, as seen by process `p` — dgraph_halo.c:232–236 and 263–322; `flag` is `DGRAPHCOMMPTOP`. -/
def haloSync (flag : Bool) (procglbnbr vertlocnbr p : Int) (Gs : Int → Ghost) (msgs : Int → Message α) (jdsp : Int → Int) (attr : Arr α) : M (Arr α) := do
  let dsp ← cumul procglbnbr vertlocnbr (Gs p).procrcvtab jdsp
  if flag then ptop p Gs dsp msgs attr else alltoallv procglbnbr p (Gs p) dsp msgs attr

end

end Scotch.Dist
