import Verif.Bipart.Model
import Verif.Hash

/-!
# Bipartition graphs: Fiduccia-Mattheyses refinement (model)

Functions of src/libscotch/bgraph_bipart_fm.c and bgraph_bipart_fm.h.

Vertices that may move are kept in a hash table. The gain table, modelled in `Verif.Gain`, is represented by the status of the slots: a slot is in the table when its status is `link`.
-/

set_option autoImplicit false

namespace Scotch.Bipart

open Coarsen (land)

/-- `BGRAPHBIPARTFMHASHPRIME` — bgraph_bipart_fm.h:74. -/
def fmPrime : Int := 17

/-- State of a slot, as told by its `next` link — bgraph_bipart_fm.h:161–163, 175–177. The state `such` is only used by vgraph_separate_fm.c (vgraph_separate_fm.h:69–72). -/
inductive FmSt where
  | free
  | used
  | link
  | such
  deriving DecidableEq, Repr, Inhabited

/-- The four fields that are both in `BgraphBipartFmVertex` and in `BgraphBipartFmSave`: `partval`, `compgain`, `commgain` and `commcut`. -/
structure FmVals where
  part : Int
  comp : Int
  comm : Int
  cut : Int
  deriving DecidableEq, Inhabited

/-- `BgraphBipartFmVertex` — bgraph_bipart_fm.h:114–122. The links of the gain table are represented by `st`. -/
structure FmSlot where
  vertnum : Int
  v : FmVals
  mswp : Int
  st : FmSt
  deriving DecidableEq, Inhabited

/-- `BgraphBipartFmSave` — bgraph_bipart_fm.h:126–132. -/
structure FmSave where
  hashnum : Int
  v : FmVals
  deriving DecidableEq, Inhabited

/-- A slot set by `memSet (..., ~0, ...)`: all of its bits are 1, so that its link is not one of the two special values. -/
def FmSlot.empty : FmSlot := ⟨-1, ⟨-1, -1, -1, -1⟩, -1, .link⟩

/-- Values attached to a partition: `compload0dlt`, `commload`, `commgainextn` and `swapval`. -/
structure FmCur where
  dlt : Int
  comm : Int
  extn : Int
  swap : Int
  deriving DecidableEq

/-- Local variables of `bgraphBipartFm` — bgraph_bipart_fm.c:249–282. The values of the best partition (`...bst`) are in `bst`. The chain of locked slots that starts at `lockptr` is a list. `clock` is not in the code: it counts the
searches made in the gain table, so that their results may depend on the whole history. -/
structure Fm where
  hash : Arr FmSlot
  msk : Int
  max : Int
  nbr : Int
  save : Arr FmSave
  savenbr : Int
  mswp : Int
  lock : List Int
  cur : FmCur
  bst : FmCur
  dltmin : Int
  dltmax : Int
  moveflag : Bool
  movenbr : Int
  clock : Nat

/-- `bgraphBipartFmTablGet (tablptr, dlt, dltmin, dltmax)`: number of a slot, given the rank of the call. -/
abbrev FmPick := Nat → Arr FmSlot → Int → Int → Int → Option Int

/-- State of the loop of `bgraphBipartFmTablGet`. -/
structure FmBest where
  tabl : Option Int
  gain : Option Int
  vert : Option Int
  delt : Int

/-- `a < b`, where `none` stands for a bound that is larger than all values. -/
def ltTop (a : Int) : Option Int → Bool
  | none => true
  | some b => decide (a < b)

/-- Loop of `bgraphBipartFmTablGet` — bgraph_bipart_fm.c:122–148, on the slots of the gain table in the order of `gainTablFrst` and `gainTablNext`. Each element holds the number of a row of the table, and a slot. `none` stands for the
end of the table, and for `GAINMAX`. -/
def fmTablLoop (hash : Arr FmSlot) (dlt dltmin dltmax : Int) : List (Int × Int) → FmBest → Option Int
  | [], s => s.vert
  | (r, h) :: l, s =>
    if ltTop r s.tabl then
      let x := (hash.get h).v
      let dltnew := dlt + x.comp
      if dltnew ≥ dltmin ∧ dltnew ≤ dltmax then
        let d := |dltnew|
        if ltTop x.comm s.gain ∨ (s.gain = some x.comm ∧ d < s.delt) then
          fmTablLoop hash dlt dltmin dltmax l ⟨some r, some x.comm, some h, d⟩
        else fmTablLoop hash dlt dltmin dltmax l s
      else fmTablLoop hash dlt dltmin dltmax l s
    else s.vert

/-- `bgraphBipartFmTablGet` — bgraph_bipart_fm.c:107–149. `order` gives the content of the gain table. -/
def fmTablGet (order : Nat → Arr FmSlot → List (Int × Int)) : FmPick := fun n hash dlt dltmin dltmax =>
  fmTablLoop hash dlt dltmin dltmax (order n hash) ⟨none, none, none, dltmax⟩

/-- `(vertnum * BGRAPHBIPARTFMHASHPRIME) & hashmsk`. -/
def fmHome (v msk : Int) : Int := land (v * fmPrime) msk

/-- Bound on the number of slots that a search visits. -/
def fmFuel (msk : Int) : Nat := (msk + 2).toNat

/-- Search of a free slot — bgraph_bipart_fm.c:388, 434, 604. -/
def fmFree (hash : Arr FmSlot) (msk v : Int) : M Int := do
  let r ← Hash.find (fun h => do
    let x ← hash.rd h
    return if x.vertnum = -1 then some true else none) msk (fmFuel msk) (fmHome v msk)
  return r.1

/-- Search of a vertex or of a free slot — bgraph_bipart_fm.c:562–563, 590. -/
def fmSearch (hash : Arr FmSlot) (msk v : Int) : M (Int × Bool) :=
  Hash.find (fun h => do
    let x ← hash.rd h
    return if x.vertnum = v then some false else if x.vertnum = -1 then some true else none) msk (fmFuel msk) (fmHome v msk)

/-- Search of a vertex that is in the table — bgraph_bipart_fm.c:967. -/
def fmLocate (hash : Arr FmSlot) (msk v : Int) : M Int := do
  let r ← Hash.find (fun h => do
    let x ← hash.rd h
    return if x.vertnum = v then some false else none) msk (fmFuel msk) (fmHome v msk)
  return r.1

/-! ## Initial table -/

/-- Values of a vertex — bgraph_bipart_fm.c:367–386, 392–394 (or 413–432, 438–440). -/
def fmInitVals (b : Bgraph) (v : Int) : M FmVals := do
  let part ← b.parttax.rd v
  let t ← b.s.forArcs v ((0, 0) : Int × Int) fun e w t => do
    let partend ← b.parttax.rd w
    let edloval ← b.s.rdEdlo e
    let partdlt := xorP part partend
    return (t.1 + partdlt, t.2 + (1 - 2 * partdlt) * edloval)
  let partdlt := 2 * part - 1
  let veloval ← b.s.rdVelo v
  let veexval ← rdVeex b.veextax v
  return ⟨part, partdlt * veloval, t.2 * b.domndist - partdlt * veexval, t.1⟩

/-- Insertion of a vertex — bgraph_bipart_fm.c:358–396 (or 402–442). -/
def fmInsert (b : Bgraph) (msk v : Int) (hash : Arr FmSlot) : M (Arr FmSlot) := do
  let x ← fmInitVals b v
  let h ← fmFree hash msk v
  hash.wr h ⟨v, x, 0, .link⟩

/-- `for (hashsiz = 256; hashsiz < hashnbr; hashsiz <<= 1) ;` — bgraph_bipart_fm.c:331, with the mask instead of the size. -/
def fmSize (hashnbr : Int) : Nat → Int → M Int
  | 0, _ => .error .fuel
  | n + 1, msk => if msk + 1 < hashnbr then fmSize hashnbr n (msk * 2 + 1) else .ok msk

/-! ## Change of size -/

/-- Search of the last free slot — bgraph_bipart_fm.c:924. -/
def fmLastFree (hash : Arr FmSlot) : Nat → Int → M Int
  | 0, _ => .error .fuel
  | n + 1, h => do
    let x ← hash.rd h
    if x.vertnum ≠ -1 then fmLastFree hash n (h - 1) else return h

/-- Search of the new place of a slot — bgraph_bipart_fm.c:934–949. -/
def fmPlace (hash : Arr FmSlot) (msk hashnum v : Int) : M (Int × Bool) :=
  Hash.find (fun h => do
    if h = hashnum then return some false
    else do
      let x ← hash.rd h
      return if x.vertnum = -1 then some true else none) msk (fmFuel msk) (fmHome v msk)

/-- Move of a slot — bgraph_bipart_fm.c:944–946. -/
def fmRelocate (hash : Arr FmSlot) (x : FmSlot) (hashnum hashnew : Int) (moved : Bool) : M (Arr FmSlot) := do
  if moved then do
    let hash ← hash.wr hashnew x
    hash.wr hashnum { x with vertnum := -1, mswp := -1 }
  else return hash

/-- Body of the loop on slots — bgraph_bipart_fm.c:930–955. A slot that was in the gain table is added to it again, so that its status does not change. -/
def fmRehash (msk hashnum : Int) (s : Arr FmSlot × List Int) : M (Arr FmSlot × List Int) := do
  let x ← s.1.rd hashnum
  if x.vertnum ≠ -1 then do
    let r ← fmPlace s.1 msk hashnum x.vertnum
    let hash ← fmRelocate s.1 x hashnum r.1 r.2
    let y ← hash.rd r.1
    return (hash, if y.st = .used then r.1 :: s.2 else s.2)
  else return s

/-- `bgraphBipartFmResize` — bgraph_bipart_fm.c:864–979. The loop of lines 926–960 runs at most twice: on the slots after the last free one, then on the other ones. The arrays are moved by `memReallocGroup` in such a way that the old and the
new save arrays do not overlap, since saves are smaller than slots; they are modelled as two arrays. -/
def fmResize (junk : Int → FmSave) (s : Fm) : M Fm := do
  let hashold := s.max * 4
  let hashsiz := s.max * 8
  let msk := hashsiz - 1
  let save ← forUp 0 s.savenbr (⟨0, hashsiz, junk⟩ : Arr FmSave) fun i a => do
    let n := s.savenbr - 1 - i
    let x ← s.save.rd n
    let y ← s.hash.rd x.hashnum
    a.wr n ⟨y.vertnum, x.v⟩
  let hash : Arr FmSlot := ⟨0, hashsiz, fun i => if i < hashold then s.hash.get i else FmSlot.empty⟩
  let sta ← fmLastFree hash (hashold.toNat + 1) (hashold - 1)
  let r ← forUp sta hashold (hash, ([] : List Int)) (fmRehash msk)
  let r ← forUp 0 sta r (fmRehash msk)
  let save ← forUp 0 s.savenbr save fun n a => do
    let x ← a.rd n
    let h ← fmLocate r.1 msk x.hashnum
    a.wr n ⟨h, x.v⟩
  return { s with hash := r.1, msk := msk, max := s.max * 2, save := save, lock := r.2 }

/-! ## Moves -/

/-- Save of a slot — bgraph_bipart_fm.c:532–538, 567–573, 738–744. -/
def fmSave (s : Fm) (h : Int) : M Fm := do
  let x ← s.hash.rd h
  let save ← s.save.wr s.savenbr ⟨h, x.v⟩
  let hash ← s.hash.wr h { x with mswp := s.mswp }
  return { s with save := save, savenbr := s.savenbr + 1, hash := hash }

/-- Save of a slot that has not been saved since the best partition was found — bgraph_bipart_fm.c:531–539, 566–574, 737–745. -/
def fmSaveOnce (s : Fm) (h : Int) : M Fm := do
  let x ← s.hash.rd h
  if x.mswp ≠ s.mswp then fmSave s h else return s

/-- New status of a neighbour — bgraph_bipart_fm.c:580–587. -/
def fmRelink (x : FmSlot) : FmSlot :=
  if x.st = .used then x
  else
    let x := if x.st = .link then { x with st := .free } else x
    if x.v.cut > 0 then { x with st := .link } else x

/-- A neighbour that is in the table — bgraph_bipart_fm.c:564–588. -/
def fmMeetOld (b : Bgraph) (partval edloval h : Int) (s : Fm) : M Fm := do
  let s ← fmSaveOnce s h
  let x ← s.hash.rd h
  let partdlt := 2 * xorP partval x.v.part - 1
  let x : FmSlot := { x with v := { x.v with comm := x.v.comm + b.domndist * 2 * edloval * partdlt, cut := x.v.cut - partdlt } }
  let hash ← s.hash.wr h (fmRelink x)
  return { s with hash := hash }

/-- Sum of the loads of the arcs of a vertex — bgraph_bipart_fm.c:607–618. -/
def fmArcSum (g : Graph) (v : Int) : M Int := do
  let lo ← g.verttax.rd v
  let hi ← g.rdVend v
  match g.edlotax with
  | none => return hi - lo
  | some a => forUp lo hi 0 fun e t => return t + (← a.rd e)

/-- A larger table when there are too many vertices — bgraph_bipart_fm.c:598–605. -/
def fmRoom (junk : Int → FmSave) (w h : Int) (s : Fm) : M (Fm × Int) := do
  if s.nbr ≥ s.max then do
    let s ← fmResize junk s
    let h ← fmFree s.hash s.msk w
    return (s, h)
  else return (s, h)

/-- A neighbour that is not in the table yet — bgraph_bipart_fm.c:591–652. -/
def fmMeetNew (junk : Int → FmSave) (b : Bgraph) (partval edloval w h : Int) (s : Fm) : M Fm := do
  let r ← fmRoom junk w h s
  let s := r.1
  let h := r.2
  let commgainold ← fmArcSum b.s w
  let commgain := commgainold - 2 * edloval
  let veloval ← b.s.rdVelo w
  let veexval ← rdVeex b.veextax w
  let partold := xorP (xorP partval s.cur.swap) s.bst.swap
  let save ← s.save.wr s.savenbr ⟨h, ⟨partold, (2 * partold - 1) * veloval, commgainold * b.domndist - (2 * partold - 1) * veexval, 0⟩⟩
  let hash ← s.hash.wr h
    ⟨w, ⟨partval, (2 * partval - 1) * veloval, commgain * b.domndist - (2 * partval - 1) * veexval, 1⟩, s.mswp, .link⟩
  return { s with save := save, savenbr := s.savenbr + 1, hash := hash, nbr := s.nbr + 1 }

/-- Body of the loop on the arcs of the vertex that moves — bgraph_bipart_fm.c:558–654. -/
def fmArc (junk : Int → FmSave) (b : Bgraph) (partval e w : Int) (s : Fm) : M Fm := do
  let edloval ← b.s.rdEdlo e
  let r ← fmSearch s.hash s.msk w
  if r.2 then fmMeetNew junk b partval edloval w r.1 s else fmMeetOld b partval edloval r.1 s

/-- A vertex moves — bgraph_bipart_fm.c:524–655. -/
def fmMove (junk : Int → FmSave) (b : Bgraph) (h : Int) (s : Fm) : M Fm := do
  let x ← s.hash.rd h
  let hash ← s.hash.wr h { x with st := .used }
  let s := { s with hash := hash, lock := h :: s.lock }
  let s ← fmSaveOnce s h
  let x ← s.hash.rd h
  let veexval ← rdVeex b.veextax x.vertnum
  let lo ← b.s.verttax.rd x.vertnum
  let hi ← b.s.rdVend x.vertnum
  let hash ← s.hash.wr h { x with v := ⟨xorP x.v.part 1, - x.v.comp, - x.v.comm, hi - lo - x.v.cut⟩ }
  let s := { s with
    movenbr := s.movenbr + 1, hash := hash,
    cur := { s.cur with dlt := s.cur.dlt + x.v.comp, comm := s.cur.comm + x.v.comm, extn := s.cur.extn + 2 * (2 * x.v.part - 1) * veexval } }
  b.s.forArcs x.vertnum s (fmArc junk b x.v.part)

/-- The current partition becomes the best one, without a change of `moveflag` — bgraph_bipart_fm.c:678–682. -/
def fmEqual (s : Fm) : Fm := { s with bst := s.cur, savenbr := 0, mswp := s.mswp + 1 }

/-- The current partition becomes the best one — bgraph_bipart_fm.c:658–665, 669–675, 694–701, 763–770. -/
def fmBetter (s : Fm) : Fm := { fmEqual s with moveflag := true, movenbr := 0 }

/-- Comparison with the best partition — bgraph_bipart_fm.c:657–684. -/
def fmCompare (s : Fm) : Fm :=
  if s.cur.comm < s.bst.comm then fmBetter s
  else if s.cur.comm = s.bst.comm then
    if |s.cur.dlt| < |s.bst.dlt| then fmBetter s
    else if |s.cur.dlt| = |s.bst.dlt| then fmEqual s
    else s
  else s

/-- Tightening of the range of imbalances — bgraph_bipart_fm.c:686–702. -/
def fmTighten (mit mat : Int) (s : Fm) : Fm :=
  if (s.dltmin < mit ∧ s.cur.dlt > s.dltmin ∧ s.cur.dlt ≤ s.dltmax) ∨ (s.dltmax > mat ∧ s.cur.dlt < s.dltmax ∧ s.cur.dlt ≥ s.dltmin) then
    fmBetter { s with dltmin := min mit s.cur.dlt, dltmax := Max.max mat s.cur.dlt }
  else s

/-- `veextax[v]`. -/
def rdVeex' (veextax : Option (Arr Int)) (v : Int) : M Int := match veextax with | none => .error .null | some a => a.rd v

/-- Body of the loop on slots when all vertices change parts — bgraph_bipart_fm.c:732–757. -/
def fmSwapSlot (b : Bgraph) (h : Int) (s : Fm) : M Fm := do
  let x ← s.hash.rd h
  if x.mswp = -1 then return s
  else do
    let s ← fmSaveOnce s h
    let x ← s.hash.rd h
    let part := xorP x.v.part 1
    let veexval ← rdVeex' b.veextax x.vertnum
    let comm := if veexval ≠ 0 then x.v.comm + 2 * (1 - 2 * part) * veexval else x.v.comm
    let hash ← s.hash.wr h { x with v := ⟨part, - x.v.comp, comm, x.v.cut⟩ }
    return { s with hash := hash }

/-- All vertices change parts if this is better for the external communication load — bgraph_bipart_fm.c:712–782. -/
def fmSwap (b : Bgraph) (s : Fm) : M Fm := do
  let dlttmp := b.s.velosum - s.cur.dlt - 2 * b.compload0avg
  if s.cur.extn < 0 ∧ |dlttmp| ≤ s.dltmax then do
    let s := { s with cur := ⟨dlttmp, s.cur.comm + s.cur.extn, - s.cur.extn, xorP s.cur.swap 1⟩ }
    let s ← forUp 0 (s.msk + 1) s (fmSwapSlot b)
    if s.cur.comm < s.bst.comm ∨ (s.cur.comm = s.bst.comm ∧ |s.cur.dlt| < |s.bst.dlt|) then return fmBetter s
    else return s
  else return s

/-- Body of the loop on moves — bgraph_bipart_fm.c:517–783. -/
def fmStep (junk : Int → FmSave) (pick : FmPick) (b : Bgraph) (movemax mit mat : Int) (s : Fm) : M (Loop Fm Fm) := do
  if s.movenbr < movemax then do
    let p := pick s.clock s.hash s.cur.dlt s.dltmin s.dltmax
    let s := { s with clock := s.clock + 1 }
    match p with
    | none => return .brk s
    | some h => do
      let s ← fmMove junk b h s
      let s ← fmSwap b (fmTighten mit mat (fmCompare s))
      return .next s
  else return .brk s

/-- Body of the loop on saved slots — bgraph_bipart_fm.c:469–484. -/
def fmRestore (s : Fm) (hash : Arr FmSlot) (n : Int) : M (Arr FmSlot) := do
  let y ← s.save.rd n
  let x ← hash.rd y.hashnum
  let x := { x with v := y.v }
  let x := if x.st = .link then { x with st := .free } else x
  let x := if x.st = .free ∧ y.v.part = 2 then { x with st := .link } else x
  hash.wr y.hashnum x

/-- Body of the loop on locked slots — bgraph_bipart_fm.c:502–510. -/
def fmUnlock (all : Bool) (hash : Arr FmSlot) (h : Int) : M (Arr FmSlot) := do
  let x ← hash.rd h
  hash.wr h { x with st := if all ∨ x.v.cut > 0 then .link else .free }

/-- Body of the loop on passes — bgraph_bipart_fm.c:466–783. -/
def fmPass (junk : Int → FmSave) (pick : FmPick) (b : Bgraph) (all : Bool) (movemax mit mat : Int) (s : Fm) : M Fm := do
  let hash ← forUp 0 s.savenbr s.hash fun i a => fmRestore s a (s.savenbr - 1 - i)
  let hash ← s.lock.foldlM (fmUnlock all) hash
  let s := { s with hash := hash, cur := s.bst, mswp := s.mswp + 1, lock := [], moveflag := false, movenbr := 0, savenbr := 0 }
  loopM (fmStep junk pick b movemax mit mat) (b.s.vertnbr + 1).toNat s

/-- Loop on passes — bgraph_bipart_fm.c:465, 784–785. -/
def fmPasses (junk : Int → FmSave) (pick : FmPick) (b : Bgraph) (all : Bool) (movemax mit mat : Int) : Nat → Fm × Int → M Fm :=
  loopM fun (s, passnbr) => do
    let s ← fmPass junk pick b all movemax mit mat s
    if s.moveflag ∧ passnbr - 1 ≠ 0 then return .next (s, passnbr - 1) else return .brk s

/-! ## Results -/

/-- Part of a vertex — bgraph_bipart_fm.c:827–830. The state holds the part array and `compsize0dlt`. -/
def fmWritePart (v p : Int) (part : Arr Int) (sizedlt : Int) : M (Arr Int × Int) := do
  let q ← part.rd v
  if q ≠ p then return (← part.wr v p, sizedlt + (1 - 2 * p)) else return (part, sizedlt)

/-- Frontier — bgraph_bipart_fm.c:831–832. -/
def fmWriteFron (v cut : Int) (fron : Arr Int) (fronnbr : Int) : M (Arr Int × Int) := do
  if cut > 0 then return (← fron.wr fronnbr v, fronnbr + 1) else return (fron, fronnbr)

/-- State of the loop that writes the results. -/
structure FmOut where
  part : Arr Int
  fron : Arr Int
  fronnbr : Int
  sizedlt : Int

/-- Body of the loop on slots — bgraph_bipart_fm.c:818–832. -/
def fmWrite (hash : Arr FmSlot) (h : Int) (t : FmOut) : M FmOut := do
  let x ← hash.rd h
  if x.vertnum = -1 then return t
  else do
    let p ← fmWritePart x.vertnum x.v.part t.part t.sizedlt
    let f ← fmWriteFron x.vertnum x.v.cut t.fron t.fronnbr
    return ⟨p.1, f.1, f.2, p.2⟩

/-- Body of the loop on saved slots — bgraph_bipart_fm.c:806–810. -/
def fmRestoreEnd (s : Fm) (hash : Arr FmSlot) (n : Int) : M (Arr FmSlot) := do
  let y ← s.save.rd n
  let x ← hash.rd y.hashnum
  hash.wr y.hashnum { x with v := { x.v with part := y.v.part, cut := y.v.cut } }

/-- Swap of all parts — bgraph_bipart_fm.c:797–803. -/
def fmSwapParts (b : Bgraph) (swapval : Int) : M (Arr Int × Int) := do
  if swapval ≠ 0 then do
    let part ← forUp b.s.baseval b.s.vertnnd b.parttax fun v a => do a.wr v (xorP (← a.rd v) 1)
    return (part, b.s.vertnbr - 2 * b.compsize0)
  else return (b.parttax, 0)

/-- End of `bgraphBipartFm` — bgraph_bipart_fm.c:796–839. -/
def fmFinish (b : Bgraph) (s : Fm) : M Bgraph := do
  let p ← fmSwapParts b s.bst.swap
  let hash ← forUp 0 s.savenbr s.hash fun i a => fmRestoreEnd s a (s.savenbr - 1 - i)
  let t ← forUp 0 (s.msk + 1) (⟨p.1, b.frontab, 0, p.2⟩ : FmOut) (fmWrite hash)
  return { b with
    parttax := t.part, frontab := t.fron, fronnbr := t.fronnbr, compload0 := s.bst.dlt + b.compload0avg, compload0dlt := s.bst.dlt,
    compsize0 := b.compsize0 + t.sizedlt, commload := s.bst.comm, commgainextn := s.bst.extn }

/-- Parameters of the method: `movenbr`, `passnbr`. -/
structure FmParam where
  movenbr : Int
  passnbr : Int

/-- Initial table — bgraph_bipart_fm.c:354–444. -/
def fmFill (b : Bgraph) (all : Bool) (msk : Int) (hash : Arr FmSlot) : M (Arr FmSlot) :=
  if all then forUp b.s.baseval b.s.vertnnd hash (fmInsert b msk)
  else forUp 0 b.fronnbr hash fun i a => do fmInsert b msk (← b.frontab.rd i) a

/-- Refinement — bgraph_bipart_fm.c:320–852, once the kind of table is known. -/
def fmMain (junk : Int → FmSave) (pick : FmPick) (para : FmParam) (fuel : Nat) (all : Bool) (mit mat dltmin dltmax : Int) (b : Bgraph) : M Bgraph := do
  let hashnbr := min (4 * (b.fronnbr + para.movenbr + b.s.degrmax)) b.s.vertnbr
  let hashnbr := if all then b.s.vertnbr * 4 else hashnbr
  let msk ← fmSize hashnbr (hashnbr.toNat + 1) 255
  let hash := Arr.const 0 (msk + 1) FmSlot.empty
  let hash ← fmFill b all msk hash
  let cur : FmCur := ⟨b.compload0dlt, b.commload, b.commgainextn, 0⟩
  let s : Fm := {
    hash := hash, msk := msk, max := (msk + 1) / 4, nbr := if all then hashnbr else b.fronnbr, save := ⟨0, msk + 1, junk⟩, savenbr := 0, mswp := 0, lock := [],
    cur := cur, bst := cur, dltmin := dltmin, dltmax := dltmax, moveflag := false, movenbr := 0, clock := 0 }
  let s ← fmPasses junk pick b all para.movenbr mit mat fuel (s, para.passnbr)
  fmFinish b s

/-- `bgraphBipartFm` — bgraph_bipart_fm.c:244–853. `dltmat` is the value of lines 292–294, which is computed in floating point from the parameter `deltval`; it is arbitrary. `gg` stands for `bgraphBipartGg` with 4 passes. `fuel` bounds the
number of passes. -/
def bipartFm (junk : Int → FmSave) (pick : FmPick) (gg : Bgraph → M Bgraph) (para : FmParam) (dltmat : Int) (fuel : Nat) (b : Bgraph) : M Bgraph := do
  let mit := Max.max (b.compload0min - b.compload0avg) (- dltmat)
  let mat := min (b.compload0max - b.compload0avg) dltmat
  if b.fronnbr = 0 then do
    if b.compload0dlt ≥ mit ∧ b.compload0dlt ≤ mat then return b
    else do
      let b ← gg b
      if b.fronnbr = 0 then return b
      else fmMain junk pick para fuel true mit mat (min mit b.compload0dlt) (Max.max mat b.compload0dlt) b
  else fmMain junk pick para fuel false mit mat (min b.compload0dlt mit) (Max.max b.compload0dlt mat) b

end Scotch.Bipart
