import Verif.Separ.Model
import Verif.Bipart.ModelFm

/-!
# Separation graphs: Fiduccia-Mattheyses refinement (model)

Functions of src/libscotch/vgraph_separate_fm.c and vgraph_separate_fm.h.

The hash table, the save array, the local variables and the change of size of the table have the same shape as in bgraph_bipart_fm.c, so that the types and the search functions of `Verif.Bipart.ModelFm` are used. Fields have other meanings
here: in `FmVals`, `part` is `partval`, `comp` is `compgain[0]`, `comm` is `compgain[1]`, and `cut` is `veloval`, that is, the opposite of the load of the vertex (it never changes, and is not in `VgraphSeparateFmSave`); in `FmCur`, `dlt` is
`comploaddlt` and `comm` is `compload2` (`extn` and `swap` are not used); in `Fm`, `dltmax` is `comploaddltmax` (`dltmin` is not used). The gain table is represented by the status of the slots: the two links of a slot are in the table when its
status is `link`.
-/

set_option autoImplicit false

namespace Scotch.Separ

open Bipart (FmVals FmSlot FmSave FmSt FmCur Fm fmFree fmSearch fmSize fmResize fmEqual fmBetter fmRestore ltTop)

/-- `compgain[i]`. -/
def sgGet (x : FmVals) (i : Int) : Int := if i = 0 then x.comp else x.comm

/-- `compgain[i] += d`. -/
def sgAdd (x : FmVals) (i d : Int) : FmVals := if i = 0 then { x with comp := x.comp + d } else { x with comm := x.comm + d }

/-- Part that a link stands for, as deduced from the sign of the number that follows the link in memory: `veloval` for `gainlink0`, `partval` for `gainlink1` — vgraph_separate_fm.c:121–126, 380–384. If the sign is wrong, the code computes the
address of a slot that does not exist. -/
def linkSide (hash : Arr FmSlot) (h i : Int) : M Int := do
  let x ← hash.rd h
  if i = 0 then (if x.v.cut ≥ 0 then throw .oob else return 0) else (if x.v.part ≥ 0 then return 1 else throw .oob)

/-- Content of the gain table, in the order of `gainTablFrst` and `gainTablNext`, given the rank of the search: row of the table, number of a slot, and number of the link in the slot. -/
abbrev SOrder := Nat → Arr FmSlot → List (Int × Int × Int)

/-- State of the loop of `vgraphSeparateFmTablGet`: `none` stands for the end of the table, and for `GAINMAX`. -/
structure SBest where
  tabl : Option Int
  gain : Option Int
  link : Option (Int × Int)

/-- `a ≤ b`, where `none` stands for a bound that is larger than all values. -/
def leTop (a : Int) : Option Int → Bool
  | none => true
  | some b => decide (a ≤ b)

/-- `dwgttab[i]`. -/
def dwgt (b : Vgraph) (i : Int) : Int := if i = 0 then b.dwgt0 else b.dwgt1

/-- Change of `comploaddlt` when a vertex moves to part `i` — vgraph_separate_fm.c:132, 401. -/
def sfDelta (b : Vgraph) (x : FmVals) (i : Int) : Int := (1 - 2 * i) * (sgGet x i * dwgt b i - x.cut * (b.dwgt0 + b.dwgt1))

/-- Loop of `vgraphSeparateFmTablGet` — vgraph_separate_fm.c:116–141. `absI` is the C function `abs`, on type `int`. -/
def sfTabl (absI : Int → Int) (b : Vgraph) (hash : Arr FmSlot) (dlt dltmax partval : Int) : List (Int × Int × Int) → SBest → M (Option (Int × Int))
  | [], s => return s.link
  | (r, h, i) :: l, s =>
    if leTop r s.tabl then do
      let side ← linkSide hash h i
      let x ← hash.rd h
      let gain := sgGet x.v side
      if gain = x.v.cut then return some (h, i)
      else if absI (dlt + sfDelta b x.v side) ≤ dltmax ∧ (ltTop gain s.gain ∨ (s.gain = some gain ∧ partval = side)) then
        sfTabl absI b hash dlt dltmax partval l ⟨some r, some gain, some (h, i)⟩
      else sfTabl absI b hash dlt dltmax partval l s
    else return s.link

/-! ## Initial table -/

/-- Gains of a vertex — vgraph_separate_fm.c:244–287. `p & 1` and `p & 2` are computed with quotients, since parts are not negative; `>> 1` is a division by 2. -/
def sfInitVals (b : Vgraph) (v : Int) : M FmVals := do
  match b.s.velotax with
  | some velotax => do
    let t ← b.s.forArcs v ((0, 0) : Int × Int) fun _ w t => do
      let partend ← b.parttax.rd w
      let veloend ← velotax.rd w
      return (t.1 + partend % 2 * veloend, t.2 + (2 - partend / 2 % 2 * 2) * veloend)
    let veloval ← velotax.rd v
    return ⟨2, t.1 - veloval, t.2 / 2 - t.1 - veloval, - veloval⟩
  | none => do
    let t ← b.s.forArcs v ((0, 0) : Int × Int) fun _ w t => do
      let partend ← b.parttax.rd w
      return (t.1 + partend % 2, t.2 + partend / 2 % 2 * 2)
    let lo ← b.s.verttax.rd v
    let hi ← b.s.rdVend v
    return ⟨2, t.1 - 1, hi - lo - t.2 / 2 - t.1 - 1, -1⟩

/-- Insertion of a vertex of the separator — vgraph_separate_fm.c:234–292. -/
def sfInsert (b : Vgraph) (msk v : Int) (hash : Arr FmSlot) : M (Arr FmSlot) := do
  let h ← fmFree hash msk v
  let x ← sfInitVals b v
  hash.wr h ⟨v, x, -1, .link⟩

/-! ## Moves -/

/-- Save of a slot that has not been saved since the best separator was found — vgraph_separate_fm.c:403–410, 448–455, 474–481, 515–522. `f` gives the values that are saved. -/
def sfSave (f : FmVals → FmVals) (s : Fm) (h : Int) : M Fm := do
  let x ← s.hash.rd h
  if x.mswp ≠ s.mswp then do
    let save ← s.save.wr s.savenbr ⟨h, f x.v⟩
    let hash ← s.hash.wr h { x with mswp := s.mswp }
    return { s with save := save, savenbr := s.savenbr + 1, hash := hash }
  else return s

/-- A slot of the separator whose gains have changed is put on the chain, unless it is there already — vgraph_separate_fm.c:457–468, 525–536. -/
def sfChain (h : Int) (s : Fm × List Int) : M (Fm × List Int) := do
  let x ← s.1.hash.rd h
  if x.st = .link then do
    let hash ← s.1.hash.wr h { x with st := .free }
    return ({ s.1 with hash := hash }, h :: s.2)
  else if x.st = .used then do
    let hash ← s.1.hash.wr h { x with st := .such }
    return ({ s.1 with hash := hash }, h :: s.2)
  else return s

/-- A slot of the separator whose gain for part `i` changes — vgraph_separate_fm.c:448–468 and 515–536. -/
def sfMeet (i d h : Int) (s : Fm × List Int) : M (Fm × List Int) := do
  let t ← sfSave (fun x => { x with part := 2 }) s.1 h
  let x ← t.hash.rd h
  let hash ← t.hash.wr h { x with v := sgAdd x.v i d }
  sfChain h ({ t with hash := hash }, s.2)

/-- Body of the loop on the neighbours of a vertex that enters the separator — vgraph_separate_fm.c:492–542. The third element of the state is `compgainp`. -/
def sfArcEnd (b : Vgraph) (p veloval : Int) (_e w : Int) (s : (Fm × List Int) × Int) : M ((Fm × List Int) × Int) := do
  let r ← fmSearch s.1.1.hash s.1.1.msk w
  if r.2 then return (s.1, s.2 + (← b.s.rdVelo w))
  else do
    let x ← s.1.1.hash.rd r.1
    if x.v.part = 2 then return (← sfMeet p veloval r.1 s.1, s.2) else return (s.1, s.2 - x.v.cut)

/-- New values of a vertex that enters the separator — vgraph_separate_fm.c:483–485. `veloval` is the field of the vertex that moves. -/
def sfEnterVals (p veloval : Int) (x : FmVals) : FmVals :=
  { x with part := 2, comp := if p = 0 then x.cut else x.cut - veloval, comm := if p = 0 then x.cut - veloval else x.cut }

/-- A vertex of the other part enters the separator — vgraph_separate_fm.c:474–548. -/
def sfEnter (b : Vgraph) (p veloval w h : Int) (s : Fm × List Int) : M (Fm × List Int) := do
  let t ← sfSave (fun x => { x with part := 1 - p, comp := 0, comm := 0 }) s.1 h
  let x ← t.hash.rd h
  let hash ← t.hash.wr h { x with v := sfEnterVals p veloval x.v }
  let r ← b.s.forArcs w (({ t with hash := hash }, s.2), 0) (sfArcEnd b p x.v.cut)
  let y ← r.1.1.hash.rd h
  let hash ← r.1.1.hash.wr h { y with v := sgAdd y.v p r.2, st := if y.st = .used then .such else y.st }
  return ({ r.1.1 with hash := hash }, h :: r.1.2)

/-- A slot for a vertex that is not in the table — vgraph_separate_fm.c:434–438. The gains keep their former values. -/
def sfNew (b : Vgraph) (p w h : Int) (s : Fm) : M Fm := do
  let x ← s.hash.rd h
  let veloval ← b.s.rdVelo w
  let hash ← s.hash.wr h { x with vertnum := w, v := { x.v with part := 1 - p, cut := - veloval }, st := .free }
  return { s with hash := hash, nbr := s.nbr + 1 }

/-- Body of the loop on the neighbours of the vertex that moves — vgraph_separate_fm.c:419–552. -/
def sfArc (b : Vgraph) (p veloval : Int) (_e w : Int) (s : Fm × List Int) : M (Fm × List Int) := do
  let r ← fmSearch s.1.hash s.1.msk w
  if r.2 then do
    let q ← b.parttax.rd w
    if q = p then return s
    else do
      let t ← sfNew b p w r.1 s.1
      sfEnter b p veloval w r.1 (t, s.2)
  else do
    let x ← s.1.hash.rd r.1
    if x.v.part = 2 then sfMeet (1 - p) (- veloval) r.1 s
    else if x.v.part = 1 - p then sfEnter b p veloval w r.1 s
    else return s

/-- Body of the loop on chained slots — vgraph_separate_fm.c:566–578. -/
def sfUnchain (p : Int) (s : Fm) (h : Int) : M Fm := do
  let x ← s.hash.rd h
  if x.st = .free then do
    let hash ← s.hash.wr h { x with st := .link }
    return { s with hash := hash }
  else if sgGet x.v p = x.v.cut then do
    let hash ← s.hash.wr h { x with st := .link }
    return { s with hash := hash, lock := s.lock.erase h }
  else do
    let hash ← s.hash.wr h { x with st := .used }
    return { s with hash := hash }

/-- A vertex moves to part `p` — vgraph_separate_fm.c:391–579. -/
def sfMove (b : Vgraph) (h p : Int) (s : Fm) : M Fm := do
  let x ← s.hash.rd h
  let hash ← s.hash.wr h { x with st := .such }
  let s := { s with
    hash := hash, lock := h :: s.lock,
    cur := { s.cur with dlt := s.cur.dlt + sfDelta b x.v p, comm := s.cur.comm + sgGet x.v p } }
  let s ← sfSave (fun x => { x with part := 2 }) s h
  let s := { s with movenbr := s.movenbr + 1 }
  let r ← b.s.forArcs x.vertnum (s, ([] : List Int)) (sfArc b p x.v.cut)
  let y ← r.1.hash.rd h
  let hash ← r.1.hash.wr h { y with v := { y.v with part := p }, st := .used }
  r.2.foldlM (sfUnchain p) { r.1 with hash := hash }

/-- A larger table — vgraph_separate_fm.c:587–592. `vgraphSeparateFmResize`, lines 705–818, does the same operations as `bgraphBipartFmResize`. -/
def sfRoom (junk : Int → FmSave) (s : Fm) : M Fm := do
  if s.nbr ≥ s.max then fmResize junk s else return s

/-- Comparison with the best separator — vgraph_separate_fm.c:596–620. -/
def sfCompare (absI : Int → Int) (mat : Int) (s : Fm) : Fm :=
  if absI s.cur.dlt < mat ∨ absI s.bst.dlt > mat then
    if s.cur.comm < s.bst.comm then fmBetter s
    else if s.cur.comm = s.bst.comm then
      if absI s.cur.dlt < absI s.bst.dlt then fmBetter s
      else if absI s.cur.dlt = absI s.bst.dlt then fmEqual s
      else s
    else s
  else s

/-- Change of the largest imbalance — vgraph_separate_fm.c:622–637. `absbst` is `comploadabsdltbst`, the imbalance of the best separator before the comparison. -/
def sfRange (absI : Int → Int) (mat absbst : Int) (s : Fm) : Fm :=
  if absI s.cur.dlt > s.dltmax then { s with dltmax := absI s.cur.dlt }
  else if s.dltmax > mat then
    let dltmax := max mat (absI s.cur.dlt)
    if absbst > mat ∧ dltmax < s.dltmax then { fmEqual s with dltmax := dltmax, movenbr := 0 } else { s with dltmax := dltmax }
  else s

/-- What does not belong to the separation: content of the new save array after a change of size, order of the gain table, function `abs`. -/
structure SfEnv where
  junk : Int → FmSave
  order : SOrder
  absI : Int → Int

/-- Body of the loop on moves — vgraph_separate_fm.c:373–637. -/
def sfStep (env : SfEnv) (b : Vgraph) (movemax mat passnbr : Int) (s : Fm) : M (Loop Fm Fm) := do
  if s.movenbr < movemax then do
    let l ← sfTabl env.absI b s.hash s.cur.dlt s.dltmax (passnbr % 2) (env.order s.clock s.hash) ⟨none, none, none⟩
    let s := { s with clock := s.clock + 1 }
    match l with
    | none => return .brk s
    | some (h, i) => do
      let p ← linkSide s.hash h i
      let s ← sfMove b h p s
      let s ← sfRoom env.junk s
      return .next (sfRange env.absI mat (env.absI s.bst.dlt) (sfCompare env.absI mat s))
  else return .brk s

/-- Body of the loop on locked slots — vgraph_separate_fm.c:352–366. -/
def sfUnlock (hash : Arr FmSlot) (h : Int) : M (Arr FmSlot) := do
  let x ← hash.rd h
  hash.wr h { x with st := if x.v.part = 2 then .link else .free }

/-- Body of the loop on passes — vgraph_separate_fm.c:312–638. The loop of lines 314–333 is the one of `Bipart.fmRestore`. -/
def sfPass (env : SfEnv) (b : Vgraph) (movemax mat passnbr : Int) (fuel : Nat) (s : Fm) : M Fm := do
  let hash ← forUp 0 s.savenbr s.hash fun i a => fmRestore s a (s.savenbr - 1 - i)
  let hash ← s.lock.foldlM sfUnlock hash
  let s := { s with
    hash := hash, cur := s.bst, dltmax := if env.absI s.bst.dlt > s.dltmax then env.absI s.bst.dlt else s.dltmax, mswp := s.mswp + 1, lock := [],
    moveflag := false, movenbr := 0, savenbr := 0 }
  loopM (sfStep env b movemax mat passnbr) fuel s

/-- Loop on passes — vgraph_separate_fm.c:311, 639–640. `fuel` bounds the number of passes, and the number of moves of a pass. -/
def sfPasses (env : SfEnv) (b : Vgraph) (movemax mat : Int) (fuel : Nat) : Fm × Int → M Fm :=
  loopM (fun (s, passnbr) => do
    let s ← sfPass env b movemax mat passnbr fuel s
    if s.moveflag ∧ passnbr - 1 ≠ 0 then return .next (s, passnbr - 1) else return .brk s) fuel

/-! ## Results -/

/-- Body of the loop on saved slots — vgraph_separate_fm.c:646–648. -/
def sfRestoreEnd (s : Fm) (hash : Arr FmSlot) (n : Int) : M (Arr FmSlot) := do
  let y ← s.save.rd n
  let x ← hash.rd y.hashnum
  hash.wr y.hashnum { x with v := { x.v with part := y.v.part } }

/-- State of the loop that writes the results: `sizedlt` is `compsize1add - compsize1sub`. -/
structure SfOut where
  part : Arr Int
  fron : Arr Int
  fronnum : Int
  sizedlt : Int

/-- Part of a vertex — vgraph_separate_fm.c:663–669. -/
def sfWritePart (v p : Int) (part : Arr Int) (sizedlt : Int) : M (Arr Int × Int) := do
  let q ← part.rd v
  if p ≠ q then return (← part.wr v p, sizedlt + p % 2 - q % 2) else return (part, sizedlt)

/-- Separator — vgraph_separate_fm.c:670–671. -/
def sfWriteFron (v p : Int) (fron : Arr Int) (fronnum : Int) : M (Arr Int × Int) := do
  if p = 2 then return (← fron.wr fronnum v, fronnum + 1) else return (fron, fronnum)

/-- Body of the loop on slots — vgraph_separate_fm.c:658–672. -/
def sfWrite (hash : Arr FmSlot) (h : Int) (t : SfOut) : M SfOut := do
  let x ← hash.rd h
  if x.vertnum = -1 then return t
  else do
    let p ← sfWritePart x.vertnum x.v.part t.part t.sizedlt
    let f ← sfWriteFron x.vertnum x.v.part t.fron t.fronnum
    return ⟨p.1, f.1, f.2, p.2⟩

/-- End of `vgraphSeparateFm` — vgraph_separate_fm.c:642–680. -/
def sfFinish (b : Vgraph) (s : Fm) : M Vgraph := do
  let hash ← forUp 0 s.savenbr s.hash fun i a => sfRestoreEnd s a (s.savenbr - 1 - i)
  let t ← forUp 0 (s.max * 4) (⟨b.parttax, b.frontab, 0, 0⟩ : SfOut) (sfWrite hash)
  let compload0 ← cdiv (s.bst.dlt + (b.s.velosum - s.bst.comm) * b.dwgt0) (b.dwgt0 + b.dwgt1)
  return { b with
    parttax := t.part, frontab := t.fron, fronnbr := t.fronnum, compload0 := compload0, compload1 := b.s.velosum - s.bst.comm - compload0,
    compload2 := s.bst.comm, comploaddlt := s.bst.dlt, compsize1 := b.compsize1 + t.sizedlt, compsize0 := b.s.vertnbr - (b.compsize1 + t.sizedlt) - t.fronnum }

/-- Parameters of the method: `movenbr`, `passnbr`. -/
structure SfParam where
  movenbr : Int
  passnbr : Int

/-- Refinement — vgraph_separate_fm.c:208–692. -/
def sfMain (env : SfEnv) (para : SfParam) (mat : Int) (fuel : Nat) (b : Vgraph) : M Vgraph := do
  let hashnbr := min (16 * (b.fronnbr + para.movenbr + b.s.degrmax) + 1) b.s.vertnbr
  let msk ← fmSize hashnbr (hashnbr.toNat + 1) 511
  let hash ← forUp 0 b.fronnbr (Arr.const 0 (msk + 1) FmSlot.empty) fun i a => do sfInsert b msk (← b.frontab.rd i) a
  let cur : FmCur := ⟨b.comploaddlt, b.compload2, 0, 0⟩
  let s : Fm := {
    hash := hash, msk := msk, max := (msk + 1) / 4, nbr := b.fronnbr, save := ⟨0, msk + 1, env.junk⟩, savenbr := 0, mswp := -1, lock := [],
    cur := cur, bst := cur, dltmin := 0, dltmax := max mat (env.absI b.comploaddlt), moveflag := false, movenbr := 0, clock := 0 }
  let s ← sfPasses env b para.movenbr mat fuel (s, para.passnbr)
  sfFinish b s

/-- `vgraphSeparateFm` — vgraph_separate_fm.c:153–693. `mat` is `comploaddltmat`, lines 190–193, which is computed in floating point from the parameter `deltrat`; it is arbitrary. `gg` stands for `vgraphSeparateGg` with 4 passes. -/
def separateFm (env : SfEnv) (gg : Vgraph → M Vgraph) (para : SfParam) (mat : Int) (fuel : Nat) (b : Vgraph) : M Vgraph := do
  if b.fronnbr = 0 then do
    if env.absI b.comploaddlt ≤ mat then return b
    else do
      let b ← gg b
      if b.fronnbr = 0 then return b else sfMain env para mat fuel b
  else sfMain env para mat fuel b

end Scotch.Separ
