import Verif.Graph.Access
import Verif.Sort.Model

/-!
# Block symbolic factorization: model

symbolFaxGraph (src/esmumps/symbol_fax_graph.c:97–133), which inlines symbolFax (src/esmumps/symbol_fax.c:146–507), and
symbolCheck (src/esmumps/symbol_check.c:83–139).

The program keeps its temporary areas at the end of the array of blocks: from the first free block on, the hash table,
then the sort array, then the array of chained blocks. Sizes are counted in integers: 3 for a block, 4 for a chained block.
In the model these areas are arrays of their own, with their true bounds; writing a block on an area whose content is
still in use is a fault. The array of chained blocks goes up to the end of the allocated memory.

The parameter `slack` is a number of integers allocated in addition to those that the program asks for: it is 0 for
the program as it is.

Memory allocation is assumed to succeed, and block counts do not overflow (the test of symbol_fax.c:245 for `blokmax`
having wrapped around is not modelled). Level-of-fill data are not modelled (SYMBOL_HAS_LEVFVAL is not set).
-/

set_option autoImplicit false

namespace Scotch.Fax

/-- Ordering — src/esmumps/order.h: number of column blocks, column block range array, direct and inverse permutations. -/
structure Order where
  cblknbr : Int
  rang : Arr Int
  perm : Arr Int
  peri : Arr Int

/-- Column block — src/esmumps/symbol.h (SymbolCblk). -/
structure Cblk where
  fcol : Int
  lcol : Int
  blok : Int
  deriving DecidableEq

/-- Block — src/esmumps/symbol.h (SymbolBlok). -/
structure Blok where
  frow : Int
  lrow : Int
  cblk : Int
  deriving DecidableEq

/-- Chained block — src/esmumps/symbol_fax.h (SymbolFaxTlok). -/
structure Tlok where
  frow : Int
  lrow : Int
  cblk : Int
  next : Int
  deriving DecidableEq

/-- Symbolic block matrix — src/esmumps/symbol.h (SymbolMatrix). -/
structure Symbol where
  baseval : Int
  cblknbr : Int
  bloknbr : Int
  cblk : Arr Cblk
  blok : Arr Blok
  nodenbr : Int

/-- SYMBOL_FAX_HASHPRIME — src/esmumps/symbol_fax.h. -/
def hashPrime : Int := 17

/-! ## Sizes -/

/-- Upper bound on the number of neighbours of a column block — symbol_fax.c:219–223. -/
def degrMax (g : Graph) (o : Order) (colmin colmax : Int) : M Int := do
  let d ← forUp colmin colmax 0 fun c d => do
    let v ← o.peri.rd c
    let e ← g.rdVend v
    let b ← g.verttax.rd v
    return d + (e - b)
  return if d > g.vertnbr then g.vertnbr else d

/-- Quarter of the size of the hash table — symbol_fax.c:225. -/
def hashMax (degrmax : Int) : M Int :=
  loopM (fun h => if h < degrmax then return Loop.next (h * 2) else return Loop.brk h) (degrmax.toNat + 1) (256 : Int)

/-- Number of contributing blocks — symbol_fax.c:229–231. -/
def ctrbSum (ctrb : Arr Int) (cblk : Arr Cblk) (fuel : Nat) (frst : Int) : M Int :=
  loopM (fun (s : Int × Int) =>
    if s.1 = -1 then return Loop.brk s.2
    else do
      let d ← cblk.rd (s.1 + 1)
      let c ← cblk.rd s.1
      let n ← ctrb.rd s.1
      return Loop.next (n, s.2 + d.blok - c.blok - 2)) fuel (frst, 0)

/-- Enlargement of the array of blocks — symbol_fax.c:240–262. `need` is the number of integers from the first based
block to the end of the temporary areas. -/
def grow (need blokmax : Int) : M Int :=
  loopM (fun b => if need > 3 * b then return Loop.next (b + b / 4 + 4) else return Loop.brk b) (need.toNat + 1) blokmax

/-! ## Neighbours of a column block -/

/-- Search of an end column in the hash table — symbol_fax.c:293–307. State: hash table, sort array, number of columns
in them. The mask operation is a remainder since the size of the table is a power of two and columns are not negative. -/
def hashPut (hashsiz colend : Int) (s : Arr Int × Arr Int × Int) : M (Arr Int × Arr Int × Int) :=
  loopM (fun h => do
    let x ← s.1.rd h
    if x = colend then return Loop.brk s
    else if x = -1 then do
      let hash ← s.1.wr h colend
      let sort ← s.2.1.wr s.2.2 colend
      return Loop.brk (hash, sort, s.2.2 + 1)
    else return Loop.next ((h + 1) % hashsiz)) (hashsiz.toNat + 1) ((colend * hashPrime) % hashsiz)

/-- Neighbour columns of a column block — symbol_fax.c:281–309. -/
def collect (g : Graph) (o : Order) (colmin colmax hashsiz : Int) (s : Arr Int × Arr Int × Int) : M (Arr Int × Arr Int × Int) :=
  forUp colmin colmax s fun c s => do
    let v ← o.peri.rd c
    g.forArcs v s fun _ w s => do
      let colend ← o.perm.rd w
      if colend < colmax then return s
      else hashPut hashsiz colend s

/-! ## Blocks of neighbours -/

/-- Column block of a column — symbol_fax.c:330–343 and 381–394. `top` is the based number after the last column block. -/
def findCblk (o : Order) (top colend ctr : Int) : M Int := do
  let r ← o.rang.rd (ctr + 1)
  if colend ≥ r then
    loopM (fun (s : Int × Int) =>
      if s.2 - s.1 > 1 then do
        let m := (s.2 + s.1) / 2
        let r ← o.rang.rd m
        if r ≤ colend then return Loop.next (m, s.2) else return Loop.next (s.1, m)
      else return Loop.brk s.1) ((top - ctr).toNat + 1) (ctr + 1, top)
  else return ctr

/-- End of a run of consecutive columns of a column block — symbol_fax.c:346–348 and 396–398. -/
def runEnd (o : Order) (sort : Arr Int) (sortnbr ctr sortnum : Int) : M Int :=
  loopM (fun s => do
    if s < sortnbr then do
      let a ← sort.rd s
      let b ← sort.rd (s - 1)
      if a - 1 = b then do
        let r ← o.rang.rd (ctr + 1)
        if a < r then return Loop.next (s + 1) else return Loop.brk s
      else return Loop.brk s
    else return Loop.brk s) ((sortnbr - sortnum).toNat + 1) (sortnum + 1)

/-- Blocks of the columns of the sort array — symbol_fax.c:326–355 and 377–404. `put` adds a block. -/
def runs {σ : Type} (o : Order) (top : Int) (sort : Arr Int) (sortnbr : Int) (put : Blok → σ → M σ) (cblknum : Int) (st : σ) : M σ :=
  loopM (fun (s : Int × Int × σ) =>
    if s.1 < sortnbr then do
      let colend ← sort.rd s.1
      let c ← findCblk o top colend s.2.1
      let e ← runEnd o sort sortnbr c s.1
      let l ← sort.rd (e - 1)
      let st ← put ⟨colend, l, c⟩ s.2.2
      return Loop.next (e, c, st)
    else return Loop.brk s.2.2) (sortnbr.toNat + 1) (0, cblknum, st)

/-- Addition of a block to the array of blocks. The areas that are in use begin `lim` integers after block `frst`. -/
def putBlok (lim frst : Int) (b : Blok) (s : Arr Blok × Int) : M (Arr Blok × Int) :=
  if 3 * (s.2 + 1 - frst) > lim then .error .oob
  else do
    let blok ← s.1.wr s.2 b
    return (blok, s.2 + 1)

/-- Column block without contributions — symbol_fax.c:317–356. -/
def direct (o : Order) (top sortoft : Int) (sort : Arr Int) (sortnbr : Int) (diag : Blok) (blok : Arr Blok) (bloknum : Int) : M (Arr Blok × Int) := do
  let s ← putBlok sortoft bloknum diag (blok, bloknum)
  runs o top sort sortnbr (putBlok sortoft bloknum) diag.cblk s

/-! ## Contributions -/

/-- Addition of a block to the initial chain — symbol_fax.c:395–403. -/
def putTlok (b : Blok) (s : Arr Tlok × Int) : M (Arr Tlok × Int) := do
  let tlok ← s.1.wr s.2 ⟨b.frow, b.lrow, b.cblk, s.2 + 1⟩
  return (tlok, s.2 + 1)

/-- Initial chain: diagonal block, blocks of neighbours, trailing block — symbol_fax.c:367–411. Returns the index of the
first unchained free block. -/
def chain (g : Graph) (o : Order) (top : Int) (sort : Arr Int) (sortnbr : Int) (diag : Blok) (tlok : Arr Tlok) : M (Arr Tlok × Int) := do
  let s ← putTlok diag (tlok, 0)
  let s ← runs o top sort sortnbr putTlok diag.cblk s
  let tlok ← s.1.wr s.2 ⟨g.vertnbr + g.baseval, g.vertnbr + g.baseval, top, 0⟩
  return (tlok, s.2 + 1)

/-- State of merging: chained blocks, chain of free blocks, first unchained free block, previous and current blocks. -/
structure Merge where
  tlok : Arr Tlok
  fre : Int
  frm : Int
  lst : Int
  num : Int

/-- Skipping of chained blocks — symbol_fax.c:427–431. -/
def skip (tlok : Arr Tlok) (b : Blok) (lst num : Int) : M (Int × Int) :=
  loopM (fun (s : Int × Int) => do
    let t ← tlok.rd s.2
    if t.cblk < b.cblk ∨ t.lrow < b.frow - 1 then return Loop.next (s.2, t.next)
    else return Loop.brk s) (tlok.hi.toNat + 1) (lst, num)

/-- A free chained block — symbol_fax.c:437–446. -/
def newTlok (m : Merge) : M Merge :=
  if m.fre = -1 then do
    let t ← m.tlok.rd m.frm
    let tlok ← m.tlok.wr m.frm { t with next := -1 }
    return { m with tlok := tlok, fre := m.frm, frm := m.frm + 1 }
  else return m

/-- Insertion of a block before the current one — symbol_fax.c:447–455. -/
def insert (b : Blok) (m : Merge) : M Merge := do
  let m ← newTlok m
  let tmp := m.fre
  let t ← m.tlok.rd m.lst
  let tlok ← m.tlok.wr m.lst { t with next := tmp }
  let t ← tlok.rd tmp
  let fre := t.next
  let tlok ← tlok.wr tmp ⟨b.frow, b.lrow, b.cblk, m.num⟩
  let t ← tlok.rd m.lst
  return ⟨tlok, fre, m.frm, m.lst, t.next⟩

/-- Aggregation of the blocks that follow the current one — symbol_fax.c:468–477. -/
def absorb (tlok : Arr Tlok) (fre num : Int) : M (Arr Tlok × Int) :=
  loopM (fun (s : Arr Tlok × Int) => do
    let t ← s.1.rd num
    let u ← s.1.rd t.next
    if u.cblk = t.cblk ∧ u.frow ≤ t.lrow + 1 then do
      let a ← s.1.wr num ⟨t.frow, if u.lrow > t.lrow then u.lrow else t.lrow, t.cblk, u.next⟩
      let a ← a.wr t.next { u with next := s.2 }
      return Loop.next (a, t.next)
    else return Loop.brk s) (tlok.hi.toNat + 1) (tlok, fre)

/-- Lower bound of the current block — symbol_fax.c:458–460. -/
def lower (b : Blok) (m : Merge) : M Merge := do
  let t ← m.tlok.rd m.num
  if b.lrow ≥ t.frow - 1 ∧ b.frow < t.frow then do
    let tlok ← m.tlok.wr m.num { t with frow := b.frow }
    return { m with tlok := tlok }
  else return m

/-- Upper bound of the current block — symbol_fax.c:462–478. -/
def upper (b : Blok) (m : Merge) : M Merge := do
  let t ← m.tlok.rd m.num
  if b.frow ≤ t.lrow + 1 ∧ b.lrow > t.lrow then do
    let tlok ← m.tlok.wr m.num { t with lrow := b.lrow }
    let r ← absorb tlok m.fre m.num
    return { m with tlok := r.1, fre := r.2 }
  else return m

/-- Merging of a block in the chain — symbol_fax.c:427–479. -/
def mergeBlok (b : Blok) (m : Merge) : M Merge := do
  let s ← skip m.tlok b m.lst m.num
  let m : Merge := ⟨m.tlok, m.fre, m.frm, s.1, s.2⟩
  let t ← m.tlok.rd m.num
  if b.cblk < t.cblk ∨ b.lrow < t.frow - 1 then insert b m
  else do
    let m ← lower b m
    upper b m

/-- Merging of the blocks of a contributing column block — symbol_fax.c:419–480. -/
def mergeCblk (cblk : Arr Cblk) (blok : Arr Blok) (c : Int) (m : Merge) : M Merge := do
  let f ← cblk.rd c
  let l ← cblk.rd (c + 1)
  forUp (f.blok + 2) l.blok ⟨m.tlok, m.fre, m.frm, 0, 0⟩ fun i m => do
    let b ← blok.rd i
    mergeBlok b m

/-- Merging of all contributing column blocks — symbol_fax.c:417–481. -/
def mergeAll (ctrb : Arr Int) (cblk : Arr Cblk) (blok : Arr Blok) (fuel : Nat) (frst : Int) (m : Merge) : M Merge :=
  loopM (fun (s : Int × Merge) =>
    if s.1 = -1 then return Loop.brk s.2
    else do
      let m ← mergeCblk cblk blok s.1 s.2
      let n ← ctrb.rd s.1
      return Loop.next (n, m)) fuel (frst, m)

/-- Copy of the chain to the array of blocks — symbol_fax.c:483–493. -/
def copy (tlokoft : Int) (tlok : Arr Tlok) (blok : Arr Blok) (bloknum : Int) : M (Arr Blok × Int) :=
  loopM (fun (s : Int × Arr Blok × Int) => do
    let t ← tlok.rd s.1
    if t.next ≠ 0 then do
      let r ← putBlok tlokoft bloknum ⟨t.frow, t.lrow, t.cblk⟩ s.2
      return Loop.next (t.next, r)
    else return Loop.brk s.2) (tlok.hi.toNat + 1) (0, blok, bloknum)

/-- Column block with contributions — symbol_fax.c:357–494. -/
def updated (g : Graph) (o : Order) (top tlokoft : Int) (sort : Arr Int) (sortnbr : Int) (diag : Blok) (ctrb : Arr Int) (cblk : Arr Cblk)
    (frst : Int) (tlok : Arr Tlok) (blok : Arr Blok) (bloknum : Int) : M (Arr Blok × Int) := do
  let s ← chain g o top sort sortnbr diag tlok
  let m ← mergeAll ctrb cblk blok (o.cblknbr.toNat + 1) frst ⟨s.1, -1, s.2, 0, 0⟩
  copy tlokoft m.tlok blok bloknum

/-! ## Factorization -/

/-- State of the loop on column blocks. -/
structure State where
  ctrb : Arr Int
  cblk : Arr Cblk
  blok : Arr Blok
  blokmax : Int
  bloknum : Int

/-- Linking of a column block to the one it contributes to — symbol_fax.c:495–498. -/
def link (cblknum frst : Int) (s : State) : M State :=
  if s.bloknum - frst > 2 then do
    let b ← s.blok.rd (frst + 1)
    let n ← s.ctrb.rd b.cblk
    let ctrb ← s.ctrb.wr cblknum n
    let ctrb ← ctrb.wr b.cblk cblknum
    return { s with ctrb := ctrb }
  else return s

/-- Blocks of a column block — symbol_fax.c:316–494. -/
def blocks (g : Graph) (o : Order) (top sortoft tlokoft : Int) (sort : Arr Int) (sortnbr : Int) (diag : Blok) (ctrb : Arr Int) (cblk : Arr Cblk)
    (frst : Int) (tlok : Arr Tlok) (blok : Arr Blok) (bloknum : Int) : M (Arr Blok × Int) :=
  if frst = -1 then direct o top sortoft sort sortnbr diag blok bloknum
  else updated g o top tlokoft sort sortnbr diag ctrb cblk frst tlok blok bloknum

/-- Initial content of the memory that has not been written to: anything. -/
structure Junk where
  int : Int → Int
  blok : Int → Blok
  tlok : Int → Tlok
  cblk : Int → Cblk

/-- Handling of a column block — symbol_fax.c:200–498. `bits` is one less than the number of bits of integers. -/
def cblkStep (slack : Int) (bits : Nat) (junk : Int → Junk) (g : Graph) (o : Order) (cblknum : Int) (s : State) : M State := do
  let top := o.cblknbr + g.baseval
  let colmin ← o.rang.rd cblknum
  let colmax ← o.rang.rd (cblknum + 1)
  let cblk ← s.cblk.wr cblknum ⟨colmin, colmax - 1, s.bloknum⟩
  let degrmax ← degrMax g o colmin colmax
  let hashmax ← hashMax degrmax
  let hashsiz := hashmax * 4
  let frst ← s.ctrb.rd cblknum
  let ctrbsum ← ctrbSum s.ctrb cblk (o.cblknbr.toNat + 1) frst
  let tlokmax := degrmax + ctrbsum
  let sortoft := if hashsiz > 3 * tlokmax then hashsiz else 3 * tlokmax
  let tlokoft := sortoft + degrmax
  let blokmax ← grow (3 * s.bloknum + tlokoft + 4 * tlokmax) s.blokmax
  let blok : Arr Blok := ⟨g.baseval, g.baseval + blokmax, fun i => if i < s.bloknum then s.blok.get i else (junk cblknum).blok i⟩
  let tlok : Arr Tlok := ⟨0, (3 * blokmax + slack - 3 * (s.bloknum - g.baseval) - tlokoft) / 4, (junk cblknum).tlok⟩
  let r ← collect g o colmin colmax hashsiz (⟨0, hashsiz, fun _ => -1⟩, ⟨0, degrmax, (junk cblknum).int⟩, 0)
  let sort ← Sorting.sort Sorting.lt1 (bits + 1) r.2.1 r.2.2
  let b ← blocks g o top sortoft tlokoft sort r.2.2 ⟨colmin, colmax - 1, cblknum⟩ s.ctrb cblk frst tlok blok s.bloknum
  link cblknum s.bloknum ⟨s.ctrb, cblk, b.1, blokmax, b.2⟩

/-- symbolFaxGraph — symbol_fax_graph.c:97–133, symbol_fax.c:146–507. -/
def symbolFax (slack : Int) (bits : Nat) (junk : Int → Junk) (g : Graph) (o : Order) : M Symbol := do
  let q ← if g.vertnbr = 0 then .error .divZero else .ok (g.edgenbr / g.vertnbr)
  let blokmax := o.cblknbr * (2 + q) + 2
  let top := o.cblknbr + g.baseval
  let ctrb : Arr Int := ⟨g.baseval, top, fun _ => -1⟩
  let cblk : Arr Cblk := ⟨g.baseval, top + 1, (junk g.baseval).cblk⟩
  let blok : Arr Blok := ⟨g.baseval, g.baseval + blokmax, (junk g.baseval).blok⟩
  let s ← forUp g.baseval top ⟨ctrb, cblk, blok, blokmax, g.baseval⟩ (cblkStep slack bits junk g o)
  let cblk ← s.cblk.wr top ⟨g.vertnbr + g.baseval, g.vertnbr + g.baseval, s.bloknum⟩
  return ⟨g.baseval, o.cblknbr, s.bloknum - g.baseval, cblk, ⟨g.baseval, s.bloknum, s.blok.get⟩, g.vertnbr⟩

/-! ## Consistency checking -/

/-- Checking of the extra-diagonal blocks of a column block — symbol_check.c:125–135. `brk`: an error was found. -/
def checkBloks (S : Symbol) (frst last : Int) : M (Loop Unit Unit) :=
  forUpB frst last () (fun i _ => do
    let b ← S.blok.rd i
    let p ← S.blok.rd (i - 1)
    if b.cblk < S.baseval ∨ b.cblk > S.cblknbr + (S.baseval - 1) ∨ b.frow ≤ p.lrow ∨ b.cblk < p.cblk then return Loop.brk ()
    else return Loop.next ())

/-- Checking of a column block — symbol_check.c:103–136. `bloknum` is the current block; `brk`: an error was found. -/
def checkCblk (S : Symbol) (c bloknum : Int) : M (Loop Int Unit) := do
  let d ← S.cblk.rd c
  let n ← S.cblk.rd (c + 1)
  if d.fcol < S.baseval ∨ d.lcol > S.nodenbr + (S.baseval - 1) ∨ d.blok > S.bloknbr + S.baseval ∨ d.fcol > d.lcol ∨ n.fcol ≤ d.lcol ∨ n.blok ≤ d.blok then
    return Loop.brk ()
  else do
    let b ← S.blok.rd bloknum
    if b.frow ≠ d.fcol ∨ b.lrow ≠ d.lcol ∨ b.cblk ≠ c then return Loop.brk ()
    else do
      let e ← checkBloks S (bloknum + 1) n.blok
      match e with
      | .next _ => return Loop.next (if bloknum + 1 < n.blok then n.blok else bloknum + 1)
      | .brk _ => return Loop.brk ()

/-- symbolCheck — symbol_check.c:83–139. `true` if the matrix is accepted. -/
def symbolCheck (S : Symbol) : M Bool := do
  let r ← forUpB S.baseval (S.cblknbr + S.baseval) S.baseval (checkCblk S)
  match r with
  | .next _ => return true
  | .brk _ => return false

end Scotch.Fax
