import Verif.Base

/-!
# Orderings: model of order.c and order_check.c
-/

namespace Scotch

/-- `orderPeri` — src/libscotch/order.c:159–171. -/
def orderPeri (permtab : Arr Int) (permbas permnbr : Int) (peritab : Arr Int) (peribas : Int) :
    M (Arr Int) :=
  forUp 0 permnbr peritab fun permnum peritab => do
    let v ← permtab.rd permnum
    peritab.wr (v - permbas) (permnum + peribas)

/-- Values of `typeval` — src/libscotch/order.h:88–92. -/
def ORDERCBLKNEDI : Int := 1
def ORDERCBLKDICO : Int := 2
def ORDERCBLKSEQU : Int := 4
def ORDERCBLKLEAF : Int := 8

/-- Column block tree node `OrderCblk` — src/libscotch/order.h:108–113.
`leaf` is a node with `cblktab == NULL`; `node` a node whose `cblktab` points to an
array of `sons.length` cells. `cblknbr` is kept as a separate field, as in the code. -/
inductive Cblk where
  | leaf (typeval vnodnbr cblknbr : Int)
  | node (typeval vnodnbr cblknbr : Int) (sons : List Cblk)

namespace Cblk
def typeval : Cblk → Int
  | leaf t _ _ => t
  | node t _ _ _ => t
def vnodnbr : Cblk → Int
  | leaf _ v _ => v
  | node _ v _ _ => v
def cblknbr : Cblk → Int
  | leaf _ _ c => c
  | node _ _ c _ => c
end Cblk

/-- Ordering structure `Order` — src/libscotch/order.h:124–135 (flags and mutex omitted). -/
structure Order where
  baseval : Int
  vnodnbr : Int
  treenbr : Int
  cblknbr : Int
  cblktre : Cblk
  peritab : Arr Int

/-- State of the counters accumulated by `orderCheck2`: (cblknbr, treenbr). -/
abbrev Counters := Int × Int

mutual
/-- `orderCheck2` — src/libscotch/order_check.c:72–125. The result is the error code and
the updated counters. -/
def orderCheck2 : Cblk → Counters → M (Int × Counters)
  | .leaf typeval vnodnbr cblknbr, c =>
    if vnodnbr < 1 then .ok (1, c)
    else if typeval ≠ ORDERCBLKLEAF then .ok (1, c)
    else if cblknbr ≠ 0 then .ok (1, c)
    else .ok (0, c)
  | .node typeval vnodnbr cblknbr sons, (cblkcnt, treecnt) =>
    if vnodnbr < 1 then .ok (1, (cblkcnt, treecnt))
    else if typeval ≠ ORDERCBLKNEDI ∧ typeval ≠ ORDERCBLKDICO ∧ typeval ≠ ORDERCBLKSEQU then
      .ok (1, (cblkcnt, treecnt))
    else if cblknbr ≤ 0 ∨ (typeval = ORDERCBLKNEDI ∧ (cblknbr < 2 ∨ cblknbr > 3)) then
      .ok (1, (cblkcnt, treecnt))
    else do
      match ← orderCheck2Sons sons cblknbr.toNat (cblkcnt + cblknbr - 1, treecnt + cblknbr) 0 with
      | (o, c, vnodsum) =>
        if o ≠ 0 then .ok (1, c)
        else if vnodsum ≠ vnodnbr then .ok (1, c)
        else .ok (0, c)

/-- Loop over the first `cblknbr` cells of `cblktab` — order_check.c:103–107. Reading past
the end of the array is a fault. -/
def orderCheck2Sons : List Cblk → Nat → Counters → Int → M (Int × Counters × Int)
  | _, 0, c, vnodsum => .ok (0, c, vnodsum)
  | [], _ + 1, _, _ => .error .oob
  | son :: sons, n + 1, c, vnodsum => do
    match ← orderCheck2 son c with
    | (o, c) =>
      if o ≠ 0 then .ok (1, c, vnodsum + son.vnodnbr)
      else orderCheck2Sons sons n c (vnodsum + son.vnodnbr)
end

/-- `orderCheck` — src/libscotch/order_check.c:127–193. `junk` is the initial content of the
allocated array (overwritten by `memSet`, which is modelled by `Arr.const`). Allocation is
assumed to succeed. -/
def orderCheck (o : Order) : M Int := do
  if o.vnodnbr ≠ o.cblktre.vnodnbr then return 1
  if o.cblknbr < 0 ∨ o.cblknbr > o.treenbr then return 1
  let permtax : Arr Int := Arr.const o.baseval (o.baseval + o.vnodnbr) (-1)
  let vertnnd := o.baseval + o.vnodnbr
  let r ← forUpB 0 o.vnodnbr permtax fun vertnum permtax => do
    let p ← o.peritab.rd vertnum
    if p < o.baseval ∨ p ≥ vertnnd then return .brk 1
    let q ← permtax.rd p
    if q ≠ -1 then return .brk 1
    let permtax ← permtax.wr p vertnum
    return .next permtax
  match r with
  | .brk e => return e
  | .next permtax =>
    let r ← forUpB 0 o.vnodnbr () fun vertnum _ => do
      let q ← permtax.rd (vertnum + o.baseval)
      if q = -1 then return .brk 1
      return .next ()
    match r with
    | .brk e => return e
    | .next _ =>
      match ← orderCheck2 o.cblktre (1, 1) with
      | (e, cblknbr, treenbr) =>
        if e ≠ 0 then return 1
        if cblknbr ≠ o.cblknbr then return 1
        if treenbr ≠ o.treenbr then return 1
        return 0

/-- State of `orderRang2`: range array, current position in it (`*rangppt`), current
ordering number (`*ordeppt`). -/
structure RangState where
  rangtab : Arr Int
  rangidx : Int
  ordenum : Int

mutual
/-- `orderRang2` — src/libscotch/order.c:193–223. -/
def orderRang2 : Cblk → RangState → M RangState
  | .leaf _ vnodnbr _, s => do
    let rangtab ← s.rangtab.wr s.rangidx s.ordenum
    return { rangtab := rangtab, rangidx := s.rangidx + 1, ordenum := s.ordenum + vnodnbr }
  | .node _ _ cblknbr sons, s => orderRang2Sons sons cblknbr.toNat s

/-- Loop of order.c:216–217. -/
def orderRang2Sons : List Cblk → Nat → RangState → M RangState
  | _, 0, s => .ok s
  | [], _ + 1, _ => .error .oob
  | son :: sons, n + 1, s => do
    let s ← orderRang2 son s
    orderRang2Sons sons n s
end

/-- `orderRang` — src/libscotch/order.c:179–191. -/
def orderRang (o : Order) (rangtab : Arr Int) : M (Arr Int) := do
  let s ← orderRang2 o.cblktre { rangtab := rangtab, rangidx := 0, ordenum := o.baseval }
  s.rangtab.wr s.rangidx s.ordenum

/-- State of `orderTree2`: based father array and current (descending) block number. -/
structure TreeState where
  treetax : Arr Int
  cblanum : Int

mutual
/-- `orderTree2` — src/libscotch/order.c:247–313. -/
def orderTree2 : Cblk → TreeState → Int → M TreeState
  | .leaf _ _ _, s, cbfanum => do
    let treetax ← s.treetax.wr s.cblanum cbfanum
    return { treetax := treetax, cblanum := s.cblanum - 1 }
  | .node typeval _ cblknbr sons, s, cbfanum =>
    if sons.length < cblknbr.toNat then .error .oob
    else if typeval = ORDERCBLKNEDI then
      if cblknbr - 1 = 2 then do
        let cblanum := s.cblanum
        let s ← orderTree2Nth sons 2 s cbfanum
        orderTree2Par sons 2 s cblanum
      else orderTree2Par sons cblknbr.toNat s cbfanum
    else if typeval = ORDERCBLKDICO then orderTree2Par sons cblknbr.toNat s cbfanum
    else if typeval = ORDERCBLKSEQU then do
      let r ← orderTree2Seq sons cblknbr.toNat s cbfanum
      return r.1
    else .ok s

/-- Call on sub-block `cblktab[k]` — order.c:281. -/
def orderTree2Nth : List Cblk → Nat → TreeState → Int → M TreeState
  | [], _, _, _ => .error .oob
  | son :: _, 0, s, cbfanum => orderTree2 son s cbfanum
  | _ :: sons, k + 1, s, cbfanum => orderTree2Nth sons k s cbfanum

/-- Loop `for ( ; cblknum >= 0; cblknum --)` of order.c:287–293 on the first `n` sub-blocks:
sub-blocks are visited from last to first. -/
def orderTree2Par : List Cblk → Nat → TreeState → Int → M TreeState
  | _, 0, s, _ => .ok s
  | [], _ + 1, s, _ => .ok s
  | son :: sons, n + 1, s, cbfanum => do
    let s ← orderTree2Par sons n s cbfanum
    orderTree2 son s cbfanum

/-- Loop of order.c:296–304 (sequential nodes), from last to first sub-block. The father to be
used for the next visited block is returned along with the state. -/
def orderTree2Seq : List Cblk → Nat → TreeState → Int → M (TreeState × Int)
  | _, 0, s, cbfanum => .ok (s, cbfanum)
  | [], _ + 1, s, cbfanum => .ok (s, cbfanum)
  | son :: sons, n + 1, s, cbfanum => do
    let (s, cbfanum) ← orderTree2Seq sons n s cbfanum
    let cblanum := s.cblanum
    let s ← orderTree2 son s cbfanum
    return (s, cblanum)
end

/-- `orderTree` — src/libscotch/order.c:231–245. `treetax` is the array pointer shifted by
`baseval`. -/
def orderTree (o : Order) (treetax : Arr Int) : M (Arr Int) := do
  let s ← orderTree2 o.cblktre { treetax := treetax, cblanum := o.cblknbr + o.baseval - 1 } (-1)
  return s.treetax

end Scotch
