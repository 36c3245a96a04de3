import Verif.Order.Model
import Verif.TextIO.Pairs

/-!
# Input and output of orderings: model of order_io.c

Streams do not fail on output. `numMax` is the largest `Gnum`.
-/

set_option autoImplicit false

namespace Scotch
open Text

/-- Body of the loop of `orderLoad` — order_io.c:103–117. -/
def orderLoadLine (numMax baseval : Int) (v : Int) (st : Arr Int × Stream) : M (Option (Arr Int × Stream)) :=
  getInt numMax st.2 >?> fun a => getInt numMax a.2 >?> fun b => do
    let permtab ← st.1.wr v b.1
    guardO (a.1 = v + baseval) >?> fun _ => return some (permtab, b.2)

/-- `orderLoad` — order_io.c:78–124. `labels` tells that the graph has vertex labels. The size of the permutation array is the number of vertices before it is read. In case of error, the contents of the ordering
are not described. -/
def orderLoad (numMax : Int) (o : Order) (labels : Bool) (junk : Int → Int) (s : Stream) : M (Option (Order × Stream)) :=
  guardO (labels = false) >?> fun _ => getInt numMax s >?> fun n =>
    loopO 0 n.1 (⟨0, o.vnodnbr, junk⟩, n.2) (orderLoadLine numMax o.baseval) >?> fun st => do
      let peritab ← orderPeri st.1 o.baseval n.1 o.peritab o.baseval
      return some ({ o with vnodnbr := n.1, peritab := peritab }, st.2)

/-- Label of a vertex, if there are labels. -/
def rdLabel (vlbltax : Option (Arr Int)) (v : Int) : M Int :=
  match vlbltax with
  | none => return v
  | some a => a.rd v

/-- Body of the loops of `orderSave` — order_io.c:156–164, 167–175. -/
def orderSaveLine (o : Order) (vlbltax : Option (Arr Int)) (permtab : Arr Int) (v : Int) (out : Stream) : M Stream := do
  let a ← rdLabel vlbltax (v + o.baseval)
  let p ← permtab.rd v
  let b ← rdLabel vlbltax p
  return out ++ pairLine a b

/-- `orderSave` — order_io.c:133–180. -/
def orderSave (o : Order) (vlbltax : Option (Arr Int)) (junk : Int → Int) : M Stream := do
  let permtab ← orderPeri o.peritab o.baseval o.vnodnbr ⟨0, o.vnodnbr, junk⟩ o.baseval
  forUp 0 o.vnodnbr (printInt o.vnodnbr ++ [10]) (orderSaveLine o vlbltax permtab)

/-- State of the loop on ordering positions — order_io.c:219–224, 280–285. -/
structure BlockSt where
  cblktax : Arr Int
  cblknum : Int

/-- Next block, if the position is beyond the current one — order_io.c:221–222. -/
def nextBlock (rangtab : Arr Int) (v cblknum : Int) : M Int := do
  let r ← rangtab.rd (cblknum + 1)
  return if v ≥ r then cblknum + 1 else cblknum

/-- Body of this loop; `value` gives what is recorded for a block. -/
def blockBody (o : Order) (rangtab : Arr Int) (value : Int → M Int) (v : Int) (st : BlockSt) : M BlockSt := do
  let cblknum ← nextBlock rangtab v st.cblknum
  let p ← o.peritab.rd (v - o.baseval)
  let x ← value cblknum
  let cblktax ← st.cblktax.wr p x
  return ⟨cblktax, cblknum⟩

/-- Body of the output loop — order_io.c:226–234, 287–295. -/
def blockLine (vlbltax : Option (Arr Int)) (cblktax : Arr Int) (v : Int) (out : Stream) : M Stream := do
  let a ← rdLabel vlbltax v
  let b ← cblktax.rd v
  return out ++ pairLine a b

/-- Contents of memory when it is allocated. -/
structure OrderJunk where
  rang : Int → Int
  tree : Int → Int
  cblk : Int → Int

/-- `orderSaveMap` — order_io.c:190–238. -/
def orderSaveMap (o : Order) (vlbltax : Option (Arr Int)) (J : OrderJunk) : M Stream := do
  let rangtab ← orderRang o ⟨0, o.vnodnbr + 1, J.rang⟩
  let nnd := o.baseval + o.vnodnbr
  let st ← forUp o.baseval nnd ⟨⟨o.baseval, nnd, J.cblk⟩, 0⟩ (blockBody o rangtab (fun k => return k))
  forUp o.baseval nnd (printInt o.vnodnbr ++ [10]) (blockLine vlbltax st.cblktax)

/-- `orderSaveTree` — order_io.c:248–299. Array `treetab` starts at index `baseval` for `orderTree`. -/
def orderSaveTree (o : Order) (vlbltax : Option (Arr Int)) (J : OrderJunk) : M Stream := do
  let rangtab ← orderRang o ⟨0, o.vnodnbr + 1, J.rang⟩
  let treetax ← orderTree o ⟨o.baseval, o.baseval + o.vnodnbr, J.tree⟩
  let nnd := o.baseval + o.vnodnbr
  let st ← forUp o.baseval nnd ⟨⟨o.baseval, nnd, J.cblk⟩, 0⟩ (blockBody o rangtab (fun k => treetax.rd (k + o.baseval)))
  forUp o.baseval nnd (printInt o.vnodnbr ++ [10]) (blockLine vlbltax st.cblktax)

end Scotch
