import Verif.Graph.Access

/-!
# Bipartition graphs: model

Functions of src/libscotch/bgraph.c, bgraph_check.c, bgraph_cost.c, bgraph_store.c, bgraph_bipart_zr.c and
bgraph_bipart_ml.c.
-/

set_option autoImplicit false

namespace Scotch.Bipart

/-- `Bgraph` — src/libscotch/bgraph.h:91–113. The imbalance ratio `bbalval`, a floating-point value that is never
read by the routines modelled here, is left out, as well as the level number and the execution context. -/
structure Bgraph where
  s : Graph
  veextax : Option (Arr Int)
  parttax : Arr Int
  frontab : Arr Int
  fronnbr : Int
  compload0min : Int
  compload0max : Int
  compload0avg : Int
  compload0dlt : Int
  compload0 : Int
  compsize0 : Int
  commload : Int
  commloadextn0 : Int
  commgainextn0 : Int
  commgainextn : Int
  domndist : Int
  domnwght0 : Int
  domnwght1 : Int
  vfixload0 : Int
  vfixload1 : Int

/-- `a ^ b`, for part values. -/
def xorP (a b : Int) : Int := ((a.toNat ^^^ b.toNat : Nat) : Int)

/-- `a | b`, for part values. -/
def orP (a b : Int) : Int := ((a.toNat ||| b.toNat : Nat) : Int)

/-- `x & (- p)`, for a part value `p` that is 0 or 1. -/
def maskP (x p : Int) : Int := if p = 0 then 0 else x

/-- `memSet (grafptr->parttax + grafptr->s.baseval, 0, ...)`. -/
def zeroParts (b : Bgraph) : M (Arr Int) :=
  forUp b.s.baseval (b.s.baseval + b.s.vertnbr) b.parttax fun v a => a.wr v 0

/-- `(veextax == NULL) ? 0 : veextax[v]`. -/
def rdVeex (veextax : Option (Arr Int)) (v : Int) : M Int := match veextax with | none => return 0 | some a => a.rd v

/-- `bgraphInit2` — bgraph.c:147–177. The average load is computed in floating point: `avgOf sum w0 w1` stands for
`(Gnum) (((double) sum * (double) w0) / (double) (w0 + w1))`, and is arbitrary. -/
def init2 (avgOf : Int → Int → Int → Int) (b : Bgraph) (domndist domnwght0 domnwght1 vfixload0 vfixload1 : Int) : M Bgraph := do
  let avg := avgOf (b.s.velosum + vfixload0 + vfixload1) domnwght0 domnwght1 - vfixload0
  let parttax ← zeroParts b
  return { b with
    fronnbr := 0, compload0min := 0, compload0max := b.s.velosum, compload0avg := avg,
    compload0dlt := b.s.velosum - avg, compload0 := b.s.velosum, compsize0 := b.s.vertnbr, commload := 0,
    commloadextn0 := 0, commgainextn := 0, commgainextn0 := 0, domndist := domndist, domnwght0 := domnwght0,
    domnwght1 := domnwght1, vfixload0 := vfixload0, vfixload1 := vfixload1, parttax := parttax }

/-- `bgraphInit` — bgraph.c:98–139. The arrays that are allocated have arbitrary content. -/
def init (avgOf : Int → Int → Int → Int) (junkPart junkFron : Int → Int) (b : Bgraph) (srcgraf : Graph)
    (domndist domnwght0 domnwght1 vfixload0 vfixload1 : Int) : M Bgraph :=
  init2 avgOf { b with
    s := { srcgraf with vlbltax := none }, veextax := none,
    parttax := ⟨srcgraf.baseval, srcgraf.baseval + srcgraf.vertnbr, junkPart⟩,
    frontab := ⟨0, srcgraf.vertnbr, junkFron⟩ } domndist domnwght0 domnwght1 vfixload0 vfixload1

/-- `bgraphSwal` — bgraph.c:213–231. -/
def swal (b : Bgraph) : M Bgraph := do
  let parttax ← forUp b.s.baseval b.s.vertnnd b.parttax fun v a => do a.wr v (xorP (← a.rd v) 1)
  let comploadsum := b.s.velosum + b.vfixload0 + b.vfixload1
  return { b with
    parttax := parttax, compload0 := comploadsum - b.compload0,
    compload0dlt := comploadsum - b.compload0dlt - 2 * b.compload0avg, compsize0 := b.s.vertnbr - b.compsize0,
    commload := b.commload + b.commgainextn, commgainextn := - b.commgainextn }

/-- `bgraphZero` — bgraph.c:241–256. -/
def zero (b : Bgraph) : M Bgraph := do
  let compload0 := b.s.velosum + b.vfixload0
  let parttax ← zeroParts b
  return { b with
    fronnbr := 0, compload0dlt := compload0 - b.compload0avg, compload0 := compload0, compsize0 := b.s.vertnbr,
    commload := b.commloadextn0, commgainextn := b.commgainextn0, parttax := parttax }

/-- Results of `bgraphCost2`. -/
structure Cost where
  frontab : Option (Arr Int)
  fronnbr : Int
  cpl1sum : Int
  ver1nbr : Int
  cmlisum : Int
  cmlesum : Int
  cmgesum : Int

/-- Arcs of a vertex — bgraph_cost.c:118–131: twice the cut load, and whether some neighbour is in the other part. -/
def costArcs (g : Graph) (part : Arr Int) (v partval cmlisum : Int) : M (Int × Int) :=
  g.forArcs v (cmlisum, 0) fun e w s => do
    let edloval ← g.rdEdlo e
    let partdlt := xorP partval (← part.rd w)
    return (s.1 + maskP edloval partdlt, orP s.2 partdlt)

/-- Addition of a vertex to the frontier array — bgraph_cost.c:133–134. -/
def costFron (fron : Option (Arr Int)) (fronnbr v fronval : Int) : M (Option (Arr Int) × Int) :=
  match fron with
  | none => return (none, fronnbr)
  | some a => do
    if fronval ≠ 0 then return (some (← a.wr fronnbr v), fronnbr + 1) else return (some a, fronnbr)

/-- Body of the loop on vertices — bgraph_cost.c:96–135. -/
def costVertex (b : Bgraph) (part : Arr Int) (v : Int) (c : Cost) : M Cost := do
  let partval ← part.rd v
  let veloval ← b.s.rdVelo v
  let veexval ← rdVeex b.veextax v
  let (cmlisum, fronval) ← costArcs b.s part v partval c.cmlisum
  let (frontab, fronnbr) ← costFron c.frontab c.fronnbr v fronval
  return {
    frontab := frontab, fronnbr := fronnbr, cpl1sum := c.cpl1sum + maskP veloval partval,
    ver1nbr := c.ver1nbr + partval, cmlisum := cmlisum, cmlesum := c.cmlesum + maskP veexval partval,
    cmgesum := c.cmgesum + veexval * (1 - 2 * partval) }

/-- `bgraphCost2` — bgraph_cost.c:69–145. -/
def cost2 (b : Bgraph) (part : Arr Int) (fron : Option (Arr Int)) : M Cost := do
  let c ← forUp b.s.baseval b.s.vertnnd (⟨fron, 0, 0, 0, 0, b.commloadextn0, 0⟩ : Cost) (costVertex b part)
  return { c with cmlisum := Int.tdiv c.cmlisum 2 }

/-- `bgraphCost` — bgraph_cost.c:153–176. -/
def cost (b : Bgraph) : M Bgraph := do
  let c ← cost2 b b.parttax (some b.frontab)
  return { b with
    frontab := c.frontab.getD b.frontab, fronnbr := c.fronnbr, compload0 := b.s.velosum - c.cpl1sum,
    compload0dlt := b.s.velosum - c.cpl1sum - b.compload0avg, compsize0 := b.s.vertnbr - c.ver1nbr,
    commload := c.cmlisum * b.domndist + c.cmlesum, commgainextn := c.cmgesum }

/-- Whether some neighbour of a vertex is in the other part — bgraph_check.c:140–142, 160–162. -/
def checkFlag (b : Bgraph) (v partval : Int) : M Int :=
  b.s.forArcs v 0 fun _ w flagval => do return orP flagval (xorP (← b.parttax.rd w) partval)

/-- Loop on the frontier array — bgraph_check.c:121–149; `none` is the error exit. -/
def checkFron (b : Bgraph) : M (Loop (Arr Int) Unit) :=
  forUpB 0 b.fronnbr (Arr.const b.s.baseval (b.s.baseval + b.s.vertnbr) (-1)) fun f flagtax => do
    let v ← b.frontab.rd f
    if v < b.s.baseval ∨ v ≥ b.s.vertnnd then return .brk ()
    else do
      if (← flagtax.rd v) ≠ -1 then return .brk ()
      else do
        let flagtax ← flagtax.wr v 0
        let flagval ← checkFlag b v (← b.parttax.rd v)
        if flagval = 0 then return .brk () else return .next flagtax

/-- Loop on the vertices — bgraph_check.c:151–168. -/
def checkMissing (b : Bgraph) (flagtax : Arr Int) : M (Loop Unit Unit) :=
  forUpB b.s.baseval b.s.vertnnd () fun v _ => do
    let flagval ← checkFlag b v (← b.parttax.rd v)
    let f ← flagtax.rd v
    if flagval ≠ 0 ∧ f ≠ 0 then return .brk () else return .next ()

/-- Loop on parts — bgraph_check.c:101–106. -/
def checkParts (b : Bgraph) : M (Loop Unit Unit) :=
  forUpB b.s.baseval b.s.vertnnd () fun v _ => do
    if orP (← b.parttax.rd v) 1 ≠ 1 then return .brk () else return .next ()

/-- Comparison with recomputed values — bgraph_check.c:170–191. -/
def checkCost (b : Bgraph) : M Bool := do
  let c ← cost2 b b.parttax none
  return decide (b.s.vertnbr - c.ver1nbr = b.compsize0 ∧ b.s.velosum - c.cpl1sum = b.compload0 ∧
    c.cmlisum * b.domndist + c.cmlesum = b.commload ∧ c.cmgesum = b.commgainextn)

/-- `bgraphCheck` — bgraph_check.c:76–201: `true` stands for the value 0. -/
def check (avgOf : Int → Int → Int → Int) (b : Bgraph) : M Bool := do
  if b.compload0avg ≠ avgOf (b.s.velosum + b.vfixload0 + b.vfixload1) b.domnwght0 b.domnwght1 - b.vfixload0 then return false
  else if b.compload0 ≠ b.compload0avg + b.compload0dlt then return false
  else do
    match ← checkParts b with
    | .brk _ => return false
    | .next _ =>
      if b.fronnbr < 0 ∨ b.fronnbr > b.s.vertnbr then return false
      else do
        match ← checkFron b with
        | .brk _ => return false
        | .next flagtax => do
          match ← checkMissing b flagtax with
          | .brk _ => return false
          | .next _ => checkCost b

/-- `BgraphStore` — bgraph.h. The data area, which holds the frontier followed by the parts, is modelled by two
arrays: both are copied at the same offsets by the two routines below. -/
structure Store where
  fronnbr : Int
  compload0dlt : Int
  compsize0 : Int
  commload : Int
  commgainextn : Int
  frontab : Arr Int
  parttab : Arr Int

/-- `memCpy (dst, src, n * sizeof (...))`, with offsets. -/
def copyN (dst src : Arr Int) (do_ so n : Int) : M (Arr Int) :=
  forUp 0 n dst fun i a => do a.wr (do_ + i) (← src.rd (so + i))

/-- `bgraphStoreInit` — bgraph_store.c:75–90. -/
def storeInit (b : Bgraph) (junkFron junkPart : Int → Int) (st : Store) : Store :=
  { st with frontab := ⟨0, b.s.vertnnd - b.s.baseval, junkFron⟩, parttab := ⟨0, b.s.vertnnd - b.s.baseval, junkPart⟩ }

/-- `bgraphStoreSave` — bgraph_store.c:114–135. -/
def storeSave (b : Bgraph) (st : Store) : M Store := do
  let frontab ← copyN st.frontab b.frontab 0 0 b.fronnbr
  let parttab ← copyN st.parttab b.parttax 0 b.s.baseval (b.s.vertnnd - b.s.baseval)
  return {
    fronnbr := b.fronnbr, compload0dlt := b.compload0dlt, compsize0 := b.compsize0, commload := b.commload,
    commgainextn := b.commgainextn, frontab := frontab, parttab := parttab }

/-- `bgraphStoreUpdt` — bgraph_store.c:143–171. -/
def storeUpdt (b : Bgraph) (st : Store) : M Bgraph := do
  let frontab ← copyN b.frontab st.frontab 0 0 st.fronnbr
  let parttax ← copyN b.parttax st.parttab b.s.baseval 0 (b.s.vertnnd - b.s.baseval)
  return { b with
    fronnbr := st.fronnbr, compload0 := st.compload0dlt + b.compload0avg, compload0dlt := st.compload0dlt,
    compsize0 := st.compsize0, commload := st.commload, commgainextn := st.commgainextn, frontab := frontab,
    parttax := parttax }

/-- `bgraphBipartZr` — bgraph_bipart_zr.c:79–94. -/
def bipartZr (b : Bgraph) : M Bgraph := if b.compload0 ≠ b.s.velosum then zero b else return b

end Scotch.Bipart
