import Verif.Graph.Access
import Verif.Bipart.ModelGp

/-!
# Separation graphs: model

Functions of src/libscotch/vgraph.c, vgraph_check.c, vgraph_store.c, vgraph_separate_zr.c, vgraph_separate_th.c and
vgraph_separate_gp.c.
-/

set_option autoImplicit false

namespace Scotch.Separ
open Bipart (copyN)

/-- `Vgraph` — src/libscotch/vgraph.h:74–85, without the level number and the execution context. -/
structure Vgraph where
  s : Graph
  parttax : Arr Int
  frontab : Arr Int
  fronnbr : Int
  compsize0 : Int
  compsize1 : Int
  compload0 : Int
  compload1 : Int
  compload2 : Int
  comploaddlt : Int
  dwgt0 : Int
  dwgt1 : Int

/-- Increment of `tab[k]`, for a local array of three cells. -/
def bump (t : Int × Int × Int) (k x : Int) : M (Int × Int × Int) :=
  if k = 0 then return (t.1 + x, t.2.1, t.2.2)
  else if k = 1 then return (t.1, t.2.1 + x, t.2.2)
  else if k = 2 then return (t.1, t.2.1, t.2.2 + x)
  else throw .oob

/-- `vgraphZero` — vgraph.c:98–111. -/
def zero (b : Vgraph) : M Vgraph := do
  let parttax ← forUp b.s.baseval (b.s.baseval + b.s.vertnbr) b.parttax fun v a => a.wr v 0
  return { b with
    parttax := parttax, fronnbr := 0, compsize0 := b.s.vertnbr, compsize1 := 0, compload0 := b.s.velosum,
    compload1 := 0, compload2 := 0, comploaddlt := b.s.velosum * b.dwgt1 }

/-- `vgraphSeparateZr` — vgraph_separate_zr.c:75–83. -/
def separateZr (b : Vgraph) : M Vgraph := do
  if b.compsize0 ≠ b.s.vertnbr then zero b else return b

/-- Number of neighbours of a vertex in each part — vgraph_separate_th.c:93–97. -/
def countArcs (b : Vgraph) (v : Int) : M (Int × Int × Int) :=
  b.s.forArcs v (0, 0, 0) fun _ w c => do bump c (← b.parttax.rd w) 1

/-- Part array — vgraph_check.c:89–94. -/
def checkParts (b : Vgraph) : M (Loop Unit Unit) :=
  forUpB b.s.baseval b.s.vertnnd () fun v _ => do
    if (← b.parttax.rd v) > 2 then return .brk () else return .next ()

/-- Frontier array — vgraph_check.c:101–113. -/
def checkFron (b : Vgraph) : M (Loop Unit Unit) :=
  forUpB 0 b.fronnbr () fun f _ => do
    let v ← b.frontab.rd f
    if v < b.s.baseval ∨ v ≥ b.s.vertnnd then return .brk ()
    else do
      if (← b.parttax.rd v) ≠ 2 then return .brk () else return .next ()

/-- Neighbours of a vertex in each part, with a test of their numbers — vgraph_check.c:138–148. -/
def checkArcs (b : Vgraph) (v : Int) : M (Loop (Int × Int × Int) Unit) := do
  let lo ← b.s.verttax.rd v
  let hi ← b.s.rdVend v
  forUpB lo hi (0, 0, 0) fun e c => do
    let w ← b.s.edgetax.rd e
    if w < b.s.baseval ∨ w ≥ b.s.vertnnd then return .brk ()
    else return .next (← bump c (← b.parttax.rd w) 1)

/-- Loads and numbers of vertices of the three parts. -/
structure Sums where
  load : Int × Int × Int
  size : Int × Int × Int

/-- `commcut[1 - partnum] != 0`, for a vertex that is not in the separator. -/
def touches (c : Int × Int × Int) (partnum : Int) : Prop :=
  if partnum = 0 then c.2.1 ≠ 0 else if partnum = 1 then c.1 ≠ 0 else False

instance (c : Int × Int × Int) (k : Int) : Decidable (touches c k) := by unfold touches; infer_instance

/-- Body of the loop on vertices — vgraph_check.c:121–167. -/
def checkVertex (b : Vgraph) (v : Int) (s : Sums) : M (Loop Sums Unit) := do
  let partnum ← b.parttax.rd v
  let load ← bump s.load partnum (← b.s.rdVelo v)
  let size ← bump s.size partnum 1
  let lo ← b.s.verttax.rd v
  let hi ← b.s.rdVend v
  if lo < b.s.baseval ∨ lo > hi then return .brk ()
  else do
    match ← checkArcs b v with
    | .brk _ => return .brk ()
    | .next c => if touches c partnum then return .brk () else return .next ⟨load, size⟩

/-- Comparison of recorded values — vgraph_check.c:169–186. -/
def checkSums (b : Vgraph) (s : Sums) : Bool :=
  decide (b.compsize0 = s.size.1 ∧ b.compsize1 = s.size.2.1 ∧ b.fronnbr = s.size.2.2 ∧ b.compload0 = s.load.1 ∧
    b.compload1 = s.load.2.1 ∧ b.compload2 = s.load.2.2 ∧ b.comploaddlt = b.compload0 * b.dwgt1 - b.compload1 * b.dwgt0)

/-- `vgraphCheck` — vgraph_check.c:79–187: `true` stands for the value 0. -/
def check (b : Vgraph) : M Bool := do
  match ← checkParts b with
  | .brk _ => return false
  | .next _ =>
    if b.fronnbr < 0 ∨ b.fronnbr > b.s.vertnbr then return false
    else do
      match ← checkFron b with
      | .brk _ => return false
      | .next _ => do
        match ← forUpB b.s.baseval b.s.vertnnd ⟨(0, 0, 0), (0, 0, 0)⟩ (checkVertex b) with
        | .brk _ => return false
        | .next s => return checkSums b s

/-- `VgraphStore` — vgraph.h:89–95. The data area, which holds the frontier followed by the parts, is modelled by two
arrays: both are copied at the same offsets by the two routines below. -/
structure Store where
  fronnbr : Int
  comploaddlt : Int
  compload0 : Int
  compload1 : Int
  compsize0 : Int
  frontab : Arr Int
  parttab : Arr Int

/-- `vgraphStoreInit` — vgraph_store.c:75–90. -/
def storeInit (b : Vgraph) (junkFron junkPart : Int → Int) (st : Store) : Store :=
  { st with frontab := ⟨0, b.s.vertnbr, junkFron⟩, parttab := ⟨0, b.s.vertnbr, junkPart⟩ }

/-- `vgraphStoreSave` — vgraph_store.c:113–132. -/
def storeSave (b : Vgraph) (st : Store) : M Store := do
  let frontab ← copyN st.frontab b.frontab 0 0 b.fronnbr
  let parttab ← copyN st.parttab b.parttax 0 b.s.baseval b.s.vertnbr
  return {
    fronnbr := b.fronnbr, comploaddlt := b.comploaddlt, compload0 := b.compload0, compload1 := b.compload1,
    compsize0 := b.compsize0, frontab := frontab, parttab := parttab }

/-- `vgraphStoreUpdt` — vgraph_store.c:140–166. -/
def storeUpdt (b : Vgraph) (st : Store) : M Vgraph := do
  let frontab ← copyN b.frontab st.frontab 0 0 st.fronnbr
  let parttax ← copyN b.parttax st.parttab b.s.baseval 0 b.s.vertnbr
  return { b with
    compload0 := st.compload0, compload1 := st.compload1, compload2 := b.s.velosum - (st.compload0 + st.compload1),
    comploaddlt := st.comploaddlt, compsize0 := st.compsize0, compsize1 := b.s.vertnbr - (st.compsize0 + st.fronnbr),
    fronnbr := st.fronnbr, frontab := frontab, parttax := parttax }

/-- State of the thinning of a separator. -/
structure Thin where
  b : Vgraph
  fronnbr : Int
  fronnum : Int

/-- `frontab[fronnum] = frontab[-- fronnbr]`. -/
def thinDrop (s : Thin) : M Thin := do
  let x ← s.b.frontab.rd (s.fronnbr - 1)
  let frontab ← s.b.frontab.wr s.fronnum x
  return { s with b := { s.b with frontab := frontab }, fronnbr := s.fronnbr - 1 }

/-- One turn of the loop on separator vertices — vgraph_separate_th.c:88–113. -/
def thinStep (s : Thin) : M (Loop Thin Thin) := do
  if ¬ s.fronnum < s.fronnbr then return .brk s
  else do
    let v ← s.b.frontab.rd s.fronnum
    let c ← countArcs s.b v
    if c.1 = 0 then do
      let parttax ← s.b.parttax.wr v 1
      let veloval ← s.b.s.rdVelo v
      let s ← thinDrop { s with b := { s.b with
        parttax := parttax, compload1 := s.b.compload1 + veloval, compsize1 := s.b.compsize1 + 1 } }
      return .next s
    else if c.2.1 = 0 then do
      let parttax ← s.b.parttax.wr v 0
      let veloval ← s.b.s.rdVelo v
      let s ← thinDrop { s with b := { s.b with
        parttax := parttax, compload0 := s.b.compload0 + veloval, compsize0 := s.b.compsize0 + 1 } }
      return .next s
    else return .next { s with fronnum := s.fronnum + 1 }

/-- `vgraphSeparateTh` — vgraph_separate_th.c:73–119. -/
def separateTh (b : Vgraph) : M Vgraph := do
  let s ← loopM thinStep (2 * b.fronnbr.toNat + 1) ⟨b, b.fronnbr, 0⟩
  return { s.b with
    fronnbr := s.fronnbr, compload2 := b.s.velosum - (s.b.compload0 + s.b.compload1),
    comploaddlt := s.b.compload0 * b.dwgt1 - s.b.compload1 * b.dwgt0 }

/-- Quotient of integers, as C computes it. -/
def cdiv (a b : Int) : M Int := if b = 0 then throw .divZero else return Int.tdiv a b

/-- Sizes of parts and frontier array, from the part array — vgraph_separate_gp.c:214–228, vgraph_separate_gg.c:284–298.
The result is the frontier array, its number of vertices, and the numbers of vertices of parts 1 and 2. -/
def rebuild (b : Vgraph) (part : Arr Int) : M (Arr Int × Int × Int × Int) :=
  forUp b.s.baseval b.s.vertnnd (b.frontab, 0, 0, 0) fun v s => do
    let partval ← part.rd v
    let compsize1 := s.2.2.1 + (if partval % 2 = 0 then 0 else 1)
    let compsize2 := s.2.2.2 + partval / 2
    if partval = 2 then return (← s.1.wr s.2.1 v, s.2.1 + 1, compsize1, compsize2) else return (s.1, s.2.1, compsize1, compsize2)

/-- End of the methods that grow part 1 — vgraph_separate_gp.c:207–228, vgraph_separate_gg.c:282–298. -/
def finish (b : Vgraph) (part : Arr Int) (comploaddlt compload2 : Int) : M Vgraph := do
  let compload0 ← cdiv (comploaddlt + (b.s.velosum - compload2) * b.dwgt0) (b.dwgt0 + b.dwgt1)
  let (frontab, _, compsize1, compsize2) ← rebuild b part
  return { b with
    parttax := part, frontab := frontab, fronnbr := compsize2, compsize0 := b.s.vertnbr - compsize1 - compsize2,
    compsize1 := compsize1, compload0 := compload0, compload1 := b.s.velosum - compload2 - compload0,
    compload2 := compload2, comploaddlt := comploaddlt }

end Scotch.Separ
