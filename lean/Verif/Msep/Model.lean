import Verif.Mesh.Spec
import Verif.Separ.Spec

/-!
# Separation of meshes: model

src/libscotch/vmesh.c, vmesh_separate_gr.c, vmesh_separate_zr.c, vmesh_check.c. Elements and nodes are both numbered from the base value of the mesh on, and share the part array.
-/

set_option autoImplicit false

namespace Scotch.Msep
open Separ (Vgraph bump)

/-- `Vmesh` — vmesh.h:59–71. -/
structure Vmesh where
  m : Mesh
  parttax : Arr Int
  frontab : Arr Int
  fronnbr : Int
  ecmpsize0 : Int
  ecmpsize1 : Int
  ncmpsize0 : Int
  ncmpsize1 : Int
  ncmpload0 : Int
  ncmpload1 : Int
  ncmpload2 : Int
  ncmploaddlt : Int

/-- `vmeshZero` — vmesh.c:93–108. -/
def zero (b : Vmesh) : M Vmesh := do
  let part ← forUp b.m.baseval (b.m.baseval + (b.m.velmnbr + b.m.vnodnbr)) b.parttax fun v a => a.wr v 0
  return { b with
    parttax := part, ecmpsize0 := b.m.velmnbr, ecmpsize1 := 0, ncmpload0 := b.m.vnlosum, ncmpload1 := 0, ncmpload2 := 0, ncmploaddlt := b.m.vnlosum, ncmpsize0 := b.m.vnodnbr, ncmpsize1 := 0, fronnbr := 0 }

/-- `vmeshSeparateZr` — vmesh_separate_zr.c:73–81. -/
def separateZr (b : Vmesh) : M Vmesh := do
  if b.ncmpload0 ≠ b.m.vnlosum then zero b else return b

/-- Part of an element: the one of the first of its nodes that does not belong to the separator — vmesh_separate_gr.c:132–142. -/
def elemPart (m : Mesh) (part : Arr Int) (e : Int) : M Int := do
  let lo ← m.verttax.rd e
  let hi ← m.rdVend e
  match ← forUpB lo hi (0 : Int) (fun i _ => do
    let p ← part.rd (← m.edgetax.rd i)
    if p ≠ 2 then return (.brk p : Loop Int Int) else return .next p) with
  | .next p => return p % 2
  | .brk p => return p % 2

/-- Parts of elements, and number of elements of part 1 — vmesh_separate_gr.c:127–145. -/
def elemParts (m : Mesh) (part : Arr Int) : M (Arr Int × Int) :=
  forUp m.velmbas m.velmnnd (part, 0) fun e s => do
    let p ← elemPart m s.1 e
    return (← s.1.wr e p, s.2 + p)

/-- `for (fronnum = 0; …) frontab[fronnum] += d` — vmesh_separate_gr.c:102–103, 117–118. -/
def addFron (a : Arr Int) (n d : Int) : M (Arr Int) := forUp 0 n a fun i a => do a.wr i ((← a.rd i) + d)

/-- Data of the graph — vmesh_separate_gr.c:90–100. The weights of parts `dwgttab` are not set: they are the ones that memory holds, `w0` and `w1`. -/
def toVgraph (b : Vmesh) (g : Graph) (fron : Arr Int) (w0 w1 : Int) : Vgraph :=
  { s := g, parttax := b.parttax.shift (- (b.m.vnodbas - g.baseval)), frontab := fron, fronnbr := b.fronnbr, compsize0 := b.ncmpsize0, compsize1 := b.ncmpsize1, compload0 := b.ncmpload0, compload1 := b.ncmpload1, compload2 := b.ncmpload2,
    comploaddlt := b.ncmploaddlt, dwgt0 := w0, dwgt1 := w1 }

/-- End of the method — vmesh_separate_gr.c:117–156. -/
def fromVgraph (b : Vmesh) (v : Vgraph) : M (Int × Vmesh) := do
  let fron ← addFron v.frontab v.fronnbr (b.m.vnodbas - v.s.baseval)
  let (part, n) ← elemParts b.m (v.parttax.shift (b.m.vnodbas - v.s.baseval))
  return (0, { b with
    parttax := part, frontab := fron, fronnbr := v.fronnbr, ecmpsize0 := b.m.velmnbr - n, ecmpsize1 := n, ncmpsize0 := v.compsize0, ncmpsize1 := v.compsize1, ncmpload0 := v.compload0, ncmpload1 := v.compload1, ncmpload2 := v.compload2,
    ncmploaddlt := v.comploaddlt })

/-- `vmeshSeparateGr` — vmesh_separate_gr.c:75–157. `sep` is the strategy for graphs, `junk` what `meshGraph` finds in memory. -/
def separateGr (numMax : Int) (junk : Mesh.Junk) (w0 w1 : Int) (sep : Vgraph → M (Int × Vgraph)) (b : Vmesh) : M (Int × Vmesh) := do
  let g ← b.m.toGraph numMax junk
  let fron ← addFron b.frontab b.fronnbr (- (b.m.vnodbas - g.baseval))
  let (o, v) ← sep (toVgraph b g fron w0 w1)
  if o ≠ 0 then return (1, { b with parttax := v.parttax.shift (b.m.vnodbas - g.baseval), frontab := v.frontab })
  else fromVgraph b v

/-- Numbers of neighbours in each part — vmesh_check.c:116–121, 154–159. -/
def cuts (b : Vmesh) (v : Int) : M (Int × Int × Int) := do
  let lo ← b.m.verttax.rd v
  let hi ← b.m.rdVend v
  forUp lo hi (0, 0, 0) fun e c => do bump c (← b.parttax.rd (← b.m.edgetax.rd e)) 1

/-- Is there a neighbour in the other part: `edgecut[1 - partnum] != 0` — vmesh_check.c:123, 173. -/
def other (c : Int × Int × Int) (p : Int) : Prop := if p = 0 then c.2.1 ≠ 0 else c.1 ≠ 0

instance (c : Int × Int × Int) (p : Int) : Decidable (other c p) := by unfold other; infer_instance

/-- Element — vmesh_check.c:98–127: numbers of elements. -/
def checkElem (b : Vmesh) (e : Int) (s : Int × Int) : M (Loop (Int × Int) Unit) := do
  let p ← b.parttax.rd e
  if p < 0 ∨ p > 1 then return .brk ()
  else do
    let s := if p = 0 then (s.1 + 1, s.2) else (s.1, s.2 + 1)
    if p ≠ 0 ∧ (← b.m.verttax.rd e) = (← b.m.rdVend e) then return .brk ()
    else do
      let c ← cuts b e
      if other c p then return .brk () else return .next s

/-- Sums on nodes. -/
structure Sums where
  size : Int × Int × Int
  load : Int × Int × Int

/-- `vnlotax[v]`, or 1 — vmesh_check.c:152. -/
def rdVnlo (m : Mesh) (v : Int) : M Int :=
  match m.vnlotax with
  | none => return 1
  | some a => a.rd v

/-- Node — vmesh_check.c:140–178. -/
def checkNode (b : Vmesh) (v : Int) (s : Sums) : M (Loop Sums Unit) := do
  let p ← b.parttax.rd v
  if p < 0 ∨ p > 2 then return .brk ()
  else do
    let size ← bump s.size p 1
    let load ← bump s.load p (← rdVnlo b.m v)
    let c ← cuts b v
    if p ≠ 2 ∧ other c p then return .brk () else return .next ⟨size, load⟩

/-- Frontier node — vmesh_check.c:202–221. -/
def checkFron (b : Vmesh) (i : Int) (flag : Arr Int) : M (Loop (Arr Int) Unit) := do
  let v ← b.frontab.rd i
  if v < b.m.vnodbas ∨ v ≥ b.m.vnodnnd then return .brk ()
  else do
    if (← b.parttax.rd v) ≠ 2 then return .brk ()
    else do
      if (← flag.rd v) ≠ 0 then return .brk () else return .next (← flag.wr v 1)

/-- `vmeshCheck`, from line 128 on. -/
def checkNodes (b : Vmesh) : M Bool := do
  match ← forUpB b.m.vnodbas b.m.vnodnnd (⟨(0, 0, 0), (0, 0, 0)⟩ : Sums) (checkNode b) with
  | .brk _ => return false
  | .next s =>
    if s.load ≠ (b.ncmpload0, b.ncmpload1, b.ncmpload2) ∨ s.size ≠ (b.ncmpsize0, b.ncmpsize1, b.fronnbr) then return false
    else if b.fronnbr < 0 ∨ b.fronnbr > b.m.vnodnbr then return false
    else
      match ← forUpB 0 b.fronnbr (⟨b.m.vnodbas, b.m.vnodbas + b.m.vnodnbr, fun _ => 0⟩ : Arr Int) (checkFron b) with
      | .brk _ => return false
      | .next _ => return true

/-- `vmeshCheck` — vmesh_check.c:74–229: `true` stands for the value 0. -/
def check (b : Vmesh) : M Bool := do
  if b.ecmpsize0 + b.ecmpsize1 > b.m.velmnbr then return false
  else if b.ncmploaddlt ≠ b.ncmpload0 - b.ncmpload1 then return false
  else
    match ← forUpB b.m.velmbas b.m.velmnnd (0, 0) (checkElem b) with
    | .brk _ => return false
    | .next s => if s ≠ (b.ecmpsize0, b.ecmpsize1) then return false else checkNodes b

/-! ## Specification -/

/-- Part of an element or of a node. -/
def Vmesh.part (b : Vmesh) (v : Int) : Int := b.parttax.get v

/-- Sum on the elements of a part. -/
def elemSum (m : Mesh) (part : Int → Int) (k : Int) (f : Int → Int) : Int := sumI m.velmbas m.velmnnd fun e => if part e = k then f e else 0

/-- Sum on the nodes of a part. -/
def nodeSum (m : Mesh) (part : Int → Int) (k : Int) (f : Int → Int) : Int := sumI m.vnodbas m.vnodnnd fun n => if part n = k then f n else 0

/-- A separation of a mesh: nodes are in part 0, in part 1, or in the separator, which is part 2; elements are in part 0 or 1, and have no node in the other part. The values that are recorded are the ones of the part array. -/
structure Valid (b : Vmesh) : Prop where
  node : ∀ n, b.m.Node n → b.part n = 0 ∨ b.part n = 1 ∨ b.part n = 2
  elem : ∀ e, b.m.Elem e → b.part e = 0 ∨ b.part e = 1
  apart : ∀ e n, b.m.Elem e → n ∈ b.m.nbr e → b.part n = 2 ∨ b.part n = b.part e
  /-- elements without nodes -/
  alone : ∀ e, b.m.Elem e → b.m.nbr e = [] → b.part e = 0
  esize0 : b.ecmpsize0 = elemSum b.m b.part 0 (fun _ => 1)
  esize1 : b.ecmpsize1 = elemSum b.m b.part 1 (fun _ => 1)
  nsize0 : b.ncmpsize0 = nodeSum b.m b.part 0 (fun _ => 1)
  nsize1 : b.ncmpsize1 = nodeSum b.m b.part 1 (fun _ => 1)
  nsize2 : b.fronnbr = nodeSum b.m b.part 2 (fun _ => 1)
  load0 : b.ncmpload0 = nodeSum b.m b.part 0 b.m.vnlo
  load1 : b.ncmpload1 = nodeSum b.m b.part 1 b.m.vnlo
  load2 : b.ncmpload2 = nodeSum b.m b.part 2 b.m.vnlo
  delta : b.ncmploaddlt = b.ncmpload0 - b.ncmpload1
  fron : Enum b.frontab b.fronnbr (fun n => b.m.Node n ∧ b.part n = 2)

/-- Memory. -/
structure Alloc (b : Vmesh) : Prop where
  mesh : b.m.Allocated
  part : b.parttax.lo ≤ b.m.baseval ∧ b.m.baseval + b.m.velmnbr + b.m.vnodnbr ≤ b.parttax.hi
  fron : b.frontab.lo ≤ 0 ∧ b.m.vnodnbr ≤ b.frontab.hi

end Scotch.Msep
