import Verif.Kmap.SpecSt
import Verif.Ovl.ModelChk

/-! # Static mapping: consistency check — src/libscotch/kgraph_check.c, mapping_check.c -/

set_option autoImplicit false

namespace Scotch.Kmap
open Ovl (testAll)

variable {D : Type}

/-- Part of a vertex — mapping_check.c:125–131. `minc` is flag `MAPPINGINCOMPLETE`. -/
def mapCheckPart (minc : Bool) (m : Mapping D) (v : Int) : M Bool := do
  let p ← m.parttax.rd v
  return ! decide (p ≥ m.domnnbr ∨ (p < 0 ∧ (p ≠ -1 ∨ minc = false)))

/-- `mapCheck` on a mapping that is allocated — mapping_check.c:70–143: `true` stands for the value 0. -/
def mapCheck (o : ArchOps D) (minc : Bool) (g : Graph) (m : Mapping D) : M Bool := do
  if m.domnmax < 0 ∨ m.domnmax < m.domnnbr then return false
  else if m.domnnbr = 0 then return true
  else do
    if ← testAll g.baseval g.vertnnd (mapCheckPart minc m) then do
      let org ← o.frst
      testAll 0 m.domnnbr fun i => do o.incl org (← m.domntab.rd i)
    else return false

/-- Fixed vertices — kgraph_check.c:133–150. -/
def fixStep (o : ArchOps D) (m : Mapping D) (pfix : Arr Int) (v n : Int) : M (Loop Int Unit) := do
  let p ← m.parttax.rd v
  let t ← pfix.rd v
  if t ≠ -1 then
    if t < 0 then return .brk ()
    else do
      if t ≠ (← o.num (← m.domntab.rd p)) then return .brk () else return .next (n + 1)
  else return .next n

/-- Number of fixed vertices, if they are right — kgraph_check.c:131–151. -/
def fixCount (o : ArchOps D) (g : Graph) (m : Mapping D) (pfix : Option (Arr Int)) : M (Option Int) := do
  match pfix with
  | none => return some 0
  | some a =>
    match ← forUpB g.baseval g.vertnnd (0 : Int) (fixStep o m a) with
    | .next n => return some n
    | .brk _ => return none

/-- Frontier vertex — kgraph_check.c:168–187. `flagval` is not zero if some neighbour has another part. -/
def fronStep (g : Graph) (k : Kgraph D) (i : Int) (flag : Arr Int) : M (Loop (Arr Int) Unit) := do
  let v ← k.frontab.rd i
  if v < g.baseval ∨ v ≥ g.vertnnd then return .brk ()
  else do
    if (← flag.rd v) ≠ -1 then return .brk ()
    else do
      let flag ← flag.wr v 0
      let p ← k.m.parttax.rd v
      let x ← g.forArcs v false fun _ w x => do return x || decide ((← k.m.parttax.rd w) ≠ p)
      if x then return .next flag else return .brk ()

/-- Frontier array: flags of the vertices that it holds — kgraph_check.c:157–188. -/
def fronFlags (g : Graph) (k : Kgraph D) (flag : Arr Int) : M (Option (Arr Int)) := do
  if k.fronnbr < 0 ∨ k.fronnbr > g.vertnbr then return none
  else
    match ← forUpB 0 k.fronnbr flag (fronStep g k) with
    | .next f => return some f
    | .brk _ => return none

/-- Arc — kgraph_check.c:204–211. -/
def cutArc (o : ArchOps D) (g : Graph) (m : Mapping D) (p e w c : Int) : M Int := do
  let edlo ← g.rdEdlo e
  let q ← m.parttax.rd w
  if q = p then return c
  else return c + edlo * (← o.dist (← m.domntab.rd p) (← m.domntab.rd q))

/-- Vertex — kgraph_check.c:197–219: `comploadtab` and `commload`. -/
def sumStep (o : ArchOps D) (g : Graph) (m : Mapping D) (flag : Arr Int) (v : Int) (s : Arr Int × Int) : M (Loop (Arr Int × Int) Unit) := do
  let p ← m.parttax.rd v
  let velo ← g.rdVelo v
  let comp ← s.1.wr p ((← s.1.rd p) + velo)
  let c ← g.forArcs v 0 (cutArc o g m p)
  if c ≠ 0 ∧ (← flag.rd v) ≠ 0 then return .brk () else return .next (comp, s.2 + c)

/-- Loads and costs — kgraph_check.c:190–232. -/
def checkSums (o : ArchOps D) (g : Graph) (k : Kgraph D) (comp flag : Arr Int) : M Bool := do
  match ← forUpB g.baseval g.vertnnd (comp, 0) (sumStep o g k.m flag) with
  | .brk _ => return false
  | .next s =>
    if s.2.tdiv 2 ≠ k.commload then return false
    else testAll 0 k.m.domnnbr fun i => do return decide ((← s.1.rd i) = (← k.comploadavg.rd i) + (← k.comploaddlt.rd i))

/-- `kgraphCheck`, without an old mapping — kgraph_check.c:77–240: `true` stands for the value 0. `junk` is the content of the arrays that are allocated. -/
def kcheck (o : ArchOps D) (junk : Path → Int → Int) (minc : Bool) (g : Graph) (vfixnbr : Int) (pfix : Option (Arr Int)) (k : Kgraph D) : M Bool := do
  if ← mapCheck o minc g k.m then do
    let comp ← Ovl.fill ⟨0, k.m.domnnbr, junk [0]⟩ 0 k.m.domnnbr 0
    let flag ← Ovl.fill ⟨g.baseval, g.baseval + g.vertnbr, junk [1]⟩ g.baseval (g.baseval + g.vertnbr) (-1)
    match ← fixCount o g k.m pfix with
    | none => return false
    | some n =>
      if n ≠ vfixnbr then return false
      else
        match ← fronFlags g k flag with
        | none => return false
        | some flag => checkSums o g k comp flag
  else return false

/-- Cost of the edges between a vertex and vertices of other parts. -/
def cutOf (F : D → D → Int) (g : Graph) (part : Int → Int) (dom : Int → D) (v : Int) : Int :=
  sumI g.baseval g.vertnnd fun w => if part v = part w then 0 else g.wgt v w * F (dom (part v)) (dom (part w))

/-- Number of fixed vertices. -/
def fixNbr (g : Graph) (pfix : Option (Arr Int)) : Int :=
  match pfix with
  | none => 0
  | some a => sumI g.baseval g.vertnnd fun v => if a.get v ≠ -1 then 1 else 0

/-- What the check tests; `N` gives the numbers of domains, and `In` tells which domains belong to the architecture. The frontier array may lack vertices, if the edges to other parts have no cost. -/
structure KChecked (F : D → D → Int) (N : D → Int) (In : D → Bool) (g : Graph) (vfixnbr : Int) (pfix : Option (Arr Int)) (k : Kgraph D) : Prop where
  max : k.m.domnnbr ≤ k.m.domnmax
  part : ∀ v, g.Vertex v → 0 ≤ k.m.parttax.get v ∧ k.m.parttax.get v < k.m.domnnbr
  dom : ∀ i, 0 ≤ i → i < k.m.domnnbr → In (k.m.domntab.get i) = true
  fixed : ∀ a, pfix = some a → ∀ v, g.Vertex v → a.get v ≠ -1 → 0 ≤ a.get v ∧ a.get v = N (k.m.domntab.get (k.m.parttax.get v))
  fixnbr : vfixnbr = fixNbr g pfix
  fronnbr : 0 ≤ k.fronnbr ∧ k.fronnbr ≤ g.vertnbr
  distinct : ∀ i j, 0 ≤ i → i < k.fronnbr → 0 ≤ j → j < k.fronnbr → k.frontab.get i = k.frontab.get j → i = j
  fron : ∀ i, 0 ≤ i → i < k.fronnbr → Bipart.Frontier g k.m.parttax.get (k.frontab.get i)
  all : ∀ v, g.Vertex v → cutOf F g k.m.parttax.get k.m.domntab.get v ≠ 0 → ∃ i, 0 ≤ i ∧ i < k.fronnbr ∧ k.frontab.get i = v
  comm : k.commload = (sumI g.baseval g.vertnnd (cutOf F g k.m.parttax.get k.m.domntab.get)).tdiv 2
  load : ∀ i, 0 ≤ i → i < k.m.domnnbr → k.comploadavg.get i + k.comploaddlt.get i = Bipart.over g k.m.parttax.get i g.velo

/-- Memory. -/
structure Room (g : Graph) (pfix : Option (Arr Int)) (k : Kgraph D) : Prop where
  part : k.m.parttax.lo ≤ g.baseval ∧ g.vertnnd ≤ k.m.parttax.hi
  domn : k.m.domntab.lo ≤ 0 ∧ k.m.domnmax ≤ k.m.domntab.hi
  avg : k.comploadavg.lo ≤ 0 ∧ k.m.domnmax ≤ k.comploadavg.hi
  dlt : k.comploaddlt.lo ≤ 0 ∧ k.m.domnmax ≤ k.comploaddlt.hi
  fron : k.frontab.lo ≤ 0 ∧ g.vertnbr ≤ k.frontab.hi
  pfix : ∀ a, pfix = some a → a.lo ≤ g.baseval ∧ g.vertnnd ≤ a.hi

/-- Answers of the architecture on the domains of a mapping. -/
structure Answers (o : ArchOps D) (F : D → D → Int) (N : D → Int) (In : D → Bool) (m : Mapping D) : Prop where
  incl : ∃ org, o.frst = .ok org ∧ ∀ i, 0 ≤ i → i < m.domnnbr → o.incl org (m.domntab.get i) = .ok (In (m.domntab.get i))
  num : ∀ i, 0 ≤ i → i < m.domnnbr → o.num (m.domntab.get i) = .ok (N (m.domntab.get i))
  dist : ∀ i j, 0 ≤ i → i < m.domnnbr → 0 ≤ j → j < m.domnnbr → i ≠ j → o.dist (m.domntab.get i) (m.domntab.get j) = .ok (F (m.domntab.get i) (m.domntab.get j))

end Scotch.Kmap
