import Verif.Base

/-!
# Graphs: model

Functions of src/libscotch/graph_check.c, graph_base.c, graph_clone.c and graph_induce.c.
-/

set_option autoImplicit false

namespace Scotch

/-- `Graph` — src/libscotch/graph.h:128–144. Arrays are accessed by based indices, as in the C code. A null
pointer is `none`. For `vendtax`, `none` means that it is `verttax + 1` (compact edge array). The
flags, which say which arrays have to be freed, are not modelled. -/
structure Graph where
  baseval : Int
  vertnbr : Int
  vertnnd : Int
  verttax : Arr Int
  vendtax : Option (Arr Int)
  velotax : Option (Arr Int)
  velosum : Int
  vnumtax : Option (Arr Int)
  vlbltax : Option (Arr Int)
  edgenbr : Int
  edgetax : Arr Int
  edlotax : Option (Arr Int)
  edlosum : Int
  degrmax : Int

namespace Graph

/-- `vendtax[v]`. -/
def rdVend (g : Graph) (v : Int) : M Int :=
  match g.vendtax with
  | none => g.verttax.rd (v + 1)
  | some a => a.rd v

/-- Addition of a load to a sum, which must not overflow: `numMax` is the largest `Gnum`. -/
def addChk (numMax a b : Int) : M Int :=
  if -numMax - 1 ≤ a + b ∧ a + b ≤ numMax then .ok (a + b) else .error .overflow

/-- `for (edgeend = start; (edgeend < vnd) && (edgetax[edgeend] != target); edgeend ++) ;` —
graph_check.c:158–160, 166–168. -/
def findArc (edgetax : Arr Int) (target start vnd : Int) : M Int := do
  match ← forUpB start vnd () fun e _ => do
      if (← edgetax.rd e) ≠ target then return .next () else return .brk e with
  | .next _ => return max start vnd
  | .brk e => return e

/-- Accumulation of a load, `none` when the sum decreases — graph_check.c:139–148, 177–186. -/
def checkLoad (numMax : Int) (lotax : Option (Arr Int)) (i sum : Int) : M (Option Int) :=
  match lotax with
  | none => return some sum
  | some a => do
    let tmp ← addChk numMax sum (← a.rd i)
    if tmp < sum then return none else return some tmp

/-- `(edlotax != NULL) && (edlotax[edgenum] != edlotax[edgeend])` — graph_check.c:162. -/
def edloDiffer (edlotax : Option (Arr Int)) (e e' : Int) : M Bool :=
  match edlotax with
  | none => return false
  | some a => do return decide ((← a.rd e) ≠ (← a.rd e'))

/-- Search of the reverse arcs of an arc from `vertnum` to `vertend` — graph_check.c:158–172. -/
def checkReverse (g : Graph) (vertnum edgenum vertend : Int) : M Bool := do
  let vnd ← g.rdVend vertend
  let edgeend ← findArc g.edgetax vertnum (← g.verttax.rd vertend) vnd
  if edgeend ≥ vnd then return false
  else if ← edloDiffer g.edlotax edgenum edgeend then return false
  else do
    let edgeend ← findArc g.edgetax vertnum (edgeend + 1) vnd
    return decide (¬ edgeend < vnd)

/-- Body of the loop on arcs — graph_check.c:134–173; `none` is the error exit. -/
def checkArc (numMax : Int) (g : Graph) (vertnum edgenum edlosum : Int) : M (Option Int) := do
  let vertend ← g.edgetax.rd edgenum
  match ← checkLoad numMax g.edlotax edgenum edlosum with
  | none => return none
  | some edlosum =>
    if vertend < g.baseval ∨ vertend ≥ g.vertnnd then return none
    else if vertend = vertnum then return none
    else do
      if ← checkReverse g vertnum edgenum vertend then return some edlosum else return none

/-- Sums computed by `graphCheck`. -/
structure Sums where
  degrmax : Int
  edgenbr : Int
  velosum : Int
  edlosum : Int

/-- Vertex load part — graph_check.c:174–187. -/
def checkVelo (numMax : Int) (g : Graph) (vertnum velosum : Int) : M (Option Int) :=
  match g.velotax with
  | none => return some velosum
  | some a => do
    if (← a.rd vertnum) < 0 then return none else checkLoad numMax g.velotax vertnum velosum

/-- Body of the loop on vertices — graph_check.c:120–188. -/
def checkVert (numMax : Int) (g : Graph) (vertnum : Int) (s : Sums) : M (Option Sums) := do
  let vert ← g.verttax.rd vertnum
  if vert < g.baseval then return none
  else do
    let vend ← g.rdVend vertnum
    if vend < vert then return none
    else do
      let degrval := vend - vert
      let degrmax := if degrval > s.degrmax then degrval else s.degrmax
      match ← forUpB vert vend s.edlosum fun e edlosum => do
          match ← checkArc numMax g vertnum e edlosum with
          | none => return .brk ()
          | some edlosum => return .next edlosum with
      | .brk _ => return none
      | .next edlosum =>
        match ← checkVelo numMax g vertnum s.velosum with
        | none => return none
        | some velosum => return some ⟨degrmax, s.edgenbr + degrval, velosum, edlosum⟩

/-- `graphCheck` — graph_check.c:87–207: `true` when 0 is returned. Sums of loads are the only
computations that are checked for overflow. -/
def check (numMax : Int) (g : Graph) : M Bool := do
  if g.vertnbr < 0 ∨ g.vertnbr ≠ g.vertnnd - g.baseval then return false
  else if g.edgenbr < 0 ∨ g.edgenbr % 2 ≠ 0 then return false
  else
    match ← forUpB g.baseval g.vertnnd
        (⟨0, 0, if g.velotax.isNone then g.vertnbr else 0, if g.edlotax.isNone then g.edgenbr else 0⟩ : Sums)
        fun v s => do
      match ← checkVert numMax g v s with
      | none => return .brk ()
      | some s => return .next s with
    | .brk _ => return false
    | .next s =>
      return decide (g.edgenbr = s.edgenbr ∧ g.velosum = s.velosum ∧ g.edlosum = s.edlosum ∧
        ¬ g.degrmax < s.degrmax)

end Graph

/-- Array seen through a pointer from which `k` has been subtracted. -/
def Arr.shift {α : Type} (a : Arr α) (k : Int) : Arr α := ⟨a.lo + k, a.hi + k, fun i => a.get (i - k)⟩

namespace Graph

/-- Loop on vertices of `graphBase` — graph_base.c:101–105. State: `edgetax` and `verttax`. -/
def baseLoop (g : Graph) (baseadj : Int) : M (Arr Int × Arr Int) :=
  forUp g.baseval g.vertnnd (g.edgetax, g.verttax) fun v s => do
    let vert ← s.2.rd v
    let vend ← match g.vendtax with
      | none => s.2.rd (v + 1)
      | some a => a.rd v
    let edgetax ← forUp vert vend s.1 fun e t => do t.wr e ((← t.rd e) + baseadj)
    return (edgetax, ← s.2.wr v (vert + baseadj))

/-- End indices — graph_base.c:106–111. -/
def baseEnds (g : Graph) (baseadj : Int) (verttax : Arr Int) : M (Arr Int × Option (Arr Int)) :=
  match g.vendtax with
  | some a => do
    let a ← forUp g.baseval g.vertnnd a fun v t => do t.wr v ((← t.rd v) + baseadj)
    return (verttax, some a)
  | none => do return (← verttax.wr g.vertnnd ((← verttax.rd g.vertnnd) + baseadj), none)

/-- `graphBase` — graph_base.c:85–130. Returns the new graph and the old base. -/
def base (g : Graph) (baseval : Int) : M (Graph × Int) :=
  if g.baseval = baseval then return (g, baseval)
  else do
    let baseadj := baseval - g.baseval
    let (edgetax, verttax) ← baseLoop g baseadj
    let (verttax, vendtax) ← baseEnds g baseadj verttax
    return ({ g with
      baseval := baseval
      vertnnd := g.vertnnd + baseadj
      verttax := verttax.shift baseadj
      vendtax := vendtax.map (·.shift baseadj)
      velotax := g.velotax.map (·.shift baseadj)
      vnumtax := g.vnumtax.map (·.shift baseadj)
      vlbltax := g.vlbltax.map (·.shift baseadj)
      edgetax := edgetax.shift baseadj
      edlotax := g.edlotax.map (·.shift baseadj) }, g.baseval)

end Graph
end Scotch
