import Verif.Arch.Spec
import Verif.Arch.ModelMatch

/-!
# Sub-architectures

Model of src/libscotch/arch_sub.c. Memory management (the chain of arrays of tree nodes through cells of index -1, freed
at the end) is left out; since tree nodes are never changed once another node points to them, pointers to nodes are modelled as
values.
-/

set_option autoImplicit false

namespace Scotch.Arch.Sub

/-- `ArchSubTree` — arch_sub.h:85–91; `null` is the null pointer. -/
inductive STree
  | null
  | node (siz wgt term vert : Int) (s0 s1 : STree)
  deriving DecidableEq

/-- Reading a tree node: `(domnsiz, domnwgt, termnum)`. -/
def STree.get : STree → M (Int × Int × Int)
  | .null => .error .null
  | .node siz wgt term _ _ _ => .ok (siz, wgt, term)

def STree.isNull : STree → Bool
  | .null => true
  | .node .. => false

/-- Pointer to a node, or null pointer — arch_sub.c:259, 271–272. -/
def sonOf (siz : Int) (t : STree) : STree := if 0 < siz then t else .null

/-- Node for a coarse vertex — arch_sub.c:253–280. -/
def coarNode (fine : Arr STree) (m : Multi) (c : Int) : M STree := do
  let t0 ← fine.rd m.1
  let f0 ← t0.get
  if m.2 ≠ m.1 then do
    let t1 ← fine.rd m.2
    let f1 ← t1.get
    return .node (f0.1 + f1.1) (f0.2.1 + f1.2.1) (if f1.2.2 < f0.2.2 then f1.2.2 else f0.2.2) c (sonOf f0.1 t0) (sonOf f1.1 t1)
  else return .node f0.1 f0.2.1 f0.2.2 c (sonOf f0.1 t0) .null

/-- `archSubArchBuild2` — arch_sub.c:212–288, for a matching routine `mate` that leaves its result in `mult`. `none` stands for an error. `fuel` bounds the depth
of the recursion. -/
def build2 {σ : Type} (mate : σ → M (Int × σ)) (mult : σ → Arr Multi) (junk : Int → STree) : Nat → σ → Arr STree → Int → M (Option STree)
  | 0, _, _, _ => .error .fuel
  | fuel + 1, s, fine, n =>
    if n ≤ 1 then do
      let t ← fine.rd 0
      return some t
    else do
      let r ← mate s
      if r.1 < 0 then return none
      else do
        let coar ← forUp 0 r.1 (⟨0, r.1, junk⟩ : Arr STree) fun c coar => do
          let m ← (mult r.2).rd c
          let t ← coarNode fine m c
          coar.wr c t
        build2 mate mult junk fuel r.2 coar r.1

/-- `ArchSubData` — arch_sub.h:63–70. -/
structure Data where
  num : Int
  siz : Int
  wgt : Int
  term : Int
  fat : Int
  sub0 : Int
  sub1 : Int
  deriving DecidableEq

/-- `ArchSubTerm` — arch_sub.h:58–61. -/
structure Term where
  idx : Int
  term : Int
  deriving DecidableEq

/-- Assignment of some fields of a cell of the domain array. -/
def updD (dom : Arr Data) (i : Int) (f : Data → Data) : M (Arr Data) := do
  let d ← dom.rd i
  dom.wr i (f d)

def updT (ter : Arr Term) (i : Int) (f : Term → Term) : M (Arr Term) := do
  let d ← ter.rd i
  ter.wr i (f d)

/-- `archSubArchBuild3` — arch_sub.c:297–349. -/
def build3 : STree → Int → Int → Arr Data → Arr Term → M (Int × Arr Data × Arr Term)
  | .null, _, _, _, _ => .error .null
  | .node siz wgt term _ s0 s1, num, idx, dom, ter =>
    if s0.isNull = false ∧ s1.isNull = true then build3 s0 num idx dom ter
    else if s0.isNull = true ∧ s1.isNull = false then build3 s1 num idx dom ter
    else do
      let dom ← updD dom idx fun d => { d with num := num, siz := siz, wgt := wgt, term := term }
      if s0.isNull = false then do
        let dom ← updD dom (idx + 1) fun d => { d with fat := idx }
        let dom ← updD dom idx fun d => { d with sub0 := idx + 1 }
        let r ← build3 s0 (num * 2) (idx + 1) dom ter
        let dom ← updD r.2.1 r.1 fun d => { d with fat := idx }
        let dom ← updD dom idx fun d => { d with sub1 := r.1 }
        build3 s1 (num * 2 + 1) r.1 dom r.2.2
      else do
        let dom ← updD dom idx fun d => { d with sub0 := -1, sub1 := -1 }
        let ter ← updT ter term fun t => { t with idx := idx }
        return (idx + 1, dom, ter)

/-- `ArchSub` — arch_sub.h:72–78, without the pointer to the original architecture. -/
structure Arch where
  termnbr : Int
  termtab : Arr Term
  domnnbr : Int
  domntab : Arr Data

/-- Initial node of a terminal that is not kept — arch_sub.c:430–435. -/
def outNode (numMax : Int) : STree := .node 0 0 numMax numMax .null .null

/-- Body of the loop on the terminals that are kept — arch_sub.c:444–475. The result of `archDomTerm` is not tested: if it fails, the domain is the
previous one. -/
def keepStep {D : Type} (o : ArchOps D) (vnum : Arr Int) (i : Int) (s : D × Arr Term × Arr STree) : M (D × Arr Term × Arr STree) := do
  let v ← vnum.rd i
  let r ← o.term v
  let d := r.getD s.1
  let ter ← updT s.2.1 i fun t => { t with term := v }
  let w ← o.wght d
  let tree ← s.2.2.wr v (.node 1 w i v .null .null)
  return (d, ter, tree)

/-- `archSubArchBuild` — arch_sub.c:359–507, for an architecture of fixed size that has a matching routine, of initial state `s`. The result is `none` on
error. -/
def build {D σ : Type} (numMax : Int) (o : ArchOps D) (mate : σ → M (Int × σ)) (mult : σ → Arr Multi) (junkS : Int → STree) (junkT : Int → Term) (junkD : Int → Data) (fuel : Nat)
    (s : σ) (vnumnbr : Int) (vnum : Arr Int) : M (Option Arch) := do
  let d ← o.frst
  let n ← o.size d
  let domnnbr := 2 * vnumnbr - 1
  let tree ← forUp 0 n (⟨0, n, junkS⟩ : Arr STree) fun i tree => tree.wr i (outNode numMax)
  let r ← forUp 0 vnumnbr (d, (⟨0, vnumnbr, junkT⟩ : Arr Term), tree) fun i s => keepStep o vnum i s
  match ← build2 mate mult junkS fuel s r.2.2 vnumnbr with
  | none => return none
  | some root =>
    let q ← build3 root 1 0 ⟨0, domnnbr, junkD⟩ r.2.1
    if q.1 ≠ domnnbr then return none
    else do
      let dom ← updD q.2.1 0 fun d => { d with fat := -1 }
      return some ⟨vnumnbr, q.2.2, domnnbr, dom⟩

/-- Domain of a terminal of the original architecture — arch_sub.c:723–724. The result of `archDomTerm` is not tested; using a domain that has not been set is a fault
of the model. -/
def orgTerm {D : Type} (o : ArchOps D) (a : Arch) (d : Int) : M D := do
  let x ← a.domntab.rd d
  let t ← a.termtab.rd x.term
  match ← o.term t.term with
  | none => .error .null
  | some d => return d

/-- `archSubDomDist` — arch_sub.c:714–727. -/
def dist {D : Type} (o : ArchOps D) (a : Arch) (d0 d1 : Int) : M Int := do
  let x0 ← orgTerm o a d0
  let x1 ← orgTerm o a d1
  o.dist x0 x1

/-- `archSubDomIncl` — arch_sub.c:827–841. -/
def incl (a : Arch) (d0 d1 : Int) : M Bool := do
  let x1 ← a.domntab.rd d1
  let x0 ← a.domntab.rd d0
  loopM (fun n => do
    if n = 0 then return .brk false
    else if n = x0.num then return .brk true
    else return .next (n / 2)) (x1.num.toNat + 1) x1.num

/-- The routines of a sub-architecture — `archSubDomNum` (arch_sub.c:655–661), `archSubDomTerm` (671–683), `archSubDomSize` (689–695), `archSubDomWght` (701–707), `archSubDomDist`, `archSubDomFrst`
(737–745), `archSubDomBipart` (800–817), `archSubDomIncl`. -/
def ops {D : Type} (o : ArchOps D) (a : Arch) : ArchOps Int where
  num d := do return (← a.domntab.rd d).term
  term k := if a.termnbr ≤ k then return none else do return some (← a.termtab.rd k).idx
  size d := do return (← a.domntab.rd d).siz
  wght d := do return (← a.domntab.rd d).wgt
  dist := dist o a
  frst := return 0
  bipart d := do
    let x ← a.domntab.rd d
    if x.sub0 < 0 then return none else return some (x.sub0, x.sub1)
  incl := incl a

/-! ## Matchings of sub-architectures -/

/-- `ArchSubMatch` — arch_sub.h:97–104. -/
structure Match where
  multtab : Arr Multi
  levlnum : Int
  levlmax : Int

/-- `archSubMatchInit` — arch_sub.c:518–554. -/
def matchInit (junk : Int → Multi) (a : Arch) : M Match := do
  let domnmax ← forUp 0 a.termnbr 0 fun i m => do
    let t ← a.termtab.rd i
    let d ← a.domntab.rd t.idx
    return if m < d.num then d.num else m
  let levlnbr ← loopM (fun (s : Nat × Int) => if 0 < s.2 then return .next (s.1 + 1, s.2 / 2) else return .brk s.1) (domnmax.toNat + 1) (1, domnmax)
  let multnbr ← Hcub.shl1 levlnbr
  return ⟨⟨0, multnbr, junk⟩, levlnbr - 1, levlnbr - 1⟩

/-- Coarse vertex made of one vertex — arch_sub.c:589–597. State: `(multtab, multnum, vertnum)`. -/
def mateOne (top : Bool) (x : Data) (s : Arr Multi × Int × Int) : M (Arr Multi × Int × Int) := do
  if top then do
    let m ← s.1.wr s.2.1 (x.term, x.term)
    return (m, s.2.1 + 1, s.2.2)
  else do
    let m ← s.1.wr s.2.1 (s.2.2, s.2.2)
    return (m, s.2.1 + 1, s.2.2 + 1)

/-- Coarse vertex made of two vertices — arch_sub.c:605–623. -/
def mateTwo (top : Bool) (dom : Arr Data) (x : Data) (s : Arr Multi × Int × Int) : M (Arr Multi × Int × Int) := do
  if top then do
    let x0 ← dom.rd x.sub0
    let x1 ← dom.rd x.sub1
    let m ← s.1.wr s.2.1 (x0.term, x1.term)
    return (m, s.2.1 + 1, s.2.2)
  else do
    let m ← s.1.wr s.2.1 (s.2.2, s.2.2 + 1)
    return (m, s.2.1 + 1, s.2.2 + 2)

/-- `archSubMatchMate2` — arch_sub.c:576–629. `lev` is the number of levels down to the current one (`levlcur - levlnum`; in the negative, the routine would go down to the leaves). -/
def mate2 (top : Bool) (dom : Arr Data) : Nat → Int → Arr Multi × Int × Int → M (Arr Multi × Int × Int)
  | 0, d, s => do
    let x ← dom.rd d
    if x.sub0 = -1 then mateOne top x s else mateTwo top dom x s
  | lev + 1, d, s => do
    let x ← dom.rd d
    if x.sub0 = -1 then mateOne top x s
    else do
      let s ← mate2 top dom lev x.sub0 s
      mate2 top dom lev x.sub1 s

/-- `archSubMatchMate` — arch_sub.c:631–649. -/
def matchMate (a : Arch) (m : Match) : M (Int × Match) := do
  if m.levlnum < 0 then return (-1, m)
  else do
    let s ← mate2 (m.levlnum == m.levlmax) a.domntab m.levlnum.toNat 0 (m.multtab, 0, 0)
    return (s.2.1, ⟨s.1, m.levlnum - 1, m.levlmax⟩)

end Scotch.Arch.Sub
