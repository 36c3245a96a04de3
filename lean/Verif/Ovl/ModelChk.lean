import Verif.Ovl.ModelEs

/-! # Partitioning with overlap: consistency check — src/libscotch/wgraph_check.c -/

set_option autoImplicit false

namespace Scotch.Ovl

/-- A loop which stops at the first test that fails. -/
def testAll (lo hi : Int) (f : Int → M Bool) : M Bool := do
  match ← forUpB lo hi () (fun i _ => do if ← f i then return (.next () : Loop Unit Unit) else return .brk ()) with
  | .next _ => return true
  | .brk _ => return false

/-- State of the loop on vertices: `comploadtab`, `compsizetab`, `flagtab`, `frlosum`, `fronnbr`. -/
structure ChkState where
  sums : EsLoads
  frlo : Int
  nbr : Int

/-- Body of the loop on vertices — wgraph_check.c:135–165. The body of the loop on arcs (149–159) is the one of wgraph_part_es.c. -/
def chkVertex (b : Wgraph) (v : Int) (s : ChkState) : M ChkState := do
  let velo ← b.s.rdVelo v
  let k ← b.parttax.rd v
  if k = -1 then do
    let t ← b.s.forArcs v s.sums fun _ w => esArc b.parttax v velo w
    return ⟨t, s.frlo + velo, s.nbr + 1⟩
  else do
    let load ← s.sums.load.wr k ((← s.sums.load.rd k) + velo)
    let size ← s.sums.size.wr k ((← s.sums.size.rd k) + 1)
    return { s with sums := ⟨load, size, s.sums.flag⟩ }

/-- Part array — wgraph_check.c:108–118. -/
def chkPart (b : Wgraph) (v : Int) : M Bool := do
  let k ← b.parttax.rd v
  return ! decide (k ≥ b.partnbr ∨ k < -1)

/-- Frontier array — wgraph_check.c:124–132. -/
def chkFron (b : Wgraph) (i : Int) : M Bool := do return decide ((← b.parttax.rd (← b.frontab.rd i)) = -1)

/-- Loads and sizes of parts — wgraph_check.c:168–177. -/
def chkSums (b : Wgraph) (s : ChkState) (k : Int) : M Bool := do
  if (← b.compsize.rd k) ≠ (← s.sums.size.rd k) then return false
  else return decide ((← b.compload.rd k) = (← s.sums.load.rd k))

/-- `wgraphCheck` — wgraph_check.c:79–193: `true` stands for the value 0. `junk` is the content of the arrays that are allocated. -/
def check (junk : Path → Int → Int) (b : Wgraph) : M Bool := do
  let load ← fill ⟨0, b.partnbr, junk [0]⟩ 0 b.partnbr 0
  let size ← fill ⟨0, b.partnbr, junk [1]⟩ 0 b.partnbr 0
  let flag ← fill ⟨0, b.partnbr, junk [2]⟩ 0 b.partnbr (-1)
  if ← testAll b.s.baseval b.s.vertnnd (chkPart b) then do
    if b.fronnbr < 0 then return false
    else if ← testAll 0 b.fronnbr (chkFron b) then do
      let s ← forUp b.s.baseval b.s.vertnnd ⟨⟨load, size, flag⟩, 0, 0⟩ (chkVertex b)
      if ← testAll 0 b.partnbr (chkSums b s) then return decide (b.fronload = s.frlo ∧ b.fronnbr = s.nbr)
      else return false
    else return false
  else return false

/-- What the check tests. Neither that parts are separated, nor that the frontier array has no duplicates, are tested. -/
structure Checked (b : Wgraph) : Prop where
  range : ∀ v, b.s.Vertex v → -1 ≤ b.part v ∧ b.part v < b.partnbr
  fron : ∀ i, 0 ≤ i → i < b.fronnbr → b.part (b.frontab.get i) = -1
  fronnbr : b.fronnbr = Bipart.over b.s b.part (-1) (fun _ => 1)
  fronload : b.fronload = Bipart.over b.s b.part (-1) b.s.velo
  load : ∀ k, 0 ≤ k → k < b.partnbr → b.compload.get k = within b.s b.part k b.s.velo
  size : ∀ k, 0 ≤ k → k < b.partnbr → b.compsize.get k = within b.s b.part k (fun _ => 1)

end Scotch.Ovl
