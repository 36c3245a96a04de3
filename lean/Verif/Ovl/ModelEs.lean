import Verif.Ovl.ModelSt
import Verif.Ovl.Spec

/-! # Partitioning with overlap: separators from mappings — src/libscotch/wgraph_part_es.c -/

set_option autoImplicit false

namespace Scotch.Ovl

/-- The fields of the mapping graph that are used after it has been computed by `kgraphMapSt`: for each domain, the number that `archDomNum` gives to it and its load `comploadavg[] + comploaddlt[]`; for each vertex, its domain; the frontier. Cells of
`dom` and of `load` from the number of domains of the mapping on are not initialised. -/
structure KMap where
  dom : Arr Int
  load : Arr Int
  part : Arr Int
  fron : Arr Int
  fronnbr : Int

/-- State of the loops: `comploadtab`, `compsizetab`, `grafptr->parttax`, `grafptr->frontab`, `frlosum`. -/
structure EsState where
  load : Arr Int
  size : Arr Int
  part : Arr Int
  fron : Arr Int
  frlo : Int

/-- Body of the loop on vertices — wgraph_part_es.c:119–123. -/
def esVertex (m : KMap) (v : Int) (s : Arr Int × Arr Int) : M (Arr Int × Arr Int) := do
  let k ← m.dom.rd (← m.part.rd v)
  let part ← s.1.wr v k
  let size ← s.2.wr k ((← s.2.rd k) + 1)
  return (part, size)

/-- Body of the first loop on the frontier — wgraph_part_es.c:130–141. -/
def esFron (g : Graph) (m : KMap) (i : Int) (s : EsState) : M EsState := do
  let v ← m.fron.rd i
  let velo ← g.rdVelo v
  let k ← s.part.rd v
  let load ← s.load.wr k ((← s.load.rd k) - velo)
  let size ← s.size.wr k ((← s.size.rd k) - 1)
  let fron ← s.fron.wr i v
  let part ← s.part.wr v (-1)
  return ⟨load, size, part, fron, s.frlo + velo⟩

/-- State of the second loop: `comploadtab`, `compsizetab`, `npfltab`. -/
structure EsLoads where
  load : Arr Int
  size : Arr Int
  flag : Arr Int

/-- Body of the loop on arcs — wgraph_part_es.c:152–164. -/
def esArc (part : Arr Int) (v velo : Int) (w : Int) (s : EsLoads) : M EsLoads := do
  let k ← part.rd w
  if k = -1 then return s
  else if (← s.flag.rd k) ≠ v then do
    let load ← s.load.wr k ((← s.load.rd k) + velo)
    let size ← s.size.wr k ((← s.size.rd k) + 1)
    let flag ← s.flag.wr k v
    return ⟨load, size, flag⟩
  else return s

/-- Body of the second loop on the frontier — wgraph_part_es.c:145–165. -/
def esBack (g : Graph) (part fron : Arr Int) (i : Int) (s : EsLoads) : M EsLoads := do
  let v ← fron.rd i
  let velo ← g.rdVelo v
  g.forArcs v s fun _ w => esArc part v velo w

/-- `wgraphPartEs` — wgraph_part_es.c:70–181. `map` is the mapping of the graph onto a complete graph of `partnbr` vertices, by a strategy. -/
def partEs (map : Path → Graph → Int → M (Int × KMap)) (junk : Path → Int → Int) : WMethod := fun p b => do
  let (o, m) ← map p b.s b.partnbr
  if o ≠ 0 then return (1, b)
  else do
    let load ← forUp 0 b.partnbr b.compload fun k a => do a.wr (← m.dom.rd k) (← m.load.rd k)
    let size ← fill b.compsize 0 b.partnbr 0
    let r ← forUp b.s.baseval b.s.vertnnd (b.parttax, size) (esVertex m)
    let flag ← fill ⟨-1, b.partnbr, junk p⟩ (-1) b.partnbr (-1)
    let s ← forUp 0 m.fronnbr ⟨load, r.2, r.1, b.frontab, 0⟩ (esFron b.s m)
    let t ← forUp 0 m.fronnbr ⟨s.load, s.size, flag⟩ (esBack b.s s.part s.fron)
    return (0, { b with compload := t.load, compsize := t.size, parttax := s.part, frontab := s.fron, fronnbr := m.fronnbr, fronload := s.frlo })

/-- What is expected from a mapping onto `n` parts: there is one domain for each part; loads and frontier are those of the mapping. -/
structure MapGood (g : Graph) (n : Int) (m : KMap) : Prop where
  mdom : m.dom.lo ≤ 0 ∧ n ≤ m.dom.hi
  mload : m.load.lo ≤ 0 ∧ n ≤ m.load.hi
  mpart : m.part.lo ≤ g.baseval ∧ g.vertnnd ≤ m.part.hi
  mfron : m.fron.lo ≤ 0 ∧ m.fronnbr ≤ m.fron.hi
  num : ∀ k, 0 ≤ k → k < n → 0 ≤ m.dom.get k ∧ m.dom.get k < n
  inj : ∀ k l, 0 ≤ k → k < n → 0 ≤ l → l < n → m.dom.get k = m.dom.get l → k = l
  surj : ∀ j, 0 ≤ j → j < n → ∃ k, 0 ≤ k ∧ k < n ∧ m.dom.get k = j
  part : ∀ v, g.Vertex v → 0 ≤ m.part.get v ∧ m.part.get v < n
  load : ∀ k, 0 ≤ k → k < n → m.load.get k = sumI g.baseval g.vertnnd (fun v => if m.part.get v = k then g.velo v else 0)
  fron : Enum m.fron m.fronnbr (fun v => g.Vertex v ∧ ∃ p ∈ g.nbrs v, m.part.get p.1 ≠ m.part.get v)

end Scotch.Ovl
