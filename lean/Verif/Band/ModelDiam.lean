import Verif.Graph.Access

/-!
# Pseudo-diameter: model

src/libscotch/graph_diam.c. The Fibonacci heap is modelled by the list of the vertices that it holds: what its routines do is the subject of C32. When several vertices have the smallest key, `fiboHeapMin` may return any of
them (`pick`). Misuses of the heap are faults.
-/

set_option autoImplicit false

namespace Scotch.Diam

/-- State of a sweep. -/
structure Sw where
  dist : Arr Int
  heap : List Int
  tick : Nat
  vertnbr : Int
  diammax : Int
  rootnum : Int

/-- Vertex whose key is smallest. -/
def minimal (dist : Arr Int) (heap : List Int) (x : Int) : Bool := heap.all fun y => decide (dist.get x ≤ dist.get y)

/-- `fiboHeapMin` -/
def heapMin (pick : Nat → Int) (s : Sw) : Option Int :=
  if pick s.tick ∈ s.heap ∧ minimal s.dist s.heap (pick s.tick) = true then some (pick s.tick) else s.heap.find? (minimal s.dist s.heap)

/-- `fiboHeapAdd`: a node that is already in the heap must not be added. -/
def heapAdd (v : Int) (s : Sw) : M Sw := if v ∈ s.heap then throw .oob else return { s with heap := v :: s.heap }

/-- `fiboHeapDecrease`: the node must be in the heap. -/
def heapDecrease (v : Int) (s : Sw) : M Sw := if v ∈ s.heap then return s else throw .oob

/-- `fiboHeapDel` -/
def heapDel (v : Int) (s : Sw) : M Sw := if v ∈ s.heap then return { s with heap := s.heap.filter (fun x => decide (x ≠ v)) } else throw .oob

/-- `if (velotax != NULL) distval += velotax[vertnum]` — graph_diam.c:161–162. -/
def addVelo (g : Graph) (numMax v d : Int) : M Int :=
  match g.velotax with
  | none => return d
  | some a => do Graph.addChk numMax d (← a.rd v)

/-- Arc of a vertex — graph_diam.c:170–181. -/
def relax (g : Graph) (numMax distval e w : Int) (s : Sw) : M Sw := do
  let disttmp ← Graph.addChk numMax distval (← g.rdEdlo e)
  let distold ← s.dist.rd w
  if disttmp < distold then do
    let dist ← s.dist.wr w disttmp
    if distold = numMax then heapAdd w { s with dist := dist } else heapDecrease w { s with dist := dist }
  else return s

/-- `if (diammax < distval)` — graph_diam.c:157–160. -/
def better (v d : Int) (s : Sw) : Sw := if s.diammax < d then { s with diammax := d, rootnum := v } else s

/-- One turn of the inner loop — graph_diam.c:146–183. -/
def step (g : Graph) (numMax : Int) (pick : Nat → Int) (s : Sw) : M (Loop Sw Sw) := do
  match heapMin pick s with
  | none => return .brk s
  | some v => do
    let s ← heapDel v { s with vertnbr := s.vertnbr + 1, tick := s.tick + 1 }
    let d ← s.dist.rd v
    let dist ← s.dist.wr v (-1)
    let d' ← addVelo g numMax v d
    let s ← g.forArcs v (better v d { s with dist := dist }) (relax g numMax d')
    return .next s

/-- One turn of the outer loop — graph_diam.c:131–189: the largest distance so far and its vertex, or the final result. -/
def sweep (g : Graph) (numMax : Int) (pick : Nat → Int) (s : Int × Int × Nat) : M (Loop (Int × Int × Nat) Int) := do
  let dist ← forUp g.baseval g.vertnnd (Arr.const g.baseval (g.baseval + g.vertnbr) 0) fun v a => a.wr v numMax
  let dist ← dist.wr s.2.1 0
  let t ← heapAdd s.2.1 ⟨dist, [], s.2.2, 0, s.1, s.2.1⟩
  let t ← loopM (step g numMax pick) (g.vertnbr.toNat + 1) t
  if t.vertnbr ≠ g.vertnbr then return .brk numMax
  else if s.1 < t.diammax then return .next (t.diammax, t.rootnum, t.tick) else return .brk t.diammax

/-- `graphDiamPV` — graph_diam.c:97–198. `root` is the number that is drawn at random. -/
def diamPV (g : Graph) (numMax : Int) (pick : Nat → Int) (root : Int) : M Int :=
  if g.vertnbr ≤ 0 then return 0
  else loopM (sweep g numMax pick) (numMax.toNat + 1) (0, root + g.baseval, 0)

end Scotch.Diam
