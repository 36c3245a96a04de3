import Verif.HOrder.ModelHx

/-!
# Halo minimum degree: beginning of the kernel

src/libscotch/hall_order_hd.c: `hallOrderHdR2Halmd`, with no elements. Initialisation and choice of pivots are modelled; the elimination of a pivot, and the end of the computation, are arbitrary functions.
-/

set_option autoImplicit false

namespace Scotch.HOrder

/-- State of `hallOrderHdR2Halmd`. -/
structure HdS where
  x : HxIn
  w : Arr Int
  degree : Arr Int
  next : Arr Int
  last : Arr Int
  head : Arr Int
  totel : Int
  nel : Int
  nbflag : Int
  lastd : Int
  mindeg : Int

/-- Degree of a vertex — hall_order_hd.c:411–417. -/
def hdDegree (x : HxIn) (i : Int) : M Int := do
  let l ← x.len.rd i
  if x.n = x.norig then return l
  else do
    let p ← x.pe.rd i
    forUp p (p + l) 0 fun p d => do return d + (← x.nv.rd (← x.iw.rd p))

/-- Initialisation of a vertex — hall_order_hd.c:398–418. -/
def hdVert (i : Int) (s : HdS) : M HdS := do
  let w ← s.w.wr i 1
  let l ← s.x.len.rd i
  if l < 0 then do
    let degree ← s.degree.wr i (s.x.norig + 1)
    if l = -1 - s.x.norig then do
      let len ← s.x.len.wr i 0
      let pe ← s.x.pe.wr i 0
      return { s with
        w := w
        degree := degree
        nbflag := s.nbflag + 1
        x := { s.x with
          len := len
          pe := pe } }
    else do
      let len ← s.x.len.wr i (-l)
      return { s with
        w := w
        degree := degree
        nbflag := s.nbflag + 1
        x := { s.x with len := len } }
  else do
    let d ← hdDegree s.x i
    let degree ← s.degree.wr i d
    return { s with
      w := w
      degree := degree
      totel := s.totel + (← s.x.nv.rd i) }

/-- A halo vertex is put at the end of the list of the largest degree — hall_order_hd.c:475–489. -/
def hdFlag (i : Int) (s : HdS) : M HdS := do
  if s.lastd = 0 then do
    let head ← s.head.wr s.x.norig i
    let next ← s.next.wr i 0
    let last ← s.last.wr i 0
    return { s with
      head := head
      next := next
      last := last
      lastd := i }
  else do
    let next ← s.next.wr s.lastd i
    let last ← s.last.wr i s.lastd
    let next ← next.wr i 0
    return { s with
      next := next
      last := last
      lastd := i }

/-- A vertex that has neighbours is put in the list of its degree — hall_order_hd.c:490–496. -/
def hdPut (i d : Int) (s : HdS) : M HdS := do
  let inext ← s.head.rd d
  let last ← if inext ≠ 0 then s.last.wr inext i else pure s.last
  let next ← s.next.wr i inext
  let head ← s.head.wr d i
  return { s with
    head := head
    next := next
    last := last }

/-- A vertex that has no neighbours is eliminated at once — hall_order_hd.c:497–502. -/
def hdLone (i : Int) (s : HdS) : M HdS := do
  let nel := s.nel + 1
  let elen ← s.x.elen.wr i (-nel)
  let pe ← s.x.pe.wr i 0
  let w ← s.w.wr i 0
  return { s with
    nel := nel
    w := w
    x := { s.x with
      elen := elen
      pe := pe } }

/-- Lists of degrees — hall_order_hd.c:470–503. -/
def hdList (i : Int) (s : HdS) : M HdS := do
  if (← s.x.elen.rd i) < 0 then return s
  else do
    let d ← s.degree.rd i
    if d = s.x.norig + 1 then hdFlag i s else if d > 0 then hdPut i d s else hdLone i s

/-- Pivot of smallest degree; 0 if there is none — hall_order_hd.c:508–512. State: degree. -/
def hdFind (head : Arr Int) (norig : Int) (d : Int) : M (Loop Int (Int × Int)) := do
  let me ← head.rd d
  if me > 0 then return .brk (d, me) else if d < norig then return .next (d + 1) else return .brk (d + 1, 0)

/-- Loop on pivots — hall_order_hd.c:507–867. The state that is given to `pivot` has `mindeg`. -/
def hdPivots (pivot : Int → HdS → M HdS) (s : HdS) : M (Loop HdS (Option HdS)) := do
  if s.nel < s.totel then do
    let (d, me) ← loopM (hdFind s.head s.x.norig) (s.x.norig.toNat + 1) s.mindeg
    if me ≤ 0 then return .brk none
    else do
      let s ← pivot me { s with mindeg := d }
      return .next s
  else return .brk (some s)

/-- `hallOrderHdR2Halmd` — hall_order_hd.c:371–925. -/
def hdKern (junk : Nat → Int → Int) (fuel : Nat) (pivot : Int → HdS → M HdS) (final : HdS → M HxOut) : HxKern := fun t x => do
  let a : Arr Int := ⟨1, 1 + x.n, junk t⟩
  let s ← forUp 1 (x.n + 1) ⟨x, a, a, a, Arr.const 1 (1 + x.n) 0, Arr.const 0 (x.norig + 1) 0, 0, 0, 0, 0, 0⟩ hdVert
  let s ← forUp 1 (x.n + 1) s hdList
  match ← loopM (hdPivots pivot) fuel s with
  | none => return none
  | some s => return some (← final s)

end Scotch.HOrder
