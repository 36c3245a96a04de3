import Verif.HOrder.ModelCp
import Verif.HOrder.ModelKp
import Verif.HOrder.ModelHx

/-!
# Ordering strategies and library calls: model

src/libscotch/hgraph_order_st.c and library_graph_order.c. The kernels of the minimum degree methods are represented by arbitrary functions.
-/

set_option autoImplicit false

namespace Scotch.HOrder
open Graph

/-- Strategies — hgraph_order_st.c. Tests, separation methods and minimum degree kernels are functions; `ext` stands for any other method. -/
inductive Strat where
  | empty
  | si
  | gp (passnbr : Int)
  | cc (s : Strat)
  | nd (sep : Nat → Separ.Vgraph → M (Option Separ.Vgraph)) (ole ose : Strat)
  | cp (p : CpPara) (cpr unc : Strat)
  | kp (partsiz : Int) (part : Parter)
  | bl (fuel : Nat) (cblkmin : Int) (s : Strat)
  | hx (hd : Bool) (p : HxPara) (kern : HxKern)
  | cond (test : Hgraph → Option Bool) (a b : Strat)
  | cond1 (test : Hgraph → Option Bool) (a : Strat)
  | concat
  | select
  | ext (f : Method)

/-- `hgraphOrderSt` — hgraph_order_st.c:262–319. -/
def orderSt (env : Env) : Strat → Method
  | .empty, h, ordenum, o, c => if h.vnohnbr = 0 then return (0, o, c) else orderSi h ordenum o c
  | .si, h, ordenum, o, c => if h.vnohnbr = 0 then return (0, o, c) else orderSi h ordenum o c
  | .gp p, h, ordenum, o, c => if h.vnohnbr = 0 then return (0, o, c) else orderGp env p h ordenum o c
  | .cc s, h, ordenum, o, c => if h.vnohnbr = 0 then return (0, o, c) else orderCc env (orderSt env s) h ordenum o c
  | .nd sep ole ose, h, ordenum, o, c => if h.vnohnbr = 0 then return (0, o, c) else orderNd env sep (orderSt env ole) (orderSt env ose) h ordenum o c
  | .cp p cpr unc, h, ordenum, o, c => if h.vnohnbr = 0 then return (0, o, c) else orderCp env p (orderSt env cpr) (orderSt env unc) h ordenum o c
  | .kp n part, h, ordenum, o, c => if h.vnohnbr = 0 then return (0, o, c) else orderKp n part h ordenum o c
  | .bl fuel m s, h, ordenum, o, c => if h.vnohnbr = 0 then return (0, o, c) else orderBl fuel m (orderSt env s) h ordenum o c
  | .hx hd p kern, h, ordenum, o, c => if h.vnohnbr = 0 then return (0, o, c) else orderHx env hd p kern h ordenum o c
  | .cond t a b, h, ordenum, o, c =>
    if h.vnohnbr = 0 then return (0, o, c)
    else match t h with
      | none => return (1, o, c)
      | some true => orderSt env a h ordenum o c
      | some false => orderSt env b h ordenum o c
  | .cond1 t a, h, ordenum, o, c =>
    if h.vnohnbr = 0 then return (0, o, c)
    else match t h with
      | none => return (1, o, c)
      | some true => orderSt env a h ordenum o c
      | some false => return (0, o, c)
  | .concat, h, _, o, c => if h.vnohnbr = 0 then return (0, o, c) else return (1, o, c)
  | .select, h, _, o, c => if h.vnohnbr = 0 then return (0, o, c) else return (1, o, c)
  | .ext f, h, ordenum, o, c => if h.vnohnbr = 0 then return (0, o, c) else f h ordenum o c

/-- Arrays of the user — library_order.h:64–71. The array of fathers is given by the pointer that is shifted by the base value. -/
structure Tabs where
  permtab : Option (Arr Int)
  rangtab : Option (Arr Int)
  treetab : Option (Arr Int)
  cblkptr : Option Int

/-- Marks of the vertices that are not in the list, at the end of the inverse permutation — library_graph_order.c:333–348. -/
def listTail (g : Graph) (l : List Int) (peri : Arr Int) : M (Arr Int) := do
  let tab := Arr.ofList 0 l
  let p ← forUp 0 g.vertnbr peri fun i p => p.wr i 0
  let p ← forUp 0 l.length p fun i p => do p.wr ((← tab.rd i) - g.baseval) (-1)
  let r ← forUp 0 g.vertnbr (p, g.vertnnd - 1) fun i s => do
    let v := g.vertnnd - 1 - i
    if (← s.1.rd (v - g.baseval)) = 0 then return (← s.1.wr (s.2 - g.baseval) v, s.2 - 1) else return s
  return r.1

/-- Writing of an optional array. -/
def fillTab (t : Option (Arr Int)) (f : Arr Int → M (Arr Int)) : M (Option (Arr Int)) :=
  match t with
  | none => return none
  | some a => return some (← f a)

/-- The graph, without loads of arcs — library_graph_order.c:291–293. -/
def dropEdlo (g : Graph) : Graph := { g with edlotax := none }

/-- Computation of the ordering of the whole graph, or of the vertices of a list followed by the other ones — library_graph_order.c:291–366. The list is `none` when its size is the one of the graph, whatever it holds. -/
def orderList (env : Env) (st : Strat) (g : Graph) (l : Option (List Int)) (o : Ord) : M Res := do
  let h := noHalo (dropEdlo g) 0
  match l with
  | none => orderSt env st h 0 o (leafBlock g.vertnbr)
  | some l => do
    let peri ← listTail g l o.peritab
    let i ← hinduce h (env.hmem o.tick) l (g.vertnbr - l.length)
    let (r, o, c) ← orderSt env st i 0 ⟨peri, 3, 2, o.tick + 1⟩ (leafBlock l.length)
    return (r, o, .node ORDERCBLKDICO g.vertnbr 2 [c, leafBlock (g.vertnbr - l.length)])

/-- `listnbr`. -/
def listSize (g : Graph) : Option (List Int) → Int
  | none => g.vertnbr
  | some l => l.length

/-- `SCOTCH_graphOrderInit` followed by `SCOTCH_graphOrderComputeList` — library_graph_order.c:115, 238–388. The result is the return code, the ordering, and the arrays of the user. -/
def graphOrder (env : Env) (st : Strat) (g : Graph) (l : Option (List Int)) (peritab : Arr Int) (t : Tabs) : M (Int × Order × Tabs) := do
  let o0 : Order := ⟨g.baseval, g.vertnbr, 1, 1, leafBlock g.vertnbr, peritab⟩
  if listSize g l = 0 then do
    let p ← forUp 0 g.vertnbr peritab fun i p => p.wr i (i + g.baseval)
    return (1, { o0 with peritab := p }, t)
  else do
    let (r, o, c) ← orderList env st g l ⟨peritab, 1, 1, 0⟩
    let o : Order := ⟨g.baseval, g.vertnbr, o.treenbr, o.cblknbr, c, o.peritab⟩
    if r ≠ 0 then return (r, o, t)
    else do
      let permtab ← fillTab t.permtab (fun a => orderPeri o.peritab g.baseval o.vnodnbr a g.baseval)
      let rangtab ← fillTab t.rangtab (orderRang o)
      let treetab ← fillTab t.treetab (orderTree o)
      return (0, o, ⟨permtab, rangtab, treetab, t.cblkptr.map fun _ => o.cblknbr⟩)

end Scotch.HOrder
