import Verif.HOrder.LemmasRes
import Verif.HOrder.ModelHd
import Verif.Graph.Decide
import Verif.Separ.PropsSt

/-!
# C26, C55: orderings

C26: the ordering of a graph is a permutation of its vertices, with a coherent tree of column blocks, for all strategies that are made of the modelled methods, and the arrays of the user describe it. C55: the tree of column
blocks tells the truth on the structure of the graph: blocks that it says to be independent are not connected.
-/

set_option autoImplicit false

namespace Scotch.HOrder
open Graph

/-- Ordering of a graph, or of a list of its vertices. If the strategy succeeds, the result is a valid ordering: a permutation of the vertices, with a coherent tree of column blocks and right counters; the arrays of the user describe it. -/
theorem C26_graphOrder (env : Env) (hal : env.al = 1 ∨ env.al = 2) (cls : Graph → Prop) (hcl : Hered cls) (tot sure : Bool) (st : Strat) (hg : Good cls tot sure true st) (g : Graph) (hcls : cls g) (hc : g.Consistent) (ha : g.Allocated) (hb : 0 ≤ g.baseval) (hv : g.vnumtax = none)
    (he : g.edlosum = g.edgenbr) (l : Option (List Int)) (hl : ListOk g l) (peritab : Arr Int) (hp : peritab.lo ≤ 0 ∧ g.vertnbr ≤ peritab.hi) (t : Tabs) (ht : TabsOk g t) :
    Meets tot (graphOrder env st g l peritab t) (fun r => (sure = true → r.1 = 0) ∧
      (r.1 = 0 → r.2.1.baseval = g.baseval ∧ r.2.1.vnodnbr = g.vertnbr ∧ ValidOrder r.2.1 ∧ Filled r.2.1 t r.2.2)) :=
  (graphOrder_holds hal hcl hg hcls hc ha hb hv he hl hp.1 hp.2 ht).mono fun _ h => ⟨h.1, fun e => ⟨(h.2 e).1.1, (h.2 e).1.2, (h.2 e).2.1, (h.2 e).2.2.2.2⟩⟩

/-- The tree of column blocks separates the vertices. -/
theorem C55_separates (env : Env) (hal : env.al = 1 ∨ env.al = 2) (cls : Graph → Prop) (hcl : Hered cls) (tot sure : Bool) (st : Strat) (hg : Good cls tot sure true st) (g : Graph) (hcls : cls g) (hc : g.Consistent) (ha : g.Allocated) (hb : 0 ≤ g.baseval) (hv : g.vnumtax = none)
    (he : g.edlosum = g.edgenbr) (hn : 1 ≤ g.vertnbr) (peritab : Arr Int) (hp : peritab.lo ≤ 0 ∧ g.vertnbr ≤ peritab.hi) (t : Tabs) (ht : TabsOk g t) :
    Meets tot (graphOrder env st g none peritab t) (fun r => r.1 = 0 → r.2.1.cblktre.Separates (NearIn g r.2.1) 0) :=
  (graphOrder_holds (l := none) hal hcl hg hcls hc ha hb hv he hn hp.1 hp.2 ht).mono fun _ h e => (h.2 e).2.2.2.1

/-- For the ordering of a list of vertices, these come first, and the blocks that hold them are separated as the tree says. What is missing is that the block of the other vertices, that the tree says to be independent from the ones of the
list, is connected to them in general: see `C55_list_wrong`. -/
theorem C55_list_partial (env : Env) (hal : env.al = 1 ∨ env.al = 2) (cls : Graph → Prop) (hcl : Hered cls) (tot sure : Bool) (st : Strat) (hg : Good cls tot sure true st) (g : Graph) (hcls : cls g) (hc : g.Consistent) (ha : g.Allocated) (hb : 0 ≤ g.baseval) (hv : g.vnumtax = none)
    (he : g.edlosum = g.edgenbr) (l : List Int) (hnd : l.Nodup) (hlv : ∀ v ∈ l, g.Vertex v) (h0 : l ≠ []) (hlt : (l.length : Int) < g.vertnbr) (peritab : Arr Int) (hp : peritab.lo ≤ 0 ∧ g.vertnbr ≤ peritab.hi) (t : Tabs) (ht : TabsOk g t) :
    Meets tot (graphOrder env st g (some l) peritab t) (fun r => r.1 = 0 → (∀ i : Int, 0 ≤ i → i < l.length → r.2.1.peritab.get i ∈ l) ∧
      ∃ c d, r.2.1.cblktre = .node ORDERCBLKDICO g.vertnbr 2 [c, d] ∧ c.vnodnbr = l.length ∧ c.Separates (NearIn g r.2.1) 0) :=
  (graphOrder_holds (l := some l) hal hcl hg hcls hc ha hb hv he ⟨hnd, hlv, h0, hlt⟩ hp.1 hp.2 ht).mono fun _ h e => (h.2 e).2.2.2.1

/-- Any good strategy, on any part of an ordering: the vertices of a halo graph that are not in its halo are ordered, and no other cell of the permutation is modified. -/
theorem C26_strategy (env : Env) (hal : env.al = 1 ∨ env.al = 2) (cls : Graph → Prop) (hcl : Hered cls) (tot sure top : Bool) (st : Strat) (hg : Good cls tot sure top st) : Orders cls tot sure top (orderSt env st) :=
  orderSt_orders hal hcl st hg

/-- The graph induced by a list of vertices, with its halo, is a consistent halo graph that has exactly the vertices of the list, their outer neighbours, and the arcs between them, except arcs between halo vertices. -/
theorem C26_induce (h : Hgraph) (m : HMem) (hc : HCons h) (ha : HAlloc h) (hb : 0 ≤ h.s.baseval) (l : List Int) (hnd : l.Nodup) (hl : ∀ v ∈ l, h.s.Vertex v) (halonbr : Int) (h0 : 0 ≤ halonbr)
    (hcap : Band.total h.s (fun x => x ∉ l ∧ ∃ y ∈ l, Adj h.s y x) (fun _ => 1) ≤ halonbr) : Holds (hinduce h m l halonbr) (fun h' => HCons h' ∧ HAlloc h' ∧ ∃ f, HInduced h l h' f) :=
  hinduce_holds m hc ha hb hnd hl h0 hcap

/-- Separation strategies that are right on the graphs of a class (see `C29_strategy`) can be used in nested dissection. -/
theorem C26_separation (cls : Graph → Prop) (tot : Bool) (senv : Separ.SEnv) (he : senv.Ok cls) (fuel : Nat) (sure : Bool) (s : Separ.SStrat) (hg : Separ.SGood cls tot sure s) : SepOk cls tot sure (sepOf senv fuel s) :=
  sepOf_ok he fuel hg

/-- Compression, whatever the values of the sums by which twins are looked for: the result is a consistent halo graph, in which only vertices that have the same neighbours have been put together. -/
theorem C26_compressed (h : Hgraph) (hc : HCons h) (ha : HAlloc h) (hb : 0 ≤ h.s.baseval) (hn : 1 ≤ h.vnohnbr) (hsum : Arr Int) (h1 : hsum.lo = h.s.baseval) (h2 : hsum.hi = h.vnohnnd) (junk : Int → Int) (mate : Int → CpMate) (junk' : Nat → Int → Int) :
    Holds (do let msk ← cpHashMask h.s.degrmax; cpBuild h junk' msk (← cpVerts h msk junk mate hsum)) (fun r => HCons r.1 ∧ HAlloc r.1 ∧ ∃ φ, Compresses h r.1 φ) := by
  have H : CpH h := ⟨hc, ha, hb, hn⟩
  have hd := H.w.degrmax.1
  rw [Holds_bind]
  refine (cpHashMask_holds h.s.degrmax).mono ?_
  rintro msk ⟨m1, m2, m3⟩
  rw [Holds_bind]
  refine (cpVerts_holds H m3 m1 h1 h2 junk mate).mono ?_
  intro b I
  refine (cpBuild_holds H junk' m3 (by omega) I).mono ?_
  rintro r ⟨φ, ρ, C, A, B⟩
  exact ⟨B.hcons C, B.halloc C, φ, compresses C B⟩

/-! ## Cases -/

/-- A cycle of four vertices. -/
def exT : Graph :=
  { baseval := 1, vertnbr := 4, vertnnd := 5, verttax := Arr.ofList 1 [1, 3, 5, 7, 9], vendtax := none, velotax := none, velosum := 4, vnumtax := none, vlbltax := none,
    edgenbr := 8, edgetax := Arr.ofList 1 [2, 4, 1, 3, 2, 4, 1, 3], edlotax := none, edlosum := 8, degrmax := 2 }

theorem exT_cons : exT.Consistent := consB_sound (by decide +kernel)
theorem exT_alloc : exT.Allocated := allocB_sound (by decide +kernel)

/-- Legal draws. -/
def exS : Separ.SEnv :=
  { junk := fun _ _ => 7, store := fun _ => ⟨0, 0, 0, 0, 0, Arr.ofList 0 [], Arr.ofList 0 []⟩,
    gg := fun _ b _ => ⟨fun _ => 0, 0, ⟨0, b.s.vertnbr, fun i => b.s.vertnnd - 1 - i⟩, fun x => x.natAbs⟩, absI := fun x => x.natAbs,
    fmJunk := fun _ _ => ⟨0, ⟨2, 0, 0, 0⟩⟩, order := fun _ _ _ => [], mat := fun _ _ => 0, coarsen := fun _ _ => return none,
    blank := fun _ => ⟨exT, Arr.ofList 0 [], Arr.ofList 0 [], 0, 0, 0, 0, 0, 0, 0, 0, 0⟩, df := fun _ => Separ.exSd }

/-- Memory full of sevens. -/
def exEnv : Env := ⟨1, fun _ => ⟨fun _ => 7, fun _ => 7, fun _ => 7, fun _ => 7, fun _ => 7⟩, fun _ => ⟨fun _ => 7, fun _ => 7, fun _ => 7, fun _ => 7⟩, fun _ _ => 7⟩

/-- Graphs of more than three vertices are separated. -/
def exSep : Separ.SStrat := .cond (fun _ b => some (decide (b.s.vertnbr > 3))) (.gp 1) .zr

theorem exSep_good : Separ.SGood (fun _ => True) true true exSep := ⟨fun _ _ _ => by simp, trivial, trivial⟩

theorem exS_ok {cls : Graph → Prop} : exS.Ok cls := by
  refine ⟨?_, ?_, ?_⟩
  rotate_left
  · intro _ _ _ x hx; cases hx
  · intro p g _ _ _ _
    show Coarsen.Shrinks g none ∧ ∀ r, none = some r → _
    exact ⟨fun r h => (by cases h), fun r h => (by cases h)⟩
  intro p b k h
  have h1 := h.size
  have h2 := h.cons.vertnnd
  refine ⟨⟨Int.le_refl 0, ?_⟩, ⟨Int.le_refl 0, Int.le_refl _⟩, ?_⟩
  · show (0 : Int) < b.s.vertnbr
    omega
  · intro i hi1 hi2
    show b.s.baseval ≤ b.s.vertnnd - 1 - i ∧ b.s.vertnnd - 1 - i < b.s.vertnnd
    omega

/-- Nested dissection of each of the components. -/
def exSt : Strat := .cc (.nd (sepOf exS 0 exSep) (.gp 3) .si)

/-- Arrays of the user. -/
def exTabs (base : Int) (n : Nat) : Tabs :=
  ⟨some (Arr.ofList 0 (List.replicate n 99)), some (Arr.ofList 0 (List.replicate (n + 1) 99)), some (Arr.ofList base (List.replicate n 99)), some 0⟩

/-- Fresh permutation array. -/
def exPeri (n : Nat) : Arr Int := Arr.ofList 0 (List.replicate n 77)

theorem exSt_good : Good (fun _ => True) true true true exSt := ⟨rfl, sepOf_ok exS_ok 0 exSep_good, trivial, trivial⟩

example : ListOk exT none ∧ ListOk exT (some [4, 3, 1]) ∧ exT.vnumtax = none ∧ exT.edlosum = exT.edgenbr ∧ TabsOk exT (exTabs 1 4) := by
  refine ⟨show (1 : Int) ≤ 4 by decide, ⟨by decide, ?_, by decide, by decide⟩, rfl, rfl, ?_, ?_, ?_⟩
  · intro v hv
    simp only [List.mem_cons, List.not_mem_nil, or_false] at hv
    rcases hv with rfl | rfl | rfl <;> decide
  all_goals
    intro a ha
    cases ha
    exact ⟨by decide, by decide⟩

/-- What is shown of an ordering. -/
def show' (r : Int × Order × Tabs) : Int × List Int × List Int × Option (List Int) × Option (List Int) :=
  (r.1, r.2.1.peritab.toList, [r.2.1.treenbr, r.2.1.cblknbr], r.2.2.permtab.map Arr.toList, r.2.2.treetab.map Arr.toList)

example : (graphOrder exEnv exSt exT none (exPeri 4) (exTabs 1 4)).map show' = .ok (0, [3, 1, 2, 4], [4, 3], some [2, 3, 1, 4], some [3, 3, -1, 99]) := by decide +kernel

theorem exCls_hered : Hered Separ.exCls := by
  rintro g g' ⟨c1, ⟨c2, c3⟩, c4⟩ n
  have := n.base
  have := n.size
  have := n.nnd
  exact ⟨by omega, ⟨by omega, by omega⟩, n.velo c4⟩

/-- Separation by multilevel, growing on the coarsest graph, and refinement of bands, while there are more than three vertices. -/
def exSep2 : Separ.SStrat := .cond (fun _ b => some (decide (b.s.vertnbr > 3))) (.ml (.bd 3 (.fm ⟨200, 1000⟩) (.concat (.select .empty (.gg 10)) (.fm ⟨200, 1000⟩))) (.gg 10)) .zr

/-- Nested dissection with this separation. Refinement may not end: correctness is partial. -/
theorem exSt2_good (fuel : Nat) : Good Separ.exCls false true true (.nd (sepOf Separ.exS fuel exSep2) (.gp 3) .si) :=
  ⟨sepOf_ok Separ.exS_ok fuel ⟨fun _ _ _ => by simp,
    ⟨⟨⟨rfl, (by decide : (0 : Int) ≤ 200), Separ.exCls_fine⟩, ⟨⟨trivial, trivial⟩, rfl, (by decide : (0 : Int) ≤ 200), Separ.exCls_fine⟩, Separ.exCls_band⟩, trivial⟩, trivial⟩, trivial, trivial⟩

set_option maxRecDepth 100000 in
example : (graphOrder exEnv (.nd (sepOf Separ.exS 30 (.cond (fun _ b => some (decide (b.s.vertnbr > 4))) (.concat (.gp 1) (.fm ⟨10, 5⟩)) .zr)) (.gp 3) .si) Separ.exG7 none (exPeri 7) (exTabs 0 7)).map show' =
    .ok (0, [6, 5, 4, 3, 1, 0, 2], [4, 3], some [5, 4, 6, 3, 2, 1, 0], some [2, 2, -1, 99, 99, 99, 99]) := by decide +kernel

/-- A triangle, and another vertex. -/
def exW : Graph :=
  { baseval := 1, vertnbr := 4, vertnnd := 5, verttax := Arr.ofList 1 [1, 3, 5, 8, 9], vendtax := none, velotax := none, velosum := 4, vnumtax := none, vlbltax := none,
    edgenbr := 8, edgetax := Arr.ofList 1 [2, 3, 1, 3, 1, 2, 4, 3], edlotax := none, edlosum := 8, degrmax := 3 }

theorem exW_cons : exW.Consistent := consB_sound (by decide +kernel)
theorem exW_alloc : exW.Allocated := allocB_sound (by decide +kernel)

/-- Compression if there is at most 80 percent of the vertices. -/
def exCp : CpPara := ⟨2, fun a b => decide (a * 10 > b * 8)⟩

/-- Nested dissection of the compressed graph. -/
def exStC : Strat := .cp exCp (.nd (sepOf exS 0 (.cond (fun _ b => some (decide (b.s.vertnbr > 2))) (.gp 1) .zr)) (.gp 3) .si) exSt

theorem exStC_good : Good (fun _ => True) true true true exStC := ⟨rfl, by decide, fun _ _ _ _ => trivial, ⟨sepOf_ok exS_ok 0 ⟨fun _ _ _ => by simp, trivial, trivial⟩, trivial, trivial⟩, exSt_good⟩

example : (graphOrder exEnv exStC exW none (exPeri 4) (exTabs 1 4)).map show' = .ok (0, [4, 1, 2, 3], [4, 3], some [2, 3, 4, 1], some [3, 3, -1, 99]) := by decide +kernel

/-- A path, with and without loads. -/
def exV : Graph :=
  { baseval := 1, vertnbr := 5, vertnnd := 6, verttax := Arr.ofList 1 [1, 2, 4, 6, 8, 9], vendtax := none, velotax := some (Arr.ofList 1 [1, 2, 1, 2, 1]), velosum := 7, vnumtax := none, vlbltax := none,
    edgenbr := 8, edgetax := Arr.ofList 1 [2, 1, 3, 2, 4, 3, 5, 4], edlotax := none, edlosum := 8, degrmax := 2 }

def exU : Graph := { exV with velotax := none, velosum := 5 }

theorem exV_cons : exV.Consistent := consB_sound (by decide +kernel)
theorem exV_alloc : exV.Allocated := allocB_sound (by decide +kernel)
theorem exU_cons : exU.Consistent := consB_sound (by decide +kernel)
theorem exU_alloc : exU.Allocated := allocB_sound (by decide +kernel)

/-- Partitioning of the vertices in turn. -/
def exPart : Parter := fun _ g k => return some ⟨g.baseval, g.vertnnd, fun v => v % k⟩

theorem exPart_ok (cls : Graph → Prop) : PartOk cls true true exPart := by
  intro t g k _ _ hk _ _
  unfold exPart
  rw [Meets_pure]
  refine ⟨(fun _ hx => by cases hx), ?_⟩
  intro a ha
  cases ha
  exact ⟨Int.le_refl _, Int.le_refl _, fun v _ => ⟨Int.emod_nonneg _ (by omega), Int.emod_lt_of_pos _ (by omega)⟩⟩

/-- Leaves are ordered by parts. -/
def exStK : Strat := .nd (sepOf exS 0 exSep) (.kp 1 exPart) .si

theorem exStK_good (top : Bool) : Good (fun _ => True) true true top exStK := ⟨sepOf_ok exS_ok 0 ⟨fun _ _ _ => by simp, trivial, trivial⟩, exPart_ok _, trivial⟩

example : (graphOrder exEnv exStK exV none (exPeri 5) (exTabs 1 5)).map show' = .ok (0, [5, 4, 2, 1, 3], [8, 5], some [4, 3, 5, 2, 1], some [2, 5, 4, 5, -1]) := by decide +kernel

/-- Leaves are made of blocks. -/
def exStB : Strat := .nd (sepOf exS 0 exSep) (.bl 0 1 .si) .si

theorem exStB_good (top : Bool) : Good (fun g => g.velotax = none) true true top exStB :=
  ⟨sepOf_ok exS_ok 0 ⟨fun _ _ _ => by simp, trivial, trivial⟩, ⟨fun _ => by decide, trivial, trivial, fun _ h => h⟩, trivial⟩

example : Hered (fun g => g.velotax = none) := fun _ _ h w => w.loads h

example : (graphOrder exEnv exStB exU none (exPeri 5) (exTabs 1 5)).map show' = .ok (0, [4, 5, 1, 2, 3], [8, 5], some [3, 4, 5, 1, 2], some [2, 5, 4, 5, -1]) := by decide +kernel

/-- Elimination in the order of vertices: each vertex is the father of the one that precedes it. -/
def exKern : HxKern := fun _ x => return some ⟨fun i => if i < x.n then -(i + 1) else 0, fun _ => 1, fun _ => 7, fun _ => 7⟩

theorem exKern_ok (cls : Graph → Prop) : KernOk cls true true exKern := by
  intro t h x hc _ _ _ _ X
  unfold exKern
  rw [Meets_pure]
  refine ⟨(fun _ hx => by cases hx), ?_⟩
  intro r hr
  cases hr
  have hn := hc.nbr
  have hpe : ∀ i : Int, i < x.n → (if i < x.n then -(i + 1) else 0) = -(i + 1) := fun i hi => if_pos hi
  have hp0 : ∀ i : Int, ¬ i < x.n → (if i < x.n then -(i + 1) else 0) = 0 := fun i hi => if_neg hi
  refine ⟨fun _ _ _ => show (0 : Int) ≤ 1 by decide, ?_, fun _ _ _ h => (Int.one_ne_zero h).elim, fun _ _ _ _ _ _ => show (1 : Int) ≠ 0 by decide, fun i => i - 1, fun i i1 i2 => by dsimp only; omega, ?_⟩
  · intro i i1 i2
    dsimp only
    have := X.n
    by_cases hi : i < x.n
    · rw [hpe i hi]; omega
    · rw [hp0 i hi]; omega
  · intro i i1 i2 _ h1 h2
    dsimp only at h1 h2 ⊢
    by_cases hi : i < x.n
    · rw [hpe i hi]; omega
    · rw [hp0 i hi] at h1; omega

/-- Leaves are ordered by minimum degree; blocks of a vertex are merged with their fathers. -/
def exStH : Strat := .nd (sepOf exS 0 exSep) (.hx false ⟨2, 3, fun _ _ _ => false⟩ exKern) .si

theorem exStH_good (top : Bool) : Good (fun g => ∀ v, g.Vertex v → 0 < g.velo v) true true top exStH :=
  ⟨sepOf_ok exS_ok 0 ⟨fun _ _ _ => by simp, trivial, trivial⟩, ⟨exKern_ok _, fun _ h => h, fun h => absurd h (by decide)⟩, trivial⟩

example : Hered (fun g => ∀ v, g.Vertex v → 0 < g.velo v) := fun _ _ h w => w.velo h

/-- A tree with a secondary vertex, on the whole graph. -/
def exStH2 : Strat := .hx true ⟨0, 2, fun _ _ _ => true⟩ (fun _ _ => return some ⟨fun i => [-3, -1, -4, -5, 0].getD (i - 1).toNat 0, fun i => [2, 0, 1, 1, 1].getD (i - 1).toNat 0, fun _ => 7, fun _ => 7⟩)


example : (graphOrder exEnv exStH exV none (exPeri 5) (exTabs 1 5)).map show' = .ok (0, [4, 5, 2, 1, 3], [6, 4], some [4, 3, 5, 1, 2], some [2, 4, 4, -1, 99]) := by decide +kernel
example : (graphOrder exEnv exStH2 exU none (exPeri 5) (exTabs 1 5)).map show' = .ok (0, [1, 2, 4, 3, 5], [4, 3], some [1, 2, 4, 3, 5], some [2, 3, -1, 99, 99]) := by decide +kernel

theorem meets_holds {α : Type} {x : M α} {Q : α → Prop} (h : Meets true x Q) : Holds x Q := h

/-! ## Disagreements -/

/-- Order of the separator by connected components. -/
def exCc : Strat := .nd (sepOf exS 0 exSep) .si (.cc .si)

/-- `hgraphOrderCc` numbers the vertices of components from 0 on, whatever the position it is given (hgraph_order_cc.c:180): when it is used inside a nested dissection, the ordering is not a permutation, although no error is reported. -/
theorem C26_cc_inside : ∃ o t, graphOrder exEnv exCc exT none (exPeri 4) ⟨none, none, none, none⟩ = .ok (0, o, t) ∧ ¬ ValidOrder o := by
  have h : (graphOrder exEnv exCc exT none (exPeri 4) ⟨none, none, none, none⟩).map (fun r => (r.1, r.2.1.baseval, r.2.1.vnodnbr, r.2.1.peritab.get 3)) = .ok (0, 1, 4, 77) := by decide +kernel
  cases hr : graphOrder exEnv exCc exT none (exPeri 4) ⟨none, none, none, none⟩ with
  | error e => rw [hr] at h; cases h
  | ok r =>
    obtain ⟨c, o, t⟩ := r
    rw [hr] at h
    injection h with h
    rw [Prod.ext_iff, Prod.ext_iff, Prod.ext_iff] at h
    obtain ⟨h1, h2, h3, h4⟩ := h
    dsimp only at h1 h2 h3 h4
    refine ⟨o, t, by rw [h1], ?_⟩
    intro V
    have := V.perm.1 3 (by omega) (by rw [h3]; omega)
    rw [h2, h3, h4] at this
    omega

/-- Leaves that are compressed. -/
def exCpIn : Strat := .nd (sepOf exS 0 exSep) (.cp ⟨2, fun a b => decide (a > b)⟩ .si .si) .si

/-- `hgraphOrderCp` numbers vertices from 0 on, whatever the position it is given (hgraph_order_cp.c:478–489): when it is used inside a nested dissection, the ordering is not a permutation, although no error is reported. -/
theorem C26_cp_inside : ∃ o t, graphOrder exEnv exCpIn exT none (exPeri 4) ⟨none, none, none, none⟩ = .ok (0, o, t) ∧ ¬ ValidOrder o := by
  have h : (graphOrder exEnv exCpIn exT none (exPeri 4) ⟨none, none, none, none⟩).map (fun r => (r.1, r.2.1.baseval, r.2.1.vnodnbr, r.2.1.peritab.get 1)) = .ok (0, 1, 4, 77) := by decide +kernel
  cases hr : graphOrder exEnv exCpIn exT none (exPeri 4) ⟨none, none, none, none⟩ with
  | error e => rw [hr] at h; cases h
  | ok r =>
    obtain ⟨c, o, t⟩ := r
    rw [hr] at h
    injection h with h
    rw [Prod.ext_iff, Prod.ext_iff, Prod.ext_iff] at h
    obtain ⟨h1, h2, h3, h4⟩ := h
    dsimp only at h1 h2 h3 h4
    refine ⟨o, t, by rw [h1], ?_⟩
    intro V
    have := V.perm.1 1 (by omega) (by rw [h3]; omega)
    rw [h2, h3, h4] at this
    omega

theorem error_of_map {α : Type} {x : M α} {e : Fault} (h : x.map (fun _ => ()) = .error e) : x = .error e := by
  cases x with
  | error e' => cases h; rfl
  | ok a => cases h

/-- `hgraphOrderBl` takes the values of the permutation, which are numbers of vertices of the graph of the user, for vertices of the graph it is given (hgraph_order_bl.c:161): the loads are read
out of bounds when it is used inside a nested dissection. -/
theorem C26_bl_inside : exV.Consistent ∧ exV.Allocated ∧ graphOrder exEnv exStB exV none (exPeri 5) ⟨none, none, none, none⟩ = .error .oob := by
  exact ⟨exV_cons, exV_alloc, error_of_map (by decide +kernel)⟩

/-- Two vertices without neighbours. -/
def exIso : Graph :=
  { baseval := 1, vertnbr := 2, vertnnd := 3, verttax := Arr.ofList 1 [1, 1, 1], vendtax := none, velotax := none, velosum := 2, vnumtax := none, vlbltax := none,
    edgenbr := 0, edgetax := Arr.ofList 1 [], edlotax := none, edlosum := 0, degrmax := 0 }

theorem exIso_cons : exIso.Consistent := consB_sound (by decide +kernel)

theorem exIso_parts (f : Int → Int) (t k : Int) (n : Nat) (v : Int) : ∃ f' t' k' n', orderSt exEnv (.cc .si) (noHalo exIso 0) 0 ⟨⟨0, 2, f⟩, t, k, n⟩ (leafBlock v) =
    .ok (0, ⟨⟨0, 2, f'⟩, t', k', n'⟩, .node ORDERCBLKDICO v 2 [leafBlock 1, leafBlock 1]) := ⟨_, _, _, _, rfl⟩

/-- `hgraphOrderBl` applies its strategy to the whole graph again for each of the blocks that it makes (hgraph_order_bl.c:188–193): with a strategy that makes several blocks, it does not end, however many nested calls are allowed. -/
theorem C26_bl_endless (fuel : Nat) : ∀ (f : Int → Int) (t k : Int) (n : Nat) (v : Int), orderSt exEnv (.bl fuel 1 (.cc .si)) (noHalo exIso 0) 0 ⟨⟨0, 2, f⟩, t, k, n⟩ (leafBlock v) = .error .fuel := by
  have key : ∀ (m : Nat) (f : Int → Int) (t k : Int) (n : Nat) (v : Int), blGo (orderSt exEnv (.cc .si)) 1 m (noHalo exIso 0) 0 ⟨⟨0, 2, f⟩, t, k, n⟩ (leafBlock v) = .error .fuel := by
    intro m
    induction m with
    | zero => intro f t k n v; rfl
    | succ m ih =>
      intro f t k n v
      obtain ⟨f', t', k', n', he⟩ := exIso_parts f t k n v
      unfold blGo
      rw [if_neg (by decide), he]
      show (do let (r, o, sons) ← blSons _ [leafBlock 1, leafBlock 1] 2 _ []; _) = _
      rw [blSons, ih f' t' k' n' 1]
      rfl
  intro f t k n v
  unfold orderSt orderBl
  rw [if_neg (by decide)]
  exact key _ f t k n v

/-- Vertices without neighbours, that have loads. -/
def exIsoV : Graph := { exIso with velotax := some (Arr.ofList 1 [2, 1]), velosum := 3 }

theorem exIsoV_cons : exIsoV.Consistent := consB_sound (by decide +kernel)
theorem exIsoV_alloc : exIsoV.Allocated := allocB_sound (by decide +kernel)

/-- `hallOrderHdR2Halmd` counts the vertices that have no neighbours, instead of summing their loads (hall_order_hd.c:498; hall_order_hf.c:844 is right): it looks for a pivot when there is none left, and fails. This holds for every fill of
memory, and whatever is done with pivots. -/
theorem C26_hd_isolated (junk : Nat → Int → Int) (fuel : Nat) (pivot : Int → HdS → M HdS) (final : HdS → M HxOut) (p : HxPara) (hp : p.colmin ≤ 3) : exIsoV.Consistent ∧ exIsoV.Allocated ∧
    (graphOrder exEnv (.hx true p (hdKern junk (fuel + 1) pivot final)) exIsoV none (exPeri 2) ⟨none, none, none, none⟩).map (fun r => r.1) = .ok 1 := by
  refine ⟨exIsoV_cons, exIsoV_alloc, ?_⟩
  have h : (orderHx exEnv true p (hdKern junk (fuel + 1) pivot final) (noHalo exIsoV 0) 0 ⟨exPeri 2, 1, 1, 0⟩ (leafBlock 2)).map (fun r => r.1) = .ok 1 := by
    unfold orderHx
    rw [if_neg (by show ¬ (3 : Int) < p.colmin; omega)]
    rfl
  cases hr : orderHx exEnv true p (hdKern junk (fuel + 1) pivot final) (noHalo exIsoV 0) 0 ⟨exPeri 2, 1, 1, 0⟩ (leafBlock 2) with
  | error e => rw [hr] at h; cases h
  | ok r =>
    obtain ⟨c, o, t⟩ := r
    rw [hr] at h
    injection h with h
    dsimp only at h
    unfold graphOrder
    rw [if_neg (by decide)]
    unfold orderList
    dsimp only
    rw [show orderSt exEnv (.hx true p (hdKern junk (fuel + 1) pivot final)) (noHalo (dropEdlo exIsoV) 0) 0 ⟨exPeri 2, 1, 1, 0⟩ (leafBlock exIsoV.vertnbr) = .ok (c, o, t) from hr, h]
    rfl

/-- Without loads, it does not. -/
example : (graphOrder exEnv (.hx true ⟨0, 9, fun _ _ _ => true⟩ (hdKern (fun _ _ => 7) 1 (fun _ s => return s) (fun s => return ⟨s.x.pe.get, s.x.nv.get, s.next.get, s.last.get⟩))) exIso none (exPeri 2) (exTabs 1 2)).map show' =
    .ok (0, [2, 1], [3, 2], some [2, 1], some [2, -1]) := by decide +kernel

/-- Leaves that cannot be ordered. -/
def exLeaf : Strat := .nd (sepOf exS 0 exSep) .concat .si

/-- `hgraphOrderNd` ignores the failure of the ordering of leaves (hgraph_order_nd.c:178): the permutation is not filled, although no error is reported. -/
theorem C26_leaf_failure : ∃ o t, graphOrder exEnv exLeaf exT none (exPeri 4) ⟨none, none, none, none⟩ = .ok (0, o, t) ∧ ¬ ValidOrder o := by
  have h : (graphOrder exEnv exLeaf exT none (exPeri 4) ⟨none, none, none, none⟩).map (fun r => (r.1, r.2.1.baseval, r.2.1.vnodnbr, r.2.1.peritab.get 0)) = .ok (0, 1, 4, 77) := by decide +kernel
  cases hr : graphOrder exEnv exLeaf exT none (exPeri 4) ⟨none, none, none, none⟩ with
  | error e => rw [hr] at h; cases h
  | ok r =>
    obtain ⟨c, o, t⟩ := r
    rw [hr] at h
    injection h with h
    rw [Prod.ext_iff, Prod.ext_iff, Prod.ext_iff] at h
    obtain ⟨h1, h2, h3, h4⟩ := h
    dsimp only at h1 h2 h3 h4
    refine ⟨o, t, by rw [h1], ?_⟩
    intro V
    have := V.perm.1 0 (by omega) (by rw [h3]; omega)
    rw [h2, h3, h4] at this
    omega

/-- A conditional strategy without an else part. -/
def exIf : Strat := .cond1 (fun _ => some false) .si

/-- `hgraphOrderSt` does nothing when the test of a conditional strategy is false and there is no other strategy (hgraph_order_st.c:294–297): the permutation is not filled, although no error is reported. -/
theorem C26_no_else : ∃ o t, graphOrder exEnv exIf exT none (exPeri 4) ⟨none, none, none, none⟩ = .ok (0, o, t) ∧ ¬ ValidOrder o := by
  have h : (graphOrder exEnv exIf exT none (exPeri 4) ⟨none, none, none, none⟩).map (fun r => (r.1, r.2.1.baseval, r.2.1.vnodnbr, r.2.1.peritab.get 0)) = .ok (0, 1, 4, 77) := by decide +kernel
  cases hr : graphOrder exEnv exIf exT none (exPeri 4) ⟨none, none, none, none⟩ with
  | error e => rw [hr] at h; cases h
  | ok r =>
    obtain ⟨c, o, t⟩ := r
    rw [hr] at h
    injection h with h
    rw [Prod.ext_iff, Prod.ext_iff, Prod.ext_iff] at h
    obtain ⟨h1, h2, h3, h4⟩ := h
    dsimp only at h1 h2 h3 h4
    refine ⟨o, t, by rw [h1], ?_⟩
    intro V
    have := V.perm.1 0 (by omega) (by rw [h3]; omega)
    rw [h2, h3, h4] at this
    omega

/-- For an empty list of vertices, `SCOTCH_graphOrderComputeList` fails, and does not fill the direct permutation (library_graph_order.c:278–281). -/
theorem C26_empty_list : (graphOrder exEnv .si exT (some []) (exPeri 4) (exTabs 1 4)).map show' = .ok (1, [1, 2, 3, 4], [1, 1], some [99, 99, 99, 99], some [99, 99, 99, 99]) := by decide +kernel

/-- Vertices 4 and 7 of some other graph. -/
def exP : Graph :=
  { baseval := 1, vertnbr := 2, vertnnd := 3, verttax := Arr.ofList 1 [1, 2, 3], vendtax := none, velotax := none, velosum := 2, vnumtax := none, vlbltax := none,
    edgenbr := 2, edgetax := Arr.ofList 1 [2, 1], edlotax := none, edlosum := 2, degrmax := 1 }

/-- A graph that has been induced from another graph is ordered with the numbers of vertices of that graph, so that the computation of the direct permutation writes out of bounds. -/
theorem C26_induced_graph : ({ exP with vnumtax := some (Arr.ofList 1 [4, 7]) } : Graph).Consistent ∧ ({ exP with vnumtax := some (Arr.ofList 1 [4, 7]) } : Graph).Allocated ∧
    graphOrder exEnv .si { exP with vnumtax := some (Arr.ofList 1 [4, 7]) } none (exPeri 2) (exTabs 1 2) = .error .oob :=
  ⟨consB_sound (by decide +kernel), allocB_sound (by decide +kernel), by rfl⟩

/-- The ordering of a list of vertices describes these vertices and the other ones as two disconnected components (library_graph_order.c:319), whereas there are arcs between them; hence, fathers of column blocks are wrong. -/
theorem C55_list_wrong : ∃ r, graphOrder exEnv .si exP (some [1]) (exPeri 2) ⟨none, none, none, none⟩ = .ok r ∧ r.1 = 0 ∧ ¬ r.2.1.cblktre.Separates (NearIn exP r.2.1) 0 := by
  have h : (graphOrder exEnv .si exP (some [1]) (exPeri 2) ⟨none, none, none, none⟩).map (fun r => (r.1, r.2.1.peritab.get 0, r.2.1.peritab.get 1)) = .ok (0, 1, 2) := by decide +kernel
  cases hr : graphOrder exEnv .si exP (some [1]) (exPeri 2) ⟨none, none, none, none⟩ with
  | error e => rw [hr] at h; cases h
  | ok r =>
    refine ⟨r, rfl, ?_⟩
    obtain ⟨c, o, t⟩ := r
    rw [hr] at h
    injection h with h
    rw [Prod.ext_iff, Prod.ext_iff] at h
    obtain ⟨h1, h2, h3⟩ := h
    dsimp only at h1 h2 h3
    refine ⟨h1, ?_⟩
    have hx2 := C55_list_partial exEnv (Or.inl rfl) (fun _ => True) (fun _ _ _ _ => trivial) true true .si trivial exP trivial (consB_sound (by decide +kernel)) (allocB_sound (by decide +kernel)) (by decide) rfl rfl [1] (by decide)
      (by intro v hv; rw [List.mem_singleton] at hv; subst hv; decide) (by decide) (by decide) (exPeri 2) ⟨by decide, by decide⟩ ⟨none, none, none, none⟩
      ⟨fun a h => (by cases h), fun a h => (by cases h), fun a h => (by cases h)⟩
    obtain ⟨_, c0, d0, e1, e2, _⟩ := Holds.elim (meets_holds hx2) hr h1
    have hV := C26_graphOrder exEnv (Or.inl rfl) (fun _ => True) (fun _ _ _ _ => trivial) true true .si trivial exP trivial (consB_sound (by decide +kernel)) (allocB_sound (by decide +kernel)) (by decide) rfl rfl (some [1])
      ⟨by decide, by intro v hv; rw [List.mem_singleton] at hv; subst hv; decide, by decide, by decide⟩ (exPeri 2) ⟨by decide, by decide⟩ ⟨none, none, none, none⟩
      ⟨fun a h => (by cases h), fun a h => (by cases h), fun a h => (by cases h)⟩
    have hT := ((Holds.elim (meets_holds hV) hr).2 h1).2.2.1.tree
    replace e1 : o.cblktre = _ := e1
    change ¬ o.cblktre.Separates (NearIn exP o) 0
    change o.cblktre.Coherent at hT
    rw [e1] at hT ⊢
    unfold Cblk.Coherent at hT
    have hs := hT.2.2.2.2.1
    unfold Cblk.vnodsum Cblk.vnodsum Cblk.vnodsum at hs
    rw [e2] at hs
    have hd : d0.vnodnbr = 1 := by
      have : exP.vertnbr = 2 := rfl
      have : (([1] : List Int).length : Int) = 1 := rfl
      omega
    intro hS
    unfold Cblk.Separates at hS
    have := hS.1 rfl
    unfold Cblk.spans Cblk.spans Cblk.spans at this
    rw [e2, hd, List.pairwise_cons] at this
    refine (this.1 _ (List.mem_singleton.2 rfl) 0 1 (by decide) (by decide) (by decide) (by decide)).1 ?_
    unfold NearIn
    rw [h2, h3]
    exact ⟨1, by decide, by decide, by decide⟩

end Scotch.HOrder
