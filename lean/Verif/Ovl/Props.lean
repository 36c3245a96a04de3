import Verif.Ovl.LemmasTop
import Verif.Graph.Decide

/-!
# C60: partitioning with overlap

`graphPartOvl` is the user routine; `partSt` runs a strategy. `IsPartition`, `Valid`, `Pre` and `Mt` are defined in `Ovl/Spec.lean`, and `WGood`, `WEnv.Ok` in `Ovl/SpecSt.lean`.
-/

set_option autoImplicit false

namespace Scotch.Ovl
open Separ (exS exG7 exG exCls)

/-- **C60.** Whatever the strategy, made of the modelled methods and of methods that are known to be right, every vertex is put in a part of `[0, n)` or in the separator, and no edge joins two different parts, if no error is reported. A strategy that
uses only sure methods never fails. Only the user's array is written. If `n` is not a power of two, recursive bipartitioning may follow a null pointer (flag `nul`; see `C60_null_wrong`). -/
theorem C60_part_ovl_partial (cls : Graph → Prop) (env : WEnv) (he : env.Ok cls) (fuel : Nat) (nul tot sure : Bool) (strat : WStrat) (n : Int) (hg : WGood cls env n nul tot sure false strat) (g : Graph) (C : g.Consistent) (A : g.Allocated) (hb : 0 ≤ g.baseval)
    (h1 : 1 ≤ g.vertnbr) (hv : g.vnumtax = none) (hc : cls g) (hn : 1 ≤ n) (user : Arr Int) (hu : user.lo ≤ g.baseval ∧ g.vertnnd ≤ user.hi) :
    Mt nul tot (graphPartOvl env fuel strat g n user) (fun r => (r.2.lo = user.lo ∧ r.2.hi = user.hi) ∧ (sure = true → r.1 = 0) ∧ (r.1 = 0 → IsPartition g n r.2.get)) :=
  graphPartOvl_holds he fuel hg C A hb h1 hv hc hn hu

/-- **C60.** If the number of parts is a power of two, partitioning by recursive bipartitioning always succeeds, whatever the separations and the order in which threads access the shared arrays, if the separation strategy always ends and succeeds. -/
theorem C60_rb (scls : Graph → Prop) (hcl : Closed scls) (env : WEnv) (he : env.Ok scls) (hs : env.sep.Ok scls) (sep : Separ.SStrat) (hg : Separ.SGood scls true true sep) (fuel : Nat) (k : Nat) (g : Graph) (C : g.Consistent) (A : g.Allocated) (hb : 0 ≤ g.baseval)
    (h1 : 1 ≤ g.vertnbr) (hv : g.vnumtax = none) (hc : scls g) (user : Arr Int) (hu : user.lo ≤ g.baseval ∧ g.vertnnd ≤ user.hi) :
    Holds (graphPartOvl env fuel (.rb sep) g (2 ^ k) user) (fun r => (r.2.lo = user.lo ∧ r.2.hi = user.hi) ∧ r.1 = 0 ∧ IsPartition g (2 ^ k) r.2.get) := by
  have hn : (1 : Int) ≤ 2 ^ k := one_le_pow₀ (by decide)
  have h : WGood scls env (2 ^ k) false true true false (.rb sep) := ⟨Or.inr ⟨k, rfl⟩, scls, hcl, fun _ h => h, hs, hg⟩
  exact (graphPartOvl_holds he fuel h C A hb h1 hv hc hn hu).holds.mono fun r hr => ⟨hr.1, hr.2.1 rfl, hr.2.2 (hr.2.1 rfl)⟩

/-- **C60.** The values that strategies see — frontier, loads and sizes of parts, load of the separator — are those of the part array, if no error is reported. Flag `init` tells that the strategy starts from a valid partition. -/
theorem C60_strategy (cls : Graph → Prop) (env : WEnv) (he : env.Ok cls) (fuel : Nat) (n : Int) (nul tot sure init : Bool) (s : WStrat) (hg : WGood cls env n nul tot sure init s) (p : Path) : PartMethod cls n nul tot sure init (partSt env fuel s p) :=
  partSt_holds he fuel s sure init hg p

/-- **C60.** The loads and the sizes of parts that are computed from a part array are right: the vertices of the separator count in all the parts of their neighbours, once each. -/
theorem C60_cost (b : Wgraph) (C : b.s.Consistent) (A : Alloc b) (hb : 0 ≤ b.s.baseval) (hn : 1 ≤ b.partnbr) (hP : IsPartition b.s b.partnbr b.part) (hF : Enum b.frontab b.fronnbr (fun v => b.s.Vertex v ∧ b.part v = -1)) (junk : Int → Int) :
    Holds (cost junk b) (fun b' => SameProblem b b' ∧ Valid b' ∧ b'.parttax = b.parttax ∧ b'.frontab = b.frontab ∧ b'.fronnbr = b.fronnbr) :=
  cost_holds C A hb hn hP hF junk

/-- **C60.** Multilevel: a valid partition of a contracted graph gives a valid partition of the graph, where the vertices of a pair are in the part of the pair; the load of the separator is the same. -/
theorem C60_ml_level (b cb : Wgraph) (hb : Pre b) (mate : Int → Int) (r : Coarsen.Result) (P : Coarsen.Pairing b.s mate) (K : Coarsen.Contracted b.s mate r) (hs : cb.s = r.graph)
    (hp : cb.parttax.lo ≤ cb.s.baseval ∧ cb.s.vertnnd ≤ cb.parttax.hi) (hn : cb.partnbr = b.partnbr) (V : Valid cb) (junk0 junk1 : Int → Int) :
    Holds (mlUncoarsen junk0 junk1 b cb r.mult) (fun b' => Valid b' ∧ SameProblem b b' ∧ (∀ v, b.s.Vertex v → b'.part v = cb.part (r.coar.get v)) ∧ b'.fronload = cb.fronload) :=
  mlUncoarsen_holds hb P K ⟨hs, hp, hn⟩ V junk0 junk1

/-- **C60.** A selection between two strategies, the second of which does not fail, gives a partition whose separator is not heavier than those of both; the second strategy starts from the same parts as the first one. The error code is the one of the
first strategy. -/
theorem C60_select_partial (cls : Graph → Prop) (env : WEnv) (he : env.Ok cls) (fuel : Nat) (n : Int) (nul tot sure : Bool) (s t : WStrat) (gs : WGood cls env n nul tot sure true s) (gt : WGood cls env n nul tot true true t) (p : Path) (b : Wgraph) (hb : Pre b)
    (hc : cls b.s) (hn : b.partnbr = n) (V : Valid b) :
    Mt nul tot (partSt env fuel (.select s t) p b) (fun r => Res sure b r ∧ ∃ r1 b2 r2, partSt env fuel s (1 :: p) b = .ok r1 ∧ SameProblem b b2 ∧ Valid b2 ∧ (∀ v, b.s.Vertex v → b2.part v = b.part v) ∧
      partSt env fuel t (2 :: p) b2 = .ok r2 ∧ r.1 = r1.1 ∧ r.2.fronload ≤ r1.2.fronload ∧ r.2.fronload ≤ r2.2.fronload) :=
  select_holds fuel (partSt_holds he fuel s sure true gs) (partSt_holds he fuel t true true gt) p hb hc hn V

/-! ## Cases -/

/-- Memory filled with 7; accesses to shared arrays in reverse order. -/
def exRb : RbEnv := ⟨fun _ b => .ok (0, b), fun _ => ⟨fun _ => 7, fun _ => 7, fun _ => 7, fun _ => 7⟩, 2, fun _ => Separ.exB, fun _ => true, List.reverse⟩

def exNone : Arr Int := Arr.ofList 0 []

def exW : WEnv := ⟨exS.coarsen, fun _ _ => 7, fun _ => ⟨exG, 7, 7, 7, exNone, exNone, exNone, exNone⟩, fun _ => ⟨7, 7, 7, exNone, exNone, exNone, exNone⟩, exRb, exS⟩

theorem exW_ok : exW.Ok exCls := by
  refine ⟨Or.inr rfl, fun l => List.reverse_perm l, ?_⟩
  intro p g C A hb hc
  refine (Holds.with (Separ.exS_ok.coarsen p g C A hb hc) (coarsen_vnum 1000000 8 (fun _ => (7, 7)) Separ.exCJ ⟨g, false, none, none, false⟩ 3 g.vertnbr)).mono ?_
  rintro o ⟨⟨h1, h2⟩, h3⟩
  exact ⟨h1, fun r hr => ⟨h2 r hr, h3 r hr⟩⟩

/-- The user's array, before. -/
def exU : Arr Int := Arr.ofList 0 [9, 9, 9, 9, 9, 9, 9]

theorem exG7_cons : exG7.Consistent := Graph.consB_sound (by decide +kernel)
theorem exG7_alloc : exG7.Allocated := Graph.allocB_sound (by decide +kernel)

theorem exG7_cls : exCls exG7 := by
  refine ⟨by decide, by decide, ?_⟩
  rintro v ⟨h1, h2⟩
  change 0 ≤ v at h1
  change v < 7 at h2
  rcases (by omega : v = 0 ∨ v = 1 ∨ v = 2 ∨ v = 3 ∨ v = 4 ∨ v = 5 ∨ v = 6) with rfl | rfl | rfl | rfl | rfl | rfl | rfl <;> decide

/-- What is shown of a partition. -/
def show' (r : Int × Wgraph) : Int × List Int × Int × Int × List Int × List Int :=
  (r.1, r.2.parttax.toList, r.2.fronnbr, r.2.fronload, r.2.compload.toList, r.2.compsize.toList)

/-- Hypotheses of `C60_rb`; four parts, one of which is empty, and a separator of three vertices. -/
example : Closed exCls ∧ exW.Ok exCls ∧ exW.sep.Ok exCls ∧ Separ.SGood exCls true true (.gp 2) ∧ exG7.Consistent ∧ exG7.Allocated ∧ exCls exG7 :=
  ⟨exCls_closed, exW_ok, Separ.exS_ok, trivial, exG7_cons, exG7_alloc, exG7_cls⟩
set_option maxRecDepth 100000 in
example : (graphPartOvl exW 20 (.rb (.gp 2)) exG7 4 exU).map (fun r => (r.1, r.2.toList)) = .ok (0, [-1, 1, -1, -1, 3, 3, 3]) := by decide +kernel
set_option maxRecDepth 100000 in
example : (partSt exW 20 (.rb (.gp 2)) [0] (alloc exW [] exG7 3 exU)).map show' = .ok (0, [0, -1, 1, -1, 2, 2, 2], 2, 7, [6, 8, 8], [2, 3, 4]) := by decide +kernel

/-- Multilevel, with a selection at each level. -/
def exMl : WStrat := .ml (.select .empty (.rb (.gp 2))) (.rb (.gp 2))

example : WGood exCls exW 2 false true true false exMl :=
  have h : ∀ b, WGood exCls exW 2 false true true b (.rb (.gp 2)) := fun _ => ⟨Or.inr ⟨1, rfl⟩, exCls, exCls_closed, fun _ h => h, Separ.exS_ok, trivial⟩
  ⟨⟨rfl, rfl, h true⟩, h true⟩
set_option maxRecDepth 100000 in
example : (partSt exW 20 exMl [0] (alloc exW [] exG7 2 exU)).map show' = .ok (0, [0, 0, -1, 1, 1, 1, 1], 1, 1, [7, 9], [3, 5]) := by decide +kernel

/-- A partition in three parts, before its loads are computed. -/
def exPart : Wgraph := { alloc exW [] exG7 3 (Arr.ofList 0 [0, -1, 1, -1, 2, 2, 2]) with frontab := Arr.ofList 0 [3, 1, 7, 7, 7, 7, 7], fronnbr := 2 }

theorem exPart_is : IsPartition exG7 3 exPart.part := by
  constructor
  · rintro v ⟨h1, h2⟩
    change 0 ≤ v at h1
    change v < 7 at h2
    rcases (by omega : v = 0 ∨ v = 1 ∨ v = 2 ∨ v = 3 ∨ v = 4 ∨ v = 5 ∨ v = 6) with rfl | rfl | rfl | rfl | rfl | rfl | rfl <;> decide
  · rintro v p ⟨h1, h2⟩ hp
    change 0 ≤ v at h1
    change v < 7 at h2
    have key : ∀ p ∈ exG7.nbrs v, 0 ≤ exPart.part v → 0 ≤ exPart.part p.1 → exPart.part p.1 = exPart.part v := by
      rcases (by omega : v = 0 ∨ v = 1 ∨ v = 2 ∨ v = 3 ∨ v = 4 ∨ v = 5 ∨ v = 6) with rfl | rfl | rfl | rfl | rfl | rfl | rfl <;> decide +kernel
    exact key p hp

theorem exPart_fron : Enum exPart.frontab exPart.fronnbr (fun v => exG7.Vertex v ∧ exPart.part v = -1) := by
  refine ⟨by decide, ?_, ?_⟩
  · intro i j i1 i2 j1 j2 h
    change i < 2 at i2
    change j < 2 at j2
    rcases (by omega : i = 0 ∨ i = 1) with rfl | rfl <;> rcases (by omega : j = 0 ∨ j = 1) with rfl | rfl <;> first | rfl | exact absurd h (by decide)
  · intro v
    constructor
    · rintro ⟨⟨h1, h2⟩, h3⟩
      change 0 ≤ v at h1
      change v < 7 at h2
      rcases (by omega : v = 0 ∨ v = 1 ∨ v = 2 ∨ v = 3 ∨ v = 4 ∨ v = 5 ∨ v = 6) with rfl | rfl | rfl | rfl | rfl | rfl | rfl <;>
        first | exact absurd h3 (by decide) | exact ⟨0, by decide, by decide, rfl⟩ | exact ⟨1, by decide, by decide, rfl⟩
    · rintro ⟨i, i1, i2, rfl⟩
      change i < 2 at i2
      rcases (by omega : i = 0 ∨ i = 1) with rfl | rfl <;> exact ⟨⟨by decide, by decide⟩, by decide⟩

example : exPart.s.Consistent ∧ Alloc exPart ∧ IsPartition exPart.s exPart.partnbr exPart.part ∧ Enum exPart.frontab exPart.fronnbr (fun v => exPart.s.Vertex v ∧ exPart.part v = -1) :=
  ⟨exG7_cons, ⟨exG7_alloc, by decide, by decide, by decide, by decide⟩, exPart_is, exPart_fron⟩
example : (cost (fun _ => 7) exPart).map (fun b => (b.fronload, b.compload.toList, b.compsize.toList)) = .ok (7, [6, 8, 8], [2, 3, 4]) := by decide +kernel

/-! ## Where the program is wrong -/

/-- With three parts, a separation that leaves part 1 empty makes the program follow a null pointer (wgraph_part_rb.c:300, called from 367): the part array of the graph is read although there is none. -/
theorem C60_null_wrong : ∃ env strat g n user, env.Ok exCls ∧ WGood exCls env n true true true false strat ∧ g.Consistent ∧ g.Allocated ∧ 0 ≤ g.baseval ∧ 1 ≤ g.vertnbr ∧ g.vnumtax = none ∧ exCls g ∧ 1 ≤ n ∧ (user.lo ≤ g.baseval ∧ g.vertnnd ≤ user.hi) ∧
    graphPartOvl env 20 strat g n user = .error .null :=
  ⟨exW, .rb .zr, exG7, 3, exU, exW_ok, ⟨Or.inl rfl, exCls, exCls_closed, fun _ h => h, Separ.exS_ok, trivial⟩, exG7_cons, exG7_alloc, by decide, by decide, rfl, exG7_cls, by decide, by decide, by decide +kernel⟩

/-- A subgraph, whose vertices remember their numbers in another graph. -/
def exSub : Graph := { exG with vnumtax := some (Arr.ofList 1 [11, 12, 13, 14]) }

/-- If the user's graph is a subgraph of another one, recursive bipartitioning writes parts at the numbers of vertices in the other graph, out of the user's array (wgraph_part_rb.c:183–266). -/
theorem C60_subgraph_wrong : ∃ env strat g n user, env.Ok exCls ∧ WGood exCls env n false true true false strat ∧ g.Consistent ∧ g.Allocated ∧ 0 ≤ g.baseval ∧ 1 ≤ g.vertnbr ∧ exCls g ∧ 1 ≤ n ∧ (user.lo ≤ g.baseval ∧ g.vertnnd ≤ user.hi) ∧
    graphPartOvl env 20 strat g n user = .error .oob := by
  refine ⟨exW, .rb (.gp 2), exSub, 2, Arr.ofList 1 [9, 9, 9, 9], exW_ok, ⟨Or.inr ⟨1, rfl⟩, exCls, exCls_closed, fun _ h => h, Separ.exS_ok, trivial⟩, Graph.consB_sound (by decide +kernel), Graph.allocB_sound (by decide +kernel), by decide, by decide, ?_,
    by decide, by decide, ?_⟩
  · exact ⟨by decide, by decide, Separ.exB_fm.velo⟩
  · set_option maxRecDepth 100000 in decide +kernel

/-- The library routine does not initialise the partition (library_graph_part_ovl.c:104–121): strategies `z` and the empty one may leave the user's array unchanged, and report success. -/
theorem C60_zero_wrong : ∃ env g n user, env.Ok exCls ∧ g.Consistent ∧ g.Allocated ∧ 0 ≤ g.baseval ∧ 1 ≤ g.vertnbr ∧ g.vnumtax = none ∧ exCls g ∧ 1 ≤ n ∧ (user.lo ≤ g.baseval ∧ g.vertnnd ≤ user.hi) ∧
    graphPartOvl env 20 .zr g n user = .ok (0, user) ∧ graphPartOvl env 20 .empty g n user = .ok (0, user) ∧ ¬ IsPartition g n user.get := by
  refine ⟨exW, exG7, 4, exU, exW_ok, exG7_cons, exG7_alloc, by decide, by decide, rfl, exG7_cls, by decide, by decide, rfl, rfl, ?_⟩
  intro h
  have := (h.range 0 (by unfold Graph.Vertex; decide)).2
  exact absurd this (by decide)

/-- What the witness below shows. -/
def key (r : Int × Wgraph) : Int × Int × Int × Int × Int := (r.1, r.2.fronnbr, r.2.s.baseval, r.2.s.vertnnd, r.2.part 2)

/-- A strategy that fails on subgraphs. -/
def exFail : WStrat := .rb (.cond (fun _ b => if b.s.vertnbr < 7 then none else some true) (.gp 2) .empty)

/-- A selection whose second strategy fails keeps what this strategy has left, and reports success if the first strategy succeeds: the frontier and the loads are not those of the parts (wgraph_part_st.c:248–263). -/
theorem C60_select_wrong : ∃ env s t b, env.Ok exCls ∧ Pre b ∧ Valid b ∧ exCls b.s ∧ WGood exCls env b.partnbr false true true true s ∧ WGood exCls env b.partnbr false true false true t ∧
    ∃ r, partSt env 20 (.select s t) [] b = .ok (0, r) ∧ ¬ Valid r := by
  have hp : Pre (alloc exW [] exG7 4 exU) := ⟨exG7_cons, ⟨exG7_alloc, by decide, by decide, by decide, by decide⟩, by decide, by decide, rfl, by decide⟩
  obtain ⟨b, hb, S, V, -⟩ : ∃ b, zero (alloc exW [] exG7 4 exU) = .ok b ∧ SameProblem (alloc exW [] exG7 4 exU) b ∧ Valid b ∧ True := by
    have h := zero_holds hp.cons hp.alloc hp.parts
    revert h
    cases zero (alloc exW [] exG7 4 exU) with
    | ok b => exact fun h => ⟨b, rfl, h.1, h.2.1, trivial⟩
    | error e => exact fun h => absurd h (fun h => h)
  refine ⟨exW, .empty, exFail, b, exW_ok, S.pre hp, V, by rw [S.s]; exact exG7_cls, rfl, ?_, ?_⟩
  · rw [S.partnbr]
    exact ⟨Or.inr ⟨2, rfl⟩, exCls, exCls_closed, fun _ h => h, Separ.exS_ok, (by refine ⟨fun h => ?_, trivial, trivial⟩; cases h)⟩
  · have e : (do let b ← zero (alloc exW [] exG7 4 exU); partSt exW 20 (.select .empty exFail) [] b).map key = .ok (0, 0, 0, 7, -1) := by
      set_option maxRecDepth 100000 in decide +kernel
    rw [hb] at e
    change (partSt exW 20 (.select .empty exFail) [] b).map _ = _ at e
    revert e
    cases partSt exW 20 (.select .empty exFail) [] b with
    | error e => intro h; cases h
    | ok r =>
      obtain ⟨o, r⟩ := r
      intro h
      have h : key (o, r) = (0, 0, 0, 7, -1) := by injection h
      simp only [key, Prod.mk.injEq] at h
      obtain ⟨rfl, h1, h2, h3, h4⟩ := h
      refine ⟨r, rfl, fun V => ?_⟩
      obtain ⟨i, i1, i2, -⟩ := (V.fron.2.2 2).1 ⟨⟨by omega, by omega⟩, h4⟩
      omega

end Scotch.Ovl
