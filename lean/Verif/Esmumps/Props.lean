import Verif.Esmumps.Lemmas
import Verif.Build.Props
import Verif.Fax.Props

/-!
# C57 — Assembly trees given to MUMPS

`esmumps` (`esmumpsv` for weighted graphs) orders the graph of a matrix and gives the assembly tree of the ordering, for every valid ordering that may be computed.
-/

set_option autoImplicit false

namespace Scotch

open Esmumps Build Fax

/-- The graph that the parameters of `esmumps` describe: vertex numbers and indices start from 1, each vertex has a list of neighbours given by its start and its length. -/
def emArgs (weighted : Bool) (n pfree : Int) (pe len iw nv : Arr Int) : Args :=
  ⟨1, n, pe, some ⟨0, n, fun i => pe.get i + len.get i⟩, if weighted then some nv else none, none, pfree - 1, iw, none⟩

/-- Arrays of ends that have the same contents describe the same graph. -/
theorem ends_congr {x : Args} {a b : Arr Int} (hx : x.vendtab = some a) (hb : b.lo ≤ 0 ∧ x.vertnbr ≤ b.hi) (h : ∀ i, 0 ≤ i → i < x.vertnbr → b.get i = a.get i) (S : x.Sized) (L : x.Legal) :
    ({ x with vendtab := some b } : Args).Sized ∧ ({ x with vendtab := some b } : Args).Legal ∧ ∀ g, ({ x with vendtab := some b } : Args).Represents g → x.Represents g := by
  have hl : ∀ i, 0 ≤ i → i < x.vertnbr → ({ x with vendtab := some b } : Args).last i = x.last i := by
    intro i i1 i2
    show b.get i - x.baseval = x.last i
    unfold Args.last
    rw [hx, h i i1 i2]
  have hN : ∀ i, 0 ≤ i → i < x.vertnbr → ({ x with vendtab := some b } : Args).nbrs i = x.nbrs i := by
    intro i i1 i2
    unfold Args.nbrs
    rw [hl i i1 i2]
    rfl
  have hS : ∀ f : List (Int × Int) → Int, sumI 0 x.vertnbr (fun i => f (({ x with vendtab := some b } : Args).nbrs i)) = sumI 0 x.vertnbr (fun i => f (x.nbrs i)) := fun f => sumI_congr fun i i1 i2 => by rw [hN i i1 i2]
  refine ⟨⟨S.vertnbr, S.vert, (fun h => by cases h), ?_, S.velo, S.vlbl, ?_, ?_⟩, ⟨?_, ?_, ?_, ?_, ?_, L.velo, ?_⟩, ?_⟩
  · intro c hc
    obtain rfl := Option.some.inj hc
    exact hb
  · intro i i1 i2
    rw [hl i i1 i2]
    exact S.edge i i1 i2
  · intro c hc i i1 i2
    rw [hl i i1 i2]
    exact S.edlo c hc i i1 i2
  · intro i i1 i2
    rw [hl i i1 i2]
    exact L.range i i1 i2
  · intro i p i1 i2
    rw [hN i i1 i2]
    exact L.inside i p i1 i2
  · intro i p i1 i2 hp
    rw [hN i i1 i2] at hp
    have := L.inside i p i1 i2 hp
    rw [hN _ (show 0 ≤ p.1 - x.baseval by omega) (show p.1 - x.baseval < x.vertnbr by omega)]
    exact L.symm i p i1 i2 hp
  · intro i i1 i2
    rw [hN i i1 i2]
    exact L.simple i i1 i2
  · exact L.edgenbr.trans (hS fun l => l.length).symm
  · intro i p i1 i2
    rw [hN i i1 i2]
    exact L.edlo i p i1 i2
  · intro g R
    refine ⟨R.baseval, R.vertnbr, R.vertnnd, R.edgenbr, ?_, ?_, R.velo, R.vlbl, R.velosum, ?_, R.degrmax.1, ?_, ?_⟩
    · intro i i1 i2
      have := R.range i i1 i2
      rw [hl i i1 i2] at this
      exact this
    · intro i i1 i2
      rw [← hN i i1 i2]
      exact R.nbrs i i1 i2
    · rw [R.edlosum]
      exact congrArg (fun t => if x.edlotab.isNone then x.edgenbr else t) (hS fun l => (l.map Prod.snd).sum)
    · intro i i1 i2
      rw [← hN i i1 i2]
      exact R.degrmax.2.1 i i1 i2
    · rcases R.degrmax.2.2 with h | ⟨i, i1, i2, h⟩
      · exact .inl h
      · exact .inr ⟨i, i1, i2, by rw [← hN i i1 i2]; exact h⟩

theorem esmumps_may {env : Env} {weighted : Bool} {n pfree : Int} {pe len iw nv : Arr Int} (hn : 0 < n) (hbits : n < 2 ^ env.bits) (S : (emArgs weighted n pfree pe len iw nv).Sized)
    (L : (emArgs weighted n pfree pe len iw nv).Legal) (hlen : len.lo ≤ 0 ∧ n ≤ len.hi) (hnv : nv.lo ≤ 0 ∧ n ≤ nv.hi) (hord : ∀ g, (emArgs weighted n pfree pe len iw nv).Represents g → g.Consistent → g.Allocated → Holds (env.order g) (fun o => o.Valid g)) (hs : 0 ≤ env.slack) :
    May (env.slack + 3 * 1 < 4) (esmumps2 env weighted n pfree pe len iw nv) (fun r => r.1 = 0 ∧ ∃ g o, (emArgs weighted n pfree pe len iw nv).Represents g ∧ env.order g = .ok o ∧
      Tree g o g.velo (fun v => r.2.1.get (v - 1)) (fun v => r.2.2.get (v - 1))) := by
  classical
  unfold esmumps2
  rw [May_bind]
  refine May.mono (Holds.may (emEnds_holds env.ends (Int.le_of_lt hn) S.vert hlen)) ?_
  rintro ends ⟨e1, e2, e3⟩
  obtain ⟨S', L', hR⟩ := ends_congr (x := emArgs weighted n pfree pe len iw nv) (b := ends) rfl ⟨by omega, show n ≤ ends.hi by omega⟩ e3 S L
  rw [May_bind]
  refine May.mono (Holds.may (graphBuild_holds S')) ?_
  rintro g ⟨A, R'⟩
  have C : g.Consistent := (Build.Represents.consistent S'.vertnbr R').2 L'
  have R := hR g R'
  have hb : g.baseval = 1 := R.baseval
  have hvn : g.vertnbr = n := R.vertnbr
  have hnd := C.vertnnd
  rw [May_bind]
  obtain ⟨o, ho, V⟩ := Holds_iff_exists.1 (hord g R C A)
  rw [ho, May_ok, May_bind]
  have hf := symbolFax_may (slack := env.slack) (bits := env.bits) env.junk C A V (by omega) hs (by omega) (by omega)
  rw [hb] at hf
  refine May.mono hf ?_
  intro Sy r
  have W := r.wf
  have hfill : ∀ k, IsBlock g o k → ∀ i, o.rang.get (k + 1) ≤ i → (Covers Sy k i ↔ Fill (BlockEntry g o) (o.rang.get (k + 1) - 1) i) := fun k hk => (r.fill C V hk.1 hk.2).1
  rw [May_bind]
  refine May.mono (Holds.may (Holds_forUp (Inv g o (fun k => sumI g.baseval g.vertnnd (fun i => if Cov Sy k (Sy.cblk.get (k + 1)).blok i then g.velo (o.peri.get i) else 0)) (fath Sy o) weighted g.velo)
    (by rw [W.cblknbr]; have := V.nbr; omega) ?_ ?_ (fun _ h => h))) ?_
  · have hv : ∀ v, g.Vertex v → 1 ≤ v ∧ v < n + 1 := fun v hv => ⟨by have := hv.1; omega, by have := hv.2; omega⟩
    have hpe := S.vert
    refine ⟨?_, ?_, ?_, ?_⟩
    · intro v h
      have := hv v h
      have h1 : pe.lo ≤ 0 := hpe.1
      have h2 : n ≤ pe.hi := hpe.2
      exact ⟨show pe.lo + 1 ≤ v by omega, show v < pe.hi + 1 by omega⟩
    · intro v h
      have := hv v h
      exact ⟨show nv.lo + 1 ≤ v by omega, show v < nv.hi + 1 by omega⟩
    · intro c c1 c2
      omega
    · intro i i1 i2
      have h1 := V.first
      rw [hb] at h1
      have hp := (V.peri i ⟨by omega, i2⟩).1
      have hp' := hv _ hp
      have hw := R.velo (o.peri.get i - 1) (by omega) (show o.peri.get i - 1 < n by omega)
      rw [show (emArgs weighted n pfree pe len iw nv).baseval + (o.peri.get i - 1) = o.peri.get i from show 1 + (o.peri.get i - 1) = o.peri.get i by omega] at hw
      rw [hw]
      cases weighted <;> rfl
  · intro k s k1 k2 I
    have hk : IsBlock g o k := ⟨by omega, by rw [W.cblknbr] at k2; omega⟩
    refine emCblk_holds V W hnd hk ?_ I
    intro dec
    exact sumI_congr fun i _ _ => by
      by_cases h : Cov Sy k (Sy.cblk.get (k + 1)).blok i
      · rw [if_pos h, if_pos h]
      · rw [if_neg h, if_neg h]
  · rintro ⟨pe', nv'⟩ I
    rw [W.cblknbr, show o.cblknbr + 1 = g.baseval + o.cblknbr by omega] at I
    refine ⟨rfl, g, o, R, ho, ?_⟩
    have T := tree_of V W hnd hfill (fun k dec => sumI_congr fun i _ _ => by
      by_cases h : Cov Sy k (Sy.cblk.get (k + 1)).blok i
      · rw [if_pos h, if_pos h]
      · rw [if_neg h, if_neg h]) I
    have h1 : (fun v => (unbased 1 pe').get (v - 1)) = pe'.get := funext fun v => show pe'.get (v - 1 + 1) = pe'.get v by rw [show v - 1 + 1 = v by omega]
    have h2 : (fun v => (unbased 1 nv').get (v - 1)) = nv'.get := funext fun v => show nv'.get (v - 1 + 1) = nv'.get v by rw [show v - 1 + 1 = v by omega]
    show Tree g o g.velo (fun v => (unbased 1 pe').get (v - 1)) (fun v => (unbased 1 nv').get (v - 1))
    rw [h1, h2]
    exact T

/-- C57. Given arrays that describe a graph, of at least one vertex, and an ordering routine that gives a valid ordering, `esmumps` and `esmumpsv` end without any access outside of memory and give the assembly tree of the ordering:
secondary variables refer to the principal variable of their block, principal variables have the weight of all the rows of their front, and refer to the principal variable of the block of the first row below, if any. For
weighted graphs, weights are read properly although the same array holds the results. One integer must be available after the end of the array of blocks, because of C39. -/
theorem C57_tree {env : Env} {weighted : Bool} {n pfree : Int} {pe len iw nv : Arr Int} (hn : 0 < n) (hbits : n < 2 ^ env.bits) (S : (emArgs weighted n pfree pe len iw nv).Sized)
    (L : (emArgs weighted n pfree pe len iw nv).Legal) (hlen : len.lo ≤ 0 ∧ n ≤ len.hi) (hnv : nv.lo ≤ 0 ∧ n ≤ nv.hi) (hord : ∀ g, (emArgs weighted n pfree pe len iw nv).Represents g → g.Consistent → g.Allocated → Holds (env.order g) (fun o => o.Valid g)) (hs : 1 ≤ env.slack) :
    Holds (esmumps2 env weighted n pfree pe len iw nv) (fun r => r.1 = 0 ∧ ∃ g o, (emArgs weighted n pfree pe len iw nv).Represents g ∧ env.order g = .ok o ∧
      Tree g o g.velo (fun v => r.2.1.get (v - 1)) (fun v => r.2.2.get (v - 1))) :=
  May.holds (esmumps_may hn hbits S L hlen hnv hord (by omega)) (by omega)

/-- C57, for the code as it is (no memory after the end of the array of blocks): if symbolic factorization does not go out of the memory it owns then the tree is right. -/
theorem C57_tree_partial {env : Env} {weighted : Bool} {n pfree : Int} {pe len iw nv : Arr Int} (hn : 0 < n) (hbits : n < 2 ^ env.bits) (S : (emArgs weighted n pfree pe len iw nv).Sized)
    (L : (emArgs weighted n pfree pe len iw nv).Legal) (hlen : len.lo ≤ 0 ∧ n ≤ len.hi) (hnv : nv.lo ≤ 0 ∧ n ≤ nv.hi) (hord : ∀ g, (emArgs weighted n pfree pe len iw nv).Represents g → g.Consistent → g.Allocated → Holds (env.order g) (fun o => o.Valid g)) (hs : env.slack = 0) :
    Post (esmumps2 env weighted n pfree pe len iw nv) (fun r => r.1 = 0 ∧ ∃ g o, (emArgs weighted n pfree pe len iw nv).Represents g ∧ env.order g = .ok o ∧
      Tree g o g.velo (fun v => r.2.1.get (v - 1)) (fun v => r.2.2.get (v - 1))) :=
  May.post (esmumps_may hn hbits S L hlen hnv hord (by omega))

/-- C57. An assembly tree has no cycles: the father of a principal variable is the one of a later block. -/
theorem C57_forest {g : Graph} {o : Order} {w pe nv : Int → Int} (T : Tree g o w pe nv) (k : Int) (hk : IsBlock g o k) :
    pe (principal o k) = 0 ∨ ∃ f, IsBlock g o f ∧ k < f ∧ pe (principal o k) = - principal o f := by
  classical
  by_cases h : ∃ i, Below g o k i
  · obtain ⟨i, hi⟩ := h
    have : ∃ m : Nat, Below g o k (o.rang.get (k + 1) + m) := ⟨(i - o.rang.get (k + 1)).toNat, by rw [show o.rang.get (k + 1) + ((i - o.rang.get (k + 1)).toNat : Int) = i by have := hi.1; omega]; exact hi⟩
    obtain ⟨f, f1, f2, f3, f4⟩ := T.father k (o.rang.get (k + 1) + Nat.find this) hk (Nat.find_spec this) (by
      intro j hj
      have h1 := hj.1
      have := Nat.find_min' this (m := (j - o.rang.get (k + 1)).toNat) (by rw [show o.rang.get (k + 1) + ((j - o.rang.get (k + 1)).toNat : Int) = j by omega]; exact hj)
      omega)
    exact .inr ⟨f, f1, f2, f4⟩
  · exact .inl (T.root k hk fun i hi => h ⟨i, hi⟩)


/-! ## A path of three vertices of weights 4, 5 and 6, numbered from one end to the other, whose inner vertex is ordered last, in the column block of the third vertex -/

def emPe : Arr Int := Arr.ofList 0 [1, 2, 4]
def emLen : Arr Int := Arr.ofList 0 [1, 2, 1]
def emIw : Arr Int := Arr.ofList 0 [2, 1, 3, 2]
def emNv : Arr Int := Arr.ofList 0 [4, 5, 6]

def emO : Fax.Order := ⟨2, Arr.ofList 1 [1, 2, 4], Arr.ofList 1 [1, 3, 2], Arr.ofList 1 [1, 3, 2]⟩

def emEnv : Env := ⟨fun _ => .ok emO, 1, 31, faxJ, fun _ => 7⟩

theorem em_sized : (emArgs true 3 5 emPe emLen emIw emNv).Sized := by
  have h3 : ∀ i : Int, 0 ≤ i → i < (emArgs true 3 5 emPe emLen emIw emNv).vertnbr → i = 0 ∨ i = 1 ∨ i = 2 := by
    intro i h1 h2
    have h2 : i < 3 := h2
    omega
  refine ⟨by decide, by decide, (fun h => by cases h), ?_, ?_, (fun a h => by cases h), ?_, (fun a h => by cases h)⟩
  · intro a h; obtain rfl := Option.some.inj h; decide
  · intro a h; obtain rfl := Option.some.inj h; decide
  · intro i h1 h2 _
    rcases h3 i h1 h2 with rfl | rfl | rfl <;> decide

theorem em_legal : (emArgs true 3 5 emPe emLen emIw emNv).Legal := by
  have h3 : ∀ i : Int, 0 ≤ i → i < (emArgs true 3 5 emPe emLen emIw emNv).vertnbr → i = 0 ∨ i = 1 ∨ i = 2 := by
    intro i h1 h2
    have h2 : i < 3 := h2
    omega
  generalize hx : emArgs true 3 5 emPe emLen emIw emNv = x at *
  refine ⟨?_, ?_, ?_, ?_, by subst hx; decide, ?_, ?_⟩
  · intro i h1 h2
    rcases h3 i h1 h2 with rfl | rfl | rfl <;> subst hx <;> decide
  · intro i p h1 h2
    revert p
    rcases h3 i h1 h2 with rfl | rfl | rfl <;> subst hx <;> decide
  · intro i p h1 h2
    revert p
    rcases h3 i h1 h2 with rfl | rfl | rfl <;> subst hx <;> decide
  · intro i h1 h2
    rcases h3 i h1 h2 with rfl | rfl | rfl <;> subst hx <;> decide
  · intro i h1 h2
    rcases h3 i h1 h2 with rfl | rfl | rfl <;> subst hx <;> decide
  · intro i p h1 h2
    revert p
    rcases h3 i h1 h2 with rfl | rfl | rfl <;> subst hx <;> decide

theorem em_order (g : Graph) (R : (emArgs true 3 5 emPe emLen emIw emNv).Represents g) : Holds (emEnv.order g) (fun o => o.Valid g) := by
  have hb : g.baseval = 1 := R.baseval
  have hn : g.vertnbr = 3 := R.vertnbr
  have hd : g.vertnnd = 4 := R.vertnnd
  have v3 : ∀ v, g.Vertex v → v = 1 ∨ v = 2 ∨ v = 3 := by
    intro v hv
    have h1 := hv.1
    have h2 := hv.2
    omega
  have hv : ∀ v, (1 ≤ v ∧ v < 4) → g.Vertex v := fun v h => ⟨by omega, by omega⟩
  show Holds (.ok emO) (fun o => o.Valid g)
  rw [Holds_ok]
  refine ⟨by decide, ?_, ?_, ?_, ?_, ?_, ?_, ?_, ?_⟩
  · rw [hb]; decide
  · rw [hb, hn]; decide
  · intro k h1 h2
    have h2 : k < g.baseval + 2 := h2
    have : k = 1 ∨ k = 2 := by omega
    rcases this with rfl | rfl <;> decide
  · intro v h
    rcases v3 v h with rfl | rfl | rfl <;> exact ⟨hv _ (by decide), by decide⟩
  · intro v h
    rcases v3 v h with rfl | rfl | rfl <;> exact ⟨hv _ (by decide), by decide⟩
  · rw [hb]; decide
  · rw [hb, hd]; decide
  · rw [hb, hd]; decide

/-- The hypotheses of C57 hold. -/
example : (0 : Int) < 3 ∧ (3 : Int) < 2 ^ emEnv.bits ∧ (emArgs true 3 5 emPe emLen emIw emNv).Sized ∧ (emArgs true 3 5 emPe emLen emIw emNv).Legal ∧ (emLen.lo ≤ 0 ∧ 3 ≤ emLen.hi) ∧ (emNv.lo ≤ 0 ∧ 3 ≤ emNv.hi) ∧
    (∀ g, (emArgs true 3 5 emPe emLen emIw emNv).Represents g → g.Consistent → g.Allocated → Holds (emEnv.order g) (fun o => o.Valid g)) ∧ 1 ≤ emEnv.slack :=
  ⟨by decide, (show (3 : Int) < 2 ^ 31 by decide), em_sized, em_legal, by decide, by decide, fun g R _ _ => em_order g R, by decide⟩

/-- What is computed: the father of vertex 1 is vertex 3, whose block has vertex 2 too. -/
theorem em_eval : (do let r ← esmumps2 emEnv true 3 5 emPe emLen emIw emNv; pure (r.1, r.2.1.toList, r.2.2.toList)) = .ok (0, [-3, -3, 0], [9, 0, 11]) := by decide +kernel

/-- The comment of `esmumps2` (esmumps.c:95–97) says that `nv` holds, for principal variables, the number of columns merged into them. It is the number of rows of their fronts instead, here with weights: 9 for vertex 1, although its
column block has no other column and its weight is 4. -/
theorem C57_columns_not : (do let r ← esmumps2 emEnv true 3 5 emPe emLen emIw emNv; pure (r.2.2.get (1 - 1))) = .ok 9 ∧ emO.rang.get 2 - emO.rang.get 1 = 1 ∧ emNv.get 0 = 4 := by
  refine ⟨by decide +kernel, by decide, by decide⟩

/-- An ordering that could not be computed: `orderGraph` leaves it as `orderInit` has set it. -/
def emFail : Fax.Order := ⟨0, ⟨0, 0, fun _ => 0⟩, ⟨0, 0, fun _ => 0⟩, ⟨0, 0, fun _ => 0⟩⟩

/-- When the ordering fails, `esmumps` reports success (0), and the arrays still hold its parameters: positions of neighbours are taken as fathers. -/
theorem C57_failure_missed : (do let r ← esmumps2 { emEnv with order := fun _ => .ok emFail } true 3 5 emPe emLen emIw emNv; pure (r.1, r.2.1.toList, r.2.2.toList)) = .ok (0, emPe.toList, emNv.toList) := by decide +kernel

/-- Arrays that describe the graph of 174 vertices of C39. -/
def emPe174 : Arr Int := ⟨0, 174, fun i => if i = 0 then 1 else if i = 1 then 3 else if i = 2 then 5 else if i = 3 then 6 else 7⟩
def emLen174 : Arr Int := ⟨0, 174, fun i => if i = 0 ∨ i = 1 then 2 else if i = 2 ∨ i = 3 then 1 else 0⟩
def emIw174 : Arr Int := Arr.ofList 0 [3, 2, 1, 4, 1, 2]
def emNv174 : Arr Int := ⟨0, 174, fun _ => 0⟩

set_option maxRecDepth 100000 in
/-- The bug of C39 can be reached: with the natural order, each column in its own block, `esmumps` writes after the end of the memory block that symbolic factorization has allocated. -/
theorem C57_oob : (do let r ← esmumps2 { emEnv with order := fun _ => .ok (faxO 1), slack := 0 } false 174 7 emPe174 emLen174 emIw174 emNv174; pure r.1) = .error .oob := by decide +kernel

end Scotch
