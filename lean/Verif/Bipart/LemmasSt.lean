import Verif.Bipart.LemmasBd7
import Verif.Bipart.LemmasDf2
import Verif.Bipart.LemmasMl
import Verif.Bipart.PropsGg
import Verif.Ends

/-! # Bipartition strategies: lemmas -/

set_option autoImplicit false
set_option linter.unusedSimpArgs false

namespace Scotch.Bipart
open Graph Coarsen

/-- Graphs that methods may be given: `max` bounds vertex numbers; if `pos` is set, edge loads are positive; if `anch` is set, there are at least two vertices, as in a band graph, whose last two vertices are anchors. -/
structure Lim where
  max : Int
  pos : Bool
  anch : Bool

/-- A bipartition problem that methods may be given. -/
structure Ready (lim : Lim) (b : Bgraph) : Prop where
  cons : b.s.Consistent
  alloc : Alloc b
  base : 0 ≤ b.s.baseval
  size : 0 < b.s.vertnbr
  top : b.s.vertnnd ≤ lim.max
  dist : 0 ≤ b.domndist
  gain : b.commgainextn0 = sumI b.s.baseval b.s.vertnnd b.veex
  vfix : b.vfixload0 = 0
  avg : 0 ≤ b.compload0avg
  pos : lim.pos = true → Loaded b.s
  anch : lim.anch = true → 2 ≤ b.s.vertnbr

/-- Draws are in range, the search in the gain table returns a vertex that may be moved, coarsening gives a contraction, and diffusion does not give values that are not numbers. -/
structure BEnv.Ok (env : BEnv) (top : Lim) : Prop where
  pick : ∀ p, PickOk (env.pick p)
  gg : ∀ p b i, b.s.Consistent → 0 < b.s.vertnbr → (env.gg p b i).Ok b.s
  coarsen : ∀ p g, g.Consistent → g.Allocated → 0 ≤ g.baseval → g.vertnnd ≤ top.max → Holds (env.coarsen p g) (Shrinks g)
  df : ∀ p, 1 ≤ (env.df p).thrdnbr ∧ ∀ x, (env.df p).flo.isnan x = false

/-- What a method must do with a valid bipartition: end, without changing the problem, and give a valid bipartition if it returns 0. If `sure` is set, it must return 0. -/
def BipMethod (top : Lim) (sure : Bool) (f : Nat → BMethod) : Prop :=
  ∀ p b, Ready top b → Valid b → Ends (fun n => f n p b) (fun r => SameProblem b r.2 ∧ (sure = true → r.1 = 0) ∧ (r.1 = 0 → Valid r.2))

/-- Strategies that are handled: refinements have parameters in range, greedy graph growing does at least one pass, methods that are not modelled are right, strategies of a selection cannot fail, band graphs and diffusion are only used when edge loads are positive, and diffusion is only used when there are at least two vertices. -/
def BGood : Lim → Bool → BStrat → Prop
  | _, _, .empty => True
  | _, _, .zr => True
  | _, _, .gp _ => True
  | _, _, .gg n => 0 < n
  | _, _, .fm para => 0 ≤ para.movenbr
  | _, _, .ex => True
  | top, s, .ml asc low => BGood { top with anch := false } s asc ∧ BGood { top with anch := false } s low
  | top, s, .bd _ bnd org => top.pos = true ∧ BGood { top with anch := true } s bnd ∧ BGood top s org
  | top, _, .df _ => top.pos = true ∧ top.anch = true
  | top, s, .concat a b => BGood top s a ∧ BGood top s b
  | top, s, .cond c a b => (s = true → ∀ p x, c p x ≠ none) ∧ BGood top s a ∧ BGood top s b
  | top, s, .cond1 c a => (s = true → ∀ p x, c p x ≠ none) ∧ BGood top s a
  | top, _, .select a b => BGood top true a ∧ BGood top true b
  | top, s, .ext f => BipMethod top s (fun _ => f)

theorem Ready.next {top : Lim} {b c : Bgraph} (R : Ready top b) (h : SameProblem b c) : Ready top c := by
  have hv : c.veex = b.veex := by funext v; unfold Bgraph.veex; rw [h.veextax]
  exact ⟨by rw [h.s]; exact R.cons, h.alloc R.alloc, by rw [h.s]; exact R.base, by rw [h.s]; exact R.size, by rw [h.s]; exact R.top, by rw [h.domn.1]; exact R.dist,
    by rw [h.extn.2, h.s, hv]; exact R.gain, by rw [h.vfix.1]; exact R.vfix, by rw [h.limits.2.2]; exact R.avg, by rw [h.s]; exact R.pos, by rw [h.s]; exact R.anch⟩

theorem Ready.drop {top : Lim} {b : Bgraph} (R : Ready top b) : Ready { top with anch := false } b :=
  ⟨R.cons, R.alloc, R.base, R.size, R.top, R.dist, R.gain, R.vfix, R.avg, R.pos, fun h => by cases h⟩

theorem BEnv.Ok.drop {top : Lim} {env : BEnv} {anch : Bool} (he : env.Ok top) : env.Ok { top with anch := anch } := ⟨he.pick, he.gg, he.coarsen, he.df⟩

theorem fmMain_mono (junk : Int → FmSave) (pick : FmPick) (para : FmParam) (all : Bool) (mit mat dltmin dltmax : Int) (b : Bgraph) :
    FuelMono (fun n => fmMain junk pick para n all mit mat dltmin dltmax b) := by
  unfold fmMain
  refine FuelMono.bind (FuelMono.const _) fun msk => ?_
  refine FuelMono.bind (FuelMono.const _) fun hash => ?_
  refine FuelMono.bind (FuelMono.loopM _ _) fun s => ?_
  exact FuelMono.const _

theorem bipartFm_mono (junk : Int → FmSave) (pick : FmPick) (gg : Bgraph → M Bgraph) (para : FmParam) (dltmat : Int) (b : Bgraph) : FuelMono (fun n => bipartFm junk pick gg para dltmat n b) := by
  unfold bipartFm
  refine FuelMono.ite (FuelMono.ite (FuelMono.const _) ?_) (fmMain_mono _ _ _ _ _ _ _ _ _)
  refine FuelMono.bind (FuelMono.const _) fun b' => ?_
  exact FuelMono.ite (FuelMono.const _) (fmMain_mono _ _ _ _ _ _ _ _ _)

theorem stFm_holds {top : Lim} {env : BEnv} (he : env.Ok top) (p : Path) {para : FmParam} (hm : 0 ≤ para.movenbr) (dltmat : Int) {b : Bgraph} (R : Ready top b) (V : Valid b) :
    Ends (fun n => stFm env n p para dltmat b) (fun b' => Valid b' ∧ SameProblem b b' ∧ (imbMin b dltmat ≤ b.compload0dlt → b.compload0dlt ≤ imbMax b dltmat → NotWorse b b')) := by
  refine Ends.of_mono (bipartFm_mono _ _ _ _ _ _) ?_
  obtain ⟨n, hn⟩ := C28_fm_partial b R.cons R.alloc V R.base R.dist (env.fmJunk p) _ (he.pick p) (bipartGg (env.junk p) (env.gg p b) 4)
    (C28_gg_partial b R.cons R.alloc R.size R.gain (env.junk p) (env.gg p b) (fun i => he.gg p b i R.cons R.size) 4 (by decide)) para hm dltmat
  refine ⟨n, fun fuel hf => (hn fuel hf).mono ?_⟩
  rintro b' ⟨h1, h2, h3, -⟩
  exact ⟨h1, h2, fun a c => (h3 a c).1⟩

theorem bipartEx_holds {top : Lim} {env : BEnv} (he : env.Ok top) (p : Path) {b : Bgraph} (R : Ready top b) (V : Valid b) :
    Ends (fun n => bipartEx env n p b) (fun b' => Valid b' ∧ SameProblem b b' ∧ (b.compload0dlt = 0 → b' = b)) := by
  unfold bipartEx
  refine Ends.ite (fun h => Ends.pure ⟨V, SameProblem.refl b, fun _ => rfl⟩) (fun h => ?_)
  refine Ends.bind (stFm_holds he (1 :: p) (para := ⟨b.s.vertnbr, -1⟩) (Int.le_of_lt R.size) 0 R V) ?_
  rintro b1 ⟨V1, S1, -⟩
  refine Ends.ite (fun _ => ?_) (fun _ => Ends.pure ⟨V1, S1, fun h' => absurd h' h⟩)
  have R1 := R.next S1
  refine (Ends.of_holds (C28_gg_partial b1 R1.cons R1.alloc R1.size R1.gain (env.junk (2 :: p)) (env.gg (2 :: p) b1) (fun i => he.gg _ b1 i R1.cons R1.size) 4 (by decide))).mono ?_
  rintro b2 ⟨V2, S2⟩
  exact ⟨V2, S1.trans S2, fun h' => absurd h' h⟩

/-! ## Multilevel -/

theorem sumI_pos_of {lo hi i : Int} {f : Int → Int} (h0 : ∀ j, lo ≤ j → j < hi → 0 ≤ f j) (h1 : lo ≤ i) (h2 : i < hi) (h : 0 < f i) : 0 < sumI lo hi f := by
  have hs : sumI lo hi (fun x => if x = i then f x else 0) ≤ sumI lo hi f := by
    refine sumI_mono fun x x1 x2 => ?_
    have := h0 x x1 x2
    split <;> omega
  rw [sumI_single h1 h2] at hs
  omega

/-- Loads of merged edges are positive when the ones of the graph are. -/
theorem loaded_merged {g g' : Graph} {coar : Int → Int} (C : g.Consistent) (K : Merged g coar g') (h : Loaded g) : Loaded g' := by
  intro c e hc e1 e2
  have hE := consE_iff.2 C
  obtain ⟨-, ⟨v, p, hv, v1, hp, p1⟩, h3⟩ := (K.nbrs c _ _ hc).1 (nbrs_mk g' c e1 e2)
  rw [h3, arcLoad_wgt C]
  have hin : ∀ v, g.Vertex v → ∀ w, 0 ≤ if coar w = g'.dest e then g.wgt v w else 0 := by
    intro v hv w
    have := wgt_nonneg hE (w := w) hv
    split <;> omega
  refine sumI_pos_of (fun x x1 x2 => ?_) hv.1 hv.2 ?_
  · split
    · exact sumI_nonneg fun w _ _ => hin x ⟨x1, x2⟩ w
    · omega
  · rw [if_pos v1]
    have ha := (adj_iff v p.1).2 ⟨p, hp, rfl⟩
    have hw := (hE.adj_vertex hv ha).1
    refine sumI_pos_of (fun w _ _ => hin v hv w) hw.1 hw.2 ?_
    rw [if_pos p1]
    obtain ⟨x, x1, x2, x3⟩ := ha
    rw [← x3, wgt_arc hE hv x1 x2]
    exact h v x hv x1 x2

theorem Ready.coarse {top : Lim} {b cb : Bgraph} {mate : Int → Int} {r : Result} (ht0 : top.anch = false) (R : Ready top b) (K : Contracted b.s mate r) (hlt : r.graph.vertnbr < b.s.vertnbr) (L : MlRel b r cb)
    (hx : ∀ a, cb.veextax = some a → a.lo ≤ cb.s.baseval ∧ cb.s.vertnnd ≤ a.hi) (hf : cb.vfixload0 = b.vfixload0) (hg : cb.commgainextn0 = b.commgainextn0) : Ready top cb := by
  have h1 := K.consistent.vertnnd
  have h2 := R.cons.vertnnd
  have h3 := K.merged.baseval
  have h4 := R.top
  have h5 := R.alloc.fron
  refine ⟨by rw [L.s]; exact K.consistent, ⟨by rw [L.s]; exact K.allocated, L.part, ?_, hx⟩, by rw [L.s, h3]; exact R.base, by rw [L.s]; exact K.size_pos R.cons R.size, by rw [L.s]; omega,
    by rw [L.dist]; exact R.dist, ?_, by rw [hf]; exact R.vfix, by rw [L.avg]; exact R.avg, by rw [L.s]; exact fun h => loaded_merged R.cons K.merged (R.pos h), fun h => by rw [ht0] at h; cases h⟩
  · rw [L.fron.1, L.fron.2, L.s]
    exact ⟨h5.1, by omega⟩
  · rw [hg, R.gain, L.s, ← K.push_sum1 b.veex]
    exact sumI_congr (fun c c1 c2 => (L.veex c ⟨c1, c2⟩).symm)

theorem MlRel.next {b cb cb' : Bgraph} {r : Result} (L : MlRel b r cb) (h : SameProblem cb cb') : MlRel b r cb' := by
  have hv : cb'.veex = cb.veex := by funext v; unfold Bgraph.veex; rw [h.veextax]
  exact ⟨h.s.trans L.s, by rw [hv]; exact L.veex, by rw [h.s, h.bounds.1, h.bounds.2.1]; exact L.part, ⟨h.bounds.2.2.1.trans L.fron.1, h.bounds.2.2.2.trans L.fron.2⟩, h.limits.2.2.trans L.avg,
    h.extn.1.trans L.extn, h.domn.1.trans L.dist⟩

theorem bipartMl2_holds {top : Lim} (ht0 : top.anch = false) {sure : Bool} {env : BEnv} (he : env.Ok top) {asc low : Nat → BMethod} (ha : BipMethod top sure asc) (hl : BipMethod top sure low) :
    ∀ (k : Nat) (p : Path) (b : Bgraph), Ready top b → b.s.vertnbr ≤ k → ∃ r, (SameProblem b r.2 ∧ (sure = true → r.1 = 0) ∧ (r.1 = 0 → Valid r.2)) ∧
      ∃ n, ∀ fuel, n ≤ fuel → ∀ m, k < m → bipartMl2 env (asc fuel) (low fuel) m p b = .ok r := by
  intro k
  induction k with
  | zero => intro p b R hk; have := R.size; omega
  | succ k ih =>
    intro p b R hk
    obtain ⟨o, eo, hs⟩ := Holds_iff_exists.1 (he.coarsen p b.s R.cons R.alloc.graph R.base R.top)
    cases o with
    | none =>
      obtain ⟨b0, e0, V0, S0, -⟩ := Holds_iff_exists.1 (zero_valid (consE_iff.2 R.cons) R.alloc R.vfix R.gain)
      obtain ⟨r, ⟨q1, q2, q3⟩, n, hn⟩ := hl (5 :: p) b0 (R.next S0) V0
      refine ⟨r, ⟨S0.trans q1, q2, q3⟩, n, fun fuel hf m hm => ?_⟩
      obtain ⟨m', rfl⟩ : ∃ m', m = m' + 1 := ⟨m - 1, by omega⟩
      rw [bipartMl2, eo, ok_bind]
      dsimp only
      rw [e0, ok_bind]
      exact hn fuel hf
    | some res =>
      obtain ⟨mate, P, K, hlt⟩ := hs res rfl
      obtain ⟨cb, ec, L, hx, hf0, -, hg⟩ := Holds_iff_exists.1 (mlCoarsen_holds env p P K R.alloc)
      have Rc := R.coarse ht0 K hlt L hx hf0 hg
      obtain ⟨⟨o, cb1⟩, ⟨S1, s1, V1⟩, n1, h1⟩ := ih (3 :: p) cb Rc (by rw [L.s]; omega)
      dsimp only at S1 s1 V1
      have L1 := L.next S1
      have hup : Ends (fun n => mlUp (asc n) p b res.mult o cb1) (fun r => SameProblem b r.2 ∧ (sure = true → r.1 = 0) ∧ (r.1 = 0 → Valid r.2)) := by
        unfold mlUp
        refine Ends.ite (fun ho => ?_) (fun ho => Ends.pure ⟨?_, fun h => absurd (s1 h) ho, fun h => absurd h ho⟩)
        · refine Ends.bind (Ends.of_holds (mlUncoarsen_holds R.cons P K R.alloc L1 (V1 ho))) ?_
          rintro b1 ⟨V2, S2, -⟩
          refine (ha (4 :: p) b1 (R.next S2) V2).mono ?_
          rintro r ⟨q1, q2, q3⟩
          exact ⟨S2.trans q1, q2, q3⟩
        · exact ⟨rfl, rfl, ⟨rfl, rfl, L1.fron.1, L1.fron.2⟩, ⟨rfl, rfl, rfl⟩, ⟨rfl, rfl⟩, ⟨rfl, rfl, rfl⟩, ⟨rfl, rfl⟩⟩
      obtain ⟨r, hr, n2, h2⟩ := hup
      refine ⟨r, hr, n1 + n2, fun fuel hf m hm => ?_⟩
      obtain ⟨m', rfl⟩ : ∃ m', m = m' + 1 := ⟨m - 1, by omega⟩
      rw [bipartMl2, eo, ok_bind]
      dsimp only
      rw [ec, ok_bind, h1 fuel (by omega) m' (by omega), ok_bind]
      exact h2 fuel (by omega)

theorem bipartMl_holds {top : Lim} {sure : Bool} {env : BEnv} (he : env.Ok top) {asc low : Nat → BMethod} (ha : BipMethod { top with anch := false } sure asc) (hl : BipMethod { top with anch := false } sure low) (p : Path) {b : Bgraph} (R : Ready top b) :
    Ends (fun n => bipartMl2 env (asc n) (low n) n p b) (fun r => SameProblem b r.2 ∧ (sure = true → r.1 = 0) ∧ (r.1 = 0 → Valid r.2)) := by
  have := R.size
  obtain ⟨r, hr, n, hn⟩ := bipartMl2_holds (top := { top with anch := false }) rfl he.drop ha hl b.s.vertnbr.toNat p b R.drop (by omega)
  exact ⟨r, hr, n + b.s.vertnbr.toNat + 1, fun fuel hf => hn fuel (by omega) fuel (by omega)⟩

/-! ## Band graphs -/

theorem Ready.band {top : Lim} {b cb : Bgraph} {vlvl : Int} {st : BdSt} (R : Ready top b) (D : BdBip b vlvl st cb) : Ready { top with anch := true } cb := by
  have hh := D.ctx.head_le
  obtain ⟨e1, e2, e3⟩ := D.shape
  have hr := D.room
  have ht := R.top
  refine ⟨D.quot.consistent, D.alloc, by rw [e1]; exact R.base, by omega, by dsimp only; omega, by rw [D.domn]; exact R.dist, ?_, by rw [D.vfix]; exact R.vfix, by rw [D.limits]; exact R.avg, fun _ => D.loaded, fun _ => by omega⟩
  rw [D.extn.2, R.gain, ← D.quot.push_sum1 b.veex]
  exact sumI_congr (fun c c1 c2 => (D.veex c ⟨c1, c2⟩).symm)

theorem bipartBd_holds {top : Lim} {sure : Bool} (hpos : top.pos = true) {bnd org : Nat → BMethod} (hb : BipMethod { top with anch := true } sure bnd) (ho : BipMethod top sure org) (junk : BdJunk) (distmax : Int) (p q : Path) {b : Bgraph} (R : Ready top b) (V : Valid b) :
    Ends (fun n => bipartBd junk (bnd n p) (org n q) distmax b) (fun r => SameProblem b r.2 ∧ (sure = true → r.1 = 0) ∧ (r.1 = 0 → Valid r.2)) := by
  have horg := ho q b R V
  unfold bipartBd
  refine Ends.ite (fun _ => horg) (fun _ => ?_)
  refine Ends.bind (Ends.of_holds (bdSearch_holds (consE_iff.2 R.cons) R.base R.alloc V junk.queu distmax)) ?_
  rintro ⟨vlvl, st⟩ F
  dsimp only at F ⊢
  have C : BdCtx b vlvl st := ⟨consE_iff.2 R.cons, R.alloc, V, R.base, R.pos hpos, F⟩
  refine Ends.ite (fun _ => horg) (fun ht => ?_)
  refine Ends.bind (Ends.of_holds (C.build (by omega) (by omega) junk)) ?_
  intro o hbld
  cases o with
  | none => exact horg
  | some x =>
    obtain ⟨cb, queu⟩ := x
    obtain ⟨D, Q⟩ := hbld cb queu rfl
    have hh := C.head_le
    obtain ⟨e1, e2, e3⟩ := D.shape
    dsimp only
    unfold bdRun
    dsimp only
    refine Ends.bind (hb p cb (R.band D) D.valid) ?_
    rintro ⟨o, cb'⟩ ⟨k1, k2, k3⟩
    dsimp only at k1 k2 k3 ⊢
    refine Ends.ite (fun hn => Ends.pure ⟨SameProblem.refl b, fun h => absurd (k2 h) hn, fun h => by dsimp only at h; omega⟩) (fun hn => ?_)
    have A := D.alloc.part
    have B := k1.bounds
    have r0 : cb'.parttax.rd (b.s.baseval + st.head) = .ok (cb'.part (bN b st)) := Arr.rd_ok _ (by omega) (by omega)
    have r1 : cb'.parttax.rd (b.s.baseval + st.head + 1) = .ok (cb'.part (bN b st + 1)) := Arr.rd_ok _ (by omega) (by omega)
    simp only [r0, r1, ok_bind]
    refine Ends.ite (fun _ => horg) (fun hd => ?_)
    have N : BdNew b vlvl st queu cb cb' := ⟨D, Q, k1, k3 (Classical.byContradiction hn), hd⟩
    refine Ends.bind (Ends.of_holds N.bring) ?_
    rintro b' ⟨q1, q2⟩
    exact Ends.pure ⟨q1, fun _ => rfl, fun _ => q2⟩

/-! ## Selection -/

theorem stSave_holds {top : Lim} {env : BEnv} {p : Path} {b : Bgraph} (R : Ready top b) (V : Valid b) : Holds (storeSave b (stInit env p b)) (Saved b) := by
  have hn := R.cons.vertnnd
  have h0 := R.size
  exact storeSave_holds (consE_iff.2 R.cons) R.alloc V (by unfold stInit storeInit; dsimp only; omega) (by unfold stInit storeInit; dsimp only; omega)

theorem SameProblem.symm {b c : Bgraph} (h : SameProblem b c) : SameProblem c b :=
  ⟨h.s.symm, h.veextax.symm, ⟨h.bounds.1.symm, h.bounds.2.1.symm, h.bounds.2.2.1.symm, h.bounds.2.2.2.symm⟩, ⟨h.limits.1.symm, h.limits.2.1.symm, h.limits.2.2.symm⟩,
    ⟨h.extn.1.symm, h.extn.2.symm⟩, ⟨h.domn.1.symm, h.domn.2.1.symm, h.domn.2.2.symm⟩, ⟨h.vfix.1.symm, h.vfix.2.symm⟩⟩

/-- Two valid bipartitions with the same parts have the same recorded values. -/
theorem same_vals {b c : Bgraph} (C : b.s.Consistent) (V : Valid b) (W : Valid c) (h : SameProblem b c) (hp : ∀ v, b.s.Vertex v → c.part v = b.part v) :
    c.commload = b.commload ∧ c.compload0dlt = b.compload0dlt := by
  have hE := consE_iff.2 C
  have hv : c.veex = b.veex := by funext v; unfold Bgraph.veex; rw [h.veextax]
  have ov : ∀ k f, over c.s c.part k f = over b.s b.part k f := by
    intro k f; rw [h.s]; exact over_congr (g := b.s) k hp (fun _ _ => rfl)
  constructor
  · rw [W.comm, V.comm, ov, hv, h.s, h.domn.1, h.extn.1, cut_congr hE hp]
  · rw [W.delta, V.delta, W.load, V.load, ov, h.s, h.limits.2.2]

/-- Result of a selection: one of the two bipartitions. -/
theorem selBest_holds {top : Lim} {absI : Int → Int} {b1 b : Bgraph} {s0 : Store} (R : Ready top b) (V1 : Valid b1) (S1 : SameProblem b b1) (hs : Saved b1 s0) (V : Valid b) :
    Holds (selBest absI 0 0 s0 b) (fun r => SameProblem b r ∧ Valid r ∧
      ((selKeep absI (selRange b b1.compload0dlt 0) (selRange b b.compload0dlt 0) s0 b = true ∧ r = b) ∨
       (selKeep absI (selRange b b1.compload0dlt 0) (selRange b b.compload0dlt 0) s0 b = false ∧ (∀ v, b.s.Vertex v → r.part v = b1.part v) ∧ r.commload = b1.commload ∧ r.compload0dlt = b1.compload0dlt))) := by
  unfold selBest
  rw [if_pos (Or.inl rfl), hs.vals.2.1]
  by_cases h : selKeep absI (selRange b b1.compload0dlt 0) (selRange b b.compload0dlt 0) s0 b = true
  · rw [if_pos h, Holds_pure]
    exact ⟨SameProblem.refl b, V, Or.inl ⟨h, rfl⟩⟩
  · rw [if_neg h]
    have R1 := R.next S1
    refine (storeUpdt_holds (consE_iff.2 R1.cons) R1.alloc V1 hs S1.symm).mono ?_
    rintro r ⟨q1, q2, q3⟩
    refine ⟨S1.trans q2, q1, Or.inr ⟨by simpa using h, fun v hv => q3 v (by rw [S1.s]; exact hv), ?_⟩⟩
    exact same_vals R1.cons V1 q1 q2 q3

theorem bipartSt_holds {top : Lim} {env : BEnv} (he : env.Ok top) (st : BStrat) : ∀ {sure : Bool}, BGood top sure st → BipMethod top sure (fun n => bipartSt env n st) := by
  induction st generalizing top with
  | empty =>
    intro sure _ p b R V
    simp only [bipartSt]
    exact Ends.pure ⟨SameProblem.refl b, fun _ => rfl, fun _ => V⟩
  | zr =>
    intro sure _ p b R V
    simp only [bipartSt]
    refine Ends.bind (P := fun b' => Valid b' ∧ SameProblem b b') (Ends.of_holds ?_) ?_
    · unfold bipartZr
      rw [Holds_ite]
      refine ⟨fun _ => (zero_valid (consE_iff.2 R.cons) R.alloc R.vfix R.gain).mono fun b' h => ⟨h.1, h.2.1⟩, fun _ => ?_⟩
      rw [Holds_pure]
      exact ⟨V, SameProblem.refl b⟩
    · rintro b' ⟨h1, h2⟩
      exact Ends.pure ⟨h2, fun _ => rfl, fun _ => h1⟩
  | gp n =>
    intro sure _ p b R V
    simp only [bipartSt]
    refine Ends.bind (Ends.of_holds (C28_gp_partial b R.cons R.alloc V R.avg R.gain (env.junk p) n)) ?_
    rintro b' ⟨h1, h2⟩
    exact Ends.pure ⟨h2, fun _ => rfl, fun _ => h1⟩
  | gg n =>
    intro sure hg p b R V
    simp only [bipartSt]
    refine Ends.bind (Ends.of_holds (C28_gg_partial b R.cons R.alloc R.size R.gain (env.junk p) (env.gg p b) (fun i => he.gg p b i R.cons R.size) n hg)) ?_
    rintro b' ⟨h1, h2⟩
    exact Ends.pure ⟨h2, fun _ => rfl, fun _ => h1⟩
  | fm para =>
    intro sure hg p b R V
    simp only [bipartSt]
    refine Ends.bind (stFm_holds he p hg (env.dltmat p b) R V) ?_
    rintro b' ⟨h1, h2, -⟩
    exact Ends.pure ⟨h2, fun _ => rfl, fun _ => h1⟩
  | ex =>
    intro sure _ p b R V
    simp only [bipartSt]
    refine Ends.bind (bipartEx_holds he p R V) ?_
    rintro b' ⟨h1, h2, -⟩
    exact Ends.pure ⟨h2, fun _ => rfl, fun _ => h1⟩
  | ml asc low iha ihl =>
    intro sure hg p b R V
    simp only [bipartSt]
    exact bipartMl_holds he (iha he.drop hg.1) (ihl he.drop hg.2) p R
  | bd distmax bnd org ihb iho =>
    intro sure hg p b R V
    simp only [bipartSt]
    exact bipartBd_holds hg.1 (ihb he.drop hg.2.1) (iho he hg.2.2) (env.bd p) distmax (1 :: p) (2 :: p) R V
  | df para =>
    intro sure hg p b R V
    simp only [bipartSt]
    refine Ends.bind (Ends.of_holds (bipartDf_holds (consE_iff.2 R.cons) R.alloc (R.anch hg.2) (R.pos hg.1) (he.df p).1 (he.df p).2 para)) ?_
    rintro b' ⟨h1, h2⟩
    exact Ends.pure ⟨h1, fun _ => rfl, fun _ => h2⟩
  | concat s t ihs iht =>
    intro sure hg p b R V
    simp only [bipartSt]
    refine Ends.bind (ihs he hg.1 (1 :: p) b R V) ?_
    rintro ⟨o, b1⟩ ⟨h1, h2, h3⟩
    dsimp only at h1 h2 h3 ⊢
    refine Ends.ite (fun ho => ?_) (fun ho => Ends.pure ⟨h1, h2, fun h => absurd h ho⟩)
    refine (iht he hg.2 (2 :: p) b1 (R.next h1) (h3 ho)).mono ?_
    rintro r ⟨k1, k2, k3⟩
    exact ⟨h1.trans k1, k2, k3⟩
  | cond c s t ihs iht =>
    intro sure hg p b R V
    obtain ⟨gc, gs, gt⟩ := hg
    simp only [bipartSt]
    cases hcb : c p b with
    | none => exact Ends.pure ⟨SameProblem.refl b, fun hs => absurd hcb (gc hs p b), fun h => by dsimp only at h; omega⟩
    | some x =>
      cases x with
      | true => exact ihs he gs (1 :: p) b R V
      | false => exact iht he gt (2 :: p) b R V
  | cond1 c s ihs =>
    intro sure hg p b R V
    obtain ⟨gc, gs⟩ := hg
    simp only [bipartSt]
    cases hcb : c p b with
    | none => exact Ends.pure ⟨SameProblem.refl b, fun hs => absurd hcb (gc hs p b), fun h => by dsimp only at h; omega⟩
    | some x =>
      cases x with
      | true => exact ihs he gs (1 :: p) b R V
      | false => exact Ends.pure ⟨SameProblem.refl b, fun _ => rfl, fun _ => V⟩
  | select s t ihs iht =>
    intro sure hg p b R V
    simp only [bipartSt]
    refine Ends.bind (Ends.of_holds (stSave_holds R V)) ?_
    intro s1 hs1
    refine Ends.bind (ihs he hg.1 (1 :: p) b R V) ?_
    rintro ⟨o, b1⟩ ⟨h1, h2, h3⟩
    dsimp only at h1 h2 h3 ⊢
    have ho := h2 rfl
    subst ho
    have V1 := h3 rfl
    have R1 := R.next h1
    refine Ends.bind (Ends.of_holds (stSave_holds R1 V1)) ?_
    intro s0 hs0
    refine Ends.bind (Ends.of_holds (storeUpdt_holds (consE_iff.2 R.cons) R.alloc V hs1 h1)) ?_
    rintro b2 ⟨V2, S2, -⟩
    refine Ends.bind (iht he hg.2 (2 :: p) b2 (R.next S2) V2) ?_
    rintro ⟨o2, b3⟩ ⟨k1, k2, k3⟩
    dsimp only at k1 k2 k3 ⊢
    have ho := k2 rfl
    subst ho
    have S3 := S2.trans k1
    refine Ends.bind (Ends.of_holds (selBest_holds (R.next S3) V1 (S3.symm.trans h1) hs0 (k3 rfl))) ?_
    rintro b4 ⟨q1, q2, -⟩
    exact Ends.pure ⟨S3.trans q1, fun _ => rfl, fun _ => q2⟩
  | ext f =>
    intro sure hg p b R V
    simp only [bipartSt]
    exact hg p b R V

end Scotch.Bipart
