import Verif.Bipart.LemmasSt
import Verif.Coarsen.Use

/-!
# C28 — exactifying, multilevel and strategies

`Ready`, `BEnv.Ok`, `BipMethod` and `BGood` are in `Verif.Bipart.LemmasSt`. `Ends f Q`, in `Verif.Ends`, says that when it is given enough fuel the computation `f` ends without fault with a result, always the same, for which `Q` holds.

In a selection, none of the two strategies may fail: see `C28_select_wrong`. Band graphs and
diffusion ask for positive edge loads: see `Verif.Bipart.PropsBd` and `Verif.Bipart.PropsDf`.
-/

set_option autoImplicit false

namespace Scotch.Bipart
open Graph

/-! ## Specification -/

/-- The load of part 0 is in the range that is asked for. -/
def InRange (b : Bgraph) : Prop := b.compload0min ≤ b.compload0avg + b.compload0dlt ∧ b.compload0avg + b.compload0dlt ≤ b.compload0max

/-! ## Theorems -/

/-- Exactifying ends and gives a valid bipartition; a bipartition that is perfectly balanced is kept. -/
theorem C28_ex (top : Lim) (env : BEnv) (he : env.Ok top) (p : Path) (b : Bgraph) (R : Ready top b) (V : Valid b) :
    Ends (fun n => bipartEx env n p b) (fun b' => Valid b' ∧ SameProblem b b' ∧ (b.compload0dlt = 0 → b' = b)) :=
  bipartEx_holds he p R V

/-- Bringing back a valid bipartition of a coarse graph gives a valid bipartition of the fine graph, with the same loads: each fine vertex takes the part of its coarse vertex. The coarse graph may have any bipartition of the problem
that `mlCoarsen` builds. -/
theorem C28_ml_level (top : Lim) (env : BEnv) (p : Path) (b : Bgraph) (R : Ready top b) (mate : Int → Int) (r : Coarsen.Result) (P : Coarsen.Pairing b.s mate) (K : Coarsen.Contracted b.s mate r) :
    Holds (mlCoarsen env p b r) (fun cb => cb.s = r.graph ∧ ∀ cb', SameProblem cb cb' → Valid cb' → Holds (mlUncoarsen b cb' r.mult) (fun b' => Valid b' ∧ SameProblem b b' ∧
      (∀ v, b.s.Vertex v → b'.part v = cb'.part (r.coar.get v)) ∧ b'.commload = cb'.commload ∧ b'.compload0 = cb'.compload0)) := by
  refine (mlCoarsen_holds env p P K R.alloc).mono ?_
  rintro cb ⟨L, -, -, -⟩
  refine ⟨L.s, fun cb' S V => ?_⟩
  have h := mlUncoarsen_holds R.cons P K R.alloc (L.next S) V
  obtain ⟨b', e, h1, h2, h3⟩ := Holds_iff_exists.1 h
  rw [e, Holds_ok]
  refine ⟨h1, h2, h3, ?_⟩
  unfold mlUncoarsen at e
  simp only [bind, Except.bind] at e
  split at e
  · cases e
  · split at e
    · cases e
    · cases e; exact ⟨rfl, rfl⟩

/-- The multilevel method ends; when the methods that it uses on the coarsest graph and after each level are right, it is right. -/
theorem C28_ml (top : Lim) (sure : Bool) (env : BEnv) (he : env.Ok top) (asc low : Nat → BMethod) (ha : BipMethod { top with anch := false } sure asc)
    (hl : BipMethod { top with anch := false } sure low) : BipMethod top sure (fun n => bipartMl2 env (asc n) (low n) n) :=
  fun p _ R _ => bipartMl_holds he ha hl p R

/-- Whatever the strategy, made of the modelled methods and of methods that are known to be right, it ends without fault, the problem is not changed, and the bipartition that is obtained when no error is reported is valid. -/
theorem C28_strategy (top : Lim) (env : BEnv) (he : env.Ok top) (sure : Bool) (s : BStrat) (hg : BGood top sure s) : BipMethod top sure (fun n => bipartSt env n s) :=
  bipartSt_holds he s hg

/-- A selection gives the bipartition of one of its strategies. If one of them is in range, so is the result; and it has the smallest communication load of those that are in range. The second strategy starts from the same parts
as the first one. -/
theorem C28_select (top : Lim) (env : BEnv) (he : env.Ok top) (s t : BStrat) (gs : BGood top true s) (gt : BGood top true t) (p : Path) (b : Bgraph) (R : Ready top b) (V : Valid b) :
    ∃ b1 b2 b3 r, SameProblem b b2 ∧ Valid b2 ∧ (∀ v, b.s.Vertex v → b2.part v = b.part v) ∧
      (∃ n, ∀ fuel, n ≤ fuel → bipartSt env fuel s (1 :: p) b = .ok (0, b1) ∧ bipartSt env fuel t (2 :: p) b2 = .ok (0, b3) ∧ bipartSt env fuel (.select s t) p b = .ok (0, r)) ∧
      ((∀ v, b.s.Vertex v → r.part v = b1.part v) ∨ ∀ v, b.s.Vertex v → r.part v = b3.part v) ∧
      (InRange b1 → InRange r ∧ r.commload ≤ b1.commload) ∧ (InRange b3 → InRange r ∧ r.commload ≤ b3.commload) := by
  obtain ⟨s1, e1, hs1⟩ := Holds_iff_exists.1 (stSave_holds (env := env) (p := 4 :: p) R V)
  obtain ⟨⟨o, b1⟩, ⟨h1, h2, h3⟩, n1, hn1⟩ := bipartSt_holds he s gs (1 :: p) b R V
  dsimp only at h1 h2 h3
  have ho := h2 rfl
  subst ho
  have V1 := h3 rfl
  obtain ⟨s0, e0, hs0⟩ := Holds_iff_exists.1 (stSave_holds (env := env) (p := 3 :: p) (R.next h1) V1)
  obtain ⟨b2, e2, V2, S2, p2⟩ := Holds_iff_exists.1 (storeUpdt_holds (consE_iff.2 R.cons) R.alloc V hs1 h1)
  obtain ⟨⟨o2, b3⟩, ⟨k1, k2, k3⟩, n2, hn2⟩ := bipartSt_holds he t gt (2 :: p) b2 (R.next S2) V2
  dsimp only at k1 k2 k3
  have ho := k2 rfl
  subst ho
  have V3 := k3 rfl
  have S3 := S2.trans k1
  obtain ⟨r, er, q1, q2, q3⟩ := Holds_iff_exists.1 (selBest_holds (absI := env.absI) (R.next S3) V1 (S3.symm.trans h1) hs0 V3)
  have S13 := S3.symm.trans h1
  refine ⟨b1, b2, b3, r, S2, V2, p2, ⟨n1 + n2, fun fuel hf => ⟨hn1 fuel (by omega), hn2 fuel (by omega), ?_⟩⟩, ?_, ?_⟩
  · have a1 := hn1 fuel (by omega)
    have a2 := hn2 fuel (by omega)
    dsimp only at a1 a2
    rw [bipartSt, e1, ok_bind, a1, ok_bind]
    dsimp only
    rw [e0, ok_bind, e2, ok_bind, a2, ok_bind]
    dsimp only
    rw [er, ok_bind]
    rfl
  · rcases q3 with ⟨-, rfl⟩ | ⟨-, h, -⟩
    · exact Or.inr fun _ _ => rfl
    · exact Or.inl fun v hv => h v (by rw [S3.s]; exact hv)
  · obtain ⟨l1, l2, l3⟩ := S13.limits
    obtain ⟨m1, m2, m3⟩ := q1.limits
    have hc := hs0.vals.2.2.2.1
    unfold InRange
    rw [l1, l2, l3, m1, m2, m3]
    unfold selKeep selRange at q3
    rcases q3 with ⟨q, rfl⟩ | ⟨q, -, q5, q6⟩
    · by_cases i1 : r.compload0avg + b1.compload0dlt < r.compload0min ∨ r.compload0avg + b1.compload0dlt > r.compload0max
      · exact ⟨fun h => by omega, fun h => ⟨h, Int.le_refl _⟩⟩
      · rw [if_neg i1] at q
        by_cases i2 : r.compload0avg + r.compload0dlt < r.compload0min ∨ r.compload0avg + r.compload0dlt > r.compload0max
        · rw [if_pos i2] at q
          simp at q
        · rw [if_neg i2] at q
          simp only [gt_iff_lt, Int.lt_irrefl, if_false, if_true] at q
          have q := of_decide_eq_true q
          exact ⟨fun h => ⟨by omega, by omega⟩, fun h => ⟨h, Int.le_refl _⟩⟩
    · rw [q5, q6]
      by_cases i2 : b3.compload0avg + b3.compload0dlt < b3.compload0min ∨ b3.compload0avg + b3.compload0dlt > b3.compload0max
      · exact ⟨fun h => ⟨h, Int.le_refl _⟩, fun h => by omega⟩
      · rw [if_neg i2] at q
        by_cases i1 : b3.compload0avg + b1.compload0dlt < b3.compload0min ∨ b3.compload0avg + b1.compload0dlt > b3.compload0max
        · rw [if_pos i1] at q
          simp at q
        · rw [if_neg i1] at q
          simp only [gt_iff_lt, Int.lt_irrefl, if_false, if_true] at q
          have q := of_decide_eq_false q
          exact ⟨fun h => ⟨h, Int.le_refl _⟩, fun h => ⟨by omega, by omega⟩⟩

/-- Coarsening by `graphCoarsen`, as it is called by the multilevel method (bgraph_bipart_ml.c:104–110), is right when the hash values of vertex numbers can be represented; see C18 and C19. -/
theorem C28_coarsen (numMax top : Int) (bits : Nat) (hbits : top < 2 ^ bits) (hov : (top - 1) * 1049 ≤ numMax) (junk : Int → Int × Int) (J : Coarsen.Junk) (nomerge : Bool) (coarvertnbr coarmax : Int) (g : Graph)
    (C : g.Consistent) (A : g.Allocated) (hb : 0 ≤ g.baseval) (ht : g.vertnnd ≤ top) (hm : coarmax ≤ g.vertnbr) :
    Holds (Coarsen.coarsen numMax bits junk J ⟨g, false, none, none, nomerge⟩ coarvertnbr coarmax) (Coarsen.Shrinks g) := by
  have h := C.vertnnd
  exact Coarsen.coarsen_holds numMax bits junk J ⟨g, false, none, none, nomerge⟩ ⟨C, A, hb, (fun t h => by cases h), (fun t h => by cases h)⟩ (by show g.vertnbr < _; omega)
    (by show (g.vertnnd - 1) * 1049 ≤ _; omega) coarvertnbr coarmax hm

/-! ## Cases -/

/-- Memory filled with 7. -/
def exCJ : Coarsen.Junk := ⟨fun _ => 7, fun _ => 7, fun _ => 7, fun _ => 7, fun _ => 7, fun _ => (7, 7)⟩

/-- Multiples of 1/1000, and no value that is not a number; a division by zero gives zero. -/
def exFlo : Flo :=
  { F := Int, ofInt := fun i => 1000 * i, eps := 1, neg := fun x => - x, add := fun x y => x + y, sub := fun x y => x - y, mul := fun x y => x * y / 1000, div := fun x y => 1000 * x / y, le0 := fun x => decide (x ≤ 0),
    ge0 := fun x => decide (0 ≤ x), isnan := fun _ => false }

/-- Legal draws. Graphs are coarsened while there are more than two vertices. -/
def exEnv : BEnv :=
  { fmJunk := fun _ => exJunk, pick := fun _ => fmTablGet exOrder, dltmat := fun _ _ => 10, junk := fun _ _ => 7,
    gg := fun _ b _ => ⟨fun _ => 0, 0, ⟨0, b.s.vertnbr, fun i => b.s.vertnnd - 1 - i⟩, fun x => |x|⟩,
    store := fun _ => ⟨0, 0, 0, 0, 0, Arr.ofList 0 [], Arr.ofList 0 []⟩, absI := fun x => |x|,
    coarsen := fun _ g => Coarsen.coarsen 1000000 8 (fun _ => (7, 7)) exCJ ⟨g, false, none, none, false⟩ 2 g.vertnbr, widen := fun _ _ => 1, blank := fun _ => exF,
    bd := fun _ => ⟨fun _ => 7, fun _ => 7, fun _ => 7, fun _ => 7, fun _ => 7, fun _ => 7, fun _ => 7, fun _ => 7⟩,
    df := fun _ => ⟨2, exFlo, fun _ => (7 : Int), fun _ => (7 : Int), fun _ _ => (7 : Int), fun _ _ => 7⟩ }

theorem exEnv_ok (pos anch : Bool) : exEnv.Ok ⟨100, pos, anch⟩ := by
  refine ⟨fun _ => C28_fm_pick exOrder exOrder_ok, ?_, ?_, fun _ => ⟨(by decide : (1 : Int) ≤ 2), fun _ => rfl⟩⟩
  · intro p b i C h1
    have h2 := C.vertnnd
    refine ⟨⟨Int.le_refl 0, h1⟩, ⟨Int.le_refl 0, Int.le_refl _⟩, ?_⟩
    intro i hi1 hi2
    show b.s.baseval ≤ b.s.vertnnd - 1 - i ∧ b.s.vertnnd - 1 - i < b.s.vertnnd
    omega
  · intro p g C A hb ht
    exact C28_coarsen 1000000 100 8 (by decide) (by decide) (fun _ => (7, 7)) exCJ false 2 g.vertnbr g C A hb ht (Int.le_refl _)

theorem exB_ready : Ready ⟨100, false, false⟩ exB := ⟨exG_cons, exB_alloc, by decide, by decide, by decide, by decide, by decide +kernel, rfl, by decide, (fun h => by cases h), (fun h => by cases h)⟩

/-- Multilevel, with a selection on the coarsest graph, and refinement at each level; then exactifying. -/
def exSt : BStrat := .concat (.ml (.fm ⟨10, -1⟩) (.select (.gp 2) (.gg 3))) (.cond1 (fun _ b => some (decide (b.compload0dlt ≠ 0))) .ex)

example : Ready ⟨100, false, false⟩ exB ∧ Valid exB ∧ exEnv.Ok ⟨100, false, false⟩ ∧ BGood ⟨100, false, false⟩ true exSt :=
  ⟨exB_ready, exB_valid, exEnv_ok false false, ⟨⟨(by decide : (0 : Int) ≤ 10), trivial, (by decide : (0 : Int) < 3)⟩, (fun _ _ _ => by simp), trivial⟩⟩

/-- The coarse graph has two vertices. -/
example : (bipartSt exEnv 20 exSt [] exB).map (fun r => (r.1, show' r.2)) = .ok (0, [1, 1, 1, 0, 2, 3, 0, 1, 23, 5]) := by decide +kernel

/-! ## Disagreements -/

/-- A bipartition whose load is not in range. -/
def exR : Bgraph := { exB with compload0max := 4 }

/-- When the first strategy of a selection fails and the second one succeeds, but gives a bipartition that is not in range, the bipartition of the first strategy may be kept although it is not valid, and no error is reported
(bgraph_bipart_st.c:323–357). -/
theorem C28_select_wrong : ∃ (b : Bgraph) (f : BMethod), Ready ⟨100, false, false⟩ b ∧ Valid b ∧ BipMethod ⟨100, false, false⟩ false (fun _ => f) ∧ ∃ b', bipartSt exEnv 1 (.select (.ext f) .empty) [] b = .ok (0, b') ∧ ¬ Valid b' := by
  let f : BMethod := fun _ b => .ok (1, { b with parttax := Arr.const b.parttax.lo b.parttax.hi 2 })
  refine ⟨exR, f, ?_, ?_, ?_, ?_⟩
  · exact ⟨exG_cons, ⟨exB_alloc.graph, exB_alloc.part, exB_alloc.fron, exB_alloc.veex⟩, by decide, by decide, by decide, by decide, by decide +kernel, rfl, by decide, (fun h => by cases h), (fun h => by cases h)⟩
  · exact ⟨exB_valid.parts, exB_valid.load, exB_valid.delta, exB_valid.size, exB_valid.comm, exB_valid.gain, exB_valid.fron⟩
  · intro p b R V
    exact Ends.pure ⟨⟨rfl, rfl, ⟨rfl, rfl, rfl, rfl⟩, ⟨rfl, rfl, rfl⟩, ⟨rfl, rfl⟩, ⟨rfl, rfl, rfl⟩, ⟨rfl, rfl⟩⟩, (fun h => by cases h), (fun h => by cases h)⟩
  · have h : (bipartSt exEnv 1 (.select (.ext f) .empty) [] exR).map (fun r => (r.1, r.2.part 1, r.2.s.baseval, r.2.s.vertnnd)) = .ok (0, 2, 1, 5) := by decide +kernel
    generalize bipartSt exEnv 1 (.select (.ext f) .empty) [] exR = x at h
    cases x with
    | error e => cases h
    | ok r =>
      obtain ⟨o, b'⟩ := r
      have h' : (o, b'.part 1, b'.s.baseval, b'.s.vertnnd) = (0, 2, 1, 5) := by injection h
      simp only [Prod.mk.injEq] at h'
      obtain ⟨rfl, h1, h2, h3⟩ := h'
      refine ⟨b', rfl, fun V => ?_⟩
      have := V.parts 1 ⟨by omega, by omega⟩
      omega

end Scotch.Bipart
