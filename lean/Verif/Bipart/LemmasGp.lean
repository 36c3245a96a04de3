import Verif.Bipart.ModelGp
import Verif.Bipart.LemmasBasic
import Mathlib.Logic.Relation

/-! # Bipartition by the Gibbs-Poole-Stockmeyer method: breadth-first searches -/

set_option autoImplicit false
set_option linter.unusedSimpArgs false

namespace Scotch.Bipart
open Graph

/-- Array bounds. -/
structure GpBnd (g : Graph) (s : Gp) : Prop where
  q1 : s.queu.lo = 0
  q2 : s.queu.hi = g.vertnbr
  p1 : s.pass.lo = g.baseval
  p2 : s.pass.hi = g.vertnnd
  d1 : s.dist.lo = g.baseval
  d2 : s.dist.hi = g.vertnnd

/-- A set of vertices that contains the neighbours of its vertices. -/
structure Closed (g : Graph) (C : Int → Prop) : Prop where
  sub : ∀ v, C v → g.Vertex v
  adj : ∀ v w, C v → g.Adj v w → C w

/-- State of a search in a closed set, for pass `p`. -/
structure Bfs (g : Graph) (C : Int → Prop) (p : Int) (old : Int → Int) (s : Gp) : Prop where
  bnd : GpBnd g s
  tail : 0 ≤ s.tail ∧ s.tail ≤ s.head
  enum : Enum s.queu s.head (fun v => C v ∧ s.pass.get v = p)
  le : ∀ v, C v → s.pass.get v ≤ p
  out : ∀ v, ¬ C v → s.pass.get v = old v
  dist : ∀ v, C v → s.pass.get v = p → 0 ≤ s.dist.get v

variable {g : Graph} {C : Int → Prop} {p : Int} {old : Int → Int}

theorem Bfs.head_le (hc : ConsE g) (hC : Closed g C) {s : Gp} (h : Bfs g C p old s) : s.head ≤ g.vertnbr := by
  have hn := hc.vertnbr
  have hnn := hc.vertnnd
  have := h.enum.le (lo := g.baseval) (hi := g.vertnnd) (by omega) (fun v hv => hC.sub v hv.1)
  omega

theorem gpVisit_holds (hc : ConsE g) (hC : Closed g C) {s : Gp} (h : Bfs g C p old s) {w d : Int} (hw : C w) (hp : s.pass.get w < p) (hd : 0 ≤ d) :
    Holds (gpVisit s w p d) (fun s' => Bfs g C p old s' ∧ s'.tail = s.tail ∧ s'.head = s.head + 1 ∧ s'.queu = s.queu.set s.head w ∧
      s'.pass = s.pass.set w p ∧ s'.dist = s.dist.set w d) := by
  have hnn := hc.vertnnd
  have hv := hC.sub w hw
  obtain ⟨v1, v2⟩ := hv
  obtain ⟨q1, q2, p1, p2, d1, d2⟩ := h.bnd
  have hx : ¬ (C w ∧ s.pass.get w = p) := by rintro ⟨_, h⟩; omega
  have hlt := h.enum.lt (lo := g.baseval) (hi := g.vertnnd) (fun v hv => hC.sub v hv.1) hx v1 v2
  have h0 := h.enum.1
  have ht := h.tail
  unfold gpVisit gpPut
  rw [Arr.wr_ok _ _ (by omega) (by omega), ok_bind]
  rw [show (pure { s with queu := s.queu.set s.head w, head := s.head + 1 } : M Gp) = .ok _ from rfl, ok_bind]
  dsimp only
  rw [Arr.wr_ok _ _ (by omega) (by omega), ok_bind, Arr.wr_ok _ _ (by omega) (by omega), ok_bind, Holds_pure]
  refine ⟨⟨⟨q1, q2, p1, p2, d1, d2⟩, ?_, ?_, ?_, ?_, ?_⟩, rfl, rfl, rfl, rfl, rfl⟩
  · dsimp only; omega
  · dsimp only
    refine (h.enum.push hx).congr ?_
    intro v
    by_cases hvw : v = w
    · rw [hvw, Arr.set_get_same]
      exact ⟨fun _ => ⟨hw, rfl⟩, fun _ => Or.inr rfl⟩
    · rw [Arr.set_get_ne _ _ hvw]
      exact ⟨fun h => h.elim id (fun h => absurd h hvw), Or.inl⟩
  · intro v hv
    dsimp only
    by_cases hvw : v = w
    · rw [hvw, Arr.set_get_same]
    · rw [Arr.set_get_ne _ _ hvw]; exact h.le v hv
  · intro v hv
    dsimp only
    rw [Arr.set_get_ne _ _ (by rintro rfl; exact hv hw)]
    exact h.out v hv
  · intro v hv
    dsimp only
    by_cases hvw : v = w
    · rw [hvw, Arr.set_get_same, Arr.set_get_same]; exact fun _ => hd
    · rw [Arr.set_get_ne _ _ hvw, Arr.set_get_ne _ _ hvw]; exact h.dist v hv

/-- What a loop on the neighbours of `v` does. -/
structure Visited (g : Graph) (p v : Int) (s s' : Gp) : Prop where
  tail : s'.tail = s.tail
  head : s.head ≤ s'.head
  queu : ∀ i, i < s.head → s'.queu.get i = s.queu.get i
  pass : ∀ w, s.pass.get w = p → s'.pass.get w = p
  dist : ∀ w, s.pass.get w = p → s'.dist.get w = s.dist.get w
  new : ∀ i, s.head ≤ i → i < s'.head → g.Adj v (s'.queu.get i)

theorem gpArcs_holds (hc : ConsE g) (ha : g.Allocated) (hC : Closed g C) {s : Gp} (h : Bfs g C p old s) {v d : Int} (hv : C v) (hd : 0 ≤ d) :
    Holds (gpArcs g v p d s) (fun s' => Bfs g C p old s' ∧ Visited g p v s s' ∧ ∀ w, g.Adj v w → s'.pass.get w = p) := by
  have hvv := hC.sub v hv
  unfold gpArcs
  refine Holds_forArcs ha hvv (hc.range v hvv).2 (fun e s' => Bfs g C p old s' ∧ Visited g p v s s' ∧
    ∀ x, g.vert v ≤ x → x < e → s'.pass.get (g.dest x) = p) ?_ ?_ ?_
  · exact ⟨h, ⟨rfl, Int.le_refl _, fun _ _ => rfl, fun _ h => h, fun _ _ => rfl, fun i h1 h2 => by omega⟩, fun x h1 h2 => by omega⟩
  · rintro e s' h1 h2 ⟨i1, i2, i3⟩
    have hw : C (g.dest e) := hC.adj v _ hv ⟨e, h1, h2, rfl⟩
    have hwv := hC.sub _ hw
    have hb := i1.bnd
    have w1 := hwv.1
    have w2 := hwv.2
    rw [Arr.rd_ok _ (by have := hb.p1; omega) (by have := hb.p2; omega), ok_bind]
    by_cases hlt : s'.pass.get (g.dest e) < p
    · rw [if_pos hlt]
      refine (gpVisit_holds hc hC i1 hw hlt hd).mono ?_
      rintro s2 ⟨j1, j2, j3, j4, j5, j6⟩
      refine ⟨j1, ⟨by rw [j2, i2.tail], by have := i2.head; omega, ?_, ?_, ?_, ?_⟩, ?_⟩
      · intro i hi
        have := i2.head
        rw [j4, Arr.set_get_ne _ _ (by omega), i2.queu i hi]
      · intro w hw
        rw [j5, Arr.set_get]
        split
        · rfl
        · exact i2.pass w hw
      · intro w hw
        have hp := i2.pass w hw
        rw [j6, Arr.set_get_ne _ _ (by rintro rfl; omega)]
        exact i2.dist w hw
      · intro i k1 k2
        rw [j4]
        by_cases hi : i = s'.head
        · rw [hi, Arr.set_get_same]; exact ⟨e, h1, h2, rfl⟩
        · rw [Arr.set_get_ne _ _ hi]; exact i2.new i k1 (by omega)
      · intro x x1 x2
        rw [j5, Arr.set_get]
        split
        · rfl
        · rename_i hne
          by_cases hx : x = e
          · rw [hx] at hne; exact absurd rfl hne
          · exact i3 x x1 (by omega)
    · rw [if_neg hlt, Holds_pure]
      refine ⟨i1, i2, ?_⟩
      intro x x1 x2
      by_cases hx : x = e
      · rw [hx]
        have := i1.le _ hw
        omega
      · exact i3 x x1 (by omega)
  · rintro s' ⟨i1, i2, i3⟩
    refine ⟨i1, i2, ?_⟩
    rintro w ⟨e, h1, h2, rfl⟩
    exact i3 e h1 h2

/-- State before a pass. -/
structure GpPre (g : Graph) (C : Int → Prop) (p : Int) (old : Int → Int) (s : Gp) : Prop where
  bnd : GpBnd g s
  lt : ∀ v, C v → s.pass.get v < p
  out : ∀ v, ¬ C v → s.pass.get v = old v

theorem gpStart_holds (hc : ConsE g) (hC : Closed g C) {s : Gp} (h : GpPre g C p old s) {v : Int} (hv : C v) :
    Holds (gpStart s v p) (fun s' => Bfs g C p old s' ∧ s'.tail = 0 ∧ s'.head = 1 ∧ s'.queu.get 0 = v) := by
  unfold gpStart
  have hb : Bfs g C p old { s with head := 0, tail := 0 } := by
    refine ⟨⟨h.bnd.q1, h.bnd.q2, h.bnd.p1, h.bnd.p2, h.bnd.d1, h.bnd.d2⟩, ⟨Int.le_refl 0, Int.le_refl 0⟩, ?_, ?_, h.out, ?_⟩
    · refine (Enum.empty s.queu).congr ?_
      intro w
      refine ⟨False.elim, ?_⟩
      rintro ⟨hw, he⟩
      have := h.lt w hw
      dsimp only at he
      omega
    · intro w hw
      have := h.lt w hw
      dsimp only; omega
    · intro w hw he
      have := h.lt w hw
      dsimp only at he
      omega
  refine (gpVisit_holds hc hC hb hv (h.lt v hv) (Int.le_refl 0)).mono ?_
  rintro s' ⟨j1, j2, j3, j4, j5, j6⟩
  refine ⟨j1, j2, j3, ?_⟩
  rw [j4]
  exact Arr.set_get_same _ _ _

theorem gpSearch_holds (hc : ConsE g) (ha : g.Allocated) (hC : Closed g C) {s : Gp} {d : Diam} (h : Bfs g C p old s) (ht : s.tail = 0) (hh : s.head = 1)
    (hd : C d.num) : Holds (loopM (gpSearchStep g p) (g.vertnbr.toNat + 1) (s, d)) (fun r => GpPre g C (p + 1) old r.1 ∧ C r.2.num) := by
  refine Holds_loopM (fun r : Gp × Diam => Bfs g C p old r.1 ∧ r.1.tail < r.1.head ∧ C r.2.num) (fun r => (g.vertnbr - r.1.tail).toNat) ?_ _ _ ?_ ?_
  · rintro ⟨s, d⟩ ⟨i1, i2, i3⟩
    dsimp only at i1 i2 i3
    have hle := i1.head_le hc hC
    have hb := i1.bnd
    have ht := i1.tail
    have hv := i1.enum.mem ht.1 i2
    have hvv := hC.sub _ hv.1
    have v1 := hvv.1
    have v2 := hvv.2
    unfold gpSearchStep
    dsimp only
    rw [Arr.rd_ok _ (by have := hb.q1; omega) (by have := hb.q2; omega), ok_bind, Arr.rd_ok _ (by have := hb.d1; omega) (by have := hb.d2; omega), ok_bind,
      rdVend_eq ha hvv, ok_bind, rdVert_eq ha hvv, ok_bind, Holds_bind]
    have i1' : Bfs g C p old { s with tail := s.tail + 1 } :=
      ⟨⟨hb.q1, hb.q2, hb.p1, hb.p2, hb.d1, hb.d2⟩, by dsimp only; omega, i1.enum, i1.le, i1.out, i1.dist⟩
    refine (gpArcs_holds hc ha hC i1' hv.1 (by have := i1.dist _ hv.1 hv.2; omega)).mono ?_
    rintro s' ⟨j1, j2, j3⟩
    have hdn : C (gpDiam (s.queu.get s.tail) (s.dist.get (s.queu.get s.tail)) (g.vend (s.queu.get s.tail) - g.vert (s.queu.get s.tail)) d).num := by
      unfold gpDiam
      split
      · exact hv.1
      · exact i3
    have jt := j2.tail
    dsimp only at jt
    by_cases he : s'.head ≤ s'.tail
    · rw [if_pos he, Holds_pure, Loop.Sat_brk]
      refine ⟨⟨j1.bnd, fun v hv => by have := j1.le v hv; dsimp only; omega, j1.out⟩, hdn⟩
    · rw [if_neg he, Holds_pure, Loop.Sat_next]
      refine ⟨⟨j1, by dsimp only; omega, hdn⟩, ?_⟩
      dsimp only
      omega
  · exact ⟨h, by dsimp only; omega, hd⟩
  · have := hc.vertnbr
    dsimp only
    omega

theorem gpPasses_holds (hc : ConsE g) (ha : g.Allocated) (hC : Closed g C) (passnbr : Int) {s : Gp} (h : GpPre g C 1 old s) {r : Int} (hr : C r) :
    Holds (loopM (gpPassStep g passnbr) (passnbr.toNat + 1) ⟨s, ⟨r, 0, 0, 1⟩, 1⟩) (fun x => GpPre g C x.passnum old x.gp ∧ C x.diam.num ∧ 1 ≤ x.passnum) := by
  refine Holds_loopM (fun x : GpPass => GpPre g C x.passnum old x.gp ∧ C x.diam.num ∧ 1 ≤ x.passnum) (fun x => (passnbr - x.passnum).toNat) ?_ _ _ ?_ ?_
  · rintro x ⟨i1, i2, i3⟩
    unfold gpPassStep
    by_cases h1 : ¬ x.passnum < passnbr
    · rw [if_pos h1, Holds_pure, Loop.Sat_brk]; exact ⟨i1, i2, i3⟩
    rw [if_neg h1]
    by_cases h2 : x.diam.flag = 0
    · rw [if_pos h2, Holds_pure, Loop.Sat_brk]; exact ⟨i1, i2, i3⟩
    rw [if_neg h2]
    dsimp only
    rw [Holds_bind]
    refine (gpStart_holds hc hC i1 i2).mono ?_
    rintro s' ⟨j1, j2, j3, -⟩
    rw [Holds_bind]
    refine (gpSearch_holds hc ha hC (d := { x.diam with flag := x.diam.flag - 1 }) j1 j2 j3 i2).mono ?_
    rintro ⟨s2, d2⟩ ⟨k1, k2⟩
    dsimp only at k1 k2 ⊢
    rw [Holds_pure, Loop.Sat_next]
    exact ⟨⟨k1, k2, by dsimp only; omega⟩, by dsimp only; omega⟩
  · exact ⟨h, hr, Int.le_refl 1⟩
  · dsimp only; omega

end Scotch.Bipart
