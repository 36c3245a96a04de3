import Verif.Separ.ModelGg
import Verif.Separ.LemmasGp

/-! # Separation by greedy growing -/

set_option autoImplicit false
set_option linter.unusedSimpArgs false

namespace Scotch.Separ
open Graph
open Bipart (over over_congr)
variable {b : Vgraph}

open Classical in
/-- Load of the neighbours of a vertex that are in part 0. -/
noncomputable def free (g : Graph) (st : Int → Int) (u : Int) : Int :=
  sumI g.baseval g.vertnnd (fun x => if g.Adj u x ∧ st x = 0 then g.velo x else 0)

theorem free_arcs {g : Graph} (hc : ConsE g) (st : Int → Int) {u : Int} (hu : g.Vertex u) :
    sumI (g.vert u) (g.vend u) (fun e => if st (g.dest e) = 0 then g.velo (g.dest e) else 0) = free g st u := by
  classical
  rw [sumI_enum g.dest (fun x => if st x = 0 then g.velo x else 0) g.baseval g.vertnnd (g.vert u) (g.vend u) (hc.range u hu).2
    (fun i j i1 i2 j1 j2 => hc.simple u hu i j i1 i2 j1 j2) (fun i i1 i2 => (hc.inside u i hu i1 i2).1)]
  apply sumI_congr
  intro x _ _
  by_cases h1 : g.Adj u x
  · rw [if_pos (show ∃ i, g.vert u ≤ i ∧ i < g.vend u ∧ g.dest i = x from h1)]
    by_cases h2 : st x = 0
    · rw [if_pos h2, if_pos ⟨h1, h2⟩]
    · rw [if_neg h2, if_neg (fun h => h2 h.2)]
  · rw [if_neg (show ¬ ∃ i, g.vert u ≤ i ∧ i < g.vend u ∧ g.dest i = x from h1), if_neg (fun h => h1 h.1)]

theorem free_congr {g : Graph} {st st' : Int → Int} (h : ∀ x, st x = 0 ↔ st' x = 0) (u : Int) : free g st u = free g st' u := by
  unfold free
  apply sumI_congr
  intro x _ _
  by_cases h1 : g.Adj u x ∧ st x = 0
  · rw [if_pos h1, if_pos ⟨h1.1, (h x).1 h1.2⟩]
  · rw [if_neg h1, if_neg (fun h' => h1 ⟨h'.1, (h x).2 h'.2⟩)]

open Classical in
theorem free_upd {g : Graph} {st : Int → Int} {w : Int} (hw : g.Vertex w) (h0 : st w = 0) {k : Int} (hk : k ≠ 0) (u : Int) :
    free g (upd st w k) u = free g st u - (if g.Adj u w then g.velo w else 0) := by
  unfold free
  rw [sumI_congr (g := fun x => if x = w then 0 else (if g.Adj u x ∧ st x = 0 then g.velo x else 0)), sumI_update hw.1 hw.2]
  · simp only [h0, and_true]; omega
  · intro x _ _
    by_cases hx : x = w
    · rw [hx, upd_same, if_pos rfl, if_neg (fun h => hk h.2)]
    · rw [upd_ne _ _ hx, if_neg hx]

/-- Part of a vertex, from its state. -/
def sp (st : Int → Int) : Int → Int := fun v => if st v = 3 then 2 else st v

/-- Some linked vertices have become chained. -/
def Sim (st st' : Int → Int) : Prop := ∀ y, st' y = st y ∨ (st y = 3 ∧ st' y = 2)

theorem Sim.zero {st st' : Int → Int} (h : Sim st st') (y : Int) : st' y = 0 ↔ st y = 0 := by
  rcases h y with h | h <;> omega

theorem Sim.one {st st' : Int → Int} (h : Sim st st') (y : Int) : st' y = 1 ↔ st y = 1 := by
  rcases h y with h | h <;> omega

theorem Sim.sp {st st' : Int → Int} (h : Sim st st') : sp st' = sp st := by
  funext y
  unfold Separ.sp
  rcases h y with h | ⟨h1, h2⟩
  · rw [h]
  · rw [h1, h2]; simp

/-- Memory, values of states, and chain. -/
structure GgMem (b : Vgraph) (s : Gg) : Prop where
  stb : s.st.lo = b.s.baseval ∧ s.st.hi = b.s.vertnnd
  gb : s.gain.lo = b.s.baseval ∧ s.gain.hi = b.s.vertnnd
  vals : ∀ v, b.s.Vertex v → s.st.get v = 0 ∨ s.st.get v = 1 ∨ s.st.get v = 2 ∨ s.st.get v = 3
  chain : ∀ x, x ∈ s.chain ↔ b.s.Vertex x ∧ s.st.get x = 2

/-- Gains of the vertices of the separator. -/
def Gains (b : Vgraph) (s : Gg) : Prop :=
  ∀ u, b.s.Vertex u → (s.st.get u = 2 ∨ s.st.get u = 3) → s.gain.get u = free b.s s.st.get u - b.s.velo u

/-- Neighbours of a vertex that enters the separator. -/
theorem ggArcs2_holds (hc : ConsE b.s) (ha : Alloc b) {s : Gg} {w : Int} (hw : b.s.Vertex w) (hm : GgMem b s) :
    Holds (b.s.forArcs w (s, - b.s.velo w) (ggArc2 b (b.s.velo w))) (fun r => GgMem b r.1 ∧ Sim s.st.get r.1.st.get ∧
      r.2 = free b.s s.st.get w - b.s.velo w ∧ r.1.comploaddlt = s.comploaddlt ∧ r.1.compload2 = s.compload2 ∧
      ∀ u, b.s.Vertex u → (r.1.st.get u = 2 ∨ r.1.st.get u = 3) →
        (b.s.Adj u w → r.1.gain.get u = s.gain.get u - b.s.velo w) ∧ (¬ b.s.Adj u w → r.1.gain.get u = s.gain.get u)) := by
  refine Holds_forArcs ha.graph hw (hc.range w hw).2 (fun e (r : Gg × Int) => GgMem b r.1 ∧ Sim s.st.get r.1.st.get ∧
      r.2 = sumI (b.s.vert w) e (fun i => if s.st.get (b.s.dest i) = 0 then b.s.velo (b.s.dest i) else 0) - b.s.velo w ∧
      r.1.comploaddlt = s.comploaddlt ∧ r.1.compload2 = s.compload2 ∧
      ∀ u, b.s.Vertex u → (r.1.st.get u = 2 ∨ r.1.st.get u = 3) →
        ((∃ i, b.s.vert w ≤ i ∧ i < e ∧ b.s.dest i = u) → r.1.gain.get u = s.gain.get u - b.s.velo w) ∧
        ((¬ ∃ i, b.s.vert w ≤ i ∧ i < e ∧ b.s.dest i = u) → r.1.gain.get u = s.gain.get u)) ?_ ?_ ?_
  · refine ⟨hm, fun _ => Or.inl rfl, by rw [sumI_empty (Int.le_refl _)]; simp, rfl, rfl, fun u _ _ => ⟨?_, fun _ => rfl⟩⟩
    rintro ⟨i, h1, h2, _⟩; omega
  · rintro e ⟨r, c⟩ h1 h2 ⟨i1, i2, i3, i4, i5, i6⟩
    dsimp only at i1 i2 i3 i4 i5 i6
    have hin := hc.inside w e hw h1 h2
    generalize hx : b.s.dest e = x at hin
    have hxv := hin.1
    have x1 := hxv.1
    have x2 := hxv.2
    have hsb := i1.stb
    have hgb := i1.gb
    have hnot : ¬ ∃ i, b.s.vert w ≤ i ∧ i < e ∧ b.s.dest i = x := by
      rintro ⟨i, k1, k2, k3⟩
      have := hc.simple w hw i e k1 (by omega) h1 h2 (by rw [k3, hx])
      omega
    have hext : ∀ u, (∃ i, b.s.vert w ≤ i ∧ i < e + 1 ∧ b.s.dest i = u) ↔ (∃ i, b.s.vert w ≤ i ∧ i < e ∧ b.s.dest i = u) ∨ u = x := by
      intro u
      constructor
      · rintro ⟨i, k1, k2, k3⟩
        by_cases hi : i = e
        · right; rw [← k3, hi, hx]
        · left; exact ⟨i, k1, by omega, k3⟩
      · rintro (⟨i, k1, k2, k3⟩ | rfl)
        · exact ⟨i, k1, by omega, k3⟩
        · exact ⟨e, h1, by omega, hx⟩
    have hsame : ∀ (r' : Gg) (y : Int), y ≠ x → r'.gain.get y = r.gain.get y → (r'.st.get y = r.st.get y) → b.s.Vertex y → (r'.st.get y = 2 ∨ r'.st.get y = 3) →
        ((∃ i, b.s.vert w ≤ i ∧ i < e + 1 ∧ b.s.dest i = y) → r'.gain.get y = s.gain.get y - b.s.velo w) ∧
        ((¬ ∃ i, b.s.vert w ≤ i ∧ i < e + 1 ∧ b.s.dest i = y) → r'.gain.get y = s.gain.get y) := by
      intro r' y hy hg hs hyv hst
      rw [hs] at hst
      have := i6 y hyv hst
      rw [hg, hext]
      refine ⟨?_, ?_⟩
      · rintro (h | h)
        · exact this.1 h
        · exact absurd h hy
      · intro h
        exact this.2 (fun h' => h (Or.inl h'))
    unfold ggArc2
    dsimp only
    rw [Arr.rd_ok _ (by omega) (by omega), ok_bind, sumI_succ h1, hx]
    have hz := i2.zero x
    by_cases h0 : r.st.get x = 0
    · rw [if_pos h0, rdVelo_eq ha.graph hxv, ok_bind, Holds_pure]
      refine ⟨i1, i2, ?_, i4, i5, ?_⟩
      · dsimp only; rw [if_pos (hz.1 h0), i3]; omega
      · intro u hu hst
        by_cases hux : u = x
        · rw [hux] at hst; dsimp only at hst; omega
        · exact hsame r u hux rfl rfl hu hst
    · rw [if_neg h0, if_neg (fun h => h0 (hz.2 h))]
      by_cases hge : r.st.get x ≥ 2
      · rw [if_pos hge, Arr.rd_ok _ (by omega) (by omega), ok_bind, Arr.wr_ok _ _ (by omega) (by omega), ok_bind]
        have hst : r.st.get x = 2 ∨ r.st.get x = 3 := by rcases i1.vals x hxv with h | h | h | h <;> omega
        have hgx := (i6 x hxv hst).2 hnot
        by_cases h3 : r.st.get x ≥ 3
        · have h3' : r.st.get x = 3 := by omega
          rw [if_pos h3, Arr.wr_ok _ _ (by omega) (by omega), ok_bind, Holds_pure]
          refine ⟨⟨hsb, hgb, ?_, ?_⟩, ?_, by dsimp only; omega, i4, i5, ?_⟩
          · intro v hv
            dsimp only
            rw [Arr.set_get]
            split
            · exact Or.inr (Or.inr (Or.inl rfl))
            · exact i1.vals v hv
          · intro v
            dsimp only
            rw [List.mem_cons, i1.chain, Arr.set_get]
            by_cases hvx : v = x
            · rw [if_pos hvx]; exact ⟨fun _ => ⟨hvx ▸ hxv, rfl⟩, fun _ => Or.inl hvx⟩
            · rw [if_neg hvx]; exact ⟨fun h => h.resolve_left hvx, Or.inr⟩
          · intro y
            dsimp only
            rw [Arr.set_get]
            split
            · rename_i hy
              right
              rw [hy]
              rcases i2 x with h | h
              · exact ⟨by rw [← h]; exact h3', rfl⟩
              · omega
            · exact i2 y
          · intro u hu hstu
            by_cases hux : u = x
            · rw [hext, hux]
              dsimp only
              rw [Arr.set_get_same, hgx]
              exact ⟨fun _ => rfl, fun h => absurd (Or.inr rfl) h⟩
            · exact hsame ⟨r.st.set x 2, r.gain.set x _, x :: r.chain, r.comploaddlt, r.compload2, r.tick⟩ u hux
                (Arr.set_get_ne _ _ hux) (Arr.set_get_ne _ _ hux) hu hstu
        · rw [if_neg h3, Holds_pure]
          refine ⟨⟨hsb, hgb, i1.vals, i1.chain⟩, i2, by dsimp only; omega, i4, i5, ?_⟩
          intro u hu hstu
          by_cases hux : u = x
          · rw [hext, hux]
            dsimp only
            rw [Arr.set_get_same, hgx]
            exact ⟨fun _ => rfl, fun h => absurd (Or.inr rfl) h⟩
          · exact hsame ⟨r.st, r.gain.set x _, r.chain, r.comploaddlt, r.compload2, r.tick⟩ u hux
              (Arr.set_get_ne _ _ hux) rfl hu hstu
      · rw [if_neg hge, Holds_pure]
        refine ⟨i1, i2, by dsimp only; omega, i4, i5, ?_⟩
        intro u hu hst
        by_cases hux : u = x
        · rw [hux] at hst; dsimp only at hst; omega
        · exact hsame r u hux rfl rfl hu hst
  · rintro r ⟨i1, i2, i3, i4, i5, i6⟩
    refine ⟨i1, i2, by rw [i3, free_arcs hc _ hw], i4, i5, ?_⟩
    intro u hu hst
    have := i6 u hu hst
    refine ⟨fun h => this.1 (hc.adj_symm hu h), fun h => this.2 (fun h' => h (hc.adj_symm hw h'))⟩

/-- Load of the neighbours of a vertex that are in part 0, from a given arc on. -/
def rest (g : Graph) (st : Int → Int) (v e : Int) : Int :=
  sumI e (g.vend v) (fun i => if st (g.dest i) = 0 then g.velo (g.dest i) else 0)

theorem rest_succ (g : Graph) (st : Int → Int) {v e : Int} (h : e < g.vend v) :
    rest g st v e = (if st (g.dest e) = 0 then g.velo (g.dest e) else 0) + rest g st v (e + 1) := by
  unfold rest
  rw [sumI_split (show e ≤ e + 1 by omega) (by omega), sumI_succ (Int.le_refl e), sumI_empty (Int.le_refl e)]
  omega

/-- State while the arcs of a vertex that has left the separator are considered. -/
structure GgMid (b : Vgraph) (v : Int) (s0 : Gg) (e : Int) (s : Gg) : Prop where
  mem : GgMem b s
  gains : Gains b s
  ones : ∀ y, s.st.get y = 1 ↔ s0.st.get y = 1
  sep : ∀ x w, b.s.Vertex x → s.st.get x = 1 → b.s.Adj x w → s.st.get w = 0 → x = v ∧ ∃ i, e ≤ i ∧ i < b.s.vend v ∧ b.s.dest i = w
  load : Loads b (sp s.st.get) (s.comploaddlt + rest b.s s.st.get v e * b.dwgt1) (s.compload2 - rest b.s s.st.get v e)

theorem ggArcs_holds (hc : ConsE b.s) (ha : Alloc b) {s0 : Gg} {v : Int} (hv : b.s.Vertex v) (h : GgMid b v s0 (b.s.vert v) s0) :
    Holds (b.s.forArcs v s0 (ggArc b)) (GgMid b v s0 (b.s.vend v)) := by
  refine Holds_forArcs ha.graph hv (hc.range v hv).2 (GgMid b v s0) h ?_ (fun _ h => h)
  intro e s h1 h2 hi
  obtain ⟨i1, i2, i3, i4, i5⟩ := hi
  have hin := hc.inside v e hv h1 h2
  rw [rest_succ _ _ h2] at i5
  have huniq : ∀ i, e + 1 ≤ i → i < b.s.vend v → b.s.dest i ≠ b.s.dest e := by
    intro i k1 k2 k3
    have := hc.simple v hv i e (by omega) k2 h1 h2 k3
    omega
  generalize hwe : b.s.dest e = w at hin i5 huniq
  have hwv := hin.1
  have x1 := hwv.1
  have x2 := hwv.2
  have hsb := i1.stb
  have hgb := i1.gb
  unfold ggArc
  rw [Arr.rd_ok _ (by omega) (by omega), ok_bind]
  by_cases h0 : s.st.get w = 0
  · rw [if_pos h0, Arr.wr_ok _ _ (by omega) (by omega), ok_bind, rdVelo_eq ha.graph hwv, ok_bind, Holds_bind]
    have hm : GgMem b { s with st := s.st.set w 2, chain := w :: s.chain } := by
      refine ⟨hsb, hgb, ?_, ?_⟩
      · intro y hy
        dsimp only
        rw [Arr.set_get]
        split
        · exact Or.inr (Or.inr (Or.inl rfl))
        · exact i1.vals y hy
      · intro y
        dsimp only
        rw [List.mem_cons, i1.chain, Arr.set_get]
        by_cases hyx : y = w
        · rw [if_pos hyx]; exact ⟨fun _ => ⟨hyx ▸ hwv, rfl⟩, fun _ => Or.inl hyx⟩
        · rw [if_neg hyx]; exact ⟨fun h => h.resolve_left hyx, Or.inr⟩
    refine (ggArcs2_holds hc ha hwv hm).mono ?_
    rintro ⟨r, c⟩ ⟨j1, j2, j3, j4, j5, j6⟩
    dsimp only at j1 j2 j3 j4 j5 j6 ⊢
    have hrb := j1.gb
    rw [Arr.wr_ok _ _ (by omega) (by omega), ok_bind, Holds_pure]
    rw [set_upd] at j2 j3
    have hz := j2.zero
    have ho := j2.one
    have hzw : ∀ y, r.st.get y = 0 ↔ s.st.get y = 0 ∧ y ≠ w := by
      intro y
      rw [hz]
      by_cases hy : y = w
      · rw [hy, upd_same]; exact ⟨fun h => absurd h (by decide), fun h => absurd rfl h.2⟩
      · rw [upd_ne _ _ hy]; exact ⟨fun h => ⟨h, hy⟩, fun h => h.1⟩
    have how : ∀ y, r.st.get y = 1 ↔ s.st.get y = 1 := by
      intro y
      rw [ho]
      by_cases hy : y = w
      · rw [hy, upd_same]; omega
      · rw [upd_ne _ _ hy]
    have hrest : rest b.s r.st.get v (e + 1) = rest b.s s.st.get v (e + 1) := by
      apply sumI_congr
      intro i k1 k2
      by_cases hzi : s.st.get (b.s.dest i) = 0
      · rw [if_pos hzi, if_pos ((hzw _).2 ⟨hzi, huniq i k1 k2⟩)]
      · rw [if_neg hzi, if_neg (fun h => hzi ((hzw _).1 h).1)]
    refine ⟨⟨j1.stb, hrb, j1.vals, j1.chain⟩, ?_, ?_, ?_, ?_⟩
    · intro u hu hst
      dsimp only at hst ⊢
      rw [free_congr hz]
      by_cases huw : u = w
      · rw [huw, Arr.set_get_same, j3]
      · rw [Arr.set_get_ne _ _ huw, free_upd hwv h0 (by decide)]
        have hstu : s.st.get u = 2 ∨ s.st.get u = 3 := by
          rcases j2 u with hh | hh
          · rw [upd_ne _ _ huw] at hh; omega
          · rw [upd_ne _ _ huw] at hh; omega
        have hgu := i2 u hu hstu
        have hju := j6 u hu hst
        by_cases had : b.s.Adj u w
        · rw [if_pos had, hju.1 had, hgu]; omega
        · rw [if_neg had, hju.2 had, hgu]; omega
    · intro y; rw [← i3]; exact how y
    · intro x y hx hxs hxy hys
      dsimp only at hxs hys
      rw [how] at hxs
      rw [hzw] at hys
      obtain ⟨k1, i, k2, k3, k4⟩ := i4 x y hx hxs hxy hys.1
      refine ⟨k1, i, ?_, k3, k4⟩
      by_cases hie : i = e
      · exfalso
        exact hys.2 (by rw [← k4, hie, hwe])
      · omega
    · dsimp only
      rw [j2.sp, j4, j5, hrest]
      rw [if_pos h0] at i5
      have h5 := i5.enter hwv (show sp s.st.get w = 0 by unfold sp; rw [h0]; simp)
      have e1 : upd (sp s.st.get) w 2 = sp (upd s.st.get w 2) := by
        funext y
        unfold sp
        by_cases hy : y = w
        · rw [hy, upd_same, upd_same]; simp
        · rw [upd_ne _ _ hy, upd_ne _ _ hy]
      rw [e1] at h5
      have e2 : s.comploaddlt + (b.s.velo w + rest b.s s.st.get v (e + 1)) * b.dwgt1 - b.s.velo w * b.dwgt1 =
          s.comploaddlt + rest b.s s.st.get v (e + 1) * b.dwgt1 := by rw [Int.add_mul]; omega
      have e3 : s.compload2 - (b.s.velo w + rest b.s s.st.get v (e + 1)) + b.s.velo w = s.compload2 - rest b.s s.st.get v (e + 1) := by omega
      rw [e2, e3] at h5
      exact h5
  · rw [if_neg h0, Holds_pure]
    rw [if_neg h0, Int.zero_add] at i5
    refine ⟨i1, i2, i3, ?_, i5⟩
    intro x y hx hxs hxy hys
    obtain ⟨k1, i, k2, k3, k4⟩ := i4 x y hx hxs hxy hys
    refine ⟨k1, i, ?_, k3, k4⟩
    by_cases hie : i = e
    · rw [← k4, hie, hwe] at hys
      exact absurd hys h0
    · omega

/-- State between two vertices. -/
structure GgInv (b : Vgraph) (s : Gg) : Prop where
  mem : GgMem b s
  gains : Gains b s
  chain : s.chain = []
  sep : ∀ x w, b.s.Vertex x → s.st.get x = 1 → b.s.Adj x w → s.st.get w ≠ 0
  load : Loads b (sp s.st.get) s.comploaddlt s.compload2

theorem ggLink_holds {b : Vgraph} : ∀ (l : List Int) (s : Gg), s.st.lo = b.s.baseval ∧ s.st.hi = b.s.vertnnd → (∀ x, x ∈ l → b.s.Vertex x) →
    Holds (ggLink l s) (fun r => ∃ st : Arr Int, r = { s with chain := [], st := st } ∧ st.lo = s.st.lo ∧ st.hi = s.st.hi ∧
      (∀ y, y ∈ l → st.get y = 3) ∧ ∀ y, y ∉ l → st.get y = s.st.get y) := by
  intro l
  induction l with
  | nil =>
    intro s _ _
    unfold ggLink
    rw [Holds_pure]
    exact ⟨s.st, rfl, rfl, rfl, fun y hy => (by cases hy), fun _ _ => rfl⟩
  | cons x l ih =>
    intro s hs hl
    have hx := hl x (List.mem_cons_self ..)
    have x1 := hx.1
    have x2 := hx.2
    unfold ggLink
    rw [Arr.wr_ok _ _ (by omega) (by omega), ok_bind]
    refine (ih { s with st := s.st.set x 3 } hs (fun y hy => hl y (List.mem_cons_of_mem _ hy))).mono ?_
    rintro r ⟨st, h1, h2, h3, h4, h5⟩
    refine ⟨st, h1, h2, h3, ?_, ?_⟩
    · intro y hy
      by_cases hyl : y ∈ l
      · exact h4 y hyl
      · rw [h5 y hyl]
        have : y = x := by rcases List.mem_cons.1 hy with h | h; exact h; exact absurd h hyl
        rw [this]; exact Arr.set_get_same _ _ _
    · intro y hy
      rw [h5 y (fun h => hy (List.mem_cons_of_mem _ h))]
      exact Arr.set_get_ne _ _ (fun h => hy (by rw [h]; exact List.mem_cons_self ..))

theorem ggFirst_holds (hc : ConsE b.s) (o : GgOracle) {s : Gg} (hm : GgMem b s) :
    Holds (ggFirst b o s) (fun r => match r with
      | none => ∀ v, b.s.Vertex v → s.st.get v ≠ 3
      | some v => b.s.Vertex v ∧ s.st.get v = 3) := by
  have hn := hc.vertnbr
  have hnn := hc.vertnnd
  have hsb := hm.stb
  unfold ggFirst
  rw [Holds_bind]
  refine Holds_forUpB (fun i (_ : Unit) => ∀ v, b.s.baseval ≤ v → v < i → s.st.get v ≠ 3) (fun v => b.s.Vertex v ∧ s.st.get v = 3) (by omega) ?_ ?_ ?_ ?_
  · intro v h1 h2; omega
  · intro i _ h1 h2 hi
    rw [Arr.rd_ok _ (by omega) (by omega), ok_bind]
    by_cases h3 : s.st.get i = 3
    · rw [if_pos h3, Holds_pure]; exact ⟨⟨h1, h2⟩, h3⟩
    · rw [if_neg h3, Holds_pure]
      intro v v1 v2
      by_cases hv : v = i
      · rw [hv]; exact h3
      · exact hi v v1 (by omega)
  · intro _ h
    dsimp only
    rw [Holds_pure]
    exact fun v hv => h v hv.1 hv.2
  · intro v h
    dsimp only
    split
    · rename_i hp
      rw [Holds_pure]
      exact ⟨⟨by have := hp.1.1; omega, by have := hp.1.2; omega⟩, hp.2⟩
    · rw [Holds_pure]; exact h

/-- Number of vertices that are not in part 1. -/
def left (b : Vgraph) (s : Gg) : Int := sumI b.s.baseval b.s.vertnnd (fun v => if s.st.get v = 1 then 0 else 1)

theorem left_nonneg (s : Gg) : 0 ≤ left b s := sumI_nonneg fun _ _ _ => by split <;> omega

theorem left_le (hc : ConsE b.s) (s : Gg) : left b s ≤ b.s.vertnbr := by
  rw [← size_total hc]
  exact sumI_mono fun _ _ _ => by split <;> omega

theorem left_drop {s t : Gg} {v : Int} (hv : b.s.Vertex v) (h : s.st.get v ≠ 1) (ht : ∀ y, t.st.get y = 1 ↔ s.st.get y = 1 ∨ y = v) : left b t = left b s - 1 := by
  unfold left
  rw [sumI_congr (g := fun y => if y = v then 0 else (if s.st.get y = 1 then 0 else 1)), sumI_update hv.1 hv.2, if_neg h]
  · omega
  · intro y _ _
    by_cases hy : y = v
    · rw [if_pos hy, if_pos ((ht y).2 (Or.inr hy))]
    · rw [if_neg hy]
      by_cases h1 : s.st.get y = 1
      · rw [if_pos h1, if_pos ((ht y).2 (Or.inl h1))]
      · rw [if_neg h1, if_neg (fun h' => ((ht y).1 h').elim h1 hy)]

theorem ggStep_holds (hc : ConsE b.s) (ha : Alloc b) (o : GgOracle) {v : Int} {s : Gg} (hv : b.s.Vertex v) (h3 : s.st.get v = 3) (h : GgInv b s) :
    Holds (ggStep b o (v, s)) (Loop.Sat (fun r => (b.s.Vertex r.1 ∧ r.2.st.get r.1 = 3 ∧ GgInv b r.2) ∧ (left b r.2).toNat < (left b s).toNat)
      (fun r => GgInv b r.2 ∧ (r.1 = false → ∀ v, b.s.Vertex v → r.2.st.get v = 0 ∨ r.2.st.get v = 1))) := by
  obtain ⟨hm, hg, hch, hsep, hld⟩ := h
  have v1 := hv.1
  have v2 := hv.2
  have hsb := hm.stb
  have hgb := hm.gb
  unfold ggStep
  dsimp only
  rw [rdVelo_eq ha.graph hv, ok_bind]
  by_cases hstop : s.comploaddlt < o.absI (s.comploaddlt - b.s.velo v * b.dwgt0)
  · rw [if_pos hstop, Holds_pure]
    exact ⟨⟨hm, hg, hch, hsep, hld⟩, fun h => (by cases h)⟩
  rw [if_neg hstop, Arr.wr_ok _ _ (by omega) (by omega), ok_bind, Arr.rd_ok _ (by omega) (by omega), ok_bind, Holds_bind]
  have hz : ∀ x, (s.st.set v 1).get x = 0 ↔ s.st.get x = 0 := by
    intro x
    rw [Arr.set_get]
    split
    · rename_i hx; rw [hx]; omega
    · exact Iff.rfl
  have hrest : rest b.s (s.st.set v 1).get v (b.s.vert v) = s.gain.get v + b.s.velo v := by
    have := hg v hv (Or.inr h3)
    unfold rest
    rw [free_arcs hc _ hv, free_congr hz]
    omega
  have hmid : GgMid b v { s with st := s.st.set v 1, compload2 := s.compload2 + s.gain.get v, comploaddlt := s.comploaddlt - b.s.velo v * b.dwgt0 - (s.gain.get v + b.s.velo v) * b.dwgt1, chain := [] } (b.s.vert v)
      { s with st := s.st.set v 1, compload2 := s.compload2 + s.gain.get v, comploaddlt := s.comploaddlt - b.s.velo v * b.dwgt0 - (s.gain.get v + b.s.velo v) * b.dwgt1, chain := [] } := by
    refine ⟨⟨hsb, hgb, ?_, ?_⟩, ?_, fun _ => Iff.rfl, ?_, ?_⟩
    · intro y hy
      dsimp only
      rw [Arr.set_get]
      split
      · exact Or.inr (Or.inl rfl)
      · exact hm.vals y hy
    · intro y
      dsimp only
      rw [← hch, hm.chain, Arr.set_get]
      by_cases hy : y = v
      · rw [if_pos hy, hy, h3]
        exact ⟨fun h => absurd h.2 (by decide), fun h => absurd h.2 (by decide)⟩
      · rw [if_neg hy]
    · intro u hu hst
      dsimp only at hst ⊢
      rw [free_congr hz]
      refine hg u hu ?_
      rw [Arr.set_get] at hst
      split at hst
      · omega
      · exact hst
    · intro x w hx hxs hxw hws
      dsimp only at hxs hws
      rw [hz] at hws
      by_cases hxv : x = v
      · refine ⟨hxv, ?_⟩
        rw [hxv] at hxw
        exact hxw
      · rw [Arr.set_get_ne _ _ hxv] at hxs
        exact absurd hws (hsep x w hx hxs hxw)
    · dsimp only
      rw [hrest]
      have hl := hld.leave hv (show sp s.st.get v = 2 by unfold sp; rw [h3]; simp)
      have e1 : upd (sp s.st.get) v 1 = sp (s.st.set v 1).get := by
        rw [set_upd]
        funext y
        unfold sp
        by_cases hy : y = v
        · rw [hy, upd_same, upd_same]; simp
        · rw [upd_ne _ _ hy, upd_ne _ _ hy]
      rw [← e1]
      rw [show s.comploaddlt - b.s.velo v * b.dwgt0 - (s.gain.get v + b.s.velo v) * b.dwgt1 + (s.gain.get v + b.s.velo v) * b.dwgt1 = s.comploaddlt - b.s.velo v * b.dwgt0 by omega,
        show s.compload2 + s.gain.get v - (s.gain.get v + b.s.velo v) = s.compload2 - b.s.velo v by omega]
      exact hl
  refine (ggArcs_holds hc ha hv hmid).mono ?_
  rintro t ⟨t1, t2, t3, t4, t5⟩
  have ht3 : ∀ y, t.st.get y = 1 ↔ s.st.get y = 1 ∨ y = v := by
    intro y
    rw [t3 y]
    dsimp only
    rw [Arr.set_get]
    by_cases hy : y = v
    · rw [if_pos hy]; exact ⟨fun _ => Or.inr hy, fun _ => rfl⟩
    · rw [if_neg hy]; exact ⟨Or.inl, fun h => h.resolve_right hy⟩
  have hr0 : rest b.s t.st.get v (b.s.vend v) = 0 := sumI_empty (Int.le_refl _) _
  rw [hr0, Int.zero_mul, Int.add_zero, Int.sub_zero] at t5
  rw [Holds_bind]
  refine (ggLink_holds (b := b) t.chain t t1.stb (fun x hx => ((t1.chain x).1 hx).1)).mono ?_
  rintro r ⟨st, rfl, l1, l2, l3, l4⟩
  have hl3 : ∀ y, (t.st.get y = 2 ∧ b.s.Vertex y ∧ st.get y = 3) ∨ (¬ (b.s.Vertex y ∧ t.st.get y = 2) ∧ st.get y = t.st.get y) := by
    intro y
    by_cases hy : y ∈ t.chain
    · have := (t1.chain y).1 hy
      exact Or.inl ⟨this.2, this.1, l3 y hy⟩
    · exact Or.inr ⟨fun h => hy ((t1.chain y).2 h), l4 y hy⟩
  have hinv : GgInv b { t with chain := [], st := st } := by
    refine ⟨⟨by have := t1.stb; dsimp only; omega, t1.gb, ?_, ?_⟩, ?_, rfl, ?_, ?_⟩
    · intro y hy
      dsimp only
      rcases hl3 y with h | h
      · omega
      · rw [h.2]; exact t1.vals y hy
    · intro y
      dsimp only
      refine ⟨fun h => (by cases h), ?_⟩
      rintro ⟨k1, k2⟩
      exfalso
      rcases hl3 y with h | h
      · omega
      · exact h.1 ⟨k1, by omega⟩
    · intro u hu hst
      dsimp only at hst ⊢
      have hst' : t.st.get u = 2 ∨ t.st.get u = 3 := by rcases hl3 u with h | h <;> omega
      rw [t2 u hu hst']
      congr 1
      apply free_congr
      intro x
      rcases hl3 x with h | h <;> omega
    · intro x w hx hxs hxw hws
      dsimp only at hxs hws
      have e1 : t.st.get x = 1 := by rcases hl3 x with h | h <;> omega
      have e2 : t.st.get w = 0 := by rcases hl3 w with h | h <;> omega
      obtain ⟨_, i, k1, k2, _⟩ := t4 x w hx e1 hxw e2
      omega
    · dsimp only
      have : sp st.get = sp t.st.get := by
        funext y
        unfold sp
        rcases hl3 y with h | h
        · rw [h.1, h.2.2]; simp
        · rw [h.2]
      rw [this]; exact t5
  have hone : ∀ y, st.get y = 1 ↔ s.st.get y = 1 ∨ y = v := by
    intro y
    rw [← ht3 y]
    rcases hl3 y with h | h <;> omega
  rw [Holds_bind]
  refine (ggFirst_holds hc o hinv.mem).mono ?_
  rintro (_ | w) hw
  · dsimp only at hw ⊢
    rw [Holds_pure]
    refine ⟨hinv, fun _ x hx => ?_⟩
    dsimp only
    have hxx := hw x hx
    have hch := (hinv.mem.chain x).2
    rcases hinv.mem.vals x hx with h | h | h | h
    · exact Or.inl h
    · exact Or.inr h
    · exact absurd (hch ⟨hx, h⟩) (fun h' => (by cases h'))
    · exact absurd h hxx
  · dsimp only at hw ⊢
    rw [Holds_pure]
    refine ⟨⟨hw.1, hw.2, ⟨hinv.mem.stb, hinv.mem.gb, hinv.mem.vals, hinv.mem.chain⟩, hinv.gains, hinv.chain, hinv.sep, hinv.load⟩, ?_⟩
    have e := left_drop (b := b) (s := s) (t := ⟨st, t.gain, [], t.comploaddlt, t.compload2, t.tick + 1⟩) hv (by omega) hone
    have := left_nonneg (b := b) ⟨st, t.gain, [], t.comploaddlt, t.compload2, t.tick + 1⟩
    dsimp only
    omega

theorem ggGain_holds (hc : ConsE b.s) (ha : Alloc b) {v : Int} {st : Int → Int} (hv : b.s.Vertex v) (h0 : ∀ w, b.s.Adj v w → st w = 0) :
    Holds (ggGain b v) (fun c => c = free b.s st v - b.s.velo v) := by
  have hr := (hc.range v hv).2
  rw [← free_arcs hc _ hv, sumI_congr (g := fun e => b.s.velo (b.s.dest e)) (fun e h1 h2 => if_pos (h0 _ ⟨e, h1, h2, rfl⟩))]
  have hve := fun {x : Int} (hx : b.s.Vertex x) => rdVelo_eq ha.graph hx
  unfold ggGain
  unfold rdVelo at hve
  split
  · rename_i hn
    have hone : ∀ x, b.s.velo x = 1 := fun x => by unfold velo; rw [hn]
    rw [rdVend_eq ha.graph hv, ok_bind, rdVert_eq ha.graph hv, ok_bind, Holds_pure, sumI_congr (g := fun _ => 1) (fun _ _ _ => hone _), sumI_const hr, hone]
    omega
  · rename_i velotax hn
    rw [hn] at hve
    dsimp only at hve
    rw [hve hv, ok_bind]
    refine Holds_forArcs ha.graph hv hr (fun e c => c = sumI (b.s.vert v) e (fun e => b.s.velo (b.s.dest e)) - b.s.velo v) ?_ ?_ ?_
    · rw [sumI_empty (Int.le_refl _)]; omega
    · intro e c h1 h2 hi
      rw [hve (hc.inside v e hv h1 h2).1, ok_bind, Holds_pure, sumI_succ h1]
      omega
    · intro c h; exact h

theorem ggSeed_holds (hc : ConsE b.s) (ha : Alloc b) {v : Int} {s : Gg} (hv : b.s.Vertex v) (h0 : s.st.get v = 0) (h : GgInv b s)
    (hall : ∀ v, b.s.Vertex v → s.st.get v = 0 ∨ s.st.get v = 1) :
    Holds (ggSeed b v s) (fun t => t.st.get v = 3 ∧ GgInv b t) := by
  obtain ⟨hm, hg, hch, hsep, hld⟩ := h
  have v1 := hv.1
  have v2 := hv.2
  have hsb := hm.stb
  have hgb := hm.gb
  have hadj : ∀ w, b.s.Adj v w → s.st.get w = 0 := by
    intro w hw
    have hwv := (hc.adj_vertex hv hw).1
    rcases hall w hwv with h | h
    · exact h
    · exact absurd h0 (hsep w v hwv h (hc.adj_symm hv hw))
  unfold ggSeed
  rw [Arr.wr_ok _ _ (by omega) (by omega), ok_bind, rdVelo_eq ha.graph hv, ok_bind, Holds_bind]
  refine (ggGain_holds hc ha hv hadj).mono ?_
  intro c hcv
  rw [Arr.wr_ok _ _ (by omega) (by omega), ok_bind, Holds_pure]
  refine ⟨Arr.set_get_same _ _ _, ⟨hsb, hgb, ?_, ?_⟩, ?_, hch, ?_, ?_⟩
  · intro y hy
    dsimp only
    rw [Arr.set_get]
    split
    · exact Or.inr (Or.inr (Or.inr rfl))
    · exact hm.vals y hy
  · intro y
    dsimp only
    rw [hm.chain, Arr.set_get]
    by_cases hy : y = v
    · rw [if_pos hy, hy, h0]
      exact ⟨fun h => absurd h.2 (by decide), fun h => absurd h.2 (by decide)⟩
    · rw [if_neg hy]
  · intro u hu hst
    dsimp only at hst ⊢
    have huv : u = v := by
      refine Classical.byContradiction fun hne => ?_
      rw [Arr.set_get_ne _ _ hne] at hst
      have := hall u hu
      omega
    rw [huv, Arr.set_get_same, set_upd, free_upd hv h0 (by decide), if_neg (fun h => (hc.adj_vertex hv h).2 rfl), hcv]
    omega
  · intro x w hx hxs hxw hws
    dsimp only at hxs hws
    by_cases hxv : x = v
    · rw [hxv, Arr.set_get_same] at hxs; omega
    · rw [Arr.set_get_ne _ _ hxv] at hxs
      by_cases hwv : w = v
      · rw [hwv, Arr.set_get_same] at hws; omega
      · rw [Arr.set_get_ne _ _ hwv] at hws
        exact hsep x w hx hxs hxw hws
  · dsimp only
    have h5 := hld.enter hv (show sp s.st.get v = 0 by unfold sp; rw [h0]; simp)
    have e1 : upd (sp s.st.get) v 2 = sp (s.st.set v 3).get := by
      rw [set_upd]
      funext y
      unfold sp
      by_cases hy : y = v
      · rw [hy, upd_same, upd_same]; simp
      · rw [upd_ne _ _ hy, upd_ne _ _ hy]
    rw [← e1]; exact h5

theorem ggScan_holds {o : GgOracle} (ho : o.Ok b) {st : Arr Int} (hst : st.lo = b.s.baseval ∧ st.hi = b.s.vertnnd) {permnum : Int} (hp : 0 ≤ permnum) :
    Holds (ggScan b o.perm st permnum) (fun r => match r with
      | none => True
      | some (i, v) => permnum ≤ i ∧ i < b.s.vertnbr ∧ b.s.Vertex v ∧ st.get v = 0) := by
  have hpb := ho.perm
  unfold ggScan
  rw [Holds_bind]
  refine Holds_forUpB' (fun _ (_ : Unit) => True) (fun (r : Int × Int) => permnum ≤ r.1 ∧ r.1 < b.s.vertnbr ∧ b.s.Vertex r.2 ∧ st.get r.2 = 0) trivial ?_ ?_ ?_
  · intro i _ h1 h2 _
    have hv := ho.vertex i (by omega) h2
    have := hv.1
    have := hv.2
    rw [Arr.rd_ok _ (by omega) (by omega), ok_bind, Arr.rd_ok _ (by omega) (by omega), ok_bind]
    by_cases h0 : st.get (o.perm.get i) = 0
    · rw [if_pos h0, Holds_pure]; exact ⟨h1, h2, hv, h0⟩
    · rw [if_neg h0, Holds_pure]; trivial
  · intro _ _
    dsimp only
    rw [Holds_pure]; trivial
  · intro r h
    dsimp only
    rw [Holds_pure]; exact h

theorem ggPass_holds (hc : ConsE b.s) (ha : Alloc b) {o : GgOracle} (ho : o.Ok b) : Holds (ggPass b o) (GgInv b) := by
  have hn := hc.vertnbr
  have hnn := hc.vertnnd
  unfold ggPass
  refine Holds_loopM (fun (s : Int × Int × Gg) => b.s.Vertex s.1 ∧ 0 ≤ s.2.1 ∧ s.2.2.st.get s.1 = 0 ∧ GgInv b s.2.2 ∧
    ∀ v, b.s.Vertex v → s.2.2.st.get v = 0 ∨ s.2.2.st.get v = 1) (fun s => (b.s.vertnbr - s.2.1).toNat) ?_ _ _ ?_ (by dsimp only; omega)
  · rintro ⟨v, permnum, s⟩ ⟨i1, i2, i3, i4, i5⟩
    dsimp only at i1 i2 i3 i4 i5
    unfold ggRoot
    dsimp only
    rw [Holds_bind]
    refine (ggSeed_holds hc ha i1 i3 i4 i5).mono ?_
    rintro t ⟨t1, t2⟩
    rw [Holds_bind]
    have hl := left_le (b := b) hc t
    refine (Holds_loopM (step := ggStep b o) (fun (r : Int × Gg) => b.s.Vertex r.1 ∧ r.2.st.get r.1 = 3 ∧ GgInv b r.2) (fun r => (left b r.2).toNat)
      (fun r h => ggStep_holds hc ha o h.1 h.2.1 h.2.2) _ _ ⟨i1, t1, t2⟩ (by dsimp only; omega)).mono ?_
    rintro ⟨stop, r⟩ ⟨r1, r2⟩
    dsimp only at r1 r2 ⊢
    cases stop with
    | true => rw [if_pos rfl, Holds_pure]; exact r1
    | false =>
      rw [if_neg (by decide), Holds_bind]
      refine (ggScan_holds ho r1.mem.stb i2).mono ?_
      rintro (_ | ⟨i, w⟩) hw
      · dsimp only
        rw [Holds_pure]; exact r1
      · dsimp only at hw ⊢
        rw [Holds_pure]
        refine ⟨⟨hw.2.2.1, by dsimp only; omega, hw.2.2.2, r1, r2 rfl⟩, by dsimp only; omega⟩
  · have hroot := ho.root
    have hz : ∀ y, sp (fun _ => 0) y = 0 := fun y => by unfold sp; simp
    refine ⟨⟨by dsimp only; omega, by dsimp only; omega⟩, Int.le_refl _, rfl, ⟨⟨⟨rfl, hnn.symm⟩, ⟨rfl, hnn.symm⟩, fun _ _ => Or.inl rfl, ?_⟩, ?_, rfl, ?_, ?_⟩,
      fun _ _ => Or.inl rfl⟩
    · intro x
      exact ⟨fun h => (by cases h), fun h => absurd h.2 (show ¬ (0 : Int) = 2 by decide)⟩
    · intro u _ h
      exact absurd h (show ¬ ((0 : Int) = 2 ∨ (0 : Int) = 3) by decide)
    · intro x w _ h
      exact absurd h (show ¬ (0 : Int) = 1 by decide)
    · change Loads b (sp (fun _ => 0)) (b.s.velosum * b.dwgt1) 0
      have e : ∀ j, over b.s (sp (fun _ => 0)) j b.s.velo = if j = 0 then b.s.velosum else 0 := by
        intro j
        unfold over
        by_cases hj : j = 0
        · rw [if_pos hj, hj, hc.velosum]
          exact sumI_congr fun v _ _ => if_pos (hz v)
        · rw [if_neg hj]
          exact sumI_eq_zero fun v _ _ => if_neg (by rw [hz]; omega)
      refine ⟨?_, ?_⟩
      · rw [e]; simp
      · rw [e, e]; simp

theorem ggParts_holds (hc : ConsE b.s) {st part : Arr Int} (hst : st.lo = b.s.baseval ∧ st.hi = b.s.vertnnd) (hp : part.lo ≤ b.s.baseval ∧ b.s.vertnnd ≤ part.hi)
    (hv : ∀ v, b.s.Vertex v → st.get v = 0 ∨ st.get v = 1 ∨ st.get v = 2 ∨ st.get v = 3) :
    Holds (ggParts b st part) (fun r => r.lo = part.lo ∧ r.hi = part.hi ∧ ∀ v, b.s.Vertex v → r.get v = sp st.get v) := by
  have hn := hc.vertnbr
  have hnn := hc.vertnnd
  unfold ggParts
  refine Holds_forUp (fun i (r : Arr Int) => r.lo = part.lo ∧ r.hi = part.hi ∧ ∀ v, b.s.baseval ≤ v → v < i → r.get v = sp st.get v) (by omega) ?_ ?_ ?_
  · exact ⟨rfl, rfl, fun v h1 h2 => by omega⟩
  · rintro i r h1 h2 ⟨i1, i2, i3⟩
    rw [Arr.rd_ok _ (by omega) (by omega), ok_bind, Arr.wr_ok _ _ (by omega) (by omega), Holds_ok]
    refine ⟨i1, i2, ?_⟩
    intro v v1 v2
    rw [Arr.set_get]
    split
    · rename_i hvi
      rw [hvi]
      unfold sp
      rcases hv i ⟨h1, h2⟩ with h | h | h | h <;> rw [h] <;> simp
    · exact i3 v v1 (by omega)
  · rintro r ⟨i1, i2, i3⟩
    exact ⟨i1, i2, fun v hv => i3 v hv.1 hv.2⟩

/-- Greedy growing gives a valid separation. -/
theorem gg_holds (hc : ConsE b.s) (ha : Alloc b) (hv : Valid b) (hw : b.dwgt0 + b.dwgt1 ≠ 0) {o : Int → GgOracle} (passnbr : Int)
    (hn : 0 < passnbr → 0 < b.s.vertnbr) (ho : ∀ p, 0 ≤ p → p < passnbr → (o p).Ok b) :
    Holds (separateGg o passnbr b) (fun b' => SameProblem b b' ∧ Valid b') := by
  have hpb := ha.part
  unfold separateGg
  rw [Holds_bind]
  refine Holds_forUp' (fun _ (s : Arr Int × Int × Int) => (s.1.lo = b.parttax.lo ∧ s.1.hi = b.parttax.hi) ∧ Parts b.s s.1.get ∧ Separated b.s s.1.get ∧
    Loads b s.1.get s.2.1 s.2.2) ?_ ?_ ?_
  · refine ⟨⟨rfl, rfl⟩, hv.parts, hv.sep, hv.load2, ?_⟩
    have := hv.delta
    rw [hv.load0, hv.load1] at this
    exact this
  · rintro p ⟨part, dlt, l2⟩ h1 h2 ⟨i1, i2, i3, i4⟩
    dsimp only at i1 i2 i3 i4
    unfold ggTry ggDraw
    dsimp only
    have := hn (by omega)
    rw [if_neg (by omega), pure_bind, Holds_bind]
    refine (ggPass_holds hc ha (ho p h1 h2)).mono ?_
    intro t ht
    split
    · rw [Holds_bind]
      refine (ggParts_holds hc ht.mem.stb (by omega) ht.mem.vals).mono ?_
      rintro r ⟨r1, r2, r3⟩
      rw [Holds_pure]
      have hvals := ht.mem.vals
      refine ⟨⟨by dsimp only; omega, by dsimp only; omega⟩, ?_, ?_, ?_⟩
      · intro v hvv
        dsimp only
        rw [r3 v hvv]
        unfold sp
        rcases hvals v hvv with h | h | h | h <;> rw [h] <;> simp
      · rw [sep_adj]
        intro v w hvv hvw
        have hwv := (hc.adj_vertex hvv hvw).1
        dsimp only
        rw [r3 v hvv, r3 w hwv]
        have key : ∀ x y, b.s.Vertex x → b.s.Vertex y → b.s.Adj x y → ¬ (sp t.st.get x = 1 ∧ sp t.st.get y = 0) := by
          intro x y hx hy hxy
          have := ht.sep x y hx
          unfold sp
          rintro ⟨k1, k2⟩
          have e1 : t.st.get x = 1 := by
            split at k1
            · omega
            · exact k1
          have e2 : t.st.get y = 0 := by
            split at k2
            · omega
            · exact k2
          exact this e1 hxy e2
        refine ⟨fun h => key w v hwv hvv (hc.adj_symm hvv hvw) ⟨h.2, h.1⟩, key v w hvv hwv hvw⟩
      · dsimp only
        have e := fun j => over_congr (g := b.s) (p := r.get) (q := sp t.st.get) j (f := b.s.velo) (f' := b.s.velo) r3 (fun _ _ => rfl)
        exact ⟨by rw [e]; exact ht.load.two, by rw [e, e]; exact ht.load.dlt⟩
    · rw [Holds_pure]
      exact ⟨i1, i2, i3, i4⟩
  · rintro ⟨part, dlt, l2⟩ ⟨i1, i2, i3, i4⟩
    dsimp only at i1 i2 i3 i4 ⊢
    refine (finish_holds hc ha hw i1 i2 i3 i4.two i4.dlt).mono ?_
    exact fun b' h => ⟨h.1, h.2.1⟩

end Scotch.Separ
