import Verif.Graph.LemmasIO

/-! # Graphs: loading a saved graph -/

set_option autoImplicit false
set_option linter.unusedSimpArgs false

namespace Scotch
open Text
namespace Graph

/-- Contents of an optional array of a loaded graph. -/
def OptOk (use : Bool) (lo n : Int) (C : Arr Int → Prop) (o : Option (Arr Int)) : Prop :=
  (o = none → use = false ∨ n = 0) ∧ ∀ a, o = some a → use = true ∧ a.lo = lo ∧ a.hi = lo + n ∧ C a

/-- Sum computed during loading: the initial value if there is no array. -/
def sumOk (o : Option (Arr Int)) (n x sum : Int) : Prop := (o = none → sum = n) ∧ (∀ a, o = some a → sum = x)

theorem OptOk.mono {use : Bool} {lo n : Int} {C C' : Arr Int → Prop} {o : Option (Arr Int)} (h : OptOk use lo n C o)
    (hC : ∀ a, C a → C' a) : OptOk use lo n C' o :=
  ⟨h.1, fun a ha => ⟨(h.2 a ha).1, (h.2 a ha).2.1, (h.2 a ha).2.2.1, hC a (h.2 a ha).2.2.2⟩⟩

theorem optArr_ok (use : Bool) (lo n : Int) (junk : Int → Int) (C : Arr Int → Prop) (h : ∀ a, C a) :
    OptOk use lo n C (optArr use lo n junk) := by
  unfold optArr
  split
  · rename_i hc
    exact ⟨fun h => (by cases h), by rintro a ⟨⟩; exact ⟨hc.1, rfl, rfl, h _⟩⟩
  · rename_i hc
    refine ⟨fun _ => ?_, by rintro a ⟨⟩⟩
    cases use with
    | false => exact Or.inl rfl
    | true => right; by_contra h; exact hc ⟨rfl, h⟩

theorem loadSum_holds {numMax : Int} {use : Bool} {lo n : Int} {C C' : Arr Int → Prop} {o : Option (Arr Int)} {j v sum k x : Int}
    (h : OptOk use lo n C o) (hs : sumOk o k x sum) (h1 : lo ≤ j) (h2 : j < lo + n)
    (hC : ∀ a, C a → C' (a.set j v)) (hr : use = true → 0 ≤ x + v ∧ x + v ≤ numMax) :
    Holds (loadSum numMax o j v sum) (fun r => OptOk use lo n C' r.1 ∧ sumOk r.1 k (x + v) r.2) := by
  unfold loadSum
  cases ho : o with
  | none =>
    subst ho
    exact ⟨⟨h.1, fun a ha => (by cases ha)⟩, hs.1, fun a ha => (by cases ha)⟩
  | some a =>
    subst ho
    obtain ⟨a0, a1, a2, a3⟩ := h.2 a rfl
    have hx := hs.2 a rfl
    have := hr a0
    dsimp only
    rw [Holds_bind, Holds_wr]
    refine ⟨by omega, ?_⟩
    rw [chk_ok (by omega), Holds_bind, Holds_ok, Holds_pure]
    refine ⟨⟨fun h => (by cases h), ?_⟩, fun h => (by cases h), ?_⟩
    · rintro b ⟨⟩
      exact ⟨a0, a1, a2, hC a a3⟩
    · rintro b ⟨⟩
      rw [hx]

variable (g : Graph) (numMax B : Int) (noVert noEdge : Bool)

/-- Correction of arc ends. -/
def adjOf : Int := if g.vlbltax.isSome then 0 else B - g.baseval

/-- Contents of `edgetax` before vertices are renumbered. -/
def raw (e : Int) : Int := g.endNum e + g.adjOf B

/-- Vertex part of the invariant: vertices of number less than `i` have been read. -/
structure LV (i : Int) (st : LoadSt) : Prop where
  vb : st.verttax.lo = B ∧ st.verttax.hi = B + (g.vertnbr + 1)
  vt : ∀ v, g.baseval ≤ v → v < i → st.verttax.get (v + (B - g.baseval)) = g.cpos B v
  ve : OptOk (g.velotax.isSome && !noVert) B g.vertnbr
    (fun a => ∀ v, g.baseval ≤ v → v < i → a.get (v + (B - g.baseval)) = g.velo v) st.velotax
  vs : sumOk st.velotax g.vertnbr (sumI g.baseval i g.velo) st.velosum
  vl : OptOk g.vlbltax.isSome B g.vertnbr
    (fun a => ∀ v, g.baseval ≤ v → v < i → a.get (v + (B - g.baseval)) = g.vlbl v) st.vlbltax
  lm : B + g.vertnbr - 1 ≤ st.vlblmax ∧ st.vlblmax < numMax
  lm' : g.vlbltax.isSome = true → ∀ v, g.baseval ≤ v → v < i → g.vlbl v ≤ st.vlblmax
  dm : 0 ≤ st.degrmax ∧ (∀ v, g.baseval ≤ v → v < i → g.deg v ≤ st.degrmax) ∧
    (st.degrmax = 0 ∨ ∃ v, g.baseval ≤ v ∧ v < i ∧ g.deg v = st.degrmax)

/-- The arc has been read. -/
def Done (i t v u : Int) : Prop := g.baseval ≤ v ∧ (v < i ∨ (v = i ∧ u < t)) ∧ v < g.vertnnd ∧ 0 ≤ u ∧ u < g.deg v

/-- Sum of the loads of the arcs that have been read. -/
def edSum (i t : Int) : Int :=
  sumI g.baseval i (fun v => sumI (g.vert v) (g.vend v) g.edlo) + sumI (g.vert i) (g.vert i + t) g.edlo

/-- Arc part of the invariant: arcs of vertices of number less than `i`, and `t` arcs of vertex `i`, have been read. -/
structure LA (i t : Int) (st : LoadSt) : Prop where
  eb : st.edgetax.lo = B ∧ st.edgetax.hi = B + g.edgenbr
  et : ∀ v u, g.Done i t v u → st.edgetax.get (g.cpos B v + u) = g.raw B (g.vert v + u)
  el : OptOk (g.edlotax.isSome && !noEdge) B g.edgenbr
    (fun a => ∀ v u, g.Done i t v u → a.get (g.cpos B v + u) = g.edlo (g.vert v + u)) st.edlotax
  es : sumOk st.edlotax g.edgenbr (g.edSum i t) st.edlosum
  num : st.edgenum = g.cpos B i + t

variable {g numMax B noVert noEdge}

theorem Done.step {i t v u : Int} (h : g.Done i (t + 1) v u) : g.Done i t v u ∨ (v = i ∧ u = t) := by
  obtain ⟨h1, h2, h3, h4, h5⟩ := h
  by_cases hh : v = i ∧ u = t
  · exact Or.inr hh
  · left
    refine ⟨h1, ?_, h3, h4, h5⟩
    omega

theorem set_cells (hc : ConsE g) {i t x : Int} (hi : g.Vertex i) (t1 : 0 ≤ t) (t2 : t < g.deg i) {f : Int → Int → Int}
    (a : Arr Int) (h : ∀ v u, g.Done i t v u → a.get (g.cpos B v + u) = f v u) (hx : x = f i t) :
    ∀ v u, g.Done i (t + 1) v u → (a.set (g.cpos B i + t) x).get (g.cpos B v + u) = f v u := by
  intro v u hd
  rw [Arr.set_get]
  split
  · rename_i he
    obtain ⟨d1, d2, d3, d4, d5⟩ := hd
    obtain ⟨rfl, rfl⟩ := cell_inj hc B ⟨d1, d3⟩ hi d4 d5 t1 t2 he
    exact hx
  · rename_i he
    rcases hd.step with h' | ⟨rfl, rfl⟩
    · exact h v u h'
    · exact absurd rfl he

/-- Partial sums of loads do not exceed the total. -/
theorem edSum_range (hc : ConsE g) {i t : Int} (hi : g.Vertex i) (t1 : 0 ≤ t) (t2 : t < g.deg i) :
    0 ≤ g.edlo (g.vert i + t) ∧ 0 ≤ g.edSum i t ∧ g.edSum i (t + 1) = g.edSum i t + g.edlo (g.vert i + t) ∧
      g.edSum i (t + 1) ≤ g.edlosum := by
  unfold deg at t2
  have hs : ∀ v, g.Vertex v → ∀ a b, g.vert v ≤ a → b ≤ g.vend v → 0 ≤ sumI a b g.edlo := by
    intro v hv a b h1 h2
    exact sumI_nonneg (fun e e1 e2 => hc.edlo v e hv (by omega) (by omega))
  obtain ⟨i1, i2⟩ := hi
  have e1 : g.edSum i (t + 1) = g.edSum i t + g.edlo (g.vert i + t) := by
    unfold edSum
    rw [show g.vert i + (t + 1) = g.vert i + t + 1 by omega, sumI_succ (by omega)]
    omega
  refine ⟨hc.edlo i _ ⟨i1, i2⟩ (by omega) (by omega), ?_, e1, ?_⟩
  · unfold edSum
    have h1 := sumI_nonneg (lo := g.baseval) (hi := i) (f := fun v => sumI (g.vert v) (g.vend v) g.edlo)
      (fun v v1 v2 => hs v ⟨v1, by omega⟩ _ _ (Int.le_refl _) (Int.le_refl _))
    have h2 := hs i ⟨i1, i2⟩ (g.vert i) (g.vert i + t) (Int.le_refl _) (by omega)
    omega
  · rw [hc.edlosum, sumI_split (lo := g.baseval) (mid := i) (hi := g.vertnnd) i1 (by omega),
      sumI_split (lo := i) (mid := i + 1) (hi := g.vertnnd) (by omega) (by omega), sumI_succ (Int.le_refl i),
      sumI_empty (Int.le_refl i),
      sumI_split (lo := g.vert i) (mid := g.vert i + (t + 1)) (hi := g.vend i) (by omega) (by omega)]
    unfold edSum
    have h1 := hs i ⟨i1, i2⟩ (g.vert i + (t + 1)) (g.vend i) (by omega) (Int.le_refl _)
    have h2 := sumI_nonneg (lo := i + 1) (hi := g.vertnnd) (f := fun v => sumI (g.vert v) (g.vend v) g.edlo)
      (fun v v1 v2 => hs v ⟨by omega, by omega⟩ _ _ (Int.le_refl _) (Int.le_refl _))
    omega

theorem veloSum_range (hc : ConsE g) {i : Int} (hi : g.Vertex i) :
    0 ≤ g.velo i ∧ 0 ≤ sumI g.baseval i g.velo ∧ sumI g.baseval (i + 1) g.velo = sumI g.baseval i g.velo + g.velo i ∧
      sumI g.baseval (i + 1) g.velo ≤ g.velosum := by
  obtain ⟨i1, i2⟩ := hi
  refine ⟨hc.velo i ⟨i1, i2⟩, ?_, sumI_succ i1 _, ?_⟩
  · exact sumI_nonneg (fun v v1 v2 => hc.velo v ⟨v1, by omega⟩)
  · rw [hc.velosum, sumI_split (lo := g.baseval) (mid := i + 1) (hi := g.vertnnd) (by omega) (by omega)]
    have := sumI_nonneg (lo := i + 1) (hi := g.vertnnd) (f := g.velo) (fun v v1 v2 => hc.velo v ⟨by omega, by omega⟩)
    omega

theorem vlbl_none (h : g.vlbltax = none) (v : Int) : g.vlbl v = v := by unfold vlbl; rw [h]
theorem vlbl_some {a : Arr Int} (h : g.vlbltax = some a) (v : Int) : g.vlbl v = a.get v := by unfold vlbl; rw [h]

theorem vlbl_range (hf : Fits numMax g B) {v : Int} (hv : g.Vertex v) : 0 ≤ g.vlbl v ∧ g.vlbl v < numMax := by
  cases h : g.vlbltax with
  | none =>
    rw [vlbl_none h]
    have := hf.nnd
    have := hf.base
    have := hv.1
    have := hv.2
    omega
  | some a =>
    rw [vlbl_some h]
    exact hf.labels a h v hv

theorem endNum_range (hc : ConsE g) (hf : Fits numMax g B) {v e : Int} (hv : g.Vertex v) (h1 : g.vert v ≤ e)
    (h2 : e < g.vend v) : 0 ≤ g.endNum e ∧ g.endNum e ≤ numMax ∧ 0 ≤ g.raw B e ∧ g.raw B e ≤ numMax := by
  have hd := (hc.inside v e hv h1 h2).1
  have := vlbl_range hf hd
  unfold raw endNum adjOf
  cases h : g.vlbltax with
  | none =>
    rw [vlbl_none h] at this ⊢
    have h0 := hf.nnd
    have h1 := hc.vertnnd
    have h2 := hf.base
    have h3 := hd.1
    have h4 := hd.2
    simp only [Option.isSome, Bool.false_eq_true, if_false]
    omega
  | some a =>
    simp only [Option.isSome, if_true]
    omega

/-! ### Arcs -/

theorem noDigit_arcs (g : Graph) (a b : Int) (rest : Stream) (h : NoDigit rest) : NoDigit (g.arcsText a b ++ rest) := by
  unfold arcsText
  by_cases hab : a < b
  · rw [seg_cons _ hab]
    unfold arcText
    simp only [List.flatten_cons, List.cons_append, NoDigit]
    omega
  · rw [seg_empty _ (by omega)]
    exact h

theorem arcsText_cons (g : Graph) {a b : Int} (h : a < b) (rest : Stream) :
    g.arcsText a b ++ rest = 9 :: (optText g.edlotax a ++ (printInt (g.endNum a) ++ (g.arcsText (a + 1) b ++ rest))) := by
  unfold arcsText
  rw [seg_cons _ h]
  unfold arcText
  simp

theorem loadEdlo_holds (hc : ConsE g) (hf : Fits numMax g B) {i t : Int} {st : LoadSt} {tail : Stream}
    (hi : g.Vertex i) (t1 : 0 ≤ t) (t2 : t < g.deg i)
    (hv : LV g numMax B noVert (i + 1) st) (h : LA g B noEdge i t st)
    (hs : st.s = 9 :: (optText g.edlotax (g.vert i + t) ++ tail)) :
    Holds (loadEdlo numMax g.edlotax.isSome st) (OSat (fun st' => LV g numMax B noVert (i + 1) st' ∧
      st'.s = 9 :: tail ∧ st'.edgenum = st.edgenum ∧ st'.edgetax = st.edgetax ∧
      OptOk (g.edlotax.isSome && !noEdge) B g.edgenbr
        (fun a => ∀ v u, g.Done i (t + 1) v u → a.get (g.cpos B v + u) = g.edlo (g.vert v + u)) st'.edlotax ∧
      sumOk st'.edlotax g.edgenbr (g.edSum i (t + 1)) st'.edlosum) False) := by
  obtain ⟨r1, r2, r3, r4⟩ := edSum_range hc hi t1 t2
  have hcell := cell_range hc B hi t1 t2
  have := hf.edlosum
  have hnum := h.num
  unfold loadEdlo
  cases he : g.edlotax with
  | none =>
    simp only [Option.isSome, Bool.false_eq_true, if_false]
    have hn : st.edlotax = none := by
      cases hx : st.edlotax with
      | none => rfl
      | some a =>
        have := (h.el.2 a hx).1
        rw [he] at this
        simp at this
    rw [he] at hs
    refine ⟨hv, hs, rfl, rfl, ⟨fun _ => Or.inl (by simp), fun a ha => ?_⟩, h.es.1, fun a ha => ?_⟩
    · rw [hn] at ha; cases ha
    · rw [hn] at ha; cases ha
  | some a =>
    have hx : a.get (g.vert i + t) = g.edlo (g.vert i + t) := by unfold edlo; rw [he]
    simp only [Option.isSome, if_true]
    rw [Holds_andThen, hs, he]
    unfold optText
    dsimp only
    rw [List.append_assoc, hx, getInt_print1 _ _ _ _ (Or.inl rfl) (by omega) (by omega) (by
      simp only [List.cons_append, NoDigit]; omega), Holds_ok]
    dsimp only
    rw [Holds_bind]
    have hel := h.el
    rw [he] at hel
    refine (loadSum_holds (v := g.edlo (g.vert i + t)) (x := g.edSum i t) hel h.es (by omega) (by omega)
      (C' := fun a => ∀ v u, g.Done i (t + 1) v u → a.get (g.cpos B v + u) = g.edlo (g.vert v + u)) ?_ (by intro _; omega)).mono ?_
    · intro b hb
      rw [hnum]
      exact set_cells hc hi t1 t2 b hb rfl
    · rintro ⟨x, y⟩ ⟨h1, h2⟩
      rw [← r3] at h2
      exact ⟨⟨hv.vb, hv.vt, hv.ve, hv.vs, hv.vl, hv.lm, hv.lm', hv.dm⟩, rfl, rfl, rfl, h1, h2⟩

theorem loadArc_holds (hc : ConsE g) (hf : Fits numMax g B) {i t : Int} {st : LoadSt} {tail : Stream}
    (hi : g.Vertex i) (t1 : 0 ≤ t) (t2 : t < g.deg i)
    (hv : LV g numMax B noVert (i + 1) st) (h : LA g B noEdge i t st)
    (hs : st.s = g.arcsText (g.vert i + t) (g.vend i) ++ tail) (ht : NoDigit tail) :
    Holds (loadArc numMax (g.adjOf B) g.edlotax.isSome st) (OSat (fun st' => LV g numMax B noVert (i + 1) st' ∧
      LA g B noEdge i (t + 1) st' ∧ st'.s = g.arcsText (g.vert i + (t + 1)) (g.vend i) ++ tail) False) := by
  have t2' : g.vert i + t < g.vend i := by unfold deg at t2; omega
  have hcell := cell_range hc B hi t1 t2
  obtain ⟨e1, e2, e3, e4⟩ := endNum_range hc hf hi (show g.vert i ≤ g.vert i + t by omega) t2'
  unfold loadArc
  rw [Holds_andThen]
  rw [arcsText_cons _ t2'] at hs
  refine (loadEdlo_holds hc hf hi t1 t2 hv h hs).mono ?_
  intro r hr
  cases r with
  | none => exact hr
  | some st1 =>
    obtain ⟨hv1, h1, h2, h3, h4, h5⟩ := hr
    have hnum := h.num
    have heb := h.eb
    dsimp only
    rw [Holds_andThen, h1, getInt_print1 _ _ _ _ (Or.inl rfl) (by omega) (by omega) (noDigit_arcs g _ _ _ ht), Holds_ok]
    dsimp only
    unfold raw at e3 e4
    rw [chk_ok (by omega), Holds_bind, Holds_ok, Holds_bind, Holds_wr, h3, h2, Holds_pure]
    refine ⟨by omega, ⟨hv1.vb, hv1.vt, hv1.ve, hv1.vs, hv1.vl, hv1.lm, hv1.lm', hv1.dm⟩,
      ⟨heb, ?_, h4, h5, by omg⟩, ?_⟩
    · rw [hnum]
      exact set_cells hc hi t1 t2 st.edgetax h.et rfl
    · dsimp only
      rw [show g.vert i + (t + 1) = g.vert i + t + 1 by omega]

end Graph
end Scotch
