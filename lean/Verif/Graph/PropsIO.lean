import Verif.Graph.Props
import Verif.Graph.LemmasIOSafe
import Verif.Graph.LemmasIO4

/-!
# Graphs: properties C17 and C18 (save and load)
-/

set_option autoImplicit false
set_option linter.unusedSimpArgs false

namespace Scotch
open Text
namespace Graph

/-! ### C17: a saved graph is read back -/

/-- `g'` is the graph that is read back from the text of `g`, with base `B`, vertex loads or edge loads being
ignored on demand. -/
structure ReadBack (g g' : Graph) (B : Int) (noVert noEdge : Bool) : Prop where
  baseval : g'.baseval = B
  vertnbr : g'.vertnbr = g.vertnbr
  nbrs : ∀ v, g.Vertex v → g'.nbrs (v + (B - g.baseval)) =
    (g.nbrs v).map fun p => (p.1 + (B - g.baseval), if noEdge then 1 else p.2)
  velo : ∀ v, g.Vertex v → g'.velo (v + (B - g.baseval)) = if noVert then 1 else g.velo v
  vlbl : g.vlbltax.isSome = true → ∀ v, g.Vertex v → g'.vlbl (v + (B - g.baseval)) = g.vlbl v
  nolbl : g.vlbltax = none → g'.vlbltax = none
  velosum : g'.velosum = if noVert then g.vertnbr else g.velosum
  edgenbr : g'.edgenbr = g.edgenbr
  edlosum : g'.edlosum = if noEdge then g.edgenbr else g.edlosum
  /-- the maximum degree is exact -/
  degrmax : (∀ v, g.Vertex v → ((g.nbrs v).length : Int) ≤ g'.degrmax) ∧
    (g'.degrmax = 0 ∨ ∃ v, g.Vertex v ∧ ((g.nbrs v).length : Int) = g'.degrmax)
  /-- arcs are stored without holes -/
  compact : g'.vendtax = none

section
variable {g g' : Graph} {B : Int} {noVert noEdge : Bool}

theorem LD.vert (h : LD g B noVert noEdge g') {v : Int} (hv : g.Vertex v) : g'.vert (v + (B - g.baseval)) = g.cpos B v :=
  h.vt v hv.1 (by have := hv.2; omega)

theorem LD.vend (h : LD g B noVert noEdge g') {v : Int} (hv : g.Vertex v) :
    g'.vend (v + (B - g.baseval)) = g.cpos B v + g.deg v := by
  unfold Graph.vend
  rw [h.vendtax]
  dsimp only
  rw [show v + (B - g.baseval) + 1 = (v + 1) + (B - g.baseval) by omega,
    h.vt (v + 1) (by have := hv.1; omega) (by have := hv.2; omega), cpos_succ g B hv.1]

theorem LD.edlo (h : LD g B noVert noEdge g') (hc : ConsE g) {v u : Int} (hv : g.Vertex v) (u1 : 0 ≤ u) (u2 : u < g.deg v) :
    g'.edlo (g.cpos B v + u) = if noEdge then 1 else g.edlo (g.vert v + u) := by
  have hcell := cell_range hc B hv u1 u2
  unfold Graph.edlo
  cases he : g'.edlotax with
  | none =>
    dsimp only
    rcases h.el.1 he with hx | hx
    · cases hn : noEdge with
      | true => simp
      | false =>
        rw [hn] at hx
        cases hg : g.edlotax with
        | none => simp
        | some a => rw [hg] at hx; simp at hx
    · omega
  | some a =>
    obtain ⟨a1, a2, a3, a4⟩ := h.el.2 a he
    dsimp only
    rw [a4 v u hv u1 u2]
    cases hn : noEdge with
    | true => rw [hn] at a1; simp at a1
    | false => rfl

theorem LD.velo (h : LD g B noVert noEdge g') (hc : ConsE g) {v : Int} (hv : g.Vertex v) :
    g'.velo (v + (B - g.baseval)) = if noVert then 1 else g.velo v := by
  unfold Graph.velo
  cases he : g'.velotax with
  | none =>
    dsimp only
    rcases h.ve.1 he with hx | hx
    · cases hn : noVert with
      | true => simp
      | false =>
        rw [hn] at hx
        cases hg : g.velotax with
        | none => simp
        | some a => rw [hg] at hx; simp at hx
    · have := hv.1
      have := hv.2
      have := hc.vertnnd
      omega
  | some a =>
    obtain ⟨a1, a2, a3, a4⟩ := h.ve.2 a he
    dsimp only
    rw [a4 v hv]
    cases hn : noVert with
    | true => rw [hn] at a1; simp at a1
    | false => rfl

theorem sumI_one {lo hi : Int} (h : lo ≤ hi) {f : Int → Int} (hf : ∀ i, lo ≤ i → i < hi → f i = 1) : sumI lo hi f = hi - lo := by
  rw [sumI_congr hf, sumI_const h]; omega

theorem LD.readBack (h : LD g B noVert noEdge g') (hc : ConsE g) : ReadBack g g' B noVert noEdge := by
  have hnn := hc.vertnnd
  have hn := hc.vertnbr
  refine ⟨h.baseval, h.vertnbr, ?_, fun v hv => h.velo hc hv, ?_, ?_, ?_, h.edgenbr, ?_, ⟨?_, ?_⟩, h.vendtax⟩
  · intro v hv
    rw [nbrs_seg, nbrs_seg, h.vert hv, h.vend hv, seg_map]
    have e1 := seg_shift (fun e => (g'.dest e, g'.edlo e)) (g.vert v) (g.vend v) (g.cpos B v - g.vert v)
    rw [show g.vert v + (g.cpos B v - g.vert v) = g.cpos B v by omega,
      show g.vend v + (g.cpos B v - g.vert v) = g.cpos B v + g.deg v by unfold deg; omega] at e1
    rw [e1]
    apply seg_congr
    intro e h1 h2
    obtain ⟨u, rfl⟩ : ∃ u, e = g.vert v + u := ⟨e - g.vert v, by omega⟩
    have u1 : 0 ≤ u := by omega
    have u2 : u < g.deg v := by unfold deg; omega
    rw [show g.vert v + u + (g.cpos B v - g.vert v) = g.cpos B v + u by omega, h.edlo hc hv u1 u2]
    unfold Graph.dest
    rw [h.et v u hv u1 u2]
    rfl
  · intro hl v hv
    obtain ⟨a, a1, a2, a3, a4⟩ := h.vl.some_of hl (by have := hv.1; have := hv.2; omega)
    conv_lhs => unfold Graph.vlbl
    rw [a1]
    exact a4 v hv
  · intro hl
    exact h.vl.none_of (by rw [hl]; rfl)
  · cases he : g'.velotax with
    | none =>
      rw [h.vs.1 he]
      rcases h.ve.1 he with hx | hx
      · cases hn : noVert with
        | true => rfl
        | false =>
          rw [hn] at hx
          cases hg : g.velotax with
          | none =>
            rw [hc.velosum, sumI_one (by omega) (by intro i _ _; unfold Graph.velo; rw [hg])]
            simp
            omega
          | some a => rw [hg] at hx; simp at hx
      · rw [hc.velosum, sumI_empty (by omega)]
        simp
        omega
    | some a =>
      rw [h.vs.2 a he]
      have := (h.ve.2 a he).1
      cases hn : noVert with
      | true => rw [hn] at this; simp at this
      | false => rfl
  · have hdz : g.edgenbr = sumI g.baseval g.vertnnd g.deg := hc.edgenbr
    cases he : g'.edlotax with
    | none =>
      rw [h.es.1 he]
      rcases h.el.1 he with hx | hx
      · cases hn : noEdge with
        | true => rfl
        | false =>
          rw [hn] at hx
          cases hg : g.edlotax with
          | none =>
            rw [hc.edlosum, hc.edgenbr]
            simp only [Bool.false_eq_true, if_false]
            apply sumI_congr
            intro v v1 v2
            rw [sumI_one (hc.range v ⟨v1, v2⟩).2 (by intro i _ _; unfold Graph.edlo; rw [hg])]
          | some a => rw [hg] at hx; simp at hx
      · have : ∀ v, g.Vertex v → g.deg v = 0 := by
          intro v hv
          by_contra hne
          have := cell_range hc 0 hv (Int.le_refl 0) (by have := deg_nonneg hc hv; omega)
          omega
        rw [hx, hc.edlosum]
        cases noEdge with
        | true => rfl
        | false =>
          simp only [Bool.false_eq_true, if_false]
          rw [sumI_congr (g := fun _ => 0) (fun v v1 v2 => by
            have := this v ⟨v1, v2⟩
            unfold deg at this
            exact sumI_empty (by omega) _), sumI_const (by omega)]
          omega
    | some a =>
      rw [h.es.2 a he]
      have := (h.el.2 a he).1
      cases hn : noEdge with
      | true => rw [hn] at this; simp at this
      | false => rfl
  · intro v hv
    rw [length_nbrs g v (hc.range v hv).2]
    exact h.dm.2.1 v hv
  · rcases h.dm.2.2 with hx | ⟨v, hv, hx⟩
    · exact Or.inl hx
    · refine Or.inr ⟨v, hv, ?_⟩
      rw [length_nbrs g v (hc.range v hv).2]
      exact hx

theorem LD.alloc (h : LD g B noVert noEdge g') (hc : ConsE g) : Allocated g' := by
  have hnn := hc.vertnnd
  have hn := hc.vertnbr
  have h1 := h.vb
  have h2 := h.vertnnd
  have h3 := h.baseval
  have hr : ∀ v, g'.Vertex v → B ≤ g'.vert v ∧ g'.vend v ≤ B + g.edgenbr := by
    rintro v ⟨v1, v2⟩
    obtain ⟨w, rfl⟩ : ∃ w, v = w + (B - g.baseval) := ⟨v - (B - g.baseval), by omega⟩
    have hw : g.Vertex w := ⟨by omega, by omega⟩
    rw [h.vert hw, h.vend hw]
    have e1 := cpos_mono hc B (v := g.baseval) (w := w) (Int.le_refl _) hw.1 (by have := hw.2; omega)
    rw [cpos_base] at e1
    have e2 := cpos_le hc B hw (w := g.vertnnd) hw.2 (Int.le_refl _)
    rw [cpos_end hc] at e2
    exact ⟨e1, e2⟩
  refine ⟨by omega, by omega, fun _ => by omega, ?_, ?_, ?_, ?_, ?_, ?_⟩
  · intro a ha; rw [h.vendtax] at ha; cases ha
  · intro a ha
    obtain ⟨_, a1, a2, _⟩ := h.ve.2 a ha
    omega
  · intro a ha; rw [h.vnumtax] at ha; cases ha
  · intro a ha
    obtain ⟨_, a1, a2, _⟩ := h.vl.2 a ha
    omega
  · intro v hv _
    have := hr v hv
    have := h.eb
    omega
  · intro a ha v hv _
    have := hr v hv
    obtain ⟨_, a1, a2, _⟩ := h.el.2 a ha
    omega

end

/-- A graph with the same neighbours, up to base and loads, is consistent. -/
theorem ReadBack.cons {g g' : Graph} {B : Int} {noVert noEdge : Bool} (h : ReadBack g g' B noVert noEdge) (hc : Consistent g)
    (hnn : g'.vertnnd = B + g.vertnbr) (hr : ∀ v, g'.Vertex v → B ≤ g'.vert v ∧ g'.vert v ≤ g'.vend v) : Consistent g' := by
  have hg := hc.vertnnd
  have hb := h.baseval
  have hn := hc.vertnbr
  have tr : ∀ v, g'.Vertex v → ∃ w, g.Vertex w ∧ v = w + (B - g.baseval) := by
    rintro v ⟨v1, v2⟩
    exact ⟨v - (B - g.baseval), ⟨by omega, by omega⟩, by omega⟩
  have tr' : ∀ w, g.Vertex w → g'.Vertex (w + (B - g.baseval)) := by
    rintro w ⟨w1, w2⟩
    exact ⟨by omega, by omega⟩
  have hsum : ∀ f' f : Int → Int, (∀ v, g.Vertex v → f' (v + (B - g.baseval)) = f v) →
      sumI g'.baseval g'.vertnnd f' = sumI g.baseval g.vertnnd f := by
    intro f' f hf
    rw [show g'.baseval = g.baseval + (B - g.baseval) by omega, show g'.vertnnd = g.vertnnd + (B - g.baseval) by omega, sumI_shift]
    exact sumI_congr (fun v v1 v2 => hf v ⟨v1, v2⟩)
  have hone : ∀ v, g.Vertex v → ((g.nbrs v).map fun p : Int × Int => (1 : Int)).sum = (g.nbrs v).length := by
    intro v _
    simp
  refine ⟨by have := h.vertnbr; omega, by have := h.vertnbr; omega, fun v hv => by rw [hb]; exact hr v hv, ?_, ?_, ?_, ?_, ?_, ?_, ?_, ?_, ?_, ?_⟩
  · intro v p hv hp
    obtain ⟨w, hw, rfl⟩ := tr v hv
    rw [h.nbrs w hw, List.mem_map] at hp
    obtain ⟨q, hq, rfl⟩ := hp
    obtain ⟨h1, h2⟩ := hc.inside w q hw hq
    exact ⟨tr' _ h1, by dsimp only; omega⟩
  · intro v p hv hp
    obtain ⟨w, hw, rfl⟩ := tr v hv
    rw [h.nbrs w hw, List.mem_map] at hp
    obtain ⟨q, hq, rfl⟩ := hp
    dsimp only
    rw [h.nbrs q.1 (hc.inside w q hw hq).1, List.mem_map]
    exact ⟨_, hc.symm w q hw hq, rfl⟩
  · intro v hv
    obtain ⟨w, hw, rfl⟩ := tr v hv
    rw [h.nbrs w hw, List.map_map]
    have := (hc.simple w hw).map (f := fun x => x + (B - g.baseval)) (by intro a b hab; dsimp only at hab; omega)
    rw [List.map_map] at this
    exact this
  · rw [h.edgenbr, hc.edgenbr]
    symm
    apply hsum
    intro v hv
    rw [h.nbrs v hv, List.length_map]
  · intro v hv
    obtain ⟨w, hw, rfl⟩ := tr v hv
    rw [h.velo w hw]
    split
    · omega
    · exact hc.velo w hw
  · rw [h.velosum]
    symm
    cases noVert with
    | true =>
      rw [hsum _ (fun _ => 1) (fun v hv => by rw [h.velo v hv]; rfl), sumI_const (by omega)]
      simp
      omega
    | false =>
      rw [hsum _ g.velo (fun v hv => by rw [h.velo v hv]; rfl), hc.velosum]
      rfl
  · intro v p hv hp
    obtain ⟨w, hw, rfl⟩ := tr v hv
    rw [h.nbrs w hw, List.mem_map] at hp
    obtain ⟨q, hq, rfl⟩ := hp
    dsimp only
    split
    · omega
    · exact hc.edlo w q hw hq
  · rw [h.edlosum]
    symm
    cases noEdge with
    | true =>
      rw [hsum _ (fun v => (g.nbrs v).length) (fun v hv => by
        rw [h.nbrs v hv, List.map_map]
        exact hone v hv), hc.edgenbr]
      rfl
    | false =>
      rw [hsum _ (fun v => ((g.nbrs v).map Prod.snd).sum) (fun v hv => by
        rw [h.nbrs v hv, List.map_map]
        rfl), hc.edlosum]
      rfl
  · rcases h.degrmax.2 with hx | ⟨v, hv, hx⟩ <;> omega
  · intro v hv
    obtain ⟨w, hw, rfl⟩ := tr v hv
    rw [h.nbrs w hw, List.length_map]
    exact h.degrmax.1 w hw

/-- C17: any consistent graph whose numbers fit can be saved, and loading the text gives back the same graph, with the
base that is asked for (`-1`: that of the saved graph), whatever the contents of fresh memory and whatever follows
in the stream, the white space after the last number being left in it. The loaded graph is consistent. -/
theorem C17_save_load (g : Graph) (numMax B b : Int) (noVert noEdge : Bool) (hc : Consistent g) (ha : Allocated g)
    (hf : Fits numMax g B) (hb : (b = -1 ∧ B = g.baseval) ∨ b = B) :
    ∃ text, g.save = .ok text ∧ ∀ (junk : LoadJunk) (rest : Stream), ∃ g',
      load numMax b noVert noEdge junk (text ++ rest) = .ok (some (g', 10 :: rest)) ∧
      ReadBack g g' B noVert noEdge ∧ Consistent g' ∧ Allocated g' := by
  have hce := consE_iff.2 hc
  obtain ⟨text, _, ht, _⟩ := load_saved (noVert := noVert) (noEdge := noEdge) hce hce.even ha hf b hb
    ⟨fun _ => 0, fun _ => 0, fun _ => 0, fun _ => 0, fun _ => 0⟩ []
  refine ⟨text, ht, ?_⟩
  intro junk rest
  obtain ⟨text', g', ht', h1, h2⟩ := load_saved (noVert := noVert) (noEdge := noEdge) hce hce.even ha hf b hb junk rest
  rw [ht] at ht'
  cases ht'
  have hrb := h2.readBack hce
  refine ⟨g', h1, hrb, hrb.cons hc h2.vertnnd ?_, h2.alloc hce⟩
  rintro v ⟨v1, v2⟩
  have e1 := h2.baseval
  have e2 := h2.vertnnd
  have e3 := hce.vertnnd
  obtain ⟨w, rfl⟩ : ∃ w, v = w + (B - g.baseval) := ⟨v - (B - g.baseval), by omega⟩
  have hw : g.Vertex w := ⟨by omega, by omega⟩
  rw [h2.vert hw, h2.vend hw]
  have e4 := cpos_mono hce B (v := g.baseval) (w := w) (Int.le_refl _) hw.1 (by have := hw.2; omega)
  rw [cpos_base] at e4
  have := deg_nonneg hce hw
  exact ⟨e4, by omega⟩

/-- The hypotheses are met by a graph with loads, labels and holes in its arc array. -/
theorem exPath_fits : Fits 2147483647 exPath 0 := by
  refine ⟨by decide, by decide, by decide, by decide, by decide, by decide, by decide, ?_, ?_⟩
  · rintro a ⟨⟩ v ⟨h1, h2⟩
    have h1 : 1 ≤ v := h1
    have h2 : v < 4 := h2
    have : v = 1 ∨ v = 2 ∨ v = 3 := by omega
    rcases this with rfl | rfl | rfl <;> decide
  · rintro a ⟨⟩ v w ⟨h1, h2⟩ ⟨h3, h4⟩
    have h1 : 1 ≤ v := h1
    have h2 : v < 4 := h2
    have h3 : 1 ≤ w := h3
    have h4 : w < 4 := h4
    have hv : v = 1 ∨ v = 2 ∨ v = 3 := by omega
    have hw : w = 1 ∨ w = 2 ∨ w = 3 := by omega
    rcases hv with rfl | rfl | rfl <;> rcases hw with rfl | rfl | rfl <;> decide

example : Consistent exPath ∧ Allocated exPath ∧ Fits 2147483647 exPath 0 := ⟨exPath_cons, exPath_alloc, exPath_fits⟩

/-- Text of this graph: `0`, `3 4`, `1 111`, then one line per vertex. -/
example : exPath.save = .ok ("0\n3\t4\n1\t111\n10\t5\t1\t6\t20\n20\t0\t2\t8\t30\t6\t10\n30\t7\t1\t8\t20\n".toList.map Char.toNat) := by
  decide +kernel

/-- Limit of C17: a label equal to the largest integer makes the loader overflow. -/
theorem C17_largest_label : ∃ text, { exPath with vlbltax := some (Arr.ofList 1 [10, 20, 127]) }.save = .ok text ∧
    load 127 (-1) false false ⟨fun _ => 0, fun _ => 0, fun _ => 0, fun _ => 0, fun _ => 0⟩ text = .error .overflow :=
  ⟨"0\n3\t4\n1\t111\n10\t5\t1\t6\t20\n20\t0\t2\t8\t127\t6\t10\n127\t7\t1\t8\t20\n".toList.map Char.toNat,
    by decide +kernel, by decide +kernel⟩

/-! ### C18: loading an arbitrary stream -/

/-- Full statement of C18: loading any stream is memory safe. It is false, see `C18_statement_false`. -/
def C18_statement : Prop :=
  ∀ (numMax baseval : Int) (noVert noEdge : Bool) (junk : LoadJunk) (s : Stream),
    load numMax baseval noVert noEdge junk s ≠ .error .oob

/-- C18, for streams that hold no minus sign, or whose header does not announce vertex labels: loading never accesses
memory out of bounds, whatever the bytes, the requested base and the contents of fresh memory. The only possible fault is
the overflow of an addition. If it succeeds, all ranges of arcs are within the arrays, so that the checker, too, is safe
on the result. -/
theorem C18_load_safe_partial (numMax baseval : Int) (noVert noEdge : Bool) (junk : LoadJunk) (s : Stream)
    (h : 45 ∉ s ∨ ∀ hd s', loadHeader numMax s = .ok (some (hd, s')) → hd.lbl = false) :
    load numMax baseval noVert noEdge junk s = .error .overflow ∨
    load numMax baseval noVert noEdge junk s = .ok none ∨
    ∃ g s', load numMax baseval noVert noEdge junk s = .ok (some (g, s')) ∧ Allocated g := by
  have key : Safe (load numMax baseval noVert noEdge junk s) (OSat (fun r => r.1.Allocated) True) := by
    unfold load
    have hs := loadHeader_safe (numMax := numMax) s
    cases hl : loadHeader numMax s with
    | error e => rw [hl] at hs; exact hs
    | ok r =>
      rw [hl] at hs
      cases r with
      | none => trivial
      | some p =>
        obtain ⟨hd, s'⟩ := p
        obtain ⟨h1, h2, h3⟩ := hs
        rw [andThen_ok]
        refine loadBody_safe baseval noVert noEdge junk hd s' h1 h2 ?_
        intro hlb
        rcases h with h | h
        · exact fun h45 => h (h3 45 h45)
        · have := h hd s' hl
          rw [hlb] at this
          cases this
  generalize load numMax baseval noVert noEdge junk s = x at key
  cases x with
  | error e => exact Or.inl (by rw [show e = .overflow from key])
  | ok r =>
    cases r with
    | none => exact Or.inr (Or.inl rfl)
    | some p => exact Or.inr (Or.inr ⟨p.1, p.2, rfl, key⟩)

/-- The text of a loaded graph with labels, and a malformed one. -/
example : 45 ∉ "0\n2\t2\n0\t100\n5\t1\t7\n7\t1\t5\n".toList.map Char.toNat := by decide +kernel
example : ∀ g s, load 2147483647 (-1) false false ⟨fun _ => 9, fun _ => 9, fun _ => 9, fun _ => 9, fun _ => 9⟩
    ("0\n2\t2\n0\t100\n5\t2\t7\n7\t1\t5\n".toList.map Char.toNat) ≠ .ok (some (g, s)) := by
  intro g s h
  have : (load 2147483647 (-1) false false ⟨fun _ => 9, fun _ => 9, fun _ => 9, fun _ => 9, fun _ => 9⟩
    ("0\n2\t2\n0\t100\n5\t2\t7\n7\t1\t5\n".toList.map Char.toNat)).map Option.isSome = .ok false := by decide +kernel
  rw [h] at this
  cases this

/-- C18 is false in general: a negative vertex label is used as an array index. -/
theorem C18_negative_label : load 2147483647 (-1) false false
    ⟨fun _ => 0, fun _ => 0, fun _ => 0, fun _ => 0, fun _ => 0⟩
    ("0\n1\t0\n0\t100\n-7\t0\n".toList.map Char.toNat) = .error .oob := by decide +kernel

theorem C18_statement_false : ¬ C18_statement := fun h => h _ _ _ _ _ _ C18_negative_label

/-- The same happens with a negative arc end in a labelled graph. -/
theorem C18_negative_end : load 2147483647 (-1) false false
    ⟨fun _ => 0, fun _ => 0, fun _ => 0, fun _ => 0, fun _ => 0⟩
    ("0\n2\t2\n0\t100\n5\t1\t-7\n7\t1\t5\n".toList.map Char.toNat) = .error .oob := by decide +kernel

end Graph
end Scotch
