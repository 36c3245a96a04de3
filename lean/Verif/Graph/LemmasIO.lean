import Verif.Graph.IO
import Verif.Graph.Lemmas
import Verif.Graph.LemmasInduce
import Verif.TextIO.LemmasReader

/-! # Graphs: text written by graphSave, and layout of loaded graphs -/

set_option autoImplicit false
set_option linter.unusedSimpArgs false

namespace Scotch
open Text
namespace Graph
variable {g : Graph}

/-! ### Text of a graph -/

def optText (o : Option (Arr Int)) (i : Int) : Stream :=
  match o with
  | none => []
  | some a => printInt (a.get i) ++ [9]

/-- Number written for the end of an arc. -/
def endNum (g : Graph) (e : Int) : Int := g.vlbl (g.dest e)

def arcText (g : Graph) (e : Int) : Stream := 9 :: (optText g.edlotax e ++ printInt (g.endNum e))

def arcsText (g : Graph) (e hi : Int) : Stream := (seg g.arcText e hi).flatten

def vertText (g : Graph) (v : Int) : Stream :=
  optText g.vlbltax v ++ (optText g.velotax v ++ (printInt (g.vend v - g.vert v) ++ (g.arcsText (g.vert v) (g.vend v) ++ [10])))

def vertsText (g : Graph) (v hi : Int) : Stream := (seg g.vertText v hi).flatten

theorem saveOpt_holds {o : Option (Arr Int)} {i : Int} (out : Stream)
    (h : ∀ a, o = some a → a.lo ≤ i ∧ i < a.hi) : saveOpt o i out = .ok (out ++ optText o i) := by
  unfold saveOpt optText
  cases o with
  | none => rw [List.append_nil]; rfl
  | some a =>
    have := h a rfl
    dsimp only
    rw [Arr.rd_ok a this.1 this.2]
    rfl

theorem saveEnd_ok (ha : Allocated g) {v : Int} (hv : g.Vertex v) : g.saveEnd v = .ok (g.vlbl v) := by
  unfold saveEnd vlbl
  cases he : g.vlbltax with
  | none => rfl
  | some a =>
    have := ha.vlbl a he
    obtain ⟨h1, h2⟩ := hv
    exact a.rd_ok (by omega) (by omega)

theorem saveArc_ok (ha : Allocated g) (hc : ConsE g) {v e : Int} (hv : g.Vertex v) (h1 : g.vert v ≤ e) (h2 : e < g.vend v)
    (out : Stream) : g.saveArc e out = .ok (out ++ g.arcText e) := by
  unfold saveArc
  rw [saveOpt_holds]
  · have he := ha.edge v hv (by omega)
    rw [Arr.rd_ok _ (by omega) (by omega)]
    show (do let w ← g.saveEnd (g.dest e); pure ((out ++ [9] ++ optText g.edlotax e) ++ printInt w)) = _
    rw [saveEnd_ok ha (hc.inside v e hv h1 h2).1]
    unfold arcText endNum
    simp only [List.append_assoc, List.cons_append, List.nil_append]
    rfl
  · intro a h
    have := ha.edlo a h v hv (by omega)
    omega

theorem saveVert_holds (ha : Allocated g) (hc : ConsE g) {v : Int} (hv : g.Vertex v) (out : Stream) :
    Holds (g.saveVert v out) (fun r => r = out ++ g.vertText v) := by
  obtain ⟨v1, v2⟩ := hv
  unfold saveVert
  rw [saveOpt_holds]
  · rw [Holds_bind, Holds_ok, saveOpt_holds]
    · rw [Holds_bind, Holds_ok, Holds_bind, rdVend_holds ha ⟨v1, v2⟩, Holds_bind, rdVert_holds ha ⟨v1, v2⟩, Holds_bind]
      refine Holds_forUp (fun e r => r = (((out ++ optText g.vlbltax v) ++ optText g.velotax v) ++
        printInt (g.vend v - g.vert v)) ++ g.arcsText (g.vert v) e) (hc.range v ⟨v1, v2⟩).2 ?_ ?_ ?_
      · unfold arcsText
        rw [seg_empty _ (Int.le_refl _)]
        simp
      · rintro e r e1 e2 rfl
        rw [saveArc_ok ha hc ⟨v1, v2⟩ e1 e2, Holds_ok]
        unfold arcsText
        rw [seg_succ _ e1]
        simp
      · rintro r rfl
        rw [Holds_pure]
        unfold vertText
        simp only [List.append_assoc]
    · intro a h
      have := ha.velo a h
      omega
  · intro a h
    have := ha.vlbl a h
    omega

/-- What is written. -/
theorem save_text (ha : Allocated g) (hc : ConsE g) :
    g.save = .ok (g.saveHeader ++ g.vertsText g.baseval g.vertnnd) := by
  have : Holds g.save (fun r => r = g.saveHeader ++ g.vertsText g.baseval g.vertnnd) := by
    unfold save
    have := hc.vertnbr
    have := hc.vertnnd
    refine Holds_forUp (fun i r => r = g.saveHeader ++ g.vertsText g.baseval i) (by omega) ?_ ?_ (fun s h => h)
    · unfold vertsText
      rw [seg_empty _ (Int.le_refl _)]
      simp
    · rintro i r i1 i2 rfl
      refine (saveVert_holds ha hc ⟨i1, i2⟩ _).mono ?_
      rintro r rfl
      unfold vertsText
      rw [seg_succ _ i1]
      simp
  obtain ⟨r, e, rfl⟩ := Holds_iff_exists.1 this
  exact e

/-! ### Layout of arcs in compact form -/

def deg (g : Graph) (v : Int) : Int := g.vend v - g.vert v

/-- First arc of a vertex in the compact form of base `B`. -/
def cpos (g : Graph) (B v : Int) : Int := B + sumI g.baseval v g.deg

theorem cpos_base (g : Graph) (B : Int) : g.cpos B g.baseval = B := by
  unfold cpos; rw [sumI_empty (Int.le_refl _)]; omega

theorem cpos_succ (g : Graph) (B : Int) {v : Int} (h : g.baseval ≤ v) : g.cpos B (v + 1) = g.cpos B v + g.deg v := by
  unfold cpos; rw [sumI_succ h]; omega

theorem deg_nonneg (hc : ConsE g) {v : Int} (hv : g.Vertex v) : 0 ≤ g.deg v := by
  have := (hc.range v hv).2
  unfold deg; omega

theorem cpos_mono (hc : ConsE g) (B : Int) {v w : Int} (h1 : g.baseval ≤ v) (h2 : v ≤ w) (h3 : w ≤ g.vertnnd) :
    g.cpos B v ≤ g.cpos B w := by
  unfold cpos
  rw [sumI_split (lo := g.baseval) (mid := v) (hi := w) h1 h2]
  have := sumI_nonneg (lo := v) (hi := w) (f := g.deg) (fun i a b => deg_nonneg hc ⟨by omega, by omega⟩)
  omega

theorem cpos_end (hc : ConsE g) (B : Int) : g.cpos B g.vertnnd = B + g.edgenbr := by
  rw [hc.edgenbr]; rfl

theorem cpos_le (hc : ConsE g) (B : Int) {v w : Int} (h1 : g.Vertex v) (h2 : v < w) (h3 : w ≤ g.vertnnd) :
    g.cpos B v + g.deg v ≤ g.cpos B w := by
  rw [← cpos_succ g B h1.1]
  have := h1.1
  exact cpos_mono hc B (by omega) (by omega) h3

/-- Cells of different arcs are different. -/
theorem cell_inj (hc : ConsE g) (B : Int) {v w t u : Int} (hv : g.Vertex v) (hw : g.Vertex w) (t1 : 0 ≤ t) (t2 : t < g.deg v)
    (u1 : 0 ≤ u) (u2 : u < g.deg w) (h : g.cpos B v + t = g.cpos B w + u) : v = w ∧ t = u := by
  have hvw : v = w := by
    rcases lt_trichotomy v w with h' | h' | h'
    · have := cpos_le hc B hv h' (by have := hw.2; omega)
      omega
    · exact h'
    · have := cpos_le hc B hw h' (by have := hv.2; omega)
      omega
  subst hvw
  exact ⟨rfl, by omega⟩

theorem cell_range (hc : ConsE g) (B : Int) {v t : Int} (hv : g.Vertex v) (t1 : 0 ≤ t) (t2 : t < g.deg v) :
    B ≤ g.cpos B v + t ∧ g.cpos B v + t < B + g.edgenbr := by
  have h1 := cpos_mono hc B (v := g.baseval) (w := v) (Int.le_refl _) hv.1 (by have := hv.2; omega)
  rw [cpos_base] at h1
  have h2 := cpos_le hc B hv (w := g.vertnnd) hv.2 (Int.le_refl _)
  rw [cpos_end hc] at h2
  omega

/-- What is required for a saved graph to be read back. -/
structure Fits (numMax : Int) (g : Graph) (B : Int) : Prop where
  prop : 111 ≤ numMax
  base : 0 ≤ g.baseval ∧ 0 ≤ B
  nnd : g.vertnnd ≤ numMax ∧ B + g.vertnbr ≤ numMax
  vertnbr : g.vertnbr + 1 ≤ numMax
  edgenbr : B + g.edgenbr ≤ numMax
  velosum : g.velosum ≤ numMax
  edlosum : g.edlosum ≤ numMax
  /-- labels are distinct natural numbers, less than the largest integer -/
  labels : ∀ a, g.vlbltax = some a → ∀ v, g.Vertex v → 0 ≤ a.get v ∧ a.get v < numMax
  distinct : ∀ a, g.vlbltax = some a → ∀ v w, g.Vertex v → g.Vertex w → a.get v = a.get w → v = w

end Graph
end Scotch
