import Verif.Graph.Lemmas
import Verif.TextIO.Pairs

/-! # Graphs: loops on arcs -/

set_option autoImplicit false
set_option linter.unusedSimpArgs false

namespace Scotch.Graph
variable {g : Graph}

/-- `(velotax == NULL) ? 1 : velotax[v]`. -/
def rdVelo (g : Graph) (v : Int) : M Int := match g.velotax with | none => return 1 | some a => a.rd v

/-- `(edlotax == NULL) ? 1 : edlotax[e]`. -/
def rdEdlo (g : Graph) (e : Int) : M Int := match g.edlotax with | none => return 1 | some a => a.rd e

/-- `for (edgenum = verttax[v]; edgenum < vendtax[v]; edgenum ++) { vertend = edgetax[edgenum]; body }`. -/
def forArcs {σ : Type} (g : Graph) (v : Int) (s : σ) (body : Int → Int → σ → M σ) : M σ := do
  let lo ← g.verttax.rd v
  let hi ← g.rdVend v
  forUp lo hi s fun e s => do
    let w ← g.edgetax.rd e
    body e w s

theorem rdVert_eq (ha : Allocated g) {v : Int} (hv : g.Vertex v) : g.verttax.rd v = .ok (g.vert v) := by
  have := ha.vhi
  have := ha.vlo
  exact Arr.rd_ok _ (by have := hv.1; omega) (by have := hv.2; omega)

theorem rdVend_eq (ha : Allocated g) {v : Int} (hv : g.Vertex v) : g.rdVend v = .ok (g.vend v) := by
  obtain ⟨a, h1, h2⟩ := Holds_iff_exists.1 ((rdVend_holds ha hv (fun x => x = g.vend v)).2 rfl)
  rw [h1, h2]

theorem rdEdge_eq (ha : Allocated g) {v e : Int} (hv : g.Vertex v) (h1 : g.vert v ≤ e) (h2 : e < g.vend v) :
    g.edgetax.rd e = .ok (g.dest e) := by
  have := ha.edge v hv (by omega)
  exact Arr.rd_ok _ (by omega) (by omega)

theorem rdVelo_eq (ha : Allocated g) {v : Int} (hv : g.Vertex v) : g.rdVelo v = .ok (g.velo v) := by
  unfold rdVelo velo
  cases h : g.velotax with
  | none => rfl
  | some a =>
    have := ha.velo a h
    exact Arr.rd_ok _ (by have := hv.1; omega) (by have := hv.2; omega)

theorem rdEdlo_eq (ha : Allocated g) {v e : Int} (hv : g.Vertex v) (h1 : g.vert v ≤ e) (h2 : e < g.vend v) :
    g.rdEdlo e = .ok (g.edlo e) := by
  unfold rdEdlo edlo
  cases h : g.edlotax with
  | none => rfl
  | some a =>
    have := ha.edlo a h v hv (by omega)
    exact Arr.rd_ok _ (by omega) (by omega)

/-- Invariant rule for loops on the arcs of a vertex. -/
theorem Holds_forArcs {σ : Type} (ha : Allocated g) {v : Int} (hv : g.Vertex v) (hr : g.vert v ≤ g.vend v) {s : σ}
    {body : Int → Int → σ → M σ} {Q : σ → Prop} (I : Int → σ → Prop) (h0 : I (g.vert v) s)
    (hstep : ∀ e s, g.vert v ≤ e → e < g.vend v → I e s → Holds (body e (g.dest e) s) (I (e + 1)))
    (hQ : ∀ s, I (g.vend v) s → Q s) : Holds (g.forArcs v s body) Q := by
  unfold forArcs
  rw [rdVert_eq ha hv, ok_bind, rdVend_eq ha hv, ok_bind]
  refine Holds_forUp I hr h0 ?_ hQ
  intro e s h1 h2 hI
  rw [rdEdge_eq ha hv h1 h2, ok_bind]
  exact hstep e s h1 h2 hI

end Scotch.Graph
