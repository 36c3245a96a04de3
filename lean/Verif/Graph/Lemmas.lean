import Verif.Graph.Spec
import Verif.Post

/-! # Graphs: basic lemmas -/

set_option autoImplicit false
set_option linter.unusedSimpArgs false

namespace Scotch.Graph
variable {g : Graph}

theorem mem_arcs (g : Graph) (v e : Int) : e ∈ g.arcs v ↔ g.vert v ≤ e ∧ e < g.vend v := by
  unfold arcs
  rw [List.mem_map]
  constructor
  · rintro ⟨k, hk, rfl⟩
    rw [List.mem_range] at hk
    omega
  · rintro ⟨h1, h2⟩
    exact ⟨(e - g.vert v).toNat, by rw [List.mem_range]; omega, by omega⟩

theorem nodup_arcs (g : Graph) (v : Int) : (g.arcs v).Nodup := by
  unfold arcs
  apply List.Nodup.map _ List.nodup_range
  intro a b h
  simpa using h

theorem mem_nbrs (g : Graph) (v : Int) (p : Int × Int) :
    p ∈ g.nbrs v ↔ ∃ e, g.vert v ≤ e ∧ e < g.vend v ∧ g.dest e = p.1 ∧ g.edlo e = p.2 := by
  unfold nbrs
  rw [List.mem_map]
  constructor
  · rintro ⟨e, he, rfl⟩
    rw [mem_arcs] at he
    exact ⟨e, he.1, he.2, rfl, rfl⟩
  · rintro ⟨e, h1, h2, h3, h4⟩
    exact ⟨e, (mem_arcs g v e).2 ⟨h1, h2⟩, by rw [h3, h4]⟩

theorem nbrs_mk (g : Graph) (v : Int) {e : Int} (h1 : g.vert v ≤ e) (h2 : e < g.vend v) :
    (g.dest e, g.edlo e) ∈ g.nbrs v := (mem_nbrs g v _).2 ⟨e, h1, h2, rfl, rfl⟩

theorem length_nbrs (g : Graph) (v : Int) (h : g.vert v ≤ g.vend v) :
    ((g.nbrs v).length : Int) = g.vend v - g.vert v := by
  unfold nbrs arcs
  simp
  omega

theorem sum_map_range (f : Int → Int) (a : Int) (n : Nat) :
    (((List.range n).map fun k => a + (k : Nat)).map f).sum = sumI a (a + n) f := by
  induction n with
  | zero => simp [sumI_empty]
  | succ n ih =>
    rw [List.range_succ, List.map_append, List.map_append, List.sum_append, ih]
    rw [show a + ((n + 1 : Nat) : Int) = a + n + 1 by omega, sumI_succ (by omega)]
    simp

theorem sum_nbrs (g : Graph) (v : Int) (h : g.vert v ≤ g.vend v) :
    ((g.nbrs v).map Prod.snd).sum = sumI (g.vert v) (g.vend v) g.edlo := by
  unfold nbrs arcs
  rw [List.map_map]
  have : (Prod.snd ∘ fun e => (g.dest e, g.edlo e)) = g.edlo := rfl
  rw [this, sum_map_range]
  congr 1
  omega

theorem nodup_dest (g : Graph) (v : Int) : ((g.nbrs v).map Prod.fst).Nodup ↔
    ∀ e e', g.vert v ≤ e → e < g.vend v → g.vert v ≤ e' → e' < g.vend v → g.dest e = g.dest e' → e = e' := by
  unfold nbrs
  rw [List.map_map]
  have : (Prod.fst ∘ fun e => (g.dest e, g.edlo e)) = g.dest := rfl
  rw [this, List.nodup_map_iff_inj_on (nodup_arcs g v)]
  simp only [mem_arcs]
  constructor
  · intro h e e' a b c d he
    exact h e ⟨a, b⟩ e' ⟨c, d⟩ he
  · intro h e a e' b he
    exact h e e' a.1 a.2 b.1 b.2 he

/-- Consistency, in terms of arc indices. -/
structure ConsE (g : Graph) : Prop where
  vertnbr : 0 ≤ g.vertnbr
  vertnnd : g.vertnnd = g.baseval + g.vertnbr
  range : ∀ v, g.Vertex v → g.baseval ≤ g.vert v ∧ g.vert v ≤ g.vend v
  inside : ∀ v e, g.Vertex v → g.vert v ≤ e → e < g.vend v → g.Vertex (g.dest e) ∧ g.dest e ≠ v
  symm : ∀ v e, g.Vertex v → g.vert v ≤ e → e < g.vend v →
    ∃ e', g.vert (g.dest e) ≤ e' ∧ e' < g.vend (g.dest e) ∧ g.dest e' = v ∧ g.edlo e' = g.edlo e
  simple : ∀ v, g.Vertex v → ∀ e e', g.vert v ≤ e → e < g.vend v → g.vert v ≤ e' → e' < g.vend v →
    g.dest e = g.dest e' → e = e'
  edgenbr : g.edgenbr = sumI g.baseval g.vertnnd (fun v => g.vend v - g.vert v)
  velo : ∀ v, g.Vertex v → 0 ≤ g.velo v
  velosum : g.velosum = sumI g.baseval g.vertnnd g.velo
  edlo : ∀ v e, g.Vertex v → g.vert v ≤ e → e < g.vend v → 0 ≤ g.edlo e
  edlosum : g.edlosum = sumI g.baseval g.vertnnd (fun v => sumI (g.vert v) (g.vend v) g.edlo)
  degrmax : 0 ≤ g.degrmax ∧ ∀ v, g.Vertex v → g.vend v - g.vert v ≤ g.degrmax

theorem consE_iff : ConsE g ↔ Consistent g := by
  constructor
  · intro h
    refine ⟨h.vertnbr, h.vertnnd, h.range, ?_, ?_, ?_, ?_, h.velo, h.velosum, ?_, ?_, h.degrmax.1, ?_⟩
    · intro v p hv hp
      obtain ⟨e, h1, h2, h3, h4⟩ := (mem_nbrs g v p).1 hp
      rw [← h3]
      exact h.inside v e hv h1 h2
    · intro v p hv hp
      obtain ⟨e, h1, h2, h3, h4⟩ := (mem_nbrs g v p).1 hp
      obtain ⟨e', a1, a2, a3, a4⟩ := h.symm v e hv h1 h2
      rw [← h3]
      exact (mem_nbrs _ _ _).2 ⟨e', a1, a2, a3, by rw [a4, h4]⟩
    · intro v hv
      rw [nodup_dest]
      exact h.simple v hv
    · rw [h.edgenbr]
      exact sumI_congr (fun v h1 h2 => (length_nbrs g v (h.range v ⟨h1, h2⟩).2).symm)
    · intro v p hv hp
      obtain ⟨e, h1, h2, h3, h4⟩ := (mem_nbrs g v p).1 hp
      rw [← h4]
      exact h.edlo v e hv h1 h2
    · rw [h.edlosum]
      exact sumI_congr (fun v h1 h2 => (sum_nbrs g v (h.range v ⟨h1, h2⟩).2).symm)
    · intro v hv
      rw [length_nbrs g v (h.range v hv).2]
      exact h.degrmax.2 v hv
  · intro h
    refine ⟨h.vertnbr, h.vertnnd, h.range, ?_, ?_, ?_, ?_, h.velo, h.velosum, ?_, ?_, h.degrmax.1, ?_⟩
    · intro v e hv h1 h2
      exact h.inside v _ hv (nbrs_mk g v h1 h2)
    · intro v e hv h1 h2
      have := h.symm v _ hv (nbrs_mk g v h1 h2)
      obtain ⟨e', a1, a2, a3, a4⟩ := (mem_nbrs _ _ _).1 this
      exact ⟨e', a1, a2, a3, a4⟩
    · intro v hv
      have := h.simple v hv
      rw [nodup_dest] at this
      exact this
    · rw [h.edgenbr]
      exact sumI_congr (fun v h1 h2 => length_nbrs g v (h.range v ⟨h1, h2⟩).2)
    · intro v e hv h1 h2
      exact h.edlo v _ hv (nbrs_mk g v h1 h2)
    · rw [h.edlosum]
      exact sumI_congr (fun v h1 h2 => sum_nbrs g v (h.range v ⟨h1, h2⟩).2)
    · intro v hv
      rw [← length_nbrs g v (h.range v hv).2]
      exact h.degrmax.2 v hv

theorem rdVend_holds (ha : Allocated g) {v : Int} (hv : g.Vertex v) (Q : Int → Prop) :
    Holds (g.rdVend v) Q ↔ Q (g.vend v) := by
  obtain ⟨h1, h2⟩ := hv
  unfold rdVend vend
  cases he : g.vendtax with
  | none =>
    dsimp only
    have := ha.vhi' he
    have := ha.vlo
    rw [Holds_rd]
    exact ⟨fun h => h.2, fun h => ⟨⟨by omega, by omega⟩, h⟩⟩
  | some a =>
    dsimp only
    have := ha.ends a he
    rw [Holds_rd]
    exact ⟨fun h => h.2, fun h => ⟨⟨by omega, by omega⟩, h⟩⟩

theorem rdVert_holds (ha : Allocated g) {v : Int} (hv : g.Vertex v) (Q : Int → Prop) :
    Holds (g.verttax.rd v) Q ↔ Q (g.vert v) := by
  obtain ⟨h1, h2⟩ := hv
  have := ha.vhi
  have := ha.vlo
  rw [Holds_rd]
  exact ⟨fun h => h.2, fun h => ⟨⟨by omega, by omega⟩, h⟩⟩

theorem rdEdge_holds (ha : Allocated g) {v e : Int} (hv : g.Vertex v) (h1 : g.vert v ≤ e) (h2 : e < g.vend v)
    (Q : Int → Prop) : Holds (g.edgetax.rd e) Q ↔ Q (g.dest e) := by
  have := ha.edge v hv (by omega)
  rw [Holds_rd]
  exact ⟨fun h => h.2, fun h => ⟨⟨by omega, by omega⟩, h⟩⟩

theorem rdVend_post {v : Int} (Q : Int → Prop) (h : Q (g.vend v)) : Post (g.rdVend v) Q := by
  unfold rdVend
  unfold vend at h
  split <;> simp_all [Post_rd]

end Scotch.Graph
