import Verif.Msep.Model
import Verif.Mesh.Lemmas
import Verif.Graph.LemmasBase
import Verif.Graph.Weight

/-! # Separation of meshes -/

set_option autoImplicit false
set_option linter.unusedSimpArgs false

namespace Scotch.Msep
open Mesh (NodeGraph Pre)
open Bipart (over)
open Separ (Vgraph)

variable {numMax : Int} {b : Vmesh} {m : Mesh}

theorem Alloc.rd (A : Alloc b) (C : b.m.Consistent) {v : Int} (hv : b.m.Elem v ∨ b.m.Node v) : b.parttax.lo ≤ v ∧ v < b.parttax.hi := by
  have := A.part
  have := Mesh.in_range C hv
  omega

theorem sum_one {lo hi : Int} {p : Int → Int} {k : Int} (hp : ∀ v, lo ≤ v → v < hi → p v = k) (f : Int → Int) : sumI lo hi (fun v => if p v = k then f v else 0) = sumI lo hi f :=
  sumI_congr fun v v1 v2 => by rw [if_pos (hp v v1 v2)]

theorem sum_none {lo hi : Int} {p : Int → Int} {k : Int} (hp : ∀ v, lo ≤ v → v < hi → p v ≠ k) (f : Int → Int) : sumI lo hi (fun v => if p v = k then f v else 0) = 0 :=
  sumI_eq_zero fun v v1 v2 => by rw [if_neg (hp v v1 v2)]

/-- All in part 0. -/
theorem zero_holds (C : b.m.Consistent) (A : Alloc b) : Holds (zero b) (fun b' => b'.m = b.m ∧ Alloc b' ∧ Valid b' ∧ ∀ v, b.m.Elem v ∨ b.m.Node v → b'.part v = 0) := by
  have a1 := A.part
  have c1 := C.velmnbr
  have c2 := C.vnodnbr
  have c3 := C.velmnnd
  have c4 := C.vnodnnd
  unfold zero
  rw [Holds_bind]
  refine Holds_forUp (fun i (a : Arr Int) => (a.lo = b.parttax.lo ∧ a.hi = b.parttax.hi) ∧ ∀ v, b.m.baseval ≤ v → v < i → a.get v = 0) (by omega) ⟨⟨rfl, rfl⟩, fun v v1 v2 => by omega⟩ ?_ ?_
  · rintro i a i1 i2 ⟨l, h⟩
    rw [Arr.wr_ok _ _ (by omega) (by omega), Holds_ok]
    refine ⟨l, fun v v1 v2 => ?_⟩
    rw [Arr.set_get]
    by_cases e : v = i
    · rw [if_pos e]
    · rw [if_neg e]; exact h v v1 (by omega)
  · rintro a ⟨l, h⟩
    rw [Holds_pure]
    have hz : ∀ v, b.m.Elem v ∨ b.m.Node v → a.get v = 0 := fun v hv => by
      have := Mesh.in_range C hv
      exact h v this.1 (by omega)
    have hE : ∀ v, b.m.velmbas ≤ v → v < b.m.velmnnd → a.get v = 0 := fun v v1 v2 => hz v (Or.inl ⟨v1, v2⟩)
    have hN : ∀ v, b.m.vnodbas ≤ v → v < b.m.vnodnnd → a.get v = 0 := fun v v1 v2 => hz v (Or.inr ⟨v1, v2⟩)
    have hE' : ∀ k, k ≠ 0 → ∀ v, b.m.velmbas ≤ v → v < b.m.velmnnd → a.get v ≠ k := fun k hk v v1 v2 => by rw [hE v v1 v2]; exact fun e => hk e.symm
    have hN' : ∀ k, k ≠ 0 → ∀ v, b.m.vnodbas ≤ v → v < b.m.vnodnnd → a.get v ≠ k := fun k hk v v1 v2 => by rw [hN v v1 v2]; exact fun e => hk e.symm
    refine ⟨rfl, ⟨A.mesh, by dsimp only; omega, A.fron⟩, ⟨fun n hn => Or.inl (hz n (Or.inr hn)), fun e he => Or.inl (hz e (Or.inl he)), fun e n he hn => Or.inr ?_, fun e he _ => hz e (Or.inl he), ?_, ?_, ?_, ?_, ?_, ?_, ?_, ?_, ?_, ?_⟩, hz⟩
    · show a.get n = a.get e
      rw [hz e (Or.inl he), hz n (Or.inr (C.nodes e he n hn).1)]
    · show b.m.velmnbr = sumI _ _ (fun e => if a.get e = 0 then 1 else 0)
      rw [sum_one hE, sumI_const (by omega)]; omega
    · exact (sum_none (hE' 1 (by decide)) _).symm
    · show b.m.vnodnbr = sumI _ _ (fun e => if a.get e = 0 then 1 else 0)
      rw [sum_one hN, sumI_const (by omega)]; omega
    · exact (sum_none (hN' 1 (by decide)) _).symm
    · exact (sum_none (hN' 2 (by decide)) _).symm
    · show b.m.vnlosum = sumI _ _ (fun e => if a.get e = 0 then b.m.vnlo e else 0)
      rw [sum_one hN, C.vnlosum]
    · exact (sum_none (hN' 1 (by decide)) _).symm
    · exact (sum_none (hN' 2 (by decide)) _).symm
    · show b.m.vnlosum = b.m.vnlosum - 0
      omega
    · refine ⟨Int.le_refl 0, fun i j i1 i2 => ?_, fun v => ⟨fun h => ?_, fun ⟨i, i1, i2, _⟩ => ?_⟩⟩
      · change i < 0 at i2; omega
      · have h2 : a.get v = 2 := h.2
        rw [hz v (Or.inr h.1)] at h2
        omega
      · change i < 0 at i2; omega

/-- Shift of the frontier array. -/
theorem addFron_holds (a : Arr Int) (n d : Int) (h0 : 0 ≤ n) (h1 : a.lo ≤ 0) (h2 : n ≤ a.hi) : Holds (addFron a n d) (fun a' => (a'.lo = a.lo ∧ a'.hi = a.hi) ∧ ∀ i, 0 ≤ i → i < n → a'.get i = a.get i + d) := by
  unfold addFron
  refine Holds_forUp (fun i (a' : Arr Int) => (a'.lo = a.lo ∧ a'.hi = a.hi) ∧ ∀ j, 0 ≤ j → j < n → a'.get j = if j < i then a.get j + d else a.get j) h0 ⟨⟨rfl, rfl⟩, fun j j1 j2 => by rw [if_neg (by omega)]⟩ ?_ ?_
  · rintro i a' i1 i2 ⟨l, h⟩
    rw [Arr.rd_ok _ (by omega) (by omega), ok_bind, Arr.wr_ok _ _ (by omega) (by omega), Holds_ok]
    refine ⟨l, fun j j1 j2 => ?_⟩
    rw [Arr.set_get]
    by_cases e : j = i
    · rw [if_pos e, if_pos (by omega), h i i1 i2, if_neg (by omega), e]
    · rw [if_neg e, h j j1 j2]
      by_cases hj : j < i
      · rw [if_pos hj, if_pos (by omega)]
      · rw [if_neg hj, if_neg (by omega)]
  · rintro a' ⟨l, h⟩
    exact ⟨l, fun i i1 i2 => by rw [h i i1 i2, if_pos i2]⟩

section
variable {g : Graph}

theorem vertex_iff (C : m.Consistent) (G : NodeGraph m g) (v : Int) : g.Vertex v ↔ m.Node (v + (m.vnodbas - m.baseval)) := by
  have h1 := G.consistent.vertnnd
  have h2 := G.base
  have h3 := G.nbr
  have h4 := C.vnodnnd
  unfold Graph.Vertex Mesh.Node
  omega

/-- Sums on vertices of the graph are sums on nodes. -/
theorem over_eq (C : m.Consistent) (G : NodeGraph m g) {p q : Int → Int} (hp : ∀ v, g.Vertex v → q v = p (v + (m.vnodbas - m.baseval))) (k : Int) {f F : Int → Int} (hf : ∀ v, g.Vertex v → f v = F (v + (m.vnodbas - m.baseval))) :
    over g q k f = nodeSum m p k F := by
  have h1 := G.consistent.vertnnd
  have h2 := G.base
  have h3 := G.nbr
  have h4 := C.vnodnnd
  unfold over nodeSum
  rw [show m.vnodbas = g.baseval + (m.vnodbas - m.baseval) by omega, show m.vnodnnd = g.vertnnd + (m.vnodbas - m.baseval) by omega, Graph.sumI_shift]
  refine sumI_congr fun v v1 v2 => ?_
  rw [hp v ⟨v1, v2⟩, hf v ⟨v1, v2⟩]

/-- The separation of the mesh is one of its graph, if parts have the same weights. -/
theorem toVgraph_valid (C : b.m.Consistent) (G : NodeGraph b.m g) (V : Valid b) {fron : Arr Int} (hf : ∀ i, 0 ≤ i → i < b.fronnbr → fron.get i = b.frontab.get i + - (b.m.vnodbas - g.baseval)) : Separ.Valid (toVgraph b g fron 1 1) := by
  have hb := G.base
  have hp : ∀ v, (toVgraph b g fron 1 1).part v = b.part (v + (b.m.vnodbas - b.m.baseval)) := by
    intro v
    show b.parttax.get (v - - (b.m.vnodbas - g.baseval)) = _
    rw [hb]
    show _ = b.parttax.get _
    congr 1
    omega
  have hs : ∀ k (f F : Int → Int), (∀ v, g.Vertex v → f v = F (v + (b.m.vnodbas - b.m.baseval))) → over g (toVgraph b g fron 1 1).part k f = nodeSum b.m b.part k F := fun k f F h => over_eq C G (fun v _ => hp v) k h
  refine ⟨⟨fun v hv => ?_, fun v p hv hpn => ?_, ?_, ?_, ?_, ?_, ?_, ?_, ?_⟩, ?_⟩
  · rw [hp]; exact V.node _ ((vertex_iff C G v).1 hv)
  · have hw : p = (p.1, 1) := by rw [← G.unit v p hv hpn]
    rw [hw] at hpn
    obtain ⟨-, -, e, he, h1, h2⟩ := (G.adj v p.1 hv).1 hpn
    have k1 := V.apart e _ he h1
    have k2 := V.apart e _ he h2
    rw [hp, hp]
    omega
  · exact V.nsize0.trans (hs 0 _ _ fun _ _ => rfl).symm
  · exact V.nsize1.trans (hs 1 _ _ fun _ _ => rfl).symm
  · exact V.nsize2.trans (hs 2 _ _ fun _ _ => rfl).symm
  · exact V.load0.trans (hs 0 _ _ G.velo).symm
  · exact V.load1.trans (hs 1 _ _ G.velo).symm
  · exact V.load2.trans (hs 2 _ _ G.velo).symm
  · show b.ncmploaddlt = b.ncmpload0 * 1 - b.ncmpload1 * 1
    rw [V.delta]; omega
  · refine ⟨V.fron.1, fun i j i1 i2 j1 j2 h => ?_, fun v => ?_⟩
    · change fron.get i = fron.get j at h
      rw [hf i i1 i2, hf j j1 j2] at h
      exact V.fron.2.1 i j i1 i2 j1 j2 (by omega)
    · show g.Vertex v ∧ (toVgraph b g fron 1 1).part v = 2 ↔ ∃ i, 0 ≤ i ∧ i < b.fronnbr ∧ fron.get i = v
      rw [hp, vertex_iff C G v]
      refine (V.fron.2.2 (v + (b.m.vnodbas - b.m.baseval))).trans ⟨?_, ?_⟩
      · rintro ⟨i, i1, i2, e⟩
        exact ⟨i, i1, i2, by show fron.get i = v; rw [hf i i1 i2]; omega⟩
      · rintro ⟨i, i1, i2, e⟩
        change fron.get i = v at e
        rw [hf i i1 i2] at e
        exact ⟨i, i1, i2, by omega⟩

/-- What the part of an element has to be. -/
structure ElemOk (m : Mesh) (part : Int → Int) (e p : Int) : Prop where
  val : p = 0 ∨ p = 1
  apart : ∀ n ∈ m.nbr e, part n = 2 ∨ part n = p
  alone : m.nbr e = [] → p = 0

theorem elemPart_holds (P : Pre numMax m) {part : Arr Int} (hr : ∀ v, m.Elem v ∨ m.Node v → part.lo ≤ v ∧ v < part.hi) (hn : ∀ n, m.Node n → part.get n = 0 ∨ part.get n = 1 ∨ part.get n = 2)
    (hs : ∀ e n n', m.Elem e → n ∈ m.nbr e → n' ∈ m.nbr e → part.get n = 2 ∨ part.get n' = 2 ∨ part.get n = part.get n') {e : Int} (he : m.Elem e) : Holds (elemPart m part e) (ElemOk m part.get e) := by
  have hle := (P.cons.range e (Or.inl he)).2
  unfold elemPart
  rw [Mesh.verttax_ok P (Or.inl he), ok_bind, Mesh.vendtax_ok P (Or.inl he), ok_bind, Holds_bind]
  refine Holds_forUpB (fun i p => (p = 0 ∨ p = 2) ∧ ∀ j, m.vert e ≤ j → j < i → part.get (m.edgetax.get j) = 2) (fun p => (p = 0 ∨ p = 1) ∧ ∃ n ∈ m.nbr e, part.get n = p) hle ⟨Or.inl rfl, fun j j1 j2 => by omega⟩ ?_ ?_ ?_
  · rintro i p i1 i2 ⟨-, h⟩
    obtain ⟨k1, k2⟩ := Mesh.edgetax_ok P (Or.inl he) i1 i2
    have hN := (P.cons.nodes e he _ k2).1
    have hb := hr _ (Or.inr hN)
    rw [k1, ok_bind, Arr.rd_ok _ hb.1 hb.2, ok_bind, Holds_ite]
    refine ⟨fun hp => ?_, fun hp => ?_⟩
    · rw [Holds_pure]
      refine ⟨?_, _, k2, rfl⟩
      have := hn _ hN
      omega
    · rw [Holds_pure]
      refine ⟨Or.inr (Classical.not_not.1 hp), fun j j1 j2 => ?_⟩
      by_cases hj : j = i
      · rw [hj]; exact Classical.not_not.1 hp
      · exact h j j1 (by omega)
  · rintro p ⟨hp, h⟩
    rw [Holds_pure]
    have hz : p % 2 = 0 := by rcases hp with rfl | rfl <;> rfl
    rw [hz]
    refine ⟨Or.inl rfl, fun n hn => Or.inl ?_, fun _ => rfl⟩
    obtain ⟨j, j1, j2, rfl⟩ := (mem_seg _ _ _ _).1 hn
    exact h j j1 j2
  · rintro p ⟨hp, n0, hn0, h0⟩
    rw [Holds_pure]
    have hz : p % 2 = p := by rcases hp with rfl | rfl <;> rfl
    rw [hz]
    refine ⟨hp, fun n hn => ?_, fun h => by rw [h] at hn0; cases hn0⟩
    have := hs e n n0 he hn hn0
    omega

theorem elemParts_holds (P : Pre numMax m) {part : Arr Int} (hr : ∀ v, m.Elem v ∨ m.Node v → part.lo ≤ v ∧ v < part.hi) (hn : ∀ n, m.Node n → part.get n = 0 ∨ part.get n = 1 ∨ part.get n = 2)
    (hs : ∀ e n n', m.Elem e → n ∈ m.nbr e → n' ∈ m.nbr e → part.get n = 2 ∨ part.get n' = 2 ∨ part.get n = part.get n') :
    Holds (elemParts m part) (fun s => (s.1.lo = part.lo ∧ s.1.hi = part.hi) ∧ (∀ n, m.Node n → s.1.get n = part.get n) ∧ (∀ e, m.Elem e → ElemOk m part.get e (s.1.get e)) ∧ s.2 = elemSum m s.1.get 1 (fun _ => 1)) := by
  have c1 := P.cons.velmnbr
  have c3 := P.cons.velmnnd
  have dis : ∀ v, m.Elem v → ¬ m.Node v := by
    have c2 := P.cons.vnodnbr
    have c4 := P.cons.vnodnnd
    have c5 := P.cons.order
    rintro v ⟨h1, h2⟩ ⟨h3, h4⟩
    omega
  unfold elemParts
  refine Holds_forUp (fun i (s : Arr Int × Int) => (s.1.lo = part.lo ∧ s.1.hi = part.hi) ∧ (∀ n, m.Node n → s.1.get n = part.get n) ∧ (∀ e, m.velmbas ≤ e → e < i → ElemOk m part.get e (s.1.get e)) ∧
    s.2 = sumI m.velmbas i (fun e => if s.1.get e = 1 then 1 else 0)) (by omega) ⟨⟨rfl, rfl⟩, fun _ _ => rfl, fun e e1 e2 => by omega, by rw [sumI_empty (Int.le_refl _)]⟩ ?_ ?_
  · rintro i ⟨a, t⟩ i1 i2 ⟨l, h1, h2, h3⟩
    have l : a.lo = part.lo ∧ a.hi = part.hi := l
    have h1 : ∀ n, m.Node n → a.get n = part.get n := h1
    have h3 : t = _ := h3
    have he : m.Elem i := ⟨i1, i2⟩
    have hb := hr i (Or.inl he)
    dsimp only
    rw [Holds_bind]
    refine (elemPart_holds P (part := a) (fun v hv => by have := hr v hv; omega) (fun n hn' => by rw [h1 n hn']; exact hn n hn') (fun e n n' he' k1 k2 => ?_) he).mono ?_
    · rw [h1 n (P.cons.nodes e he' n k1).1, h1 n' (P.cons.nodes e he' n' k2).1]
      exact hs e n n' he' k1 k2
    intro p hp
    rw [Arr.wr_ok _ _ (by omega) (by omega), ok_bind, Holds_pure]
    have hne : ∀ v, v ≠ i → (a.set i p).get v = a.get v := fun v hv => by rw [Arr.set_get, if_neg hv]
    refine ⟨l, fun n hn' => ?_, fun e e1 e2 => ?_, ?_⟩
    · show (a.set i p).get n = _
      rw [hne n (fun h => dis i he (h ▸ hn')), h1 n hn']
    · show ElemOk m part.get e ((a.set i p).get e)
      by_cases h : e = i
      · rw [h, Arr.set_get, if_pos rfl]
        exact ⟨hp.val, fun n hn' => by rw [← h1 n (P.cons.nodes i he n hn').1]; exact hp.apart n hn', hp.alone⟩
      · rw [hne e h]; exact h2 e e1 (by omega)
    · show t + p = sumI m.velmbas (i + 1) (fun e => if (a.set i p).get e = 1 then 1 else 0)
      rw [sumI_succ i1, h3, Arr.set_get, if_pos rfl]
      have e1 : sumI m.velmbas i (fun e => if (a.set i p).get e = 1 then 1 else 0) = sumI m.velmbas i (fun e => if a.get e = 1 then 1 else 0) := sumI_congr fun v v1 v2 => by rw [hne v (by omega)]
      rw [e1]
      rcases hp.val with rfl | rfl
      · rw [if_neg (by decide)]
      · rw [if_pos rfl]
  · rintro ⟨a, t⟩ ⟨l, h1, h2, h3⟩
    exact ⟨l, h1, fun e he => h2 e he.1 he.2, h3⟩

/-- End of the method. -/
theorem fromVgraph_holds (P : Pre numMax b.m) (A : Alloc b) (G : NodeGraph b.m g) {v : Vgraph} (hg : v.s = g) (W : Separ.Valid v) (hd : v.dwgt0 = 1 ∧ v.dwgt1 = 1) (hp : v.parttax.lo = b.parttax.lo + - (b.m.vnodbas - g.baseval) ∧ v.parttax.hi = b.parttax.hi + - (b.m.vnodbas - g.baseval))
    (hf : v.frontab.lo = b.frontab.lo ∧ v.frontab.hi = b.frontab.hi) : Holds (fromVgraph b v) (fun r => r.1 = 0 ∧ r.2.m = b.m ∧ Alloc r.2 ∧ Valid r.2) := by
  subst hg
  have C := P.cons
  have hb := G.base
  have hnbr := G.nbr
  have a1 := A.part
  have a2 := A.fron
  have hle : v.fronnbr ≤ v.s.vertnbr := by
    rw [W.size2]
    unfold over
    have := G.consistent.vertnnd
    have hn0 := G.consistent.vertnbr
    calc sumI v.s.baseval v.s.vertnnd (fun u => if v.part u = 2 then 1 else 0) ≤ sumI v.s.baseval v.s.vertnnd (fun _ => 1) := sumI_mono (fun u _ _ => by split <;> omega)
      _ = v.s.vertnbr := by rw [sumI_const (by omega)]; omega
  have hnode : ∀ n, b.m.Node n → v.s.Vertex (n - (b.m.vnodbas - v.s.baseval)) := by
    intro n hn
    rw [vertex_iff C G, hb, show n - (b.m.vnodbas - b.m.baseval) + (b.m.vnodbas - b.m.baseval) = n by omega]
    exact hn
  have hget : ∀ n, (v.parttax.shift (b.m.vnodbas - v.s.baseval)).get n = v.part (n - (b.m.vnodbas - v.s.baseval)) := fun _ => rfl
  unfold fromVgraph
  rw [Holds_bind]
  refine (addFron_holds v.frontab v.fronnbr _ W.fron.1 (by omega) (by omega)).mono ?_
  rintro fron ⟨f1, f2⟩
  rw [Holds_bind]
  refine (elemParts_holds P (part := v.parttax.shift (b.m.vnodbas - v.s.baseval)) ?_ ?_ ?_).mono ?_
  · intro u hu
    have := Mesh.in_range C hu
    show v.parttax.lo + (b.m.vnodbas - v.s.baseval) ≤ u ∧ u < v.parttax.hi + (b.m.vnodbas - v.s.baseval)
    omega
  · intro n hn
    rw [hget]
    exact W.parts _ (hnode n hn)
  · intro e n n' he k1 k2
    rw [hget, hget]
    have N1 := hnode n (C.nodes e he n k1).1
    have N2 := hnode n' (C.nodes e he n' k2).1
    by_cases hnn : n' = n
    · rw [hnn]; exact Or.inr (Or.inr rfl)
    have hadj : (n' - (b.m.vnodbas - v.s.baseval), (1 : Int)) ∈ v.s.nbrs (n - (b.m.vnodbas - v.s.baseval)) := by
      refine (G.adj _ _ N1).2 ⟨N2, by omega, e, he, ?_, ?_⟩
      · rw [hb, show n - (b.m.vnodbas - b.m.baseval) + (b.m.vnodbas - b.m.baseval) = n by omega]; exact k1
      · rw [hb, show n' - (b.m.vnodbas - b.m.baseval) + (b.m.vnodbas - b.m.baseval) = n' by omega]; exact k2
    have s := W.sep _ _ N1 hadj
    have p1 := W.parts _ N1
    have p2 := W.parts _ N2
    dsimp only at s
    omega
  · rintro ⟨part, n⟩ ⟨l, h1, h2, h3⟩
    have l : part.lo = v.parttax.lo + (b.m.vnodbas - v.s.baseval) ∧ part.hi = v.parttax.hi + (b.m.vnodbas - v.s.baseval) := l
    have h1 : ∀ n, b.m.Node n → part.get n = v.part (n - (b.m.vnodbas - v.s.baseval)) := h1
    have h2 : ∀ e, b.m.Elem e → ElemOk b.m (v.parttax.shift (b.m.vnodbas - v.s.baseval)).get e (part.get e) := h2
    have h3 : n = elemSum b.m part.get 1 (fun _ => 1) := h3
    have hv : ∀ u, v.s.Vertex u → v.part u = part.get (u + (b.m.vnodbas - b.m.baseval)) := by
      intro u hu
      rw [h1 _ ((vertex_iff C G u).1 hu), hb, show u + (b.m.vnodbas - b.m.baseval) - (b.m.vnodbas - b.m.baseval) = u by omega]
    have hs : ∀ k (f F : Int → Int), (∀ v', v.s.Vertex v' → f v' = F (v' + (b.m.vnodbas - b.m.baseval))) → over v.s v.part k f = nodeSum b.m part.get k F := fun k f F h => over_eq C G hv k h
    dsimp only
    rw [Holds_pure]
    refine ⟨rfl, rfl, ⟨A.mesh, by show part.lo ≤ b.m.baseval ∧ b.m.baseval + b.m.velmnbr + b.m.vnodnbr ≤ part.hi; omega, by show fron.lo ≤ 0 ∧ b.m.vnodnbr ≤ fron.hi; omega⟩, ?_⟩
    refine ⟨fun n hn => ?_, fun e he => (h2 e he).val, fun e n he hn => ?_, fun e he => (h2 e he).alone, ?_, h3, ?_, ?_, ?_, ?_, ?_, ?_, ?_, ?_⟩
    · show part.get n = 0 ∨ part.get n = 1 ∨ part.get n = 2
      rw [h1 n hn]; exact W.parts _ (hnode n hn)
    · show part.get n = 2 ∨ part.get n = part.get e
      have := (h2 e he).apart n hn
      rw [hget, ← h1 n (C.nodes e he n hn).1] at this
      exact this
    · show b.m.velmnbr - n = elemSum b.m part.get 0 (fun _ => 1)
      have : elemSum b.m part.get 0 (fun _ => 1) + elemSum b.m part.get 1 (fun _ => 1) = b.m.velmnbr := by
        unfold elemSum
        have c1 := C.velmnbr
        have c2 := C.velmnnd
        rw [← sumI_add_dist, sumI_congr (g := fun _ => 1), sumI_const (by omega)]
        · omega
        · intro e e1 e2
          dsimp only
          rcases (h2 e ⟨e1, e2⟩).val with h | h <;> rw [h] <;> decide
      omega
    · exact W.size0.trans (hs 0 _ _ fun _ _ => rfl)
    · exact W.size1.trans (hs 1 _ _ fun _ _ => rfl)
    · exact W.size2.trans (hs 2 _ _ fun _ _ => rfl)
    · exact W.load0.trans (hs 0 _ _ G.velo)
    · exact W.load1.trans (hs 1 _ _ G.velo)
    · exact W.load2.trans (hs 2 _ _ G.velo)
    · show v.comploaddlt = v.compload0 - v.compload1
      rw [W.delta, hd.1, hd.2]; omega
    · refine ⟨W.fron.1, fun i j i1 i2 j1 j2 h => ?_, fun u => ?_⟩
      · change fron.get i = fron.get j at h
        rw [f2 i i1 i2, f2 j j1 j2] at h
        exact W.fron.2.1 i j i1 i2 j1 j2 (by omega)
      · show b.m.Node u ∧ part.get u = 2 ↔ ∃ i, 0 ≤ i ∧ i < v.fronnbr ∧ fron.get i = u
        have key : b.m.Node u ∧ part.get u = 2 ↔ v.s.Vertex (u - (b.m.vnodbas - v.s.baseval)) ∧ v.part (u - (b.m.vnodbas - v.s.baseval)) = 2 := by
          constructor
          · rintro ⟨n1, n2⟩
            exact ⟨hnode u n1, by rw [← h1 u n1]; exact n2⟩
          · rintro ⟨n1, n2⟩
            have n3 := (vertex_iff C G _).1 n1
            rw [hb, show u - (b.m.vnodbas - b.m.baseval) + (b.m.vnodbas - b.m.baseval) = u by omega] at n3
            exact ⟨n3, by rw [h1 u n3]; exact n2⟩
        refine key.trans ((W.fron.2.2 _).trans ⟨?_, ?_⟩)
        · rintro ⟨i, i1, i2, e⟩
          exact ⟨i, i1, i2, by rw [f2 i i1 i2]; omega⟩
        · rintro ⟨i, i1, i2, e⟩
          rw [f2 i i1 i2] at e
          exact ⟨i, i1, i2, by omega⟩

end

theorem separateGr_meets {cls : Graph → Prop} {tot sure : Bool} {sep : Vgraph → M (Int × Vgraph)} (hsep : Separ.SepMethod cls tot sure sep) (P : Pre numMax b.m) (A : Alloc b) (V : Valid b) (hn : 1 ≤ b.m.vnodnbr) (hc : ∀ g, NodeGraph b.m g → cls g) (J : Mesh.Junk) :
    Meets tot (separateGr numMax J 1 1 sep b) (fun r => r.2.m = b.m ∧ Alloc r.2 ∧ (sure = true → r.1 = 0) ∧ (r.1 = 0 → Valid r.2)) := by
  have C := P.cons
  have a1 := A.part
  have a2 := A.fron
  have hle : b.fronnbr ≤ b.m.vnodnbr := by
    rw [V.nsize2]
    unfold nodeSum
    have := C.vnodnnd
    calc sumI b.m.vnodbas b.m.vnodnnd (fun u => if b.part u = 2 then 1 else 0) ≤ sumI b.m.vnodbas b.m.vnodnnd (fun _ => 1) := sumI_mono (fun u _ _ => by split <;> omega)
      _ = b.m.vnodnbr := by rw [sumI_const (by omega)]; omega
  unfold separateGr
  rw [Meets_bind]
  refine (Meets.of_holds (Mesh.toGraph_holds P J)).mono ?_
  intro g G
  have hb := G.base
  have hnbr := G.nbr
  have hgn := G.consistent.vertnnd
  have hord := C.order
  have hvn := C.vnodnnd
  have hve := C.velmnnd
  have hv0 := C.velmnbr
  have hbase := P.base
  rw [Meets_bind]
  refine (Meets.of_holds (addFron_holds b.frontab b.fronnbr _ V.fron.1 (by omega) (by omega))).mono ?_
  rintro fron ⟨f1, f2⟩
  rw [Meets_bind]
  refine (hsep (toVgraph b g fron 1 1) ⟨G.consistent, ⟨G.allocated, ?_, ?_⟩, toVgraph_valid C G V f2, by show 0 ≤ g.baseval; omega, by show 1 ≤ g.vertnbr; omega, by show (0 : Int) ≤ 1 ∧ (1 : Int) + 1 ≠ 0; decide⟩ (hc g G)).mono ?_
  · show b.parttax.lo + - (b.m.vnodbas - g.baseval) ≤ g.baseval ∧ g.vertnnd ≤ b.parttax.hi + - (b.m.vnodbas - g.baseval)
    omega
  · show fron.lo ≤ 0 ∧ g.vertnbr ≤ fron.hi
    omega
  rintro ⟨o, v⟩ ⟨S, h1, h2⟩
  have S : Separ.SameProblem (toVgraph b g fron 1 1) v := S
  have h1 : sure = true → o = 0 := h1
  have h2 : o = 0 → Separ.Valid v := h2
  obtain ⟨s1, s2, s3, s4⟩ := S.bounds
  have s1 : v.parttax.lo = b.parttax.lo + - (b.m.vnodbas - g.baseval) := s1
  have s2 : v.parttax.hi = b.parttax.hi + - (b.m.vnodbas - g.baseval) := s2
  have s3 : v.frontab.lo = fron.lo := s3
  have s4 : v.frontab.hi = fron.hi := s4
  dsimp only
  rw [Meets_ite]
  refine ⟨fun ho => ?_, fun ho => ?_⟩
  · rw [Meets_pure]
    refine ⟨rfl, ⟨A.mesh, ?_, ?_⟩, fun h => absurd (h1 h) ho, fun h => absurd (show (1 : Int) = 0 from h) (by decide)⟩
    · show v.parttax.lo + (b.m.vnodbas - g.baseval) ≤ b.m.baseval ∧ b.m.baseval + b.m.velmnbr + b.m.vnodnbr ≤ v.parttax.hi + (b.m.vnodbas - g.baseval)
      omega
    · show v.frontab.lo ≤ 0 ∧ b.m.vnodnbr ≤ v.frontab.hi
      omega
  · refine (Meets.of_holds (fromVgraph_holds P A G S.s (h2 (Classical.not_not.1 ho)) S.dwgt ⟨s1, s2⟩ ⟨by omega, by omega⟩)).mono ?_
    rintro r ⟨r1, r2, r3, r4⟩
    exact ⟨r2, r3, fun _ => r1, fun _ => r4⟩

end Scotch.Msep
