import Verif.HOrder.LemmasSi
import Verif.Separ.Spec
import Verif.Band.Lemmas

/-! # Nested dissection: lists of vertices -/

set_option autoImplicit false
set_option linter.unusedSimpArgs false

namespace Scotch.HOrder
open Graph Cblk

/-- Cells `a` to `a + n` of an array hold each element of a set once. -/
def EnumAt (t : Arr Int) (a n : Int) (P : Int → Prop) : Prop := Enum ⟨0, 0, fun i => t.get (a + i)⟩ n P

theorem EnumAt.push {t : Arr Int} {a n x : Int} {P Q : Int → Prop} (h : EnumAt t a n P) (hx : ¬ P x) (hQ : ∀ v, (P v ∨ v = x) ↔ Q v) : EnumAt (t.set (a + n) x) a (n + 1) Q := by
  refine ((Enum.push h hx).congr hQ).agree ?_
  intro i i1 i2
  by_cases hi : i = n
  · subst hi
    rw [Arr.set_get_same]
    exact (Arr.set_get_same _ _ _).symm
  · rw [Arr.set_get_ne _ _ hi]
    exact Arr.set_get_ne _ _ (by omega)

theorem EnumAt.other {t : Arr Int} {a n j x : Int} {P Q : Int → Prop} (h : EnumAt t a n P) (hj : j < a ∨ a + n ≤ j) (hQ : ∀ v, P v ↔ Q v) : EnumAt (t.set j x) a n Q := by
  refine (Enum.congr h hQ).agree ?_
  intro i i1 i2
  exact Arr.set_get_ne _ _ (by omega)

/-- The list of the cells. -/
theorem EnumAt.slice {t : Arr Int} {a n : Int} {P : Int → Prop} (h : EnumAt t a n P) : (slice t a n.toNat).Nodup ∧ (∀ v, v ∈ slice t a n.toNat ↔ P v) ∧ ((slice t a n.toNat).length : Int) = n := by
  obtain ⟨h0, hinj, hmem⟩ := h
  refine ⟨slice_nodup ?_, ?_, ?_⟩
  · intro i j i1 i2 j1 j2 he
    have := hinj (i - a) (j - a) (by omega) (by omega) (by omega) (by omega) (by
      show t.get (a + (i - a)) = t.get (a + (j - a))
      rw [show a + (i - a) = i by omega, show a + (j - a) = j by omega, he])
    omega
  · intro v
    rw [mem_slice, hmem]
    constructor
    · rintro ⟨i, i1, i2, rfl⟩
      exact ⟨i - a, by omega, by omega, (by show t.get (a + (i - a)) = _; rw [show a + (i - a) = i by omega])⟩
    · rintro ⟨i, i1, i2, rfl⟩
      exact ⟨a + i, by omega, by omega, rfl⟩
  · rw [slice_length]; omega

/-- Number of vertices of a part below a vertex. -/
def cnt (b : Separ.Vgraph) (k v : Int) : Int := sumI b.s.baseval v (fun x => if b.part x = k then 1 else 0)

theorem cnt_succ {b : Separ.Vgraph} {k v : Int} (h : b.s.baseval ≤ v) : cnt b k (v + 1) = cnt b k v + if b.part v = k then 1 else 0 := sumI_succ h _

theorem cnt_le {b : Separ.Vgraph} {k v w : Int} (h : b.s.baseval ≤ v) (hvw : v ≤ w) : cnt b k v ≤ cnt b k w := by
  unfold cnt
  rw [sumI_split h hvw]
  have : 0 ≤ sumI v w (fun x => if b.part x = k then 1 else 0) := sumI_nonneg fun i _ _ => by split <;> omega
  omega

theorem cnt_nonneg {b : Separ.Vgraph} (k v : Int) : 0 ≤ cnt b k v := sumI_nonneg fun i _ _ => by split <;> omega

/-- Vertices of a part below a vertex. -/
def Below (b : Separ.Vgraph) (k v x : Int) : Prop := b.s.baseval ≤ x ∧ x < v ∧ b.part x = k

theorem below_same {b : Separ.Vgraph} {k v : Int} (h : b.s.baseval ≤ v) (hk : b.part v = k) (x : Int) : (Below b k v x ∨ x = v) ↔ Below b k (v + 1) x := by
  unfold Below
  constructor
  · rintro (h | rfl)
    · exact ⟨h.1, by omega, h.2.2⟩
    · exact ⟨h, by omega, hk⟩
  · rintro ⟨h1, h2, h3⟩
    by_cases hx : x = v
    · exact Or.inr hx
    · exact Or.inl ⟨h1, by omega, h3⟩

theorem below_other {b : Separ.Vgraph} {k v : Int} (hk : b.part v ≠ k) (x : Int) : Below b k v x ↔ Below b k (v + 1) x := by
  unfold Below
  constructor
  · rintro ⟨h1, h2, h3⟩; exact ⟨h1, by omega, h3⟩
  · rintro ⟨h1, h2, h3⟩
    by_cases hx : x = v
    · subst hx; exact absurd h3 hk
    · exact ⟨h1, by omega, h3⟩

/-- State of the loop. -/
structure LInv (b : Separ.Vgraph) (v : Int) (s : Arr Int × Int × Int × Int) : Prop where
  lo : s.1.lo = b.frontab.lo
  hi : s.1.hi = b.frontab.hi
  p0 : s.2.1 = b.fronnbr + cnt b 0 v
  p1 : s.2.2.1 = b.fronnbr + b.compsize0 + cnt b 1 v
  p2 : s.2.2.2 = cnt b 2 v
  e0 : EnumAt s.1 b.fronnbr (cnt b 0 v) (Below b 0 v)
  e1 : EnumAt s.1 (b.fronnbr + b.compsize0) (cnt b 1 v) (Below b 1 v)
  e2 : EnumAt s.1 0 (cnt b 2 v) (Below b 2 v)

theorem ndList_holds {b : Separ.Vgraph} (hc : ConsE b.s) (ha : Separ.Alloc b) (hv : Separ.Valid b) : Holds (ndList b) (fun t => t.lo = b.frontab.lo ∧ t.hi = b.frontab.hi ∧
    EnumAt t b.fronnbr b.compsize0 (fun v => b.s.Vertex v ∧ b.part v = 0) ∧ EnumAt t (b.fronnbr + b.compsize0) b.compsize1 (fun v => b.s.Vertex v ∧ b.part v = 1) ∧
    EnumAt t 0 b.fronnbr (fun v => b.s.Vertex v ∧ b.part v = 2) ∧ b.fronnbr + b.compsize0 + b.compsize1 = b.s.vertnbr ∧ 0 ≤ b.fronnbr ∧ 0 ≤ b.compsize0 ∧ 0 ≤ b.compsize1) := by
  have hnn := hc.vertnnd
  have hn0 := hc.vertnbr
  have z0 : b.compsize0 = cnt b 0 b.s.vertnnd := hv.size0
  have z1 : b.compsize1 = cnt b 1 b.s.vertnnd := hv.size1
  have z2 : b.fronnbr = cnt b 2 b.s.vertnnd := hv.size2
  have zs : b.fronnbr + b.compsize0 + b.compsize1 = b.s.vertnbr := by
    rw [z0, z1, z2]
    unfold cnt
    rw [← sumI_add_dist, ← sumI_add_dist]
    rw [sumI_congr (g := fun _ => 1)]
    · rw [sumI_const (by omega)]; omega
    · intro i i1 i2
      have := hv.parts i ⟨i1, i2⟩
      rcases this with h | h | h <;> rw [h] <;> decide
  have n0 := cnt_nonneg (b := b) 0 b.s.vertnnd
  have n1 := cnt_nonneg (b := b) 1 b.s.vertnnd
  have n2 := cnt_nonneg (b := b) 2 b.s.vertnnd
  have hfr := ha.fron
  unfold ndList
  rw [Holds_bind]
  refine Holds_forUp (LInv b) (by omega) ?_ ?_ ?_
  · have hz : ∀ k, cnt b k b.s.baseval = 0 := fun k => by unfold cnt; exact sumI_empty (Int.le_refl _) _
    have he : ∀ k x, False ↔ Below b k b.s.baseval x := fun k x => ⟨False.elim, fun h => by have := h.1; have := h.2.1; omega⟩
    refine ⟨rfl, rfl, ?_, ?_, ?_, ?_, ?_, ?_⟩
    · rw [hz]; dsimp only; omega
    · rw [hz]; dsimp only; omega
    · rw [hz]
    · rw [hz]; exact (Enum.empty _).congr (he 0)
    · rw [hz]; exact (Enum.empty _).congr (he 1)
    · rw [hz]; exact (Enum.empty _).congr (he 2)
  · rintro v s v1 v2 ⟨lo, hi, p0, p1, p2, e0, e1, e2⟩
    rw [Arr.rd_ok b.parttax (by have := ha.part; omega) (by have := ha.part; omega), ok_bind]
    have s0 := cnt_succ (b := b) (k := 0) v1
    have s1 := cnt_succ (b := b) (k := 1) v1
    have s2 := cnt_succ (b := b) (k := 2) v1
    have m0 := cnt_le (b := b) (k := 0) (v := v + 1) (w := b.s.vertnnd) (by omega) (by omega)
    have m1 := cnt_le (b := b) (k := 1) (v := v + 1) (w := b.s.vertnnd) (by omega) (by omega)
    have m2 := cnt_le (b := b) (k := 2) (v := v + 1) (w := b.s.vertnnd) (by omega) (by omega)
    have c0 := cnt_nonneg (b := b) 0 v
    have c1 := cnt_nonneg (b := b) 1 v
    have c2 := cnt_nonneg (b := b) 2 v
    have hnb : ∀ k, ¬ Below b k v v := fun k h => by have := h.2.1; omega
    have hpart := hv.parts v ⟨v1, v2⟩
    show Holds (if b.part v = 0 then _ else _) _
    by_cases hp : b.part v = 0
    · rw [if_pos hp] at s0 ⊢
      rw [if_neg (by omega)] at s1 s2
      rw [Arr.wr_ok _ _ (by omega) (by omega), ok_bind, Holds_pure]
      refine ⟨lo, hi, ?_, ?_, ?_, ?_, ?_, ?_⟩
      · dsimp only; omega
      · dsimp only; omega
      · dsimp only; omega
      · rw [s0, p0]; exact e0.push (hnb 0) (below_same v1 hp)
      · rw [s1, Int.add_zero]; exact e1.other (by omega) (below_other (by omega))
      · rw [s2, Int.add_zero]; exact e2.other (by omega) (below_other (by omega))
    · rw [if_neg hp] at s0 ⊢
      by_cases hp1 : b.part v = 1
      · rw [if_pos hp1] at s1
        rw [if_neg (by omega)] at s2
        show Holds (if b.part v = 1 then _ else _) _
        rw [if_pos hp1, Arr.wr_ok _ _ (by omega) (by omega), ok_bind, Holds_pure]
        refine ⟨lo, hi, ?_, ?_, ?_, ?_, ?_, ?_⟩
        · dsimp only; omega
        · dsimp only; omega
        · dsimp only; omega
        · rw [s0, Int.add_zero]; exact e0.other (by omega) (below_other (by omega))
        · rw [s1, p1]; exact e1.push (hnb 1) (below_same v1 hp1)
        · rw [s2, Int.add_zero]; exact e2.other (by omega) (below_other (by omega))
      · have hp2 : b.part v = 2 := by omega
        rw [if_neg hp1] at s1
        rw [if_pos hp2] at s2
        show Holds (if b.part v = 1 then _ else if b.part v = 2 then _ else _) _
        rw [if_neg hp1, if_pos hp2, Arr.wr_ok _ _ (by omega) (by omega), ok_bind, Holds_pure]
        refine ⟨lo, hi, ?_, ?_, ?_, ?_, ?_, ?_⟩
        · dsimp only; omega
        · dsimp only; omega
        · dsimp only; omega
        · rw [s0, Int.add_zero]; exact e0.other (by omega) (below_other (by omega))
        · rw [s1, Int.add_zero]; exact e1.other (by omega) (below_other (by omega))
        · rw [s2, p2]
          have := e2.push (hnb 2) (below_same v1 hp2)
          rw [Int.zero_add] at this
          exact this
  · rintro s ⟨lo, hi, p0, p1, p2, e0, e1, e2⟩
    rw [Holds_pure]
    have hb : ∀ k v, Below b k b.s.vertnnd v ↔ (b.s.Vertex v ∧ b.part v = k) := fun k v => ⟨fun h => ⟨⟨h.1, h.2.1⟩, h.2.2⟩, fun h => ⟨h.1.1, h.1.2, h.2⟩⟩
    refine ⟨lo, hi, ?_, ?_, ?_, zs, by omega, by omega, by omega⟩
    · rw [← z0] at e0; exact Enum.congr e0 (hb 0)
    · rw [← z1] at e1; exact Enum.congr e1 (hb 1)
    · rw [← z2] at e2; exact Enum.congr e2 (hb 2)

end Scotch.HOrder
