import Verif.Bipart.LemmasGg

/-! # Bipartition by greedy graph growing: frontier and result -/

set_option autoImplicit false
set_option linter.unusedSimpArgs false

namespace Scotch.Bipart
open Graph

variable {b : Bgraph} {u v w e : Int} {q : Arr Int}

/-- Vertices that are in the frontier once the vertices before `k` have been treated. -/
def GgSeen (b : Bgraph) (q : Arr Int) (k x : Int) : Prop :=
  b.s.Vertex x ∧ ((x < k ∧ q.get x = 2 ∧ ∃ w, b.s.Adj x w ∧ q.get w = 1) ∨ (q.get x = 1 ∧ ∃ y, b.s.Vertex y ∧ y < k ∧ q.get y = 2 ∧ b.s.Adj y x))

/-- Before vertex `k`. `q` holds the marked parts. -/
structure GgFr (b : Bgraph) (q : Arr Int) (k : Int) (s : GgFron) : Prop where
  pb : s.part.lo = b.parttax.lo ∧ s.part.hi = b.parttax.hi
  lb : s.flag.lo = b.s.baseval ∧ s.flag.hi = b.s.vertnnd
  fb : s.frontab.lo = b.frontab.lo ∧ s.frontab.hi = b.frontab.hi
  part : ∀ v, b.s.Vertex v → s.part.get v = if v < k then stPart q v else q.get v
  flag : ∀ v, b.s.Vertex v → q.get v = 1 → (s.flag.get v = 0 ↔ ∃ y, b.s.Vertex y ∧ y < k ∧ q.get y = 2 ∧ b.s.Adj y v)
  enum : Enum s.frontab s.fronnum (GgSeen b q k)

theorem ggFronArcs_holds (hc : ConsE b.s) (ha : Alloc b) {s : GgFron} (hu : b.s.Vertex u) (hq : q.get u = 2) (I : GgFr b q u s) :
    Holds (b.s.forArcs u (⟨s.part.set u 0, s.flag, s.frontab.set s.fronnum u, s.fronnum + 1, s.compsize1, s.commgainextn⟩, 1) ggFronArc) (fun r =>
      r.1.part = s.part.set u 0 ∧ r.1.compsize1 = s.compsize1 ∧ r.1.commgainextn = s.commgainextn ∧ (r.1.flag.lo = b.s.baseval ∧ r.1.flag.hi = b.s.vertnnd) ∧
      (r.1.frontab.lo = b.frontab.lo ∧ r.1.frontab.hi = b.frontab.hi) ∧
      (∀ v, b.s.Vertex v → q.get v = 1 → (r.1.flag.get v = 0 ↔ s.flag.get v = 0 ∨ b.s.Adj u v)) ∧
      ((r.2 = 1 ∧ (∀ w, b.s.Adj u w → q.get w ≠ 1) ∧ r.1.fronnum = s.fronnum + 1 ∧ r.1.frontab = s.frontab.set s.fronnum u) ∨
        (r.2 = 0 ∧ (∃ w, b.s.Adj u w ∧ q.get w = 1) ∧ Enum r.1.frontab r.1.fronnum (fun x => GgSeen b q u x ∨ x = u ∨ (q.get x = 1 ∧ b.s.Adj u x))))) := by
  have hr := (hc.range u hu).2
  have hpa := ha.part
  have hfa := ha.fron
  have hnn := hc.vertnnd
  have hpb := I.pb
  have hfresh : ¬ GgSeen b q u u := by
    rintro ⟨_, ⟨h, _⟩ | ⟨h, _⟩⟩
    · omega
    · rw [hq] at h; exact absurd h (by decide)
  refine Holds_forArcs ha.graph hu hr (fun e (r : GgFron × Int) =>
      r.1.part = s.part.set u 0 ∧ r.1.compsize1 = s.compsize1 ∧ r.1.commgainextn = s.commgainextn ∧ (r.1.flag.lo = b.s.baseval ∧ r.1.flag.hi = b.s.vertnnd) ∧
      (r.1.frontab.lo = b.frontab.lo ∧ r.1.frontab.hi = b.frontab.hi) ∧
      (∀ v, b.s.Vertex v → q.get v = 1 → (r.1.flag.get v = 0 ↔ s.flag.get v = 0 ∨ ∃ e', b.s.vert u ≤ e' ∧ e' < e ∧ b.s.dest e' = v)) ∧
      ((r.2 = 1 ∧ (∀ e', b.s.vert u ≤ e' → e' < e → q.get (b.s.dest e') ≠ 1) ∧ r.1.fronnum = s.fronnum + 1 ∧ r.1.frontab = s.frontab.set s.fronnum u) ∨
        (r.2 = 0 ∧ ∃ e', b.s.vert u ≤ e' ∧ e' < e ∧ q.get (b.s.dest e') = 1)) ∧
      Enum r.1.frontab r.1.fronnum (fun x => GgSeen b q u x ∨ x = u ∨ (q.get x = 1 ∧ ∃ e', b.s.vert u ≤ e' ∧ e' < e ∧ b.s.dest e' = x))) ?_ ?_ ?_
  · refine ⟨rfl, rfl, rfl, I.lb, I.fb, ?_, Or.inl ⟨rfl, fun e' h1 h2 => by omega, rfl, rfl⟩, ?_⟩
    · intro v _ _
      constructor
      · intro h; exact Or.inl h
      · rintro (h | ⟨e', h1, h2, _⟩)
        · exact h
        · omega
    · refine (I.enum.push hfresh).congr ?_
      intro x
      constructor
      · rintro (h | h)
        · exact Or.inl h
        · exact Or.inr (Or.inl h)
      · rintro (h | h | ⟨_, e', h1, h2, _⟩)
        · exact Or.inl h
        · exact Or.inr h
        · omega
  · rintro e ⟨r, m⟩ k1 k2 ⟨i1, i2, i3, i4, i5, i6, i7, i8⟩
    dsimp only at i1 i2 i3 i4 i5 i6 i7 i8
    obtain ⟨hw, hne⟩ := hc.inside u e hu k1 k2
    have w1 := hw.1
    have w2 := hw.2
    have hpw : (r.part.get (b.s.dest e) = 1 ↔ q.get (b.s.dest e) = 1) := by
      rw [i1, Arr.set_get_ne _ _ hne, I.part _ hw]
      split
      · unfold stPart
        split
        · rename_i h; exact ⟨fun _ => h, fun _ => rfl⟩
        · rename_i h; exact ⟨fun h => absurd h (by decide), fun h' => absurd h' h⟩
      · exact Iff.rfl
    unfold ggFronArc
    dsimp only
    rw [Arr.rd_ok _ (by rw [i1, Arr.set_lo]; omega) (by rw [i1, Arr.set_hi]; omega), ok_bind]
    by_cases hp : r.part.get (b.s.dest e) = 1
    · have hqw := hpw.1 hp
      rw [if_pos hp, Arr.rd_ok _ (by omega) (by omega), ok_bind]
      by_cases hf : r.flag.get (b.s.dest e) ≠ 0
      · rw [if_pos hf]
        have hfl := fun h => hf ((i6 _ hw hqw).2 h)
        have hxn : ¬ (GgSeen b q u (b.s.dest e) ∨ b.s.dest e = u ∨ (q.get (b.s.dest e) = 1 ∧ ∃ e', b.s.vert u ≤ e' ∧ e' < e ∧ b.s.dest e' = b.s.dest e)) := by
          rintro (⟨_, ⟨_, h, _⟩ | ⟨_, h⟩⟩ | h | ⟨_, h⟩)
          · rw [hqw] at h; exact absurd h (by decide)
          · exact hfl (Or.inl ((I.flag _ hw hqw).2 h))
          · exact hne h
          · exact hfl (Or.inr h)
        have hlt := i8.lt (lo := b.s.baseval) (hi := b.s.vertnnd) (by
          rintro x (⟨h, _⟩ | rfl | ⟨_, e', h1, h2, rfl⟩)
          · exact h
          · exact hu
          · exact (hc.inside u e' hu h1 (by omega)).1) hxn w1 w2
        have h0 := i8.1
        rw [Arr.wr_ok _ _ (by omega) (by omega), ok_bind, Arr.wr_ok _ _ (by omega) (by omega), ok_bind, Holds_pure]
        refine ⟨i1, i2, i3, i4, i5, ?_, Or.inr ⟨rfl, e, k1, by omega, hqw⟩, ?_⟩
        · intro v hv hv1
          dsimp only
          by_cases hvw : v = b.s.dest e
          · rw [hvw, Arr.set_get_same]
            exact ⟨fun _ => Or.inr ⟨e, k1, by omega, rfl⟩, fun _ => rfl⟩
          · rw [Arr.set_get_ne _ _ hvw, i6 v hv hv1]
            constructor
            · rintro (h | ⟨e', a1, a2, a3⟩)
              · exact Or.inl h
              · exact Or.inr ⟨e', a1, by omega, a3⟩
            · rintro (h | ⟨e', a1, a2, a3⟩)
              · exact Or.inl h
              · refine Or.inr ⟨e', a1, ?_, a3⟩
                rcases Int.lt_or_le e' e with hh | hh
                · exact hh
                · exact absurd (by rw [← a3, show e' = e by omega]) hvw
        · dsimp only
          refine (i8.push hxn).congr ?_
          intro x
          constructor
          · rintro ((h | h | ⟨h, e', a1, a2, a3⟩) | rfl)
            · exact Or.inl h
            · exact Or.inr (Or.inl h)
            · exact Or.inr (Or.inr ⟨h, e', a1, by omega, a3⟩)
            · exact Or.inr (Or.inr ⟨hqw, e, k1, by omega, rfl⟩)
          · rintro (h | h | ⟨h, e', a1, a2, a3⟩)
            · exact Or.inl (Or.inl h)
            · exact Or.inl (Or.inr (Or.inl h))
            · by_cases he : e' = e
              · rw [he] at a3; exact Or.inr a3.symm
              · exact Or.inl (Or.inr (Or.inr ⟨h, e', a1, by omega, a3⟩))
      · rw [if_neg hf, Holds_pure]
        have hf0 : r.flag.get (b.s.dest e) = 0 := Classical.not_not.1 hf
        have hold := (i6 _ hw hqw).1 hf0
        refine ⟨i1, i2, i3, i4, i5, ?_, Or.inr ⟨rfl, e, k1, by omega, hqw⟩, ?_⟩
        · intro v hv hv1
          dsimp only
          rw [i6 v hv hv1]
          constructor
          · rintro (h | ⟨e', a1, a2, a3⟩)
            · exact Or.inl h
            · exact Or.inr ⟨e', a1, by omega, a3⟩
          · rintro (h | ⟨e', a1, a2, a3⟩)
            · exact Or.inl h
            · by_cases he : e' = e
              · rw [← a3, he]; exact hold
              · exact Or.inr ⟨e', a1, by omega, a3⟩
        · dsimp only
          refine i8.congr ?_
          intro x
          constructor
          · rintro (h | h | ⟨h, e', a1, a2, a3⟩)
            · exact Or.inl h
            · exact Or.inr (Or.inl h)
            · exact Or.inr (Or.inr ⟨h, e', a1, by omega, a3⟩)
          · rintro (h | h | ⟨h, e', a1, a2, a3⟩)
            · exact Or.inl h
            · exact Or.inr (Or.inl h)
            · by_cases he : e' = e
              · rw [he] at a3
                rw [← a3]
                rcases hold with h' | ⟨e2, c1, c2, c3⟩
                · exact Or.inl ⟨hw, Or.inr ⟨hqw, (I.flag _ hw hqw).1 h'⟩⟩
                · exact Or.inr (Or.inr ⟨hqw, e2, c1, c2, c3⟩)
              · exact Or.inr (Or.inr ⟨h, e', a1, by omega, a3⟩)
    · rw [if_neg hp, Holds_pure]
      have hqw : q.get (b.s.dest e) ≠ 1 := fun h => hp (hpw.2 h)
      have hiff : ∀ x, q.get x = 1 → ((∃ e', b.s.vert u ≤ e' ∧ e' < e ∧ b.s.dest e' = x) ↔ ∃ e', b.s.vert u ≤ e' ∧ e' < e + 1 ∧ b.s.dest e' = x) := by
        intro x hx
        constructor
        · rintro ⟨e', a1, a2, a3⟩; exact ⟨e', a1, by omega, a3⟩
        · rintro ⟨e', a1, a2, a3⟩
          by_cases he : e' = e
          · rw [← a3, he] at hx; exact absurd hx hqw
          · exact ⟨e', a1, by omega, a3⟩
      refine ⟨i1, i2, i3, i4, i5, ?_, ?_, ?_⟩
      · intro v hv hv1
        dsimp only
        rw [← hiff v hv1]
        exact i6 v hv hv1
      · dsimp only
        rcases i7 with ⟨a, c, d, f⟩ | ⟨a, e', c, d, f⟩
        · refine Or.inl ⟨a, ?_, d, f⟩
          intro e' h1 h2
          by_cases he : e' = e
          · rw [he]; exact hqw
          · exact c e' h1 (by omega)
        · exact Or.inr ⟨a, e', c, by omega, f⟩
      · dsimp only
        refine i8.congr ?_
        intro x
        constructor
        · rintro (h | h | ⟨h, h'⟩)
          · exact Or.inl h
          · exact Or.inr (Or.inl h)
          · exact Or.inr (Or.inr ⟨h, (hiff x h).1 h'⟩)
        · rintro (h | h | ⟨h, h'⟩)
          · exact Or.inl h
          · exact Or.inr (Or.inl h)
          · exact Or.inr (Or.inr ⟨h, (hiff x h).2 h'⟩)
  · rintro ⟨r, m⟩ ⟨i1, i2, i3, i4, i5, i6, i7, i8⟩
    dsimp only at i1 i2 i3 i4 i5 i6 i7 i8 ⊢
    refine ⟨i1, i2, i3, i4, i5, i6, ?_⟩
    rcases i7 with ⟨a, c, d, f⟩ | ⟨a, e', c, d, f⟩
    · refine Or.inl ⟨a, ?_, d, f⟩
      rintro w ⟨e', h1, h2, rfl⟩
      exact c e' h1 h2
    · exact Or.inr ⟨a, ⟨_, ⟨e', c, d, rfl⟩, f⟩, i8⟩

theorem ggFronHead_holds (hc : ConsE b.s) (ha : Alloc b) {s : GgFron} (hu : b.s.Vertex u) (hq : q.get u = 0 ∨ q.get u = 1 ∨ q.get u = 2) (I : GgFr b q u s) :
    Holds (ggFronHead b u (q.get u) s) (fun r => GgFr b q (u + 1) r ∧ r.compsize1 = s.compsize1 ∧ r.commgainextn = s.commgainextn) := by
  have hpa := ha.part
  have hfa := ha.fron
  have hnn := hc.vertnnd
  have hpb := I.pb
  have hfb := I.fb
  have u1 := hu.1
  have u2 := hu.2
  unfold ggFronHead
  by_cases h : q.get u > 1
  · have hq2 : q.get u = 2 := by omega
    have hfresh : ¬ GgSeen b q u u := by
      rintro ⟨_, ⟨h, _⟩ | ⟨h, _⟩⟩ <;> omega
    have hlt := I.enum.lt (lo := b.s.baseval) (hi := b.s.vertnnd) (fun x hx => hx.1) hfresh u1 u2
    have h0 := I.enum.1
    rw [if_pos h]
    unfold ggFronVert
    rw [Arr.wr_ok _ _ (by omega) (by omega), ok_bind, Arr.wr_ok _ _ (by omega) (by omega), ok_bind, Holds_bind]
    refine (ggFronArcs_holds hc ha hu hq2 I).mono ?_
    rintro ⟨r, m⟩ ⟨i1, i2, i3, i4, i5, i6, i7⟩
    dsimp only at i1 i2 i3 i4 i5 i6 i7 ⊢
    rw [Holds_pure]
    have hsu : stPart q u = 0 := if_neg (by omega)
    refine ⟨⟨by rw [i1]; exact hpb, i4, i5, ?_, ?_, ?_⟩, i2, i3⟩
    · intro v hv
      dsimp only
      rw [i1]
      by_cases hvu : v = u
      · rw [hvu, Arr.set_get_same, if_pos (by omega), hsu]
      · rw [Arr.set_get_ne _ _ hvu, I.part v hv]
        by_cases hlt : v < u
        · rw [if_pos hlt, if_pos (by omega)]
        · rw [if_neg hlt, if_neg (by omega)]
    · intro v hv hv1
      dsimp only
      rw [i6 v hv hv1, I.flag v hv hv1]
      constructor
      · rintro (⟨y, a1, a2, a3⟩ | h)
        · exact ⟨y, a1, by omega, a3⟩
        · exact ⟨u, hu, by omega, hq2, h⟩
      · rintro ⟨y, a1, a2, a3, a4⟩
        by_cases hy : y = u
        · rw [hy] at a4; exact Or.inr a4
        · exact Or.inl ⟨y, a1, by omega, a3, a4⟩
    · dsimp only
      rcases i7 with ⟨a, c, d, f⟩ | ⟨a, c, d⟩
      · rw [a, d, f, show s.fronnum + 1 - 1 = s.fronnum by omega]
        have hE : Enum (s.frontab.set s.fronnum u) s.fronnum (GgSeen b q u) := by
          refine ⟨I.enum.1, ?_, ?_⟩
          · intro i j i1 i2 j1 j2 hij
            rw [Arr.set_get_ne _ _ (by omega), Arr.set_get_ne _ _ (by omega)] at hij
            exact I.enum.2.1 i j i1 i2 j1 j2 hij
          · intro x
            rw [I.enum.2.2 x]
            constructor
            · rintro ⟨i, i1, i2, i3⟩; exact ⟨i, i1, i2, by rw [Arr.set_get_ne _ _ (by omega)]; exact i3⟩
            · rintro ⟨i, i1, i2, i3⟩; exact ⟨i, i1, i2, by rw [Arr.set_get_ne _ _ (by omega)] at i3; exact i3⟩
        refine hE.congr ?_
        intro x
        constructor
        · rintro ⟨hx, ⟨k1, k2, k3⟩ | ⟨k1, y, k2, k3, k4⟩⟩
          · exact ⟨hx, Or.inl ⟨by omega, k2, k3⟩⟩
          · exact ⟨hx, Or.inr ⟨k1, y, k2, by omega, k4⟩⟩
        · rintro ⟨hx, ⟨k1, k2, w, k3, k4⟩ | ⟨k1, y, k2, k3, k4, k5⟩⟩
          · by_cases hxu : x = u
            · rw [hxu] at k3; exact absurd k4 (c w k3)
            · exact ⟨hx, Or.inl ⟨by omega, k2, w, k3, k4⟩⟩
          · by_cases hyu : y = u
            · rw [hyu] at k5; exact absurd k1 (c x k5)
            · exact ⟨hx, Or.inr ⟨k1, y, k2, by omega, k4, k5⟩⟩
      · rw [a, Int.sub_zero]
        refine d.congr ?_
        intro x
        constructor
        · rintro (⟨hx, ⟨k1, k2, k3⟩ | ⟨k1, y, k2, k3, k4⟩⟩ | rfl | ⟨k1, k2⟩)
          · exact ⟨hx, Or.inl ⟨by omega, k2, k3⟩⟩
          · exact ⟨hx, Or.inr ⟨k1, y, k2, by omega, k4⟩⟩
          · exact ⟨hu, Or.inl ⟨by omega, hq2, c⟩⟩
          · exact ⟨(hc.adj_vertex hu k2).1, Or.inr ⟨k1, u, hu, by omega, hq2, k2⟩⟩
        · rintro ⟨hx, ⟨k1, k2, k3⟩ | ⟨k1, y, k2, k3, k4, k5⟩⟩
          · by_cases hxu : x = u
            · exact Or.inr (Or.inl hxu)
            · exact Or.inl ⟨hx, Or.inl ⟨by omega, k2, k3⟩⟩
          · by_cases hyu : y = u
            · rw [hyu] at k5; exact Or.inr (Or.inr ⟨k1, k5⟩)
            · exact Or.inl ⟨hx, Or.inr ⟨k1, y, k2, by omega, k4, k5⟩⟩
  · rw [if_neg h, Holds_pure]
    have hsu : stPart q u = q.get u := by
      unfold stPart
      split <;> omega
    refine ⟨⟨hpb, I.lb, hfb, ?_, ?_, ?_⟩, rfl, rfl⟩
    · intro v hv
      rw [I.part v hv]
      by_cases hvu : v = u
      · rw [hvu, if_neg (by omega), if_pos (by omega), hsu]
      · by_cases hlt : v < u
        · rw [if_pos hlt, if_pos (by omega)]
        · rw [if_neg hlt, if_neg (by omega)]
    · intro v hv hv1
      rw [I.flag v hv hv1]
      constructor
      · rintro ⟨y, a1, a2, a3⟩; exact ⟨y, a1, by omega, a3⟩
      · rintro ⟨y, a1, a2, a3, a4⟩
        by_cases hy : y = u
        · rw [hy] at a3; omega
        · exact ⟨y, a1, by omega, a3, a4⟩
    · refine I.enum.congr ?_
      intro x
      constructor
      · rintro ⟨hx, ⟨k1, k2, k3⟩ | ⟨k1, y, k2, k3, k4⟩⟩
        · exact ⟨hx, Or.inl ⟨by omega, k2, k3⟩⟩
        · exact ⟨hx, Or.inr ⟨k1, y, k2, by omega, k4⟩⟩
      · rintro ⟨hx, ⟨k1, k2, k3⟩ | ⟨k1, y, k2, k3, k4, k5⟩⟩
        · by_cases hxu : x = u
          · rw [hxu] at k2; omega
          · exact ⟨hx, Or.inl ⟨by omega, k2, k3⟩⟩
        · by_cases hyu : y = u
          · rw [hyu] at k4; omega
          · exact ⟨hx, Or.inr ⟨k1, y, k2, by omega, k4, k5⟩⟩

theorem bipartGg_holds (hc : ConsE b.s) (ha : Alloc b) (hn0 : 0 < b.s.vertnbr) (hg : b.commgainextn0 = sumI b.s.baseval b.s.vertnnd b.veex) (junk : Int → Int) {o : Int → GgOracle}
    (ho : ∀ i, (o i).Ok b.s) {passnbr : Int} (hpn : 0 < passnbr) : Holds (bipartGg junk o passnbr b) (fun b' => Valid b' ∧ SameProblem b b') := by
  have hn := hc.vertnbr
  have hnn := hc.vertnnd
  have hpa := ha.part
  unfold bipartGg
  rw [Holds_bind]
  refine (ggGains_holds hc ha junk).mono ?_
  rintro gain0 ⟨g1, g2⟩
  rw [Holds_bind]
  refine (ggTries_holds hc ha hn0 ho g1 g2 hpn).mono ?_
  rintro ⟨q, dlt, comm⟩ B
  dsimp only at B ⊢
  rw [Holds_bind]
  have hP : Parts b.s (stPart q) := stPart_parts q
  refine Holds_forUp (fun i s => GgFr b q i s ∧ s.compsize1 = sumI b.s.baseval i (stPart q) ∧ s.commgainextn = b.commgainextn0 - 2 * sumI b.s.baseval i (fun v => stPart q v * b.veex v)) (by omega) ?_ ?_ ?_
  · refine ⟨⟨B.pb, ⟨rfl, hnn.symm⟩, ⟨rfl, rfl⟩, ?_, ?_, ?_⟩, ?_, ?_⟩
    · intro v hv
      rw [if_neg (by have := hv.1; omega)]
    · intro v _ _
      constructor
      · intro h; exact absurd h (by decide : ¬ (255 : Int) = 0)
      · rintro ⟨y, a1, a2, _⟩; have := a1.1; omega
    · refine (Enum.empty _).congr ?_
      intro x
      refine ⟨False.elim, ?_⟩
      rintro ⟨hx, ⟨k1, _⟩ | ⟨_, y, k2, k3, _⟩⟩
      · have := hx.1; omega
      · have := k2.1; omega
    · rw [sumI_empty (Int.le_refl _)]
    · rw [sumI_empty (Int.le_refl _)]; simp
  · rintro i s h1 h2 ⟨I, s1, s2⟩
    have hv : b.s.Vertex i := ⟨h1, h2⟩
    have hpb := I.pb
    have hi := I.part i hv
    rw [if_neg (by omega)] at hi
    have h3 := B.three i hv
    unfold ggFronStep
    rw [Arr.rd_ok _ (by omega) (by omega), ok_bind, hi, Holds_bind]
    refine (ggFronHead_holds hc ha hv h3 I).mono ?_
    rintro r ⟨J, r1, r2⟩
    rw [rdVeex_eq ha hv, ok_bind, Holds_pure]
    have hm : q.get i % 2 = stPart q i := by
      unfold stPart
      split <;> omega
    refine ⟨⟨J.pb, J.lb, J.fb, J.part, J.flag, J.enum⟩, ?_, ?_⟩
    · dsimp only
      rw [sumI_succ h1, r1, s1, hm]
    · dsimp only
      rw [sumI_succ h1, r2, s2, hm, Int.mul_add, ← Int.mul_assoc 2, Int.mul_comm 2 (stPart q i)]
      omega
  · rintro s ⟨I, s1, s2⟩
    rw [Holds_pure]
    have e : ∀ v, b.s.Vertex v → s.part.get v = stPart q v := fun v hv => by rw [I.part v hv, if_pos hv.2]
    have o : ∀ k f, over b.s s.part.get k f = over b.s (stPart q) k f := fun k f => over_congr k e (fun _ _ => rfl)
    have a1 := over_add hP (fun _ => 1)
    have a2 := over_add hP b.veex
    have a3 := over_one hP (fun _ => 1)
    have a4 := over_one hP b.veex
    rw [size_eq hc] at a1
    have a5 : sumI b.s.baseval b.s.vertnnd (fun v => stPart q v * 1) = sumI b.s.baseval b.s.vertnnd (stPart q) := sumI_congr fun _ _ _ => Int.mul_one _
    have hd := B.dlt
    refine ⟨⟨?_, ?_, ?_, ?_, ?_, ?_, ?_⟩, ⟨rfl, rfl, ⟨I.pb.1, I.pb.2, I.fb.1, I.fb.2⟩, ⟨rfl, rfl, rfl⟩, ⟨rfl, rfl⟩, ⟨rfl, rfl, rfl⟩, ⟨rfl, rfl⟩⟩⟩
    · intro v hv
      change s.part.get v = 0 ∨ s.part.get v = 1
      rw [e v hv]; exact hP v hv
    · change b.compload0avg + dlt = over b.s s.part.get 0 b.s.velo
      rw [o]; omega
    · change dlt = b.compload0avg + dlt - b.compload0avg
      omega
    · change b.s.vertnbr - s.compsize1 = over b.s s.part.get 0 (fun _ => 1)
      rw [o, s1]; omega
    · change comm = cut b.s s.part.get * b.domndist + b.commloadextn0 + over b.s s.part.get 1 b.veex
      rw [o, cut_congr hc e]; exact B.comm
    · change s.commgainextn = over b.s s.part.get 0 b.veex - over b.s s.part.get 1 b.veex
      rw [o, o, s2]; omega
    · change Enum s.frontab s.fronnum (Frontier b.s s.part.get)
      refine I.enum.congr ?_
      intro x
      rw [Frontier_congr hc e, frontier_adj]
      have hs0 : ∀ y, stPart q y = 0 ↔ q.get y ≠ 1 := by
        intro y
        unfold stPart
        split
        · rename_i h; exact ⟨fun h => absurd h (by decide), fun h' => absurd h h'⟩
        · rename_i h; exact ⟨fun _ => h, fun _ => rfl⟩
      have hs1 : ∀ y, q.get y = 1 → stPart q y = 1 := fun y h => if_pos h
      constructor
      · rintro ⟨hx, ⟨_, k2, w, k3, k4⟩ | ⟨k1, y, k2, _, k4, k5⟩⟩
        · refine ⟨hx, w, k3, ?_⟩
          rw [hs1 w k4, (hs0 x).2 (by rw [k2]; decide)]; decide
        · refine ⟨hx, y, hc.adj_symm k2 k5, ?_⟩
          rw [hs1 x k1, (hs0 y).2 (by rw [k4]; decide)]; decide
      · rintro ⟨hx, w, hw, hne⟩
        have hwv := (hc.adj_vertex hx hw).1
        refine ⟨hx, ?_⟩
        have tx := B.three x hx
        have tw := B.three w hwv
        by_cases qx : q.get x = 1
        · right
          have qw : q.get w ≠ 1 := by
            intro h; rw [hs1 x qx, hs1 w h] at hne; exact hne rfl
          have qw0 := B.next x w hx hw qx
          exact ⟨qx, w, hwv, hwv.2, by omega, hc.adj_symm hx hw⟩
        · left
          have qw : q.get w = 1 := by
            by_contra h
            rw [(hs0 x).2 qx, (hs0 w).2 h] at hne; exact hne rfl
          have qx0 := B.next w x hwv (hc.adj_symm hx hw) qw
          exact ⟨hx.2, by omega, w, hw, qw⟩

end Scotch.Bipart
