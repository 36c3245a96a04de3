import Verif.Separ.Lemmas

/-! # Separation graphs: zero, store, thinning -/

set_option autoImplicit false
set_option linter.unusedSimpArgs false

namespace Scotch.Separ
open Graph
open Bipart (over over_congr copyN copyN_holds)
variable {b : Vgraph}

theorem over_const (g : Graph) {p : Int → Int} {k : Int} (h : ∀ v, g.Vertex v → p v = k) (j : Int) (f : Int → Int) :
    over g p j f = if j = k then sumI g.baseval g.vertnnd f else 0 := by
  unfold over
  by_cases hj : j = k
  · rw [if_pos hj]
    apply sumI_congr
    intro v h1 h2
    rw [h v ⟨h1, h2⟩, if_pos hj.symm]
  · rw [if_neg hj]
    apply sumI_eq_zero
    intro v h1 h2
    rw [h v ⟨h1, h2⟩, if_neg (fun e => hj e.symm)]

theorem valid_zero (hc : ConsE b.s) (h0 : ∀ v, b.s.Vertex v → b.part v = 0) (hf : b.fronnbr = 0) (h1 : b.compsize0 = b.s.vertnbr)
    (h2 : b.compsize1 = 0) (h3 : b.compload0 = b.s.velosum) (h4 : b.compload1 = 0) (h5 : b.compload2 = 0)
    (h6 : b.comploaddlt = b.s.velosum * b.dwgt1) : Valid b := by
  have ho := over_const b.s h0
  refine ⟨⟨fun v hv => Or.inl (h0 v hv), ?_, ?_, ?_, ?_, ?_, ?_, ?_, ?_⟩, ?_⟩
  · intro v x hv hx
    have hx' := ((consE_iff.1 hc).inside v x hv hx).1
    refine ⟨fun h => ?_, fun h => ?_⟩
    · have := h0 _ hx'; omega
    · have := h0 _ hv; omega
  · rw [ho, if_pos rfl, size_total hc, h1]
  · rw [ho, if_neg (by decide), h2]
  · rw [ho, if_neg (by decide), hf]
  · rw [ho, if_pos rfl, ← hc.velosum, h3]
  · rw [ho, if_neg (by decide), h4]
  · rw [ho, if_neg (by decide), h5]
  · rw [h6, h3, h4, Int.zero_mul, Int.sub_zero]
  · rw [hf]
    refine (Enum.empty _).congr ?_
    intro v
    refine ⟨False.elim, ?_⟩
    rintro ⟨hv, h⟩
    have := h0 v hv
    omega

theorem zero_holds (hc : ConsE b.s) (ha : Alloc b) : Holds (zero b) (fun b' => SameProblem b b' ∧ Valid b' ∧ (∀ v, b.s.Vertex v → b'.part v = 0) ∧
    b'.frontab = b.frontab ∧ b'.fronnbr = 0 ∧ b'.compsize0 = b.s.vertnbr ∧ b'.comploaddlt = b.s.velosum * b.dwgt1 ∧ b'.compload2 = 0) := by
  have hn := hc.vertnbr
  have hnn := hc.vertnnd
  have hb := ha.part
  unfold zero
  rw [Holds_bind]
  refine Holds_forUp (fun i (a : Arr Int) => a.lo = b.parttax.lo ∧ a.hi = b.parttax.hi ∧ ∀ v, b.s.baseval ≤ v → v < i → a.get v = 0) (by omega) ?_ ?_ ?_
  · exact ⟨rfl, rfl, fun v h1 h2 => by omega⟩
  · rintro i a h1 h2 ⟨e1, e2, e3⟩
    rw [Arr.wr_ok _ _ (by omega) (by omega), Holds_ok]
    refine ⟨e1, e2, ?_⟩
    intro v v1 v2
    by_cases hv : v = i
    · rw [hv, Arr.set_get_same]
    · rw [Arr.set_get_ne _ _ hv, e3 v v1 (by omega)]
  · rintro a ⟨e1, e2, e3⟩
    rw [Holds_pure]
    have h0 : ∀ v, b.s.Vertex v → a.get v = 0 := fun v hv => e3 v hv.1 (by have := hv.2; omega)
    exact ⟨⟨rfl, ⟨e1, e2, rfl, rfl⟩, rfl, rfl⟩, valid_zero hc h0 rfl rfl rfl rfl rfl rfl rfl, h0, rfl, rfl, rfl, rfl, rfl⟩

/-- If part 0 has all vertices, then all vertices are in part 0. -/
theorem all_zero (hc : ConsE b.s) (hv : Valid b) (hs : b.compsize0 = b.s.vertnbr) : ∀ v, b.s.Vertex v → b.part v = 0 := by
  intro v hx
  have ht := over_total (g := b.s) hv.parts (fun _ => 1)
  rw [size_total hc, ← hv.size0, hs] at ht
  have e1 := over_nonneg (g := b.s) b.part 1 (f := fun _ => 1) (fun _ _ => by decide)
  have e2 := over_nonneg (g := b.s) b.part 2 (f := fun _ => 1) (fun _ _ => by decide)
  have hz : over b.s b.part 0 (fun _ => 1) = b.s.vertnbr := by rw [← hv.size0, hs]
  refine Classical.byContradiction fun hne => ?_
  have hu := over_upd (g := b.s) b.part hx 0 0 (fun _ => 1)
  rw [if_neg hne, if_pos rfl] at hu
  have hle := over_total (g := b.s) (p := upd b.part v 0) (fun w hw => by
    by_cases h : w = v
    · rw [h, upd_same]; exact Or.inl rfl
    · rw [upd_ne _ _ h]; exact hv.parts w hw) (fun _ => 1)
  rw [size_total hc] at hle
  have e3 := over_nonneg (g := b.s) (upd b.part v 0) 1 (f := fun _ => 1) (fun _ _ => by decide)
  have e4 := over_nonneg (g := b.s) (upd b.part v 0) 2 (f := fun _ => 1) (fun _ _ => by decide)
  omega

theorem zr_holds (hc : ConsE b.s) (ha : Alloc b) (hv : Valid b) : Holds (separateZr b) (fun b' => SameProblem b b' ∧ Valid b' ∧
    ∀ v, b.s.Vertex v → b'.part v = 0) := by
  unfold separateZr
  by_cases h : b.compsize0 ≠ b.s.vertnbr
  · rw [if_pos h]
    exact (zero_holds hc ha).mono fun b' h => ⟨h.1, h.2.1, h.2.2.1⟩
  · rw [if_neg h, Holds_pure]
    exact ⟨SameProblem.refl b, hv, all_zero hc hv (Classical.byContradiction h)⟩

/-! ## Store -/

/-- What a store holds after a separation was saved to it. -/
structure Saved (b : Vgraph) (st : Store) : Prop where
  vals : st.fronnbr = b.fronnbr ∧ st.comploaddlt = b.comploaddlt ∧ st.compload0 = b.compload0 ∧ st.compload1 = b.compload1 ∧ st.compsize0 = b.compsize0
  fron : st.frontab.lo ≤ 0 ∧ b.s.vertnbr ≤ st.frontab.hi ∧ ∀ i, 0 ≤ i → i < b.fronnbr → st.frontab.get i = b.frontab.get i
  part : st.parttab.lo ≤ 0 ∧ b.s.vertnbr ≤ st.parttab.hi ∧ ∀ v, b.s.Vertex v → st.parttab.get (v - b.s.baseval) = b.part v

theorem storeSave_holds (hc : ConsE b.s) (ha : Alloc b) (hv : Valid b) {st : Store} (h1 : st.frontab.lo ≤ 0 ∧ b.s.vertnbr ≤ st.frontab.hi)
    (h2 : st.parttab.lo ≤ 0 ∧ b.s.vertnbr ≤ st.parttab.hi) : Holds (storeSave b st) (Saved b) := by
  have hn := hc.vertnbr
  have hnn := hc.vertnnd
  have hb := ha.part
  have hf := ha.fron
  have e1 := hv.fron.1
  have e2 := hv.fron.le (lo := b.s.baseval) (hi := b.s.vertnnd) (by omega) (fun v hv => hv.1)
  unfold storeSave
  rw [Holds_bind]
  refine (copyN_holds e1 (by omega) (by omega) (by omega) (by omega)).mono ?_
  rintro f ⟨f1, f2, f3⟩
  rw [Holds_bind]
  refine (copyN_holds (by omega) (by omega) (by omega) (by omega) (by omega)).mono ?_
  rintro p ⟨p1, p2, p3⟩
  rw [Holds_pure]
  refine ⟨⟨rfl, rfl, rfl, rfl, rfl⟩, ⟨by dsimp only; omega, by dsimp only; omega, ?_⟩, ⟨by dsimp only; omega, by dsimp only; omega, ?_⟩⟩
  · intro i i1 i2
    have := f3 i i1 i2
    rw [Int.zero_add] at this
    exact this
  · intro v hv
    have := p3 (v - b.s.baseval) (by have := hv.1; omega) (by have := hv.2; omega)
    rw [Int.zero_add] at this
    dsimp only
    rw [this]
    unfold Vgraph.part
    congr 1
    omega

theorem storeUpdt_holds (hc : ConsE b.s) (ha : Alloc b) (hv : Valid b) {st : Store} (hs : Saved b st) {c : Vgraph} (hsame : SameProblem b c) :
    Holds (storeUpdt c st) (fun c' => Valid c' ∧ SameProblem b c' ∧ ∀ v, b.s.Vertex v → c'.part v = b.part v) := by
  have hn := hc.vertnbr
  have hnn := hc.vertnnd
  have ha' := hsame.alloc ha
  have hb := ha'.part
  have hf := ha'.fron
  have e1 := hv.fron.1
  have e2 := hv.fron.le (lo := b.s.baseval) (hi := b.s.vertnnd) (by omega) (fun v hv => hv.1)
  obtain ⟨⟨v1, v2, v3, v4, v5⟩, ⟨s1, s2, s3⟩, ⟨s4, s5, s6⟩⟩ := hs
  have g1 : c.s.baseval = b.s.baseval := by rw [hsame.s]
  have g2 : c.s.vertnnd = b.s.vertnnd := by rw [hsame.s]
  have g3 : c.s.vertnbr = b.s.vertnbr := by rw [hsame.s]
  unfold storeUpdt
  rw [Holds_bind]
  refine (copyN_holds (by omega) (by omega) (by omega) (by omega) (by omega)).mono ?_
  rintro f ⟨f1, f2, f3⟩
  rw [Holds_bind]
  refine (copyN_holds (by omega) (by omega) (by omega) (by omega) (by omega)).mono ?_
  rintro p ⟨p1, p2, p3⟩
  rw [Holds_pure]
  have hp : ∀ v, b.s.Vertex v → p.get v = b.part v := by
    intro v hv
    have := p3 (v - b.s.baseval) (by have := hv.1; omega) (by have := hv.2; omega)
    rw [Int.zero_add, s6 v hv, g1, show b.s.baseval + (v - b.s.baseval) = v by omega] at this
    exact this
  have ov : ∀ k fn, over c.s p.get k fn = over b.s b.part k fn := by
    intro k fn; rw [hsame.s]; exact over_congr k hp (fun _ _ => rfl)
  have tl := over_total (g := b.s) hv.parts (fun _ => 1)
  have tv := over_total (g := b.s) hv.parts b.s.velo
  rw [size_total hc] at tl
  rw [← hc.velosum] at tv
  have h0 := hv.size0; have h1 := hv.size1; have h2 := hv.size2
  have l0 := hv.load0; have l1 := hv.load1; have l2 := hv.load2
  refine ⟨⟨⟨?_, ?_, ?_, ?_, ?_, ?_, ?_, ?_, ?_⟩, ?_⟩, ⟨hsame.s, ?_, hsame.dwgt⟩, hp⟩
  · change Parts c.s p.get
    rw [hsame.s]
    intro v hx
    rw [hp v hx]; exact hv.parts v hx
  · change Separated c.s p.get
    rw [hsame.s]
    intro v x hx hxx
    rw [hp v hx, hp _ ((consE_iff.1 hc).inside v x hx hxx).1]
    exact hv.sep v x hx hxx
  · change st.compsize0 = over c.s p.get 0 _
    rw [ov]; omega
  · change c.s.vertnbr - (st.compsize0 + st.fronnbr) = over c.s p.get 1 _
    rw [ov]; omega
  · change st.fronnbr = over c.s p.get 2 _
    rw [ov]; omega
  · change st.compload0 = over c.s p.get 0 c.s.velo
    rw [ov, hsame.s]; omega
  · change st.compload1 = over c.s p.get 1 c.s.velo
    rw [ov, hsame.s]; omega
  · change c.s.velosum - (st.compload0 + st.compload1) = over c.s p.get 2 c.s.velo
    rw [ov, hsame.s]; omega
  · change st.comploaddlt = st.compload0 * c.dwgt1 - st.compload1 * c.dwgt0
    rw [v2, v3, v4, hsame.dwgt.1, hsame.dwgt.2]; exact hv.delta
  · change Enum f st.fronnbr (fun v => c.s.Vertex v ∧ p.get v = 2)
    rw [v1, hsame.s]
    refine Enum.congr (P := fun v => b.s.Vertex v ∧ b.part v = 2) (hv.fron.agree ?_) ?_
    · intro i i1 i2
      have := f3 i i1 (by omega)
      rw [Int.zero_add, s3 i i1 i2] at this
      exact this
    · intro v
      constructor
      · rintro ⟨h1, h2⟩; exact ⟨h1, by rw [hp v h1]; exact h2⟩
      · rintro ⟨h1, h2⟩; exact ⟨h1, by rw [hp v h1] at h2; exact h2⟩
  · obtain ⟨w1, w2, w3, w4⟩ := hsame.bounds
    dsimp only
    exact ⟨p1.trans w1, p2.trans w2, f1.trans w3, f2.trans w4⟩

/-! ## Thinning -/

theorem countArcs_holds (hc : ConsE b.s) (ha : Alloc b) (hp : Parts b.s b.part) {v : Int} (hv : b.s.Vertex v) :
    Holds (countArcs b v) (fun c => (c.1 = 0 ↔ ∀ w, b.s.Adj v w → b.part w ≠ 0) ∧ (c.2.1 = 0 ↔ ∀ w, b.s.Adj v w → b.part w ≠ 1)) := by
  unfold countArcs
  have hb := ha.part
  refine Holds_forArcs ha.graph hv (hc.range v hv).2 (fun i c =>
    (0 ≤ c.1 ∧ (c.1 = 0 ↔ ∀ e, b.s.vert v ≤ e → e < i → b.part (b.s.dest e) ≠ 0)) ∧
    (0 ≤ c.2.1 ∧ (c.2.1 = 0 ↔ ∀ e, b.s.vert v ≤ e → e < i → b.part (b.s.dest e) ≠ 1))) ?_ ?_ ?_
  · exact ⟨⟨Int.le_refl _, fun _ e h1 h2 => by omega, fun _ => rfl⟩, ⟨Int.le_refl _, fun _ e h1 h2 => by omega, fun _ => rfl⟩⟩
  · rintro e c h1 h2 ⟨⟨i1, i2⟩, ⟨i3, i4⟩⟩
    have hw := (hc.inside v e hv h1 h2).1
    have hpw : b.parttax.get (b.s.dest e) = 0 ∨ _ := hp _ hw
    rw [Arr.rd_ok _ (by have := hw.1; omega) (by have := hw.2; omega), ok_bind, bump_ok _ _ hpw, Holds_ok]
    dsimp only
    have key : ∀ (x k : Int), 0 ≤ x → (x = 0 ↔ ∀ e', b.s.vert v ≤ e' → e' < e → b.part (b.s.dest e') ≠ k) →
        0 ≤ x + (if b.parttax.get (b.s.dest e) = k then 1 else 0) ∧
        (x + (if b.parttax.get (b.s.dest e) = k then 1 else 0) = 0 ↔ ∀ e', b.s.vert v ≤ e' → e' < e + 1 → b.part (b.s.dest e') ≠ k) := by
      intro x k hx hi
      by_cases hk : b.parttax.get (b.s.dest e) = k
      · rw [if_pos hk]
        refine ⟨by omega, fun h => by omega, fun h => ?_⟩
        exact absurd hk (h e h1 (by omega))
      · rw [if_neg hk, Int.add_zero]
        refine ⟨hx, hi.trans ⟨?_, ?_⟩⟩
        · intro h e' h1' h2'
          by_cases he : e' = e
          · rw [he]; exact hk
          · exact h e' h1' (by omega)
        · intro h e' h1' h2'
          exact h e' h1' (by omega)
    exact ⟨key _ 0 i1 i2, key _ 1 i3 i4⟩
  · rintro c ⟨⟨i1, i2⟩, ⟨i3, i4⟩⟩
    constructor
    · rw [i2]
      exact ⟨fun h w ⟨e, h1, h2, h3⟩ => h3 ▸ h e h1 h2, fun h e h1 h2 => h _ ⟨e, h1, h2, rfl⟩⟩
    · rw [i4]
      exact ⟨fun h w ⟨e, h1, h2, h3⟩ => h3 ▸ h e h1 h2, fun h e h1 h2 => h _ ⟨e, h1, h2, rfl⟩⟩

/-- Removal of an element of a list, replaced by the last one. -/
theorem Enum.drop {a : Arr Int} {n i : Int} {P : Int → Prop} (h : Enum a n P) (h1 : 0 ≤ i) (h2 : i < n) :
    Enum (a.set i (a.get (n - 1))) (n - 1) (fun v => P v ∧ v ≠ a.get i) := by
  obtain ⟨h0, hi, hm⟩ := h
  refine ⟨by omega, ?_, ?_⟩
  · intro x y x1 x2 y1 y2 he
    rw [Arr.set_get, Arr.set_get] at he
    split at he <;> split at he
    · omega
    · have := hi (n - 1) y (by omega) (by omega) y1 (by omega) he; omega
    · have := hi x (n - 1) x1 (by omega) (by omega) (by omega) he; omega
    · exact hi x y x1 (by omega) y1 (by omega) he
  · intro v
    dsimp only
    rw [hm v]
    constructor
    · rintro ⟨⟨j, j1, j2, rfl⟩, hne⟩
      by_cases hj : j = n - 1
      · refine ⟨i, h1, ?_, by rw [Arr.set_get_same, hj]⟩
        have : i ≠ j := fun e => hne (by rw [e])
        omega
      · refine ⟨j, j1, by omega, ?_⟩
        rw [Arr.set_get_ne _ _ (fun e => hne (by rw [e]))]
    · rintro ⟨j, j1, j2, rfl⟩
      rw [Arr.set_get]
      split
      · refine ⟨⟨n - 1, by omega, by omega, rfl⟩, fun he => ?_⟩
        have := hi (n - 1) i (by omega) (by omega) h1 h2 he
        omega
      · rename_i hne
        refine ⟨⟨j, j1, by omega, rfl⟩, fun he => ?_⟩
        exact hne (hi j i j1 (by omega) h1 h2 he)

/-- A vertex of the separator that has a neighbour in each of the two parts. -/
def Useful (g : Graph) (p : Int → Int) (v : Int) : Prop := (∃ w, g.Adj v w ∧ p w = 0) ∧ ∃ w, g.Adj v w ∧ p w = 1

/-- State of thinning. -/
structure ThinInv (b : Vgraph) (s : Thin) : Prop where
  same : SameProblem b s.b
  parts : Parts b.s s.b.part
  sep : Separated b.s s.b.part
  size0 : s.b.compsize0 = over b.s s.b.part 0 (fun _ => 1)
  size1 : s.b.compsize1 = over b.s s.b.part 1 (fun _ => 1)
  load0 : s.b.compload0 = over b.s s.b.part 0 b.s.velo
  load1 : s.b.compload1 = over b.s s.b.part 1 b.s.velo
  fron : Enum s.b.frontab s.fronnbr (fun v => b.s.Vertex v ∧ s.b.part v = 2)
  num : 0 ≤ s.fronnum ∧ s.fronnum ≤ s.fronnbr
  le : s.fronnbr ≤ b.fronnbr
  keep : ∀ v, b.s.Vertex v → b.part v ≠ 2 → s.b.part v = b.part v
  done : ∀ i, 0 ≤ i → i < s.fronnum → Useful b.s s.b.part (s.b.frontab.get i)

theorem thinMove (hc : ConsE b.s) (ha : Alloc b) {s : Thin} (h : ThinInv b s) (hlt : s.fronnum < s.fronnbr) {k : Int} (hk : k = 0 ∨ k = 1)
    (hno : ∀ w, b.s.Adj (s.b.frontab.get s.fronnum) w → s.b.part w ≠ 1 - k) {l0 l1 z0 z1 : Int} (hl0 : l0 = s.b.compload0 + (if k = 0 then b.s.velo (s.b.frontab.get s.fronnum) else 0))
    (hl1 : l1 = s.b.compload1 + (if k = 1 then b.s.velo (s.b.frontab.get s.fronnum) else 0)) (hz0 : z0 = s.b.compsize0 + (if k = 0 then 1 else 0))
    (hz1 : z1 = s.b.compsize1 + (if k = 1 then 1 else 0)) :
    Holds (thinDrop { s with b := { s.b with parttax := s.b.parttax.set (s.b.frontab.get s.fronnum) k, compload0 := l0, compload1 := l1, compsize0 := z0, compsize1 := z1 } })
      (fun r => ThinInv b r ∧ r.fronnum = s.fronnum ∧ r.fronnbr = s.fronnbr - 1) := by
  have hnum := h.num
  have ha' := h.same.alloc ha
  have hf := ha'.fron
  have e2 := h.fron.le (lo := b.s.baseval) (hi := b.s.vertnnd) (by have := hc.vertnnd; have := hc.vertnbr; omega) (fun v hv => hv.1)
  have e3 : s.b.s.vertnbr = b.s.vertnbr := by rw [h.same.s]
  have hnn := hc.vertnnd
  have hm := h.fron.mem hnum.1 hlt
  generalize hv : s.b.frontab.get s.fronnum = v at *
  obtain ⟨hvv, hv2⟩ := hm
  unfold thinDrop
  dsimp only
  rw [Arr.rd_ok _ (by omega) (by omega), ok_bind, Arr.wr_ok _ _ (by omega) (by omega), ok_bind, Holds_pure]
  have hou := fun (j : Int) (f : Int → Int) => over_upd (g := b.s) s.b.part hvv k j f
  have hgrow : ∀ w, s.b.part w ≠ 2 → upd s.b.part v k w = s.b.part w := by
    intro w hw
    exact upd_ne _ _ (by rintro rfl; exact hw hv2)
  have hpart : ∀ w, w ≠ v → upd s.b.part v k w = s.b.part w := fun w hw => upd_ne _ _ hw
  refine ⟨⟨⟨h.same.s, h.same.bounds, h.same.dwgt⟩, ?_, ?_, ?_, ?_, ?_, ?_, ?_, ?_, ?_, ?_, ?_⟩, rfl, rfl⟩
  · intro w hw
    change upd s.b.part v k w = 0 ∨ upd s.b.part v k w = 1 ∨ upd s.b.part v k w = 2
    by_cases hwv : w = v
    · rw [hwv, upd_same]; omega
    · rw [hpart w hwv]; exact h.parts w hw
  · change Separated b.s (upd s.b.part v k)
    rw [sep_adj]
    have hs := sep_adj.1 h.sep
    intro x y hx hxy
    have hne := (hc.adj_vertex hx hxy).2
    by_cases hxv : x = v
    · subst hxv
      rw [upd_same, hpart y hne]
      have := hno y hxy
      omega
    · rw [hpart x hxv]
      by_cases hyv : y = v
      · subst hyv
        rw [upd_same]
        have := hno x (hc.adj_symm hx hxy)
        omega
      · rw [hpart y hyv]; exact hs x y hx hxy
  · change z0 = over b.s (upd s.b.part v k) 0 _
    rw [hou, hz0, h.size0, hv2, if_neg (show ¬ (2 : Int) = 0 by decide)]; omega
  · change z1 = over b.s (upd s.b.part v k) 1 _
    rw [hou, hz1, h.size1, hv2, if_neg (show ¬ (2 : Int) = 1 by decide)]; omega
  · change l0 = over b.s (upd s.b.part v k) 0 _
    rw [hou, hl0, h.load0, hv2, if_neg (show ¬ (2 : Int) = 0 by decide)]; omega
  · change l1 = over b.s (upd s.b.part v k) 1 _
    rw [hou, hl1, h.load1, hv2, if_neg (show ¬ (2 : Int) = 1 by decide)]; omega
  · change Enum (s.b.frontab.set s.fronnum (s.b.frontab.get (s.fronnbr - 1))) (s.fronnbr - 1) (fun w => b.s.Vertex w ∧ upd s.b.part v k w = 2)
    refine (Enum.drop h.fron hnum.1 hlt).congr ?_
    intro w
    rw [hv]
    constructor
    · rintro ⟨⟨a1, a2⟩, a3⟩; exact ⟨a1, by rw [hpart w a3]; exact a2⟩
    · rintro ⟨a1, a2⟩
      have hwv : w ≠ v := by rintro rfl; rw [upd_same] at a2; omega
      rw [hpart w hwv] at a2
      exact ⟨⟨a1, a2⟩, hwv⟩
  · dsimp only; omega
  · have := h.le; dsimp only; omega
  · intro w hw hw2
    change upd s.b.part v k w = _
    have hk := h.keep w hw hw2
    rw [hgrow w (by rw [hk]; exact hw2), hk]
  · intro i i1 i2
    dsimp only at i2
    change Useful b.s (upd s.b.part v k) ((s.b.frontab.set s.fronnum (s.b.frontab.get (s.fronnbr - 1))).get i)
    rw [Arr.set_get_ne _ _ (by omega)]
    obtain ⟨⟨x, x1, x2⟩, ⟨y, y1, y2⟩⟩ := h.done i i1 i2
    exact ⟨⟨x, x1, by rw [hgrow x (by omega)]; exact x2⟩, ⟨y, y1, by rw [hgrow y (by omega)]; exact y2⟩⟩

theorem thin_holds (hc : ConsE b.s) (ha : Alloc b) {s : Thin} (h : ThinInv b s) (h0 : s.fronnum = 0) :
    Holds (loopM thinStep (2 * s.fronnbr.toNat + 1) s) (fun r => ThinInv b r ∧ r.fronnum = r.fronnbr) := by
  have hnn := hc.vertnnd
  have hn := hc.vertnbr
  refine Holds_loopM (ThinInv b) (fun r => (r.fronnbr - r.fronnum).toNat) ?_ _ _ h (by have := h.num; omega)
  intro r i
  unfold thinStep
  have hnum := i.num
  by_cases hlt : ¬ r.fronnum < r.fronnbr
  · rw [if_pos hlt, Holds_pure, Loop.Sat_brk]
    exact ⟨i, by omega⟩
  rw [if_neg hlt]
  have hlt' : r.fronnum < r.fronnbr := Classical.byContradiction hlt
  have ha' := i.same.alloc ha
  have hf := ha'.fron
  have hb := ha'.part
  have e2 := i.fron.le (lo := b.s.baseval) (hi := b.s.vertnnd) (by omega) (fun v hv => hv.1)
  have e3 : r.b.s.vertnbr = b.s.vertnbr := by rw [i.same.s]
  have e4 : r.b.s.vertnnd = b.s.vertnnd := by rw [i.same.s]
  have e5 : r.b.s.baseval = b.s.baseval := by rw [i.same.s]
  have hm := i.fron.mem hnum.1 hlt'
  rw [Arr.rd_ok _ (by omega) (by omega), ok_bind, Holds_bind]
  have hcc : ConsE r.b.s := by rw [i.same.s]; exact hc
  have hpp : Parts r.b.s r.b.part := by rw [i.same.s]; exact i.parts
  have hvv : r.b.s.Vertex (r.b.frontab.get r.fronnum) := by rw [i.same.s]; exact hm.1
  refine (countArcs_holds hcc ha' hpp hvv).mono ?_
  intro c hcnt
  rw [i.same.s] at hcnt
  obtain ⟨c0, c1⟩ := hcnt
  have w1 := hvv.1
  have w2 := hvv.2
  by_cases hc0 : c.1 = 0
  · rw [if_pos hc0, Arr.wr_ok _ _ (by omega) (by omega), ok_bind, rdVelo_eq ha'.graph hvv, ok_bind, Holds_bind]
    refine (thinMove hc ha i hlt' (k := 1) (Or.inr rfl) (c0.1 hc0) (l0 := r.b.compload0) (z0 := r.b.compsize0) ?_ ?_ ?_ ?_).mono ?_
    · simp
    · rw [if_pos rfl, i.same.s]
    · simp
    · rw [if_pos rfl]
    · rintro r' ⟨j1, j2, j3⟩
      rw [Holds_pure, Loop.Sat_next]
      exact ⟨j1, by omega⟩
  · rw [if_neg hc0]
    by_cases hc1 : c.2.1 = 0
    · rw [if_pos hc1, Arr.wr_ok _ _ (by omega) (by omega), ok_bind, rdVelo_eq ha'.graph hvv, ok_bind, Holds_bind]
      refine (thinMove hc ha i hlt' (k := 0) (Or.inl rfl) (c1.1 hc1) (l1 := r.b.compload1) (z1 := r.b.compsize1) ?_ ?_ ?_ ?_).mono ?_
      · rw [if_pos rfl, i.same.s]
      · simp
      · rw [if_pos rfl]
      · simp
      · rintro r' ⟨j1, j2, j3⟩
        rw [Holds_pure, Loop.Sat_next]
        exact ⟨j1, by omega⟩
    · rw [if_neg hc1, Holds_pure, Loop.Sat_next]
      refine ⟨⟨i.same, i.parts, i.sep, i.size0, i.size1, i.load0, i.load1, i.fron, by dsimp only; omega, i.le, i.keep, ?_⟩, by dsimp only; omega⟩
      intro j j1 j2
      dsimp only at j2 ⊢
      by_cases hj : j = r.fronnum
      · rw [hj]
        constructor
        · refine Classical.byContradiction fun hn => hc0 (c0.2 fun w hw hz => hn ⟨w, hw, hz⟩)
        · refine Classical.byContradiction fun hn => hc1 (c1.2 fun w hw hz => hn ⟨w, hw, hz⟩)
      · exact i.done j j1 (by omega)

theorem th_holds (hc : ConsE b.s) (ha : Alloc b) (hv : Valid b) : Holds (separateTh b) (fun b' => SameProblem b b' ∧ Valid b' ∧
    (∀ v, b.s.Vertex v → b.part v ≠ 2 → b'.part v = b.part v) ∧ ∀ v, b.s.Vertex v → b'.part v = 2 → Useful b.s b'.part v) := by
  unfold separateTh
  rw [Holds_bind]
  have h0 : ThinInv b ⟨b, b.fronnbr, 0⟩ := ⟨SameProblem.refl b, hv.parts, hv.sep, hv.size0, hv.size1, hv.load0, hv.load1, hv.fron, ⟨Int.le_refl _, hv.fron.1⟩,
    Int.le_refl _, fun _ _ _ => rfl, fun i h1 h2 => by dsimp only at h2; omega⟩
  refine (thin_holds hc ha h0 rfl).mono ?_
  rintro r ⟨i, hr⟩
  rw [Holds_pure]
  have tv := over_total (g := b.s) i.parts b.s.velo
  rw [← hc.velosum] at tv
  have l0 := i.load0
  have l1 := i.load1
  refine ⟨⟨i.same.s, i.same.bounds, i.same.dwgt⟩, ⟨⟨?_, ?_, ?_, ?_, ?_, ?_, ?_, ?_, ?_⟩, ?_⟩, i.keep, ?_⟩
  · change Parts r.b.s r.b.part; rw [i.same.s]; exact i.parts
  · change Separated r.b.s r.b.part; rw [i.same.s]; exact i.sep
  · change _ = over r.b.s r.b.part 0 _; rw [i.same.s]; exact i.size0
  · change _ = over r.b.s r.b.part 1 _; rw [i.same.s]; exact i.size1
  · change r.fronnbr = over r.b.s r.b.part 2 _; rw [i.same.s]; exact enum_size hc i.fron
  · change _ = over r.b.s r.b.part 0 r.b.s.velo; rw [i.same.s]; exact i.load0
  · change _ = over r.b.s r.b.part 1 r.b.s.velo; rw [i.same.s]; exact i.load1
  · change b.s.velosum - (r.b.compload0 + r.b.compload1) = over r.b.s r.b.part 2 r.b.s.velo; rw [i.same.s]; omega
  · change r.b.compload0 * b.dwgt1 - r.b.compload1 * b.dwgt0 = r.b.compload0 * r.b.dwgt1 - r.b.compload1 * r.b.dwgt0
    rw [i.same.dwgt.1, i.same.dwgt.2]
  · change Enum r.b.frontab r.fronnbr (fun v => r.b.s.Vertex v ∧ r.b.part v = 2)
    rw [i.same.s]; exact i.fron
  · intro v hv hv2
    obtain ⟨j, j1, j2, j3⟩ := (i.fron.2.2 v).1 ⟨hv, hv2⟩
    rw [← j3]
    exact i.done j j1 (by omega)

end Scotch.Separ
