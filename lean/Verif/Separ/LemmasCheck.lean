import Verif.Separ.LemmasBasic

/-! # Separation graphs: checking -/

set_option autoImplicit false
set_option linter.unusedSimpArgs false

namespace Scotch.Separ
open Graph
open Bipart (over over_congr)
variable {b : Vgraph}

theorem checkParts_holds (hc : ConsE b.s) (ha : Alloc b) (h0 : ∀ v, b.s.Vertex v → 0 ≤ b.part v) :
    Holds (checkParts b) (fun l => match l with | .next _ => Parts b.s b.part | .brk _ => ¬ Parts b.s b.part) := by
  unfold checkParts
  have hn := hc.vertnbr
  have hnn := hc.vertnnd
  have hb := ha.part
  refine Holds_forUpB (fun i _ => ∀ v, b.s.baseval ≤ v → v < i → b.part v = 0 ∨ b.part v = 1 ∨ b.part v = 2) (fun _ => ¬ Parts b.s b.part) (by omega) ?_ ?_ ?_ ?_
  · intro v h1 h2; omega
  · intro i _ h1 h2 hI
    rw [Arr.rd_ok _ (by omega) (by omega), ok_bind]
    have hv : b.s.Vertex i := ⟨h1, h2⟩
    have ho := h0 i hv
    change 0 ≤ b.parttax.get i at ho
    by_cases hx : b.parttax.get i > 2
    · rw [if_pos hx, Holds_pure, Loop.Sat_brk]
      intro hp
      have : b.parttax.get i = 0 ∨ b.parttax.get i = 1 ∨ b.parttax.get i = 2 := hp i hv
      omega
    · rw [if_neg hx, Holds_pure, Loop.Sat_next]
      intro v v1 v2
      by_cases hvi : v = i
      · rw [hvi]
        change b.parttax.get i = 0 ∨ b.parttax.get i = 1 ∨ b.parttax.get i = 2
        omega
      · exact hI v v1 (by omega)
  · intro _ hI v hv; exact hI v hv.1 hv.2
  · intro _ h; exact h

/-- All cells of the frontier array hold vertices of the separator. -/
def FronIn (b : Vgraph) : Prop := ∀ i, 0 ≤ i → i < b.fronnbr → b.s.Vertex (b.frontab.get i) ∧ b.part (b.frontab.get i) = 2

theorem checkFron_holds (hc : ConsE b.s) (ha : Alloc b) (h0 : 0 ≤ b.fronnbr) (h1 : b.fronnbr ≤ b.s.vertnbr) :
    Holds (checkFron b) (fun l => match l with | .next _ => FronIn b | .brk _ => ¬ FronIn b) := by
  unfold checkFron
  have hb := ha.part
  have hf := ha.fron
  refine Holds_forUpB (fun i _ => ∀ j, 0 ≤ j → j < i → b.s.Vertex (b.frontab.get j) ∧ b.part (b.frontab.get j) = 2) (fun _ => ¬ FronIn b) h0 ?_ ?_ ?_ ?_
  · intro v h1 h2; omega
  · intro i _ h1 h2 hI
    rw [Arr.rd_ok _ (by omega) (by omega), ok_bind]
    by_cases hx : b.frontab.get i < b.s.baseval ∨ b.frontab.get i ≥ b.s.vertnnd
    · rw [if_pos hx, Holds_pure, Loop.Sat_brk]
      intro h
      have := (h i h1 h2).1
      have a1 := this.1
      have a2 := this.2
      omega
    · rw [if_neg hx, Arr.rd_ok _ (by omega) (by omega), ok_bind]
      by_cases hy : b.parttax.get (b.frontab.get i) ≠ 2
      · rw [if_pos hy, Holds_pure, Loop.Sat_brk]
        intro h
        exact hy (h i h1 h2).2
      · rw [if_neg hy, Holds_pure, Loop.Sat_next]
        intro j j1 j2
        by_cases hj : j = i
        · rw [hj]
          exact ⟨⟨by omega, by omega⟩, Classical.byContradiction hy⟩
        · exact hI j j1 (by omega)
  · exact fun _ h => h
  · exact fun _ h => h

theorem checkArcs_holds (hc : ConsE b.s) (ha : Alloc b) (hp : Parts b.s b.part) {v : Int} (hv : b.s.Vertex v) :
    Holds (checkArcs b v) (fun l => match l with
      | .next c => (c.1 = 0 ↔ ∀ w, b.s.Adj v w → b.part w ≠ 0) ∧ (c.2.1 = 0 ↔ ∀ w, b.s.Adj v w → b.part w ≠ 1)
      | .brk _ => False) := by
  unfold checkArcs
  have hb := ha.part
  rw [rdVert_eq ha.graph hv, ok_bind, rdVend_eq ha.graph hv, ok_bind]
  refine Holds_forUpB (fun i (c : Int × Int × Int) =>
    (0 ≤ c.1 ∧ (c.1 = 0 ↔ ∀ e, b.s.vert v ≤ e → e < i → b.part (b.s.dest e) ≠ 0)) ∧
    (0 ≤ c.2.1 ∧ (c.2.1 = 0 ↔ ∀ e, b.s.vert v ≤ e → e < i → b.part (b.s.dest e) ≠ 1))) (fun _ => False) (hc.range v hv).2 ?_ ?_ ?_ ?_
  · exact ⟨⟨Int.le_refl _, fun _ e h1 h2 => by omega, fun _ => rfl⟩, ⟨Int.le_refl _, fun _ e h1 h2 => by omega, fun _ => rfl⟩⟩
  · rintro e c h1 h2 ⟨⟨i1, i2⟩, ⟨i3, i4⟩⟩
    have hw := (hc.inside v e hv h1 h2).1
    have w1 := hw.1
    have w2 := hw.2
    rw [rdEdge_eq ha.graph hv h1 h2, ok_bind, if_neg (by omega)]
    have hpw : b.parttax.get (b.s.dest e) = 0 ∨ _ := hp _ hw
    rw [Arr.rd_ok _ (by omega) (by omega), ok_bind, bump_ok _ _ hpw, ok_bind, Holds_pure, Loop.Sat_next]
    dsimp only
    have key : ∀ (x k : Int), 0 ≤ x → (x = 0 ↔ ∀ e', b.s.vert v ≤ e' → e' < e → b.part (b.s.dest e') ≠ k) →
        0 ≤ x + (if b.parttax.get (b.s.dest e) = k then 1 else 0) ∧
        (x + (if b.parttax.get (b.s.dest e) = k then 1 else 0) = 0 ↔ ∀ e', b.s.vert v ≤ e' → e' < e + 1 → b.part (b.s.dest e') ≠ k) := by
      intro x k hx hi
      by_cases hk : b.parttax.get (b.s.dest e) = k
      · rw [if_pos hk]
        refine ⟨by omega, fun h => by omega, fun h => ?_⟩
        exact absurd hk (h e h1 (by omega))
      · rw [if_neg hk, Int.add_zero]
        refine ⟨hx, hi.trans ⟨?_, ?_⟩⟩
        · intro h e' h1' h2'
          by_cases he : e' = e
          · rw [he]; exact hk
          · exact h e' h1' (by omega)
        · intro h e' h1' h2'
          exact h e' h1' (by omega)
    exact ⟨key _ 0 i1 i2, key _ 1 i3 i4⟩
  · rintro c ⟨⟨i1, i2⟩, ⟨i3, i4⟩⟩
    constructor
    · rw [i2]
      exact ⟨fun h w ⟨e, h1, h2, h3⟩ => h3 ▸ h e h1 h2, fun h e h1 h2 => h _ ⟨e, h1, h2, rfl⟩⟩
    · rw [i4]
      exact ⟨fun h w ⟨e, h1, h2, h3⟩ => h3 ▸ h e h1 h2, fun h e h1 h2 => h _ ⟨e, h1, h2, rfl⟩⟩
  · exact fun _ h => h

/-- Sum over the vertices of a part, up to some number. -/
def upTo (b : Vgraph) (i k : Int) (f : Int → Int) : Int := sumI b.s.baseval i (fun v => if b.part v = k then f v else 0)

theorem upTo_succ {i : Int} (h : b.s.baseval ≤ i) (k : Int) (f : Int → Int) : upTo b (i + 1) k f = upTo b i k f + (if b.part i = k then f i else 0) := by
  unfold upTo
  rw [sumI_succ h]

/-- Sums computed by the loop on vertices. -/
def SumsTo (b : Vgraph) (i : Int) (s : Sums) : Prop :=
  s.load = (upTo b i 0 b.s.velo, upTo b i 1 b.s.velo, upTo b i 2 b.s.velo) ∧
  s.size = (upTo b i 0 (fun _ => 1), upTo b i 1 (fun _ => 1), upTo b i 2 (fun _ => 1))

theorem touches_iff {c : Int × Int × Int} {v : Int} (hp : b.part v = 0 ∨ b.part v = 1 ∨ b.part v = 2)
    (hcnt : (c.1 = 0 ↔ ∀ w, b.s.Adj v w → b.part w ≠ 0) ∧ (c.2.1 = 0 ↔ ∀ w, b.s.Adj v w → b.part w ≠ 1)) :
    ¬ touches c (b.part v) ↔ ∀ w, b.s.Adj v w → ¬ (b.part v = 0 ∧ b.part w = 1) ∧ ¬ (b.part v = 1 ∧ b.part w = 0) := by
  unfold touches
  rcases hp with h | h | h
  · rw [h, if_pos rfl]
    constructor
    · intro hn w hw
      have := (hcnt.2.1 (Classical.byContradiction hn)) w hw
      exact ⟨fun x => this x.2, fun x => by omega⟩
    · intro ha hn
      exact hn (hcnt.2.2 fun w hw h1 => (ha w hw).1 ⟨rfl, h1⟩)
  · rw [h, if_neg (by decide), if_pos rfl]
    constructor
    · intro hn w hw
      have := (hcnt.1.1 (Classical.byContradiction hn)) w hw
      exact ⟨fun x => by omega, fun x => this x.2⟩
    · intro ha hn
      exact hn (hcnt.1.2 fun w hw h1 => (ha w hw).2 ⟨rfl, h1⟩)
  · rw [h, if_neg (by decide), if_neg (by decide)]
    exact ⟨fun _ w _ => ⟨fun x => by omega, fun x => by omega⟩, fun _ h => h⟩

theorem checkLoop_holds (hc : ConsE b.s) (ha : Alloc b) (hp : Parts b.s b.part) :
    Holds (forUpB b.s.baseval b.s.vertnnd ⟨(0, 0, 0), (0, 0, 0)⟩ (checkVertex b)) (fun l => match l with
      | .next s => Separated b.s b.part ∧ SumsTo b b.s.vertnnd s
      | .brk _ => ¬ Separated b.s b.part) := by
  have hn := hc.vertnbr
  have hnn := hc.vertnnd
  have hb := ha.part
  refine Holds_forUpB (fun i s => (∀ v, b.s.baseval ≤ v → v < i → ∀ w, b.s.Adj v w → ¬ (b.part v = 0 ∧ b.part w = 1) ∧ ¬ (b.part v = 1 ∧ b.part w = 0)) ∧
    SumsTo b i s) (fun _ => ¬ Separated b.s b.part) (by omega) ?_ ?_ ?_ ?_
  · refine ⟨fun v h1 h2 => by omega, ?_, ?_⟩ <;> simp [upTo, sumI_empty]
  · rintro i s h1 h2 ⟨i1, i2, i3⟩
    have hv : b.s.Vertex i := ⟨h1, h2⟩
    have hpv : b.parttax.get i = 0 ∨ b.parttax.get i = 1 ∨ b.parttax.get i = 2 := hp i hv
    unfold checkVertex
    rw [Arr.rd_ok _ (by omega) (by omega), ok_bind, rdVelo_eq ha.graph hv, ok_bind, bump_ok _ _ hpv, ok_bind, bump_ok _ _ hpv, ok_bind,
      rdVert_eq ha.graph hv, ok_bind, rdVend_eq ha.graph hv, ok_bind]
    have hr := hc.range i hv
    rw [if_neg (by omega), Holds_bind]
    refine (checkArcs_holds hc ha hp hv).mono ?_
    rintro (c | u) hcnt
    · dsimp only at hcnt ⊢
      have ht := touches_iff (hp i hv) hcnt
      by_cases htc : touches c (b.parttax.get i)
      · rw [if_pos htc, Holds_pure, Loop.Sat_brk]
        intro hs
        exact (ht.2 fun w hw => sep_adj.1 hs i w hv hw) htc
      · rw [if_neg htc, Holds_pure, Loop.Sat_next]
        refine ⟨?_, ?_, ?_⟩
        · intro v v1 v2
          by_cases hvi : v = i
          · rw [hvi]; exact ht.1 htc
          · exact i1 v v1 (by omega)
        · dsimp only
          rw [upTo_succ h1, upTo_succ h1, upTo_succ h1, i2]; rfl
        · dsimp only
          rw [upTo_succ h1, upTo_succ h1, upTo_succ h1, i3]; rfl
    · exact hcnt.elim
  · rintro s ⟨i1, i2⟩
    exact ⟨sep_adj.2 fun v w hv => i1 v hv.1 hv.2 w, i2⟩
  · exact fun _ h => h

theorem check_spec (hc : ConsE b.s) (ha : Alloc b) (h0 : ∀ v, b.s.Vertex v → 0 ≤ b.part v) :
    Holds (check b) (fun r => r = true ↔ Sound b ∧ FronIn b) := by
  have hn := hc.vertnbr
  have hnn := hc.vertnnd
  unfold check
  rw [Holds_bind]
  refine (checkParts_holds hc ha h0).mono ?_
  rintro (u | u) hp
  · dsimp only at hp ⊢
    have hsz : Sound b → 0 ≤ b.fronnbr ∧ b.fronnbr ≤ b.s.vertnbr := by
      intro h
      have ht := over_total (g := b.s) hp (fun _ => 1)
      rw [size_total hc] at ht
      have e0 := over_nonneg (g := b.s) b.part 0 (f := fun _ => 1) (fun _ _ => by decide)
      have e1 := over_nonneg (g := b.s) b.part 1 (f := fun _ => 1) (fun _ _ => by decide)
      have e2 := over_nonneg (g := b.s) b.part 2 (f := fun _ => 1) (fun _ _ => by decide)
      have := h.size2
      omega
    by_cases hf : b.fronnbr < 0 ∨ b.fronnbr > b.s.vertnbr
    · rw [if_pos hf, Holds_pure]
      refine ⟨fun h => (by cases h), fun h => ?_⟩
      have := hsz h.1
      omega
    · rw [if_neg hf, Holds_bind]
      refine (checkFron_holds hc ha (by omega) (by omega)).mono ?_
      rintro (u | u) hfi
      · dsimp only at hfi ⊢
        rw [Holds_bind]
        refine (checkLoop_holds hc ha hp).mono ?_
        rintro (s | u) hl
        · dsimp only at hl ⊢
          rw [Holds_pure]
          unfold checkSums
          rw [decide_eq_true_iff]
          obtain ⟨hsep, hs1, hs2⟩ := hl
          rw [hs1, hs2]
          dsimp only
          have e : ∀ k f, upTo b b.s.vertnnd k f = over b.s b.part k f := fun _ _ => rfl
          rw [e, e, e, e, e, e]
          constructor
          · rintro ⟨z0, z1, z2, l0, l1, l2, d⟩
            exact ⟨⟨hp, hsep, z0, z1, z2, l0, l1, l2, d⟩, hfi⟩
          · rintro ⟨h, -⟩
            exact ⟨h.size0, h.size1, h.size2, h.load0, h.load1, h.load2, h.delta⟩
        · dsimp only at hl ⊢
          rw [Holds_pure]
          exact ⟨fun h => (by cases h), fun h => absurd h.1.sep hl⟩
      · dsimp only at hfi ⊢
        rw [Holds_pure]
        exact ⟨fun h => (by cases h), fun h => absurd h.2 hfi⟩
  · dsimp only at hp ⊢
    rw [Holds_pure]
    exact ⟨fun h => (by cases h), fun h => absurd h.1.parts hp⟩

/-- The frontier of a valid separation holds vertices of the separator. -/
theorem Valid.fronIn (h : Valid b) : FronIn b := fun _ i1 i2 => h.fron.mem i1 i2

/-- What is left to check: that the frontier array has no duplicates. -/
theorem valid_of (hc : ConsE b.s) (h : Sound b) (hf : FronIn b) (hi : ∀ i j, 0 ≤ i → i < b.fronnbr → 0 ≤ j → j < b.fronnbr → b.frontab.get i = b.frontab.get j → i = j) :
    Valid b := by
  refine ⟨h, ?_, hi, ?_⟩
  · rw [h.size2]
    exact over_nonneg _ _ (fun _ _ => by decide)
  · intro v
    constructor
    · intro hv
      refine Classical.byContradiction fun hn => ?_
      have h0 : 0 ≤ b.fronnbr := by rw [h.size2]; exact over_nonneg _ _ (fun _ _ => by decide)
      have hE : Enum b.frontab b.fronnbr (fun x => ∃ i, 0 ≤ i ∧ i < b.fronnbr ∧ b.frontab.get i = x) := ⟨h0, hi, fun _ => Iff.rfl⟩
      have hs := sumI_enum b.frontab.get (fun _ => 1) b.s.baseval b.s.vertnnd 0 b.fronnbr h0 (fun i j i1 i2 j1 j2 => hi i j i1 i2 j1 j2)
        (fun i i1 i2 => (hf i i1 i2).1)
      rw [sumI_const h0] at hs
      have hle : sumI b.s.baseval b.s.vertnnd (fun v => (open Classical in if ∃ i, 0 ≤ i ∧ i < b.fronnbr ∧ b.frontab.get i = v then (1 : Int) else 0)) + 1 ≤ over b.s b.part 2 (fun _ => 1) := by
        have hu := over_upd (g := b.s) b.part hv.1 0 2 (fun _ => 1)
        rw [if_pos hv.2, if_neg (by decide)] at hu
        have : sumI b.s.baseval b.s.vertnnd (fun v => (open Classical in if ∃ i, 0 ≤ i ∧ i < b.fronnbr ∧ b.frontab.get i = v then (1 : Int) else 0)) ≤ over b.s (upd b.part v 0) 2 (fun _ => 1) := by
          apply sumI_mono
          intro w w1 w2
          split
          · rename_i hw
            obtain ⟨i, i1, i2, rfl⟩ := hw
            have hwv : b.frontab.get i ≠ v := fun e => hn ⟨i, i1, i2, e⟩
            rw [upd_ne _ _ hwv, if_pos (hf i i1 i2).2]
          · split
            · exact Int.one_nonneg
            · exact Int.le_refl 0
        omega
      have := h.size2
      omega
    · rintro ⟨i, i1, i2, rfl⟩
      exact hf i i1 i2

end Scotch.Separ
