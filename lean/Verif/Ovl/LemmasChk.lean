import Verif.Ovl.ModelChk
import Verif.Ovl.LemmasEs

/-! # Partitioning with overlap: consistency check -/

set_option autoImplicit false
set_option linter.unusedSimpArgs false

namespace Scotch.Ovl
open Graph Bipart

theorem testAll_holds {lo hi : Int} (hle : lo ≤ hi) {f : Int → M Bool} {P : Int → Prop} (h : ∀ i, lo ≤ i → i < hi → Holds (f i) (fun r => r = true ↔ P i)) : Holds (testAll lo hi f) (fun r => r = true ↔ ∀ i, lo ≤ i → i < hi → P i) := by
  unfold testAll
  rw [Holds_bind]
  refine Holds_forUpB (fun i _ => ∀ j, lo ≤ j → j < i → P j) (fun _ => ¬ ∀ i, lo ≤ i → i < hi → P i) hle (fun j h1 h2 => by omega) ?_ ?_ ?_
  · intro i _ i1 i2 I
    rw [Holds_bind]
    refine (h i i1 i2).mono ?_
    intro r hr
    cases r with
    | true =>
      show ∀ j, lo ≤ j → j < i + 1 → P j
      intro j j1 j2
      by_cases hj : j = i
      · rw [hj]; exact hr.1 rfl
      · exact I j j1 (by omega)
    | false =>
      show ¬ ∀ i, lo ≤ i → i < hi → P i
      intro hall
      exact absurd (hr.2 (hall i i1 i2)) (by decide)
  · intro _ I
    exact ⟨fun _ => I, fun _ => rfl⟩
  · intro _ I
    exact ⟨fun h => absurd h (by decide), fun h => absurd h I⟩

variable {b : Wgraph}

/-- State of the loop on vertices. -/
structure KInv (b : Wgraph) (v : Int) (s : ChkState) : Prop where
  load : s.sums.load.lo = 0 ∧ s.sums.load.hi = b.partnbr
  size : s.sums.size.lo = 0 ∧ s.sums.size.hi = b.partnbr
  flag : s.sums.flag.lo = 0 ∧ s.sums.flag.hi = b.partnbr
  low : ∀ k, 0 ≤ k → k < b.partnbr → s.sums.flag.get k < v
  loads : ∀ k, 0 ≤ k → k < b.partnbr → s.sums.load.get k = sumI b.s.baseval v (fun u => if Belongs b.s b.part k u then b.s.velo u else 0)
  sizes : ∀ k, 0 ≤ k → k < b.partnbr → s.sums.size.get k = sumI b.s.baseval v (fun u => if Belongs b.s b.part k u then 1 else 0)
  frlo : s.frlo = sumI b.s.baseval v (fun u => if b.part u = -1 then b.s.velo u else 0)
  nbr : s.nbr = sumI b.s.baseval v (fun u => if b.part u = -1 then 1 else 0)

theorem chkVertex_holds (hE : ConsE b.s) (A : Alloc b) (hr : ∀ v, b.s.Vertex v → -1 ≤ b.part v ∧ b.part v < b.partnbr) {v : Int} (hv : b.s.Vertex v) {s : ChkState} (I : KInv b v s) : Holds (chkVertex b v s) (KInv b (v + 1)) := by
  unfold chkVertex
  have hv1 := hv.1
  have hv2 := hv.2
  have hrv : -1 ≤ b.parttax.get v ∧ b.parttax.get v < b.partnbr := hr v hv
  have ha := A.part
  have i1 := I.load
  have i2 := I.size
  have i3 := I.flag
  rw [rdVelo_eq A.graph hv, ok_bind, Arr.rd_ok _ (by omega) (by omega), ok_bind, Holds_ite]
  refine ⟨fun hm => ?_, fun h0 => ?_⟩
  · rw [Holds_bind]
    have hrg := hE.range v hv
    have nos : ∀ k, ¬ Seen b.s b.part v (b.s.vert v) k := fun k ⟨e', h1, h2, _⟩ => by omega
    refine Holds_forArcs A.graph hv hrg.2 (BInv b.s b.part b.partnbr v (b.s.velo v) s.sums) ?_ ?_ ?_
    · exact ⟨⟨rfl, rfl⟩, ⟨rfl, rfl⟩, ⟨rfl, rfl⟩, fun k _ _ => Or.inr rfl, fun k k1 k2 => ⟨fun h => by have := I.low k k1 k2; omega, fun h => absurd h (nos k)⟩, fun k _ _ h => absurd h (nos k), fun k _ _ _ => ⟨rfl, rfl⟩⟩
    · intro e s' e1 e2 J
      have hd := (hE.inside v e hv e1 e2).1
      have hd1 := hd.1
      have hd2 := hd.2
      exact esArc_holds e1 ⟨by omega, by omega⟩ (hr _ hd) (by omega) (by omega) (by omega) J
    · intro s' J
      have jl := J.load
      have jz := J.size
      have jf := J.flag
      have hm' : b.part v = -1 := hm
      have bel : ∀ k, 0 ≤ k → (Belongs b.s b.part k v ↔ Seen b.s b.part v (b.s.vend v) k) := by
        intro k k0
        rw [belongs_adj]
        exact ⟨fun h => by rcases h with h | ⟨-, h⟩; exacts [absurd h (by omega), h], fun h => Or.inr ⟨hm', h⟩⟩
      rw [Holds_pure]
      refine ⟨by show s'.load.lo = _ ∧ s'.load.hi = _; omega, by show s'.size.lo = _ ∧ s'.size.hi = _; omega, by show s'.flag.lo = _ ∧ s'.flag.hi = _; omega, ?_, ?_, ?_, ?_, ?_⟩
      · intro k k1 k2
        show s'.flag.get k < v + 1
        have := I.low k k1 k2
        rcases J.keep k k1 k2 with h | h <;> omega
      · intro k k1 k2
        show s'.load.get k = _
        rw [sumI_succ hv1, ← I.loads k k1 k2]
        by_cases hk : Seen b.s b.part v (b.s.vend v) k
        · rw [if_pos ((bel k k1).2 hk), (J.yes k k1 k2 hk).1]
        · rw [if_neg (fun h => hk ((bel k k1).1 h)), (J.no k k1 k2 hk).1]; omega
      · intro k k1 k2
        show s'.size.get k = _
        rw [sumI_succ hv1, ← I.sizes k k1 k2]
        by_cases hk : Seen b.s b.part v (b.s.vend v) k
        · rw [if_pos ((bel k k1).2 hk), (J.yes k k1 k2 hk).2]
        · rw [if_neg (fun h => hk ((bel k k1).1 h)), (J.no k k1 k2 hk).2]; omega
      · show s.frlo + _ = _
        rw [sumI_succ hv1, if_pos hm', I.frlo]
      · show s.nbr + 1 = _
        rw [sumI_succ hv1, if_pos hm', I.nbr]
  · have hk0 : 0 ≤ b.parttax.get v := by omega
    have bel : ∀ k, 0 ≤ k → (Belongs b.s b.part k v ↔ k = b.parttax.get v) := by
      intro k k0
      rw [belongs_adj]
      exact ⟨fun h => by rcases h with h | ⟨h, -⟩; exacts [h.symm, absurd h h0], fun h => Or.inl h.symm⟩
    rw [Arr.rd_ok _ (by omega) (by omega), ok_bind, Arr.wr_ok _ _ (by omega) (by omega), ok_bind, Arr.rd_ok _ (by omega) (by omega), ok_bind, Arr.wr_ok _ _ (by omega) (by omega), ok_bind, Holds_pure]
    refine ⟨i1, i2, i3, fun k k1 k2 => by have := I.low k k1 k2; show s.sums.flag.get k < v + 1; omega, ?_, ?_, ?_, ?_⟩
    · intro k k1 k2
      show (s.sums.load.set (b.parttax.get v) _).get k = _
      rw [sumI_succ hv1, Arr.set_get]
      by_cases hk : k = b.parttax.get v
      · rw [if_pos hk, if_pos ((bel k k1).2 hk), ← hk, I.loads k k1 k2]
      · rw [if_neg hk, if_neg (fun h => hk ((bel k k1).1 h)), I.loads k k1 k2]; omega
    · intro k k1 k2
      show (s.sums.size.set (b.parttax.get v) _).get k = _
      rw [sumI_succ hv1, Arr.set_get]
      by_cases hk : k = b.parttax.get v
      · rw [if_pos hk, if_pos ((bel k k1).2 hk), ← hk, I.sizes k k1 k2]
      · rw [if_neg hk, if_neg (fun h => hk ((bel k k1).1 h)), I.sizes k k1 k2]; omega
    · show s.frlo = _
      rw [sumI_succ hv1, if_neg (show ¬ b.part v = -1 from h0), I.frlo]; omega
    · show s.nbr = _
      rw [sumI_succ hv1, if_neg (show ¬ b.part v = -1 from h0), I.nbr]; omega

theorem check_holds (C : b.s.Consistent) (A : Alloc b) (hb : 0 ≤ b.s.baseval) (hn : 1 ≤ b.partnbr) (hf : b.fronnbr ≤ b.s.vertnbr) (hF : ∀ i, 0 ≤ i → i < b.fronnbr → b.s.Vertex (b.frontab.get i)) (junk : Path → Int → Int) :
    Holds (check junk b) (fun r => r = true ↔ Checked b) := by
  have hE := consE_iff.2 C
  have hnn := C.vertnnd
  have hn0 := C.vertnbr
  have a1 := A.load
  have a2 := A.size
  have a3 := A.part
  have a4 := A.fron
  have no : ∀ {p : Prop}, (Checked b → p) → ¬ p → (false = true ↔ Checked b) := fun h k => ⟨fun h => absurd h (by decide), fun c => absurd (h c) k⟩
  unfold check
  rw [Holds_bind]
  refine (fill_holds (a := ⟨0, b.partnbr, junk [0]⟩) (lo := 0) (hi := b.partnbr) (by omega) (Int.le_refl _) (Int.le_refl _)).mono ?_
  rintro load ⟨l1, l2, -⟩
  rw [Holds_bind]
  refine (fill_holds (a := ⟨0, b.partnbr, junk [1]⟩) (lo := 0) (hi := b.partnbr) (by omega) (Int.le_refl _) (Int.le_refl _)).mono ?_
  rintro size ⟨s1, s2, -⟩
  rw [Holds_bind]
  refine (fill_holds (a := ⟨0, b.partnbr, junk [2]⟩) (lo := 0) (hi := b.partnbr) (by omega) (Int.le_refl _) (Int.le_refl _)).mono ?_
  rintro flag ⟨f1, f2, -⟩
  rw [Holds_bind]
  refine (testAll_holds (by omega) (P := fun v => -1 ≤ b.part v ∧ b.part v < b.partnbr) ?_).mono ?_
  · intro v v1 v2
    unfold chkPart
    rw [Arr.rd_ok _ (by omega) (by omega), ok_bind, Holds_pure]
    show (! decide (b.part v ≥ b.partnbr ∨ b.part v < -1)) = true ↔ _
    rw [Bool.not_eq_true', decide_eq_false_iff_not]
    constructor <;> intro h <;> omega
  intro r1 h1
  cases r1 with
  | false => exact no (fun c v v1 v2 => c.range v ⟨v1, v2⟩) (fun h => absurd (h1.2 h) (by decide))
  | true =>
  have hr : ∀ v, b.s.Vertex v → -1 ≤ b.part v ∧ b.part v < b.partnbr := fun v hv => h1.1 rfl v hv.1 hv.2
  have cnt : 0 ≤ over b.s b.part (-1) (fun _ => 1) := sumI_nonneg fun i _ _ => by dsimp only; split <;> omega
  rw [if_pos rfl]
  rw [Holds_ite]
  refine ⟨fun hneg => no (fun c => c.fronnbr) (by omega), fun hneg => ?_⟩
  rw [Holds_bind]
  refine (testAll_holds (by omega) (P := fun i => b.part (b.frontab.get i) = -1) ?_).mono ?_
  · intro i i1 i2
    have := (hF i i1 i2).1
    have := (hF i i1 i2).2
    unfold chkFron
    rw [Arr.rd_ok _ (by omega) (by omega), ok_bind, Arr.rd_ok _ (by omega) (by omega), ok_bind, Holds_pure, decide_eq_true_iff]
    exact Iff.rfl
  intro r2 h2
  cases r2 with
  | false => exact no (fun c => c.fron) (fun h => absurd (h2.2 h) (by decide))
  | true =>
  rw [if_pos rfl, Holds_bind]
  refine Holds_forUp (KInv b) (by omega) ?_ (fun v s v1 v2 I => chkVertex_holds hE A hr ⟨v1, v2⟩ I) ?_
  · refine ⟨l1, s1, f1, fun k k1 k2 => by show flag.get k < _; rw [f2 k k1 k2]; omega, ?_, ?_, ?_, ?_⟩
    · intro k k1 k2; rw [sumI_empty (Int.le_refl _)]; exact l2 k k1 k2
    · intro k k1 k2; rw [sumI_empty (Int.le_refl _)]; exact s2 k k1 k2
    · rw [sumI_empty (Int.le_refl _)]
    · rw [sumI_empty (Int.le_refl _)]
  intro s I
  have il := I.load
  have iz := I.size
  rw [Holds_bind]
  refine (testAll_holds (by omega) (P := fun k => b.compsize.get k = within b.s b.part k (fun _ => 1) ∧ b.compload.get k = within b.s b.part k b.s.velo) ?_).mono ?_
  · intro k k1 k2
    have e1 : s.sums.size.get k = within b.s b.part k (fun _ => 1) := I.sizes k k1 k2
    have e2 : s.sums.load.get k = within b.s b.part k b.s.velo := I.loads k k1 k2
    unfold chkSums
    rw [Arr.rd_ok _ (by omega) (by omega), ok_bind, Arr.rd_ok _ (by omega) (by omega), ok_bind, Holds_ite, e1]
    refine ⟨fun h => ⟨fun h => absurd h (by decide), fun c => absurd c.1 h⟩, fun h => ?_⟩
    rw [Arr.rd_ok _ (by omega) (by omega), ok_bind, Arr.rd_ok _ (by omega) (by omega), ok_bind, Holds_pure, decide_eq_true_iff, e2]
    exact ⟨fun e => ⟨Classical.not_not.1 h, e⟩, fun c => c.2⟩
  intro r3 h3
  cases r3 with
  | false => exact no (fun c k k1 k2 => ⟨c.size k k1 k2, c.load k k1 k2⟩) (fun h => absurd (h3.2 h) (by decide))
  | true =>
  rw [if_pos rfl, Holds_pure, decide_eq_true_iff]
  have e1 : s.frlo = over b.s b.part (-1) b.s.velo := I.frlo
  have e2 : s.nbr = over b.s b.part (-1) (fun _ => 1) := I.nbr
  rw [e1, e2]
  exact ⟨fun h => ⟨hr, h2.1 rfl, h.2, h.1, fun k k1 k2 => (h3.1 rfl k k1 k2).2, fun k k1 k2 => (h3.1 rfl k k1 k2).1⟩, fun c => ⟨c.fronload, c.fronnbr⟩⟩

/-- A checked partition that is separated, and whose frontier has no duplicates, is valid; the converse holds. -/
theorem checked_valid (C : b.s.Consistent) (hF : ∀ i, 0 ≤ i → i < b.fronnbr → b.s.Vertex (b.frontab.get i)) :
    Valid b ↔ Checked b ∧ Separated b.s b.part ∧ ∀ i j, 0 ≤ i → i < b.fronnbr → 0 ≤ j → j < b.fronnbr → b.frontab.get i = b.frontab.get j → i = j := by
  classical
  have hnn := C.vertnnd
  have hn0 := C.vertnbr
  constructor
  · intro V
    refine ⟨⟨V.parts.range, fun i i1 i2 => (V.fron.mem i1 i2).2, ?_, V.fronload, V.load, V.size⟩, V.parts.sep, V.fron.2.1⟩
    have h := Separ.sumI_Enum V.fron (lo := b.s.baseval) (hi := b.s.vertnnd) (by omega) (fun v hv => hv.1) (fun v => if b.part v = -1 then 1 else 0) (fun v v1 v2 hne => if_neg (fun e => hne ⟨⟨v1, v2⟩, e⟩))
    unfold over
    rw [← h, sumI_congr (g := fun _ => 1) (fun j j1 j2 => if_pos (V.fron.mem j1 j2).2), sumI_const V.fron.1]
    omega
  · rintro ⟨K, S, hi⟩
    have h0 : 0 ≤ b.fronnbr := by
      rw [K.fronnbr]
      exact sumI_nonneg fun i _ _ => by dsimp only; split <;> omega
    refine ⟨⟨K.range, S⟩, ⟨h0, hi, fun v => ⟨fun hv => ?_, ?_⟩⟩, K.fronload, K.load, K.size⟩
    · refine Classical.byContradiction fun hne => ?_
      have hQ : Enum b.frontab b.fronnbr (fun x => ∃ i, 0 ≤ i ∧ i < b.fronnbr ∧ b.frontab.get i = x) := ⟨h0, hi, fun _ => Iff.rfl⟩
      have h := Separ.sumI_Enum hQ (lo := b.s.baseval) (hi := b.s.vertnnd) (by omega) (by rintro v ⟨i, i1, i2, rfl⟩; exact hF i i1 i2)
        (fun x => if ∃ i, 0 ≤ i ∧ i < b.fronnbr ∧ b.frontab.get i = x then 1 else 0) (fun v v1 v2 h => if_neg h)
      rw [sumI_congr (g := fun _ => 1) (fun j j1 j2 => if_pos ⟨j, j1, j2, rfl⟩), sumI_const h0] at h
      have hp : 0 < sumI b.s.baseval b.s.vertnnd (fun x => (if b.part x = -1 then 1 else 0) - (if ∃ i, 0 ≤ i ∧ i < b.fronnbr ∧ b.frontab.get i = x then 1 else 0)) := by
        refine Bipart.sumI_pos_of ?_ hv.1.1 hv.1.2 ?_
        · intro x x1 x2
          by_cases hx : ∃ i, 0 ≤ i ∧ i < b.fronnbr ∧ b.frontab.get i = x
          · obtain ⟨i, i1, i2, e⟩ := hx
            rw [if_pos (by rw [← e]; exact K.fron i i1 i2), if_pos ⟨i, i1, i2, e⟩]; decide
          · rw [if_neg hx]; split <;> decide
        · rw [if_pos hv.2, if_neg hne]; decide
      rw [sumI_sub_dist, ← h] at hp
      have e : b.fronnbr = sumI b.s.baseval b.s.vertnnd (fun x => if b.part x = -1 then 1 else 0) := K.fronnbr
      omega
    · rintro ⟨i, i1, i2, rfl⟩
      exact ⟨hF i i1 i2, K.fron i i1 i2⟩

end Scotch.Ovl
