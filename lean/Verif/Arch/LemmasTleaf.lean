import Verif.Arch.Generic
import Verif.Arch.Model
import Verif.Arch.Domains
import Verif.Arch.LemmasCmplt
import Mathlib.Tactic.Ring
import Mathlib.Tactic.Linarith
import Mathlib.Tactic.Positivity

/-! # Tree-leaf architectures: laws -/

set_option autoImplicit false
set_option linter.unusedSimpArgs false

namespace Scotch.Arch.Tleaf

variable {a : Arch}

theorem span_top : span a a.levlnbr = 1 := by simp [span, spanN]

theorem span_step (l : Int) (h : l < a.levlnbr) : span a l = a.sizetab.get l * span a (l + 1) := by
  unfold span
  have e : (a.levlnbr - l).toNat = (a.levlnbr - (l + 1)).toNat + 1 := by omega
  rw [e, spanN]
  congr 2
  omega

theorem spanN_pos (h : WF a) : ∀ m : Nat, (m : Int) ≤ a.levlnbr → 1 ≤ spanN a m
  | 0, _ => by simp [spanN]
  | m + 1, hm => by
    have ih := spanN_pos h m (by push_cast at hm; omega)
    have := h.size (a.levlnbr - m - 1) (by push_cast at hm; omega) (by omega)
    simp only [spanN]
    nlinarith

theorem span_pos (h : WF a) (l : Int) (h0 : 0 ≤ l) : 1 ≤ span a l :=
  spanN_pos h _ (by have := h.lev; omega)

theorem sizeFrom_spec (h : WF a) (l : Int) (h0 : 0 ≤ l) (h1 : l ≤ a.levlnbr) :
    sizeFrom a l = .ok (span a l) := by
  have : Holds (sizeFrom a l) (fun r => r = span a l) := by
    unfold sizeFrom
    apply Holds_forUp (fun i s => s * span a i = span a l) h1
    · simp
    · intro i s hi1 hi2 hs
      have e1 := h.slo
      have e2 := h.shi
      msimp
      refine ⟨⟨by omega, by omega⟩, ?_⟩
      rw [← hs, span_step i hi2]
      ring
    · intro s hs
      rw [span_top] at hs
      omega
  obtain ⟨r, e, rfl⟩ := Holds_iff_exists.1 this
  exact e

theorem div_step (h : WF a) (l k : Int) (h0 : 0 ≤ l) (h1 : l < a.levlnbr) :
    k / span a l = k / span a (l + 1) / a.sizetab.get l := by
  rw [span_step l h1, Int.mul_comm, ← Int.ediv_ediv_of_nonneg]
  have := span_pos h (l + 1) (by omega)
  omega

theorem root_zero (h : WF a) (k : Int) (h0 : 0 ≤ k) (h1 : k < a.termnbr) : k / span a 0 = 0 :=
  Int.ediv_eq_zero_of_lt h0 (by rw [← h.term]; exact h1)

theorem has_mul (h : WF a) (d : Dom) (hd : Valid a d) (k : Int) :
    Has a d k ↔ d.indxmin * span a d.levlnum ≤ k ∧ k < (d.indxmin + d.indxnbr) * span a d.levlnum := by
  have hs := span_pos h _ hd.lev0
  unfold Has
  rw [Int.le_ediv_iff_mul_le (by omega), Int.ediv_lt_iff_lt_mul (by omega)]

theorem within (h : WF a) (d : Dom) (k : Int) (hd : Valid a d) (hk : Has a d k) : 0 ≤ k ∧ k < a.termnbr := by
  rw [has_mul h d hd] at hk
  have := hd.max
  have := Int.mul_nonneg hd.min (show 0 ≤ span a d.levlnum by have := span_pos h _ hd.lev0; omega)
  omega

theorem sibling_range {f s x n : Int} (h1 : f * s ≤ x) (h2 : x + n ≤ (f + 1) * s) (hs : 0 < s) (i : Int)
    (h3 : x ≤ i) (h4 : i < x + n) : i / s = f := by
  have e : i / s = f ↔ f * s ≤ i ∧ i < (f + 1) * s := by
    constructor
    · rintro rfl
      have a1 := Int.mul_ediv_add_emod i s
      have a2 := Int.emod_nonneg i (show s ≠ 0 by omega)
      have a3 := Int.emod_lt_of_pos i hs
      have : i / s * s = s * (i / s) := Int.mul_comm _ _
      have e2 : (i / s + 1) * s = i / s * s + s := by ring
      omega
    · rintro ⟨h1, h2⟩
      have a1 : f ≤ i / s := (Int.le_ediv_iff_mul_le hs).2 h1
      have a2 : i / s < f + 1 := (Int.ediv_lt_iff_lt_mul hs).2 h2
      omega
  rw [e]
  omega

/-- A range of two or more sons of a node splits into two valid domains. -/
theorem range_split (h : WF a) (l x n f : Int) (h1 : 1 ≤ l) (h2 : l ≤ a.levlnbr) (hf : 0 ≤ f) (hn : 2 ≤ n)
    (hns : n ≤ a.sizetab.get (l - 1)) (hx : f * a.sizetab.get (l - 1) ≤ x)
    (hy : x + n ≤ (f + 1) * a.sizetab.get (l - 1)) (hm : (x + n) * span a l ≤ a.termnbr) :
    Valid a ⟨l, x, (n + 1) / 2⟩ ∧ Valid a ⟨l, x + (n + 1) / 2, n - (n + 1) / 2⟩ := by
  have hs := h.size (l - 1) (by omega) (by omega)
  have hsp := span_pos h l (by omega)
  have hfs := Int.mul_nonneg hf (show 0 ≤ a.sizetab.get (l - 1) by omega)
  have key : ∀ y m, x ≤ y → 1 ≤ m → m < n → y + m ≤ x + n → Valid a ⟨l, y, m⟩ := by
    intro y m a1 a2 a3 a4
    refine ⟨by dsimp only; omega, h2, by dsimp only; omega, a2, ?_, by dsimp only; omega, ?_⟩
    · dsimp only
      exact (Int.mul_le_mul_of_nonneg_right a4 (by omega)).trans hm
    · intro _
      exact ⟨f, by dsimp only; omega, by dsimp only; omega, by dsimp only; omega⟩
  exact ⟨key _ _ (by omega) (by omega) (by omega) (by omega), key _ _ (by omega) (by omega) (by omega) (by omega)⟩

/-- Post-condition of the bipartition routine. -/
theorem bipart_spec (h : WF a) (d : Dom) (hd : Valid a d) :
    Holds (bipart a d) (fun r => match r with
    | none => d.indxnbr * span a d.levlnum = 1 ∧ ∃ k : Int, ∀ j, Has a d j ↔ j = k
    | some (d0, d1) => Valid a d0 ∧ Valid a d1 ∧
        d.indxnbr * span a d.levlnum = d0.indxnbr * span a d0.levlnum + d1.indxnbr * span a d1.levlnum ∧
        (∀ k, Has a d k ↔ Has a d0 k ∨ Has a d1 k) ∧ ∀ k, ¬ (Has a d0 k ∧ Has a d1 k)) := by
  obtain ⟨g0, g1, g2, g3, g4, g5, g6⟩ := hd
  simp only [bipart, bipartRange, Holds_bind]
  split
  · rename_i hn
    have hn : d.indxnbr = 1 := by omega
    split
    · rename_i hl
      have hl : d.levlnum = a.levlnbr := by omega
      simp only [Holds_pure]
      refine ⟨by rw [hl, span_top]; omega, d.indxmin, ?_⟩
      intro j
      unfold Has
      rw [hl, span_top, Int.ediv_one]
      omega
    · rename_i hl
      have e1 := h.slo
      have e2 := h.shi
      msimp
      refine ⟨⟨by omega, by omega⟩, ?_⟩
      have hs := h.size d.levlnum g0 (by omega)
      have hstep := span_step d.levlnum (show d.levlnum < a.levlnbr by omega)
      have hdiv := fun k => div_step h d.levlnum k g0 (by omega)
      have ec : d.levlnum + 1 - 1 = d.levlnum := by omega
      have em : (d.indxmin + 1) * a.sizetab.get d.levlnum
          = d.indxmin * a.sizetab.get d.levlnum + a.sizetab.get d.levlnum := by ring
      obtain ⟨v0, v1⟩ := range_split h (d.levlnum + 1) (d.indxmin * a.sizetab.get d.levlnum)
        (a.sizetab.get d.levlnum) d.indxmin (by omega) (by omega) g2 hs (by rw [ec]) (by rw [ec])
        (by rw [ec]; omega) (by
          calc _ = (d.indxmin + d.indxnbr) * span a d.levlnum := by rw [hn, hstep]; ring
            _ ≤ _ := g4)
      refine ⟨v0, v1, by rw [hn, hstep]; ring, ?_, ?_⟩
      · intro k
        unfold Has
        dsimp only
        rw [hn, hdiv k]
        generalize k / span a (d.levlnum + 1) = q
        have hh : d.indxmin ≤ q / a.sizetab.get d.levlnum ∧ q / a.sizetab.get d.levlnum < d.indxmin + 1 ↔
            d.indxmin * a.sizetab.get d.levlnum ≤ q ∧ q < (d.indxmin + 1) * a.sizetab.get d.levlnum := by
          rw [Int.le_ediv_iff_mul_le (by omega), Int.ediv_lt_iff_lt_mul (by omega)]
        rw [hh, em]
        omega
      · intro k
        unfold Has
        dsimp only
        omega
  · rename_i hn
    simp only [Holds_pure]
    have hl : 1 ≤ d.levlnum := by
      by_contra hc
      have := g5 (by omega)
      omega
    obtain ⟨f, f1, f2, f3⟩ := g6 hl
    have hs := h.size (d.levlnum - 1) (by omega) (by omega)
    have hf : 0 ≤ f := by
      by_contra hc
      have : (f + 1) * a.sizetab.get (d.levlnum - 1) ≤ 0 :=
        Int.mul_nonpos_of_nonpos_of_nonneg (by omega) (by omega)
      omega
    obtain ⟨v0, v1⟩ := range_split h d.levlnum d.indxmin d.indxnbr f hl g1 hf (by omega) (by omega) f1 f2 g4
    refine ⟨v0, v1, by ring, ?_, ?_⟩
    · intro k
      unfold Has
      dsimp only
      omega
    · intro k
      unfold Has
      dsimp only
      omega

theorem addLaws (h : WF a) :
    AddLaws (ops a) a.termnbr (fun _ => 1) (Valid a) (Has a) (fun d => d.indxnbr * span a d.levlnum)
      (fun d => d.indxnbr * span a d.levlnum) where
  within := fun d k => within h d k
  frst := by
    simp only [ops, frst, Holds_pure]
    have hl := h.lev
    refine ⟨⟨by simp, hl, by simp, by simp, by simp [h.term], by simp, by simp⟩, ?_⟩
    intro k h0 h1
    unfold Has
    dsimp only
    rw [root_zero h k h0 h1]
    omega
  size := by
    intro d hd
    simp only [ops, size, sizeFrom_spec h d.levlnum hd.lev0 hd.lev1, bind, Except.bind, Holds_pure]
    ring
  wght := by
    intro d hd
    simp only [ops, size, sizeFrom_spec h d.levlnum hd.lev0 hd.lev1, bind, Except.bind, Holds_pure]
    ring
  size_pos := by
    intro d hd
    have := span_pos h d.levlnum hd.lev0
    have := hd.nbr
    nlinarith
  bipart := by
    intro d hd
    refine (bipart_spec h d hd).mono ?_
    intro r hr
    cases r with
    | none => exact ⟨hr.1, hr.2.choose, hr.1, hr.2.choose_spec⟩
    | some p => exact ⟨hr.1, hr.2.1, hr.2.2.1, hr.2.2.1, hr.2.2.2.1, hr.2.2.2.2⟩
  num := by
    intro d hd
    simp only [ops, num, sizeFrom_spec h d.levlnum hd.lev0 hd.lev1, bind, Except.bind, Holds_pure]
    have hs := span_pos h d.levlnum hd.lev0
    have hn := hd.nbr
    unfold Has
    rw [Int.mul_ediv_cancel _ (by omega)]
    omega
  term := by
    intro k h0 h1
    simp only [ops, term]
    rw [if_pos h1]
    simp only [Holds_pure]
    have hl := h.lev
    have hv : Valid a ⟨a.levlnbr, k, 1⟩ := by
      refine ⟨hl, Int.le_refl _, h0, by simp, ?_, ?_, ?_⟩
      · dsimp only; rw [span_top]; omega
      · intro e
        dsimp only at e ⊢
        have ht := h.term
        have : span a 0 = 1 := by rw [← e]; exact span_top
        omega
      · intro hl1
        dsimp only at hl1 ⊢
        have hs := h.size (a.levlnbr - 1) (by omega) (by omega)
        refine ⟨k / a.sizetab.get (a.levlnbr - 1), ?_, ?_, by omega⟩
        · exact Int.ediv_mul_le _ (by omega)
        · have := Int.lt_ediv_add_one_mul_self k (show 0 < a.sizetab.get (a.levlnbr - 1) by omega)
          omega
    refine ⟨_, rfl, hv, ?_, ?_⟩
    · intro j
      unfold Has
      dsimp only
      rw [span_top, Int.ediv_one]
      omega
    · rintro ⟨l, x, n⟩ hv' hu
      have hs := span_pos h l hv'.lev0
      have hu' : ∀ j : Int, (x * span a l ≤ j ∧ j < x * span a l + n * span a l) ↔ j = k := by
        intro j
        rw [← hu j, has_mul h _ hv']
        dsimp only
        rw [Int.add_mul]
      obtain ⟨e1, e2⟩ := Cmplt.interval_single hu'
      have hn : 1 ≤ n := hv'.nbr
      have hsp : span a l = 1 := by nlinarith
      have hl' : l = a.levlnbr := by
        by_contra hc
        have h1 : l ≤ a.levlnbr := hv'.lev1
        have h0 : 0 ≤ l := hv'.lev0
        have := span_step (a := a) l (by omega)
        have s1 := h.size l h0 (by omega)
        have s2 := span_pos h (l + 1) (by omega)
        nlinarith
      rw [hsp] at e1 e2
      rw [hl']
      congr 1 <;> omega
  term_big := by
    intro k hk
    simp only [ops, term]
    rw [if_neg (by omega)]
    simp

/-! ### Inclusion -/

theorem valid_same (h : WF a) (d : Dom) (hd : Valid a d) (l : Int) (h0 : 0 ≤ l) (hl : l < d.levlnum) (j : Int)
    (hj : Has a d j) : j / span a l = d.indxmin * span a d.levlnum / span a l := by
  -- the same father one level above
  obtain ⟨f, f1, f2, f3⟩ := hd.sons (by omega)
  have hs := h.size (d.levlnum - 1) (by omega) (by have := hd.lev1; omega)
  have hsp := span_pos h d.levlnum hd.lev0
  have hnum : Has a d (d.indxmin * span a d.levlnum) := by
    have := hd.nbr
    unfold Has
    rw [Int.mul_ediv_cancel _ (by omega)]
    omega
  have one : ∀ i, Has a d i → i / span a (d.levlnum - 1) = f := by
    intro i hi
    have e := div_step h (d.levlnum - 1) i (by omega) (by have := hd.lev1; omega)
    rw [show d.levlnum - 1 + 1 = d.levlnum by omega] at e
    rw [e]
    exact sibling_range f1 f2 (by omega) _ hi.1 hi.2
  -- then at all levels above
  have up : ∀ m : Nat, (m : Int) ≤ d.levlnum - 1 → ∀ i i', Has a d i → Has a d i' →
      i / span a (d.levlnum - 1 - m) = i' / span a (d.levlnum - 1 - m) := by
    intro m
    induction m with
    | zero => intro _ i i' hi hi'; simp only [Nat.cast_zero, Int.sub_zero]; rw [one i hi, one i' hi']
    | succ m ih =>
      intro hm i i' hi hi'
      have := ih (by push_cast at hm; omega) i i' hi hi'
      have hlev := hd.lev1
      rw [div_step h _ i (by push_cast at hm ⊢; omega) (by push_cast at hm ⊢; omega),
        div_step h _ i' (by push_cast at hm ⊢; omega) (by push_cast at hm ⊢; omega)]
      have e : d.levlnum - 1 - ((m + 1 : Nat) : Int) + 1 = d.levlnum - 1 - m := by push_cast; omega
      rw [e, this]
  have := up (d.levlnum - 1 - l).toNat (by omega) j _ hj hnum
  rw [show d.levlnum - 1 - ((d.levlnum - 1 - l).toNat : Int) = l by omega] at this
  exact this

theorem climbIncl_spec (h : WF a) (target lev x : Int) (h0 : 0 ≤ target) (h1 : target < lev)
    (h2 : lev ≤ a.levlnbr) (hx : 0 ≤ x) :
    climbIncl a target (lev.toNat + 1) lev (x / span a lev) = .ok (x / span a target) := by
  have : Holds (climbIncl a target (lev.toNat + 1) lev (x / span a lev)) (fun r => r = x / span a target) := by
    unfold climbIncl
    apply Holds_loopM (fun s => target < s.1 ∧ s.1 ≤ a.levlnbr ∧ s.2 = x / span a s.1) (fun s => s.1.toNat)
    · rintro ⟨l, i⟩ ⟨a1, a2, a3⟩
      dsimp only at a1 a2 a3
      have e1 := h.slo
      have e2 := h.shi
      have hs := h.size (l - 1) (by omega) (by omega)
      have hq : 0 ≤ x / span a l := Int.ediv_nonneg hx (by have := span_pos h l (by omega); omega)
      have hd := div_step h (l - 1) x (by omega) (by omega)
      rw [show l - 1 + 1 = l by omega] at hd
      simp only [cdiv, Holds_bind]
      rw [Holds_rd]
      refine ⟨⟨by omega, by omega⟩, ?_⟩
      rw [if_neg (by omega)]
      simp only [Holds_ok]
      rw [a3, Int.tdiv_eq_ediv_of_nonneg hq]
      split
      · simp only [Holds_pure, Loop.Sat]
        refine ⟨⟨by omega, by omega, hd.symm⟩, by omega⟩
      · simp only [Holds_pure, Loop.Sat]
        rw [← hd, show l - 1 = target by omega]
    · exact ⟨h1, h2, rfl⟩
    · simp
  obtain ⟨r, e, rfl⟩ := Holds_iff_exists.1 this
  exact e

/-- Inclusion of domains of different levels. -/
theorem incl_spec (h : WF a) (d0 d1 : Dom) (hd0 : Valid a d0) (hd1 : Valid a d1)
    (hne : d0.levlnum ≠ d1.levlnum ∨ d1.indxnbr = 1) :
    Holds (incl a d0 d1) (fun r => r = true ↔ ∀ k, Has a d1 k → Has a d0 k) := by
  have hnum : ∀ d, Valid a d → Has a d (d.indxmin * span a d.levlnum) := by
    intro d hd
    have := hd.nbr
    have := span_pos h d.levlnum hd.lev0
    unfold Has
    rw [Int.mul_ediv_cancel _ (by omega)]
    omega
  unfold incl
  split
  · split
    · rename_i hl
      have hs1 := span_pos h d1.levlnum hd1.lev0
      have hx : 0 ≤ d1.indxmin * span a d1.levlnum := Int.mul_nonneg hd1.min (by omega)
      have := climbIncl_spec h d0.levlnum d1.levlnum (d1.indxmin * span a d1.levlnum) hd0.lev0 hl hd1.lev1 hx
      rw [Int.mul_ediv_cancel _ (by omega)] at this
      rw [this]
      simp only [bind, Except.bind, Holds_pure, overlap, Bool.not_eq_true', decide_eq_false_iff_not]
      have hsame := valid_same h d1 hd1 d0.levlnum hd0.lev0 hl
      constructor
      · intro ho k hk
        unfold Has
        rw [hsame k hk]
        omega
      · intro hall
        have := hall _ (hnum d1 hd1)
        unfold Has at this
        omega
    · rename_i hl hl2
      simp only [Holds_pure, Bool.false_eq_true, false_iff]
      intro hall
      -- `d0` is only part of the sons of a node
      have hl3 : d1.levlnum < d0.levlnum := by omega
      obtain ⟨f, f1, f2, f3⟩ := hd0.sons (by have := hd1.lev0; omega)
      have hs0 := span_pos h d0.levlnum hd0.lev0
      have t1 : d0.indxnbr * span a d0.levlnum < span a (d0.levlnum - 1) := by
        rw [span_step (d0.levlnum - 1) (by have := hd0.lev1; omega), show d0.levlnum - 1 + 1 = d0.levlnum by omega]
        nlinarith
      have mono : ∀ m : Nat, d1.levlnum + m ≤ a.levlnbr → span a (d1.levlnum + m) ≤ span a d1.levlnum := by
        intro m
        induction m with
        | zero => intro _; simp
        | succ m ih =>
          intro hm
          have ih := ih (by push_cast at hm; omega)
          have l0 := hd1.lev0
          have e := span_step (a := a) (d1.levlnum + m) (by push_cast at hm; omega)
          have s1 := h.size (d1.levlnum + m) (by omega) (by push_cast at hm; omega)
          have s2 := span_pos h (d1.levlnum + m + 1) (by omega)
          push_cast
          rw [show d1.levlnum + ((m : Int) + 1) = d1.levlnum + m + 1 by omega]
          nlinarith
      have t2 := mono (d0.levlnum - 1 - d1.levlnum).toNat (by have := hd0.lev1; omega)
      rw [show d1.levlnum + ((d0.levlnum - 1 - d1.levlnum).toNat : Int) = d0.levlnum - 1 by omega] at t2
      have hs1 := span_pos h d1.levlnum hd1.lev0
      have q1 := hall (d1.indxmin * span a d1.levlnum) (hnum d1 hd1)
      have q2 := hall (d1.indxmin * span a d1.levlnum + span a d1.levlnum - 1) (by
        rw [has_mul h d1 hd1]
        have := hd1.nbr
        rw [Int.add_mul]
        have : span a d1.levlnum ≤ d1.indxnbr * span a d1.levlnum := by nlinarith
        omega)
      rw [has_mul h d0 hd0, Int.add_mul] at q1 q2
      omega
  · rename_i hl
    have hl : d0.levlnum = d1.levlnum := by omega
    have h1 : d1.indxnbr = 1 := by omega
    simp only [Holds_pure, overlap, Bool.not_eq_true', decide_eq_false_iff_not]
    have := hnum d1 hd1
    constructor
    · intro ho k hk
      unfold Has at *
      rw [hl]
      omega
    · intro hall
      have q := hall _ this
      have hs1 := span_pos h d1.levlnum hd1.lev0
      unfold Has at q
      rw [hl, Int.mul_ediv_cancel _ (by omega)] at q
      omega

end Scotch.Arch.Tleaf
