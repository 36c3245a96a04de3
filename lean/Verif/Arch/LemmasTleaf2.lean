import Verif.Arch.Domains
import Verif.Arch.LemmasTleaf

/-! # Tree-leaf architectures: distances, labelled leaves -/

set_option autoImplicit false
set_option linter.unusedSimpArgs false

namespace Scotch.Arch.Tleaf

open ArchSpec

variable {a : Arch}

theorem same_above (h : WF a) (x y l : Int) (h0 : 0 ≤ l) (h1 : l ≤ a.levlnbr)
    (e : x / span a l = y / span a l) : ∀ m, 0 ≤ m → m ≤ l → x / span a m = y / span a m := by
  have key : ∀ n : Nat, (n : Int) ≤ l → x / span a (l - n) = y / span a (l - n) := by
    intro n
    induction n with
    | zero => intro _; simpa using e
    | succ n ih =>
      intro hn
      have ih := ih (by push_cast at hn; omega)
      rw [div_step h _ x (by omega) (by push_cast at hn ⊢; omega),
        div_step h _ y (by omega) (by push_cast at hn ⊢; omega)]
      rw [show l - ((n + 1 : Nat) : Int) + 1 = l - n by push_cast; omega, ih]
  intro m m0 m1
  have := key (l - m).toNat (by omega)
  rwa [show l - ((l - m).toNat : Int) = m by omega] at this

theorem climb2_spec (h : WF a) (x y : Int) (hx0 : 0 ≤ x) (hx1 : x < a.termnbr) (hy0 : 0 ≤ y)
    (hy1 : y < a.termnbr) (hne : x ≠ y) :
    climb2 a (a.levlnbr.toNat + 1) a.levlnbr x y 0 = .ok (leafDist a x y) := by
  have : Holds (climb2 a (a.levlnbr.toNat + 1) a.levlnbr x y 0) (fun r => r = leafDist a x y) := by
    unfold climb2
    apply Holds_loopM (fun s => 0 ≤ s.1 ∧ s.1 ≤ a.levlnbr ∧ s.2.1 = x / span a s.1 ∧ s.2.2.1 = y / span a s.1 ∧
      x / span a s.1 ≠ y / span a s.1 ∧
      s.2.2.2 = sumI s.1 a.levlnbr (fun l => if x / span a (l + 1) = y / span a (l + 1) then 0 else a.linktab.get l))
      (fun s => s.1.toNat)
    · rintro ⟨l, i, j, dv⟩ ⟨a0, a1, a2, a3, a4, a5⟩
      dsimp only at a0 a1 a2 a3 a4 a5
      have e1 := h.slo
      have e2 := h.shi
      have e3 := h.llo
      have e4 := h.lhi
      have hl : 1 ≤ l := by
        by_contra hc
        have : l = 0 := by omega
        subst this
        exact a4 (by rw [root_zero h x hx0 hx1, root_zero h y hy0 hy1])
      have hs := h.size (l - 1) (by omega) (by omega)
      have hq : 0 ≤ x / span a l := Int.ediv_nonneg hx0 (by have := span_pos h l (by omega); omega)
      have hq' : 0 ≤ y / span a l := Int.ediv_nonneg hy0 (by have := span_pos h l (by omega); omega)
      have hd := div_step h (l - 1) x (by omega) (by omega)
      have hd' := div_step h (l - 1) y (by omega) (by omega)
      rw [show l - 1 + 1 = l by omega] at hd hd'
      have hsum : sumI (l - 1) a.levlnbr
          (fun l => if x / span a (l + 1) = y / span a (l + 1) then 0 else a.linktab.get l)
          = dv + a.linktab.get (l - 1) := by
        rw [sumI_split (show l - 1 ≤ l by omega) a1, a5]
        have := sumI_succ (lo := l - 1) (i := l - 1) (by omega)
          (fun l => if x / span a (l + 1) = y / span a (l + 1) then 0 else a.linktab.get l)
        rw [show l - 1 + 1 = l by omega] at this
        rw [this, sumI_empty (by omega), if_neg a4]
        omega
      simp only [cdiv, Holds_bind]
      rw [Holds_rd]
      refine ⟨⟨by omega, by omega⟩, ?_⟩
      rw [if_neg (by omega), if_neg (by omega)]
      simp only [Holds_ok]
      rw [Holds_rd]
      refine ⟨⟨by omega, by omega⟩, ?_⟩
      rw [a2, a3, Int.tdiv_eq_ediv_of_nonneg hq, Int.tdiv_eq_ediv_of_nonneg hq', ← hd, ← hd']
      split
      · rename_i hc
        simp only [Holds_pure, Loop.Sat]
        exact ⟨⟨by omega, by omega, trivial, trivial, hc, hsum.symm⟩, by omega⟩
      · rename_i hc
        simp only [Holds_pure, Loop.Sat]
        rw [← hsum]
        unfold leafDist
        rw [sumI_split (show 0 ≤ l - 1 by omega) (show l - 1 ≤ a.levlnbr by omega)]
        have z : sumI 0 (l - 1) (fun l => if x / span a (l + 1) = y / span a (l + 1) then 0 else a.linktab.get l) = 0 := by
          rw [sumI_congr (g := fun _ => 0), sumI_const (by omega)]
          · simp
          · intro i i0 i1
            rw [if_pos (same_above h x y (l - 1) (by omega) (by omega) (by omega) (i + 1) (by omega) (by omega))]
        rw [z]
        omega
    · refine ⟨h.lev, Int.le_refl _, ?_, ?_, ?_, ?_⟩
      · dsimp only; rw [span_top, Int.ediv_one]
      · dsimp only; rw [span_top, Int.ediv_one]
      · dsimp only; rw [span_top, Int.ediv_one, Int.ediv_one]; exact hne
      · dsimp only; rw [sumI_empty (by omega)]
    · simp
  obtain ⟨r, e, rfl⟩ := Holds_iff_exists.1 this
  exact e

theorem leafDist_self (x : Int) : leafDist a x x = 0 := by
  unfold leafDist
  rw [sumI_congr (g := fun _ => 0)]
  · by_cases h : 0 ≤ a.levlnbr
    · rw [sumI_const h]; simp
    · rw [sumI_empty (by omega)]
  · intro i _ _; simp

theorem leaf_dist_ok (h : WF a) (x y : Int) (hx0 : 0 ≤ x) (hx1 : x < a.termnbr) (hy0 : 0 ≤ y)
    (hy1 : y < a.termnbr) : dist a ⟨a.levlnbr, x, 1⟩ ⟨a.levlnbr, y, 1⟩ = .ok (leafDist a x y) := by
  simp only [dist, distSame, gt_iff_lt, Int.lt_irrefl, if_false]
  by_cases e : x = y
  · subst e
    rw [if_pos (by simp), leafDist_self]
    rfl
  · have : ¬ (if x ≤ y then x + 1 ≥ y + 1 else x + 1 ≤ y + 1) := by split <;> omega
    rw [if_neg this, climb2_spec h x y hx0 hx1 hy0 hy1 e]

theorem distLaw (h : WF a) : DistLaw (ops a) a.termnbr (leafDist a) := by
  intro x y x0 x1 y0 y1
  refine ⟨⟨a.levlnbr, x, 1⟩, ⟨a.levlnbr, y, 1⟩, ?_, ?_, ?_⟩
  · simp only [ops, term]; rw [if_pos x1]; rfl
  · simp only [ops, term]; rw [if_pos y1]; rfl
  · exact leaf_dist_ok h x y x0 x1 y0 y1

theorem leafDist_metric (h : WF a) : IsMetric a.termnbr (leafDist a) := by
  intro x y z x0 x1 y0 y1 z0 z1
  have nn : ∀ u v, 0 ≤ leafDist a u v := by
    intro u v
    apply sumI_nonneg
    intro i i0 i1
    have := h.link i i0 i1
    split <;> omega
  refine ⟨nn x y, ?_, ?_, ?_⟩
  · unfold leafDist
    apply sumI_congr
    intro i _ _
    simp only [eq_comm]
  · constructor
    · intro h0
      by_contra hne
      -- the last level contributes
      by_cases hl : a.levlnbr = 0
      · have ht := h.term
        have : span a 0 = 1 := by rw [← hl]; exact span_top
        omega
      · have hlev := h.lev
        unfold leafDist at h0
        rw [sumI_split (show 0 ≤ a.levlnbr - 1 by omega) (show a.levlnbr - 1 ≤ a.levlnbr by omega)] at h0
        have e := sumI_succ (lo := a.levlnbr - 1) (i := a.levlnbr - 1) (by omega)
          (fun l => if x / span a (l + 1) = y / span a (l + 1) then 0 else a.linktab.get l)
        rw [show a.levlnbr - 1 + 1 = a.levlnbr by omega, sumI_empty (lo := a.levlnbr - 1) (hi := a.levlnbr - 1) (by omega), span_top, Int.ediv_one, Int.ediv_one,
          if_neg hne] at e
        rw [e] at h0
        have l1 := h.link (a.levlnbr - 1) (by omega) (by omega)
        have l2 : 0 ≤ sumI 0 (a.levlnbr - 1)
            (fun l => if x / span a (l + 1) = y / span a (l + 1) then 0 else a.linktab.get l) := by
          apply sumI_nonneg
          intro i i0 i1
          have := h.link i i0 (by omega)
          split <;> omega
        omega
    · rintro rfl
      exact leafDist_self x
  · unfold leafDist
    rw [← sumI_add_dist]
    apply sumI_mono
    intro i i0 i1
    have := h.link i i0 i1
    by_cases e1 : x / span a (i + 1) = y / span a (i + 1)
    · rw [e1]; simp
    · rw [if_neg e1]
      split <;> split <;> omega

/-! ### Labelled leaves -/

theorem block_mod {p x y : Int} (hp : 1 ≤ p) (hy0 : 0 ≤ y) (hy1 : y < p) :
    (x - x % p + y) % p = y ∧ (x - x % p + y) - (x - x % p + y) % p = x - x % p := by
  have e := Int.mul_ediv_add_emod x p
  have : (x - x % p + y) = y + (x / p) * p := by rw [Int.mul_comm (x / p)]; omega
  have h1 : (x - x % p + y) % p = y := by
    rw [this, Int.add_mul_emod_self_right, Int.emod_eq_of_lt hy0 hy1]
  exact ⟨h1, by omega⟩

theorem block_range {p x y n : Int} (hp : 1 ≤ p) (hn : p ∣ n) (hx0 : 0 ≤ x) (hx1 : x < n) (hy0 : 0 ≤ y)
    (hy1 : y < p) : 0 ≤ x - x % p + y ∧ x - x % p + y < n := by
  obtain ⟨q, rfl⟩ := hn
  have e := Int.mul_ediv_add_emod x p
  have hq : x / p < q := Int.ediv_lt_of_lt_mul (by omega) (by rw [Int.mul_comm]; exact hx1)
  have h0 : 0 ≤ x / p := Int.ediv_nonneg hx0 (by omega)
  have : p * (x / p) + p ≤ p * q := by nlinarith
  have : 0 ≤ p * (x / p) := Int.mul_nonneg (by omega) h0
  omega

theorem label_place (h : WFL a) (k : Int) : label a (place a k) = k := by
  have hp := h.nbr
  have m0 := Int.emod_nonneg k (show a.permnbr ≠ 0 by omega)
  have m1 := Int.emod_lt_of_pos k (show 0 < a.permnbr by omega)
  obtain ⟨p0, p1, p2⟩ := h.peri _ m0 m1
  obtain ⟨e1, e2⟩ := block_mod (x := k) hp p0 p1
  unfold label
  unfold place
  rw [e2, e1, p2]
  omega

theorem place_label (h : WFL a) (k : Int) : place a (label a k) = k := by
  have hp := h.nbr
  have m0 := Int.emod_nonneg k (show a.permnbr ≠ 0 by omega)
  have m1 := Int.emod_lt_of_pos k (show 0 < a.permnbr by omega)
  obtain ⟨p0, p1, p2⟩ := h.perm _ m0 m1
  obtain ⟨e1, e2⟩ := block_mod (x := k) hp p0 p1
  unfold place
  unfold label
  rw [e2, e1, p2]
  omega

theorem label_range (h : WFL a) (x : Int) (h0 : 0 ≤ x) (h1 : x < a.termnbr) :
    0 ≤ label a x ∧ label a x < a.termnbr := by
  have hp := h.nbr
  have m0 := Int.emod_nonneg x (show a.permnbr ≠ 0 by omega)
  have m1 := Int.emod_lt_of_pos x (show 0 < a.permnbr by omega)
  obtain ⟨p0, p1, p2⟩ := h.perm _ m0 m1
  exact block_range hp h.dvd h0 h1 p0 p1

theorem place_range (h : WFL a) (x : Int) (h0 : 0 ≤ x) (h1 : x < a.termnbr) :
    0 ≤ place a x ∧ place a x < a.termnbr := by
  have hp := h.nbr
  have m0 := Int.emod_nonneg x (show a.permnbr ≠ 0 by omega)
  have m1 := Int.emod_lt_of_pos x (show 0 < a.permnbr by omega)
  obtain ⟨p0, p1, p2⟩ := h.peri _ m0 m1
  exact block_range hp h.dvd h0 h1 p0 p1

theorem hasL_iff (h : WFL a) (d : Dom) (k : Int) : HasL a d k ↔ Has a d (place a k) := by
  constructor
  · rintro ⟨x, hx, rfl⟩; rwa [place_label h]
  · intro hk; exact ⟨_, hk, label_place h k⟩

theorem termL_eq (h : WFL a) (k : Int) (h0 : 0 ≤ k) (h1 : k < a.termnbr) :
    termL a k = .ok (some ⟨a.levlnbr, place a k, 1⟩) := by
  have hp := h.nbr
  have m0 := Int.emod_nonneg k (show a.permnbr ≠ 0 by omega)
  have m1 := Int.emod_lt_of_pos k (show 0 < a.permnbr by omega)
  have i0 := h.ilo
  have i1 := h.ihi
  simp only [termL]
  rw [if_pos h1, if_neg (by omega), Int.tmod_eq_emod_of_nonneg h0, Arr.rd_ok _ (by omega) (by omega)]
  rfl

theorem numL_eq (h : WFL a) (d : Dom) (hd : Valid a d) :
    numL a d = .ok (label a (d.indxmin * span a d.levlnum)) := by
  have hp := h.nbr
  have hs := span_pos h.wf d.levlnum hd.lev0
  have h0 : 0 ≤ d.indxmin * span a d.levlnum := Int.mul_nonneg hd.min (by omega)
  have m0 := Int.emod_nonneg (d.indxmin * span a d.levlnum) (show a.permnbr ≠ 0 by omega)
  have m1 := Int.emod_lt_of_pos (d.indxmin * span a d.levlnum) (show 0 < a.permnbr by omega)
  have i0 := h.plo
  have i1 := h.phi
  simp only [numL, sizeFrom_spec h.wf d.levlnum hd.lev0 hd.lev1, bind, Except.bind]
  rw [if_neg (by omega), Int.tmod_eq_emod_of_nonneg h0, Arr.rd_ok _ (by omega) (by omega)]
  rfl

theorem addLawsL (h : WFL a) :
    AddLaws (opsL a) a.termnbr (fun _ => 1) (Valid a) (HasL a) (fun d => d.indxnbr * span a d.levlnum)
      (fun d => d.indxnbr * span a d.levlnum) := by
  have b := addLaws h.wf
  refine ⟨?_, ?_, b.size, b.wght, b.size_pos, ?_, ?_, ?_, ?_⟩
  · rintro d k hd ⟨x, hx, rfl⟩
    have := b.within d x hd hx
    exact label_range h x this.1 this.2
  · refine b.frst.mono ?_
    rintro d ⟨h1, h2⟩
    refine ⟨h1, fun k k0 k1 => ?_⟩
    rw [hasL_iff h]
    have := place_range h k k0 k1
    exact h2 _ this.1 this.2
  · intro d hd
    refine (b.bipart d hd).mono ?_
    intro r hr
    cases r with
    | none =>
      obtain ⟨h1, k, h2, h3⟩ := hr
      refine ⟨h1, label a k, h2, fun j => ?_⟩
      rw [hasL_iff h, h3]
      constructor
      · rintro rfl; rw [label_place h]
      · rintro rfl; rw [place_label h]
    | some p =>
      obtain ⟨h1, h2, h3, h4, h5, h6⟩ := hr
      refine ⟨h1, h2, h3, h4, fun k => ?_, fun k => ?_⟩
      · rw [hasL_iff h, hasL_iff h, hasL_iff h, h5]
      · rw [hasL_iff h, hasL_iff h]; exact h6 _
  · intro d hd
    simp only [opsL]
    rw [numL_eq h d hd, Holds_ok]
    refine ⟨_, ?_, rfl⟩
    have := hd.nbr
    have := span_pos h.wf d.levlnum hd.lev0
    unfold Has
    rw [Int.mul_ediv_cancel _ (by omega)]
    omega
  · intro k k0 k1
    simp only [opsL]
    rw [termL_eq h k k0 k1, Holds_ok]
    have hpl := place_range h k k0 k1
    obtain ⟨r, e, d, rfl, hv, hd, hu⟩ := Holds_iff_exists.1 (b.term (place a k) hpl.1 hpl.2)
    have e' : (ops a).term (place a k) = .ok (some ⟨a.levlnbr, place a k, 1⟩) := by
      simp only [ops, term]; rw [if_pos hpl.2]; rfl
    rw [e'] at e
    injection e with e
    injection e with e
    subst e
    refine ⟨_, rfl, hv, fun j => ?_, fun d' hv' hd' => hu d' hv' fun j => ?_⟩
    · rw [hasL_iff h, hd]
      constructor
      · intro e; rw [← label_place h j, e, label_place h]
      · rintro rfl; rfl
    · have := hd' (label a j)
      rw [hasL_iff h, place_label h] at this
      rw [this]
      constructor
      · rintro rfl; rw [place_label h]
      · rintro rfl; rw [label_place h]
  · intro k hk
    simp only [opsL, termL]
    rw [if_neg (by omega)]
    simp

theorem distLawL (h : WFL a) : DistLaw (opsL a) a.termnbr (fun x y => leafDist a (place a x) (place a y)) := by
  intro x y x0 x1 y0 y1
  have px := place_range h x x0 x1
  have py := place_range h y y0 y1
  exact ⟨_, _, termL_eq h x x0 x1, termL_eq h y y0 y1, leaf_dist_ok h.wf _ _ px.1 px.2 py.1 py.2⟩

end Scotch.Arch.Tleaf
