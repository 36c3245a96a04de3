import Verif.Arch.Generic
import Verif.Arch.Model
import Verif.Arch.Domains
import Verif.Arch.LemmasCmplt
import Verif.Sort.Props
import Mathlib.Order.Interval.Multiset
import Mathlib.Data.Int.Interval
import Mathlib.Tactic.Abel
import Mathlib.Algebra.BigOperators.Group.Multiset.Basic

/-! # Weighted complete graphs: laws, and construction -/

set_option autoImplicit false
set_option linter.unusedSimpArgs false

namespace Scotch

/-- Multiset of the cells `[lo, hi)` of an array. -/
def bag {α : Type} (a : Arr α) (lo hi : Int) : Multiset α := (Multiset.Ico lo hi).map a.get

section bag
variable {α : Type} (a b : Arr α)

theorem bag_empty {lo hi : Int} (h : hi ≤ lo) : bag a lo hi = 0 := by
  unfold bag
  rw [Multiset.Ico_eq_zero_iff.2 (by omega)]
  rfl

theorem bag_single (i : Int) : bag a i (i + 1) = {a.get i} := by
  unfold bag
  have : Multiset.Ico i (i + 1) = {i} := by
    show (Finset.Ico i (i + 1)).val = _
    have : Finset.Ico i (i + 1) = {i} := by ext x; simp; omega
    rw [this]; rfl
  rw [this]; rfl

theorem bag_split {lo m hi : Int} (h1 : lo ≤ m) (h2 : m ≤ hi) : bag a lo hi = bag a lo m + bag a m hi := by
  unfold bag
  rw [← Multiset.map_add, Multiset.Ico_add_Ico_eq_Ico h1 h2]

theorem bag_congr {lo hi : Int} (h : ∀ i, lo ≤ i → i < hi → a.get i = b.get i) : bag a lo hi = bag b lo hi := by
  unfold bag
  apply Multiset.map_congr rfl
  intro i hi
  rw [Multiset.mem_Ico] at hi
  exact h i hi.1 hi.2

theorem bag_shift {lo hi k : Int} (h : ∀ i, lo ≤ i → i < hi → a.get i = b.get (i + k)) :
    bag a lo hi = bag b (lo + k) (hi + k) := by
  have hm : Multiset.Ico (lo + k) (hi + k) = (Multiset.Ico lo hi).map (fun i => i + k) := by
    have := congrArg Finset.val (Finset.map_add_right_Ico lo hi k)
    rw [Finset.map_val] at this
    exact this.symm
  unfold bag
  rw [hm, Multiset.map_map]
  apply Multiset.map_congr rfl
  intro i hi
  rw [Multiset.mem_Ico] at hi
  exact h i hi.1 hi.2

theorem mem_bag {lo hi : Int} (x : α) : x ∈ bag a lo hi ↔ ∃ i, lo ≤ i ∧ i < hi ∧ a.get i = x := by
  unfold bag
  rw [Multiset.mem_map]
  constructor
  · rintro ⟨i, h, rfl⟩
    rw [Multiset.mem_Ico] at h
    exact ⟨i, h.1, h.2, rfl⟩
  · rintro ⟨i, h1, h2, rfl⟩
    exact ⟨i, Multiset.mem_Ico.2 ⟨h1, h2⟩, rfl⟩

theorem bag_perm {lo hi : Int} (h : PermOn a b lo hi) : bag b lo hi = bag a lo hi := by
  obtain ⟨-, -, f, hf, hg⟩ := h
  have hin : ∀ i, lo ≤ i ∧ i < hi ↔ lo ≤ f i ∧ f i < hi := by
    intro i
    constructor
    · intro h
      by_contra hc
      have := hf _ hc
      have := f.injective this
      rw [this] at hc
      exact hc h
    · intro h
      by_contra hc
      rw [hf i hc] at h
      exact hc h
  have hmap : (Finset.Ico lo hi).map f.toEmbedding = Finset.Ico lo hi := by
    ext x
    simp only [Finset.mem_map, Finset.mem_Ico, Equiv.coe_toEmbedding]
    constructor
    · rintro ⟨y, hy, rfl⟩; exact (hin y).1 hy
    · intro hx
      exact ⟨f.symm x, (hin _).2 (by simpa using hx), by simp⟩
  unfold bag
  have e : (Multiset.Ico lo hi).map b.get = ((Multiset.Ico lo hi).map f).map a.get := by
    rw [Multiset.map_map]
    exact Multiset.map_congr rfl (fun i _ => hg i)
  rw [e]
  congr 1
  have := congrArg Finset.val hmap
  rwa [Finset.map_val] at this

end bag

namespace Arch.Cmpltw

variable {a : Arch} {w : Int → Int}

theorem sumI_one (i : Int) (f : Int → Int) : sumI i (i + 1) f = f i := by
  rw [sumI_succ (Int.le_refl i), sumI_empty (Int.le_refl i)]; omega

theorem bipart_spec (h : WF a w) (d : Dom) (hd : Valid a d) :
    Holds (bipart a d) (fun r => match r with
    | none => d.vertnbr = 1
    | some (d0, d1) => Valid a d0 ∧ Valid a d1 ∧ d0.vertmin = d.vertmin ∧ d1.vertmin = d.vertmin + d0.vertnbr ∧
        d.vertnbr = d0.vertnbr + d1.vertnbr ∧ d.veloval = d0.veloval + d1.veloval) := by
  obtain ⟨g1, g2, g3, g4⟩ := hd
  have hlo := h.lo
  have hhi := h.hi
  unfold bipart
  split
  · simp only [Holds_pure]; omega
  · simp only [Holds_bind]
    rw [Holds_rd]
    refine ⟨⟨by omega, by omega⟩, ?_⟩
    have : Holds (bipartLoop a d.vertmin (d.veloval.tdiv 2) (d.vertnbr.toNat + 1) (d.vertmin + d.vertnbr - 1 - 1)
        (a.velotab.get (d.vertmin + d.vertnbr - 1)).1) (fun r => d.vertmin ≤ r.1 ∧ r.1 ≤ d.vertmin + d.vertnbr - 2 ∧
          r.2 = sumI (r.1 + 1) (d.vertmin + d.vertnbr) (fun i => (a.velotab.get i).1)) := by
      unfold bipartLoop
      apply Holds_loopM (fun r => d.vertmin ≤ r.1 ∧ r.1 ≤ d.vertmin + d.vertnbr - 2 ∧
          r.2 = sumI (r.1 + 1) (d.vertmin + d.vertnbr) (fun i => (a.velotab.get i).1))
          (fun r => (r.1 - d.vertmin).toNat)
      · rintro ⟨v, s⟩ ⟨b1, b2, b3⟩
        dsimp only at b1 b2 b3
        split
        · rename_i hv
          dsimp only at hv ⊢
          simp only [Holds_bind]
          rw [Holds_rd]
          refine ⟨⟨by omega, by omega⟩, ?_⟩
          split
          · simp only [Holds_pure, Loop.Sat]
            exact ⟨b1, b2, b3⟩
          · simp only [Holds_pure, Loop.Sat]
            refine ⟨⟨by omega, by omega, ?_⟩, by omega⟩
            rw [sumI_split (show v - 1 + 1 ≤ v + 1 by omega) (show v + 1 ≤ d.vertmin + d.vertnbr by omega),
              show v - 1 + 1 = v by omega, sumI_one, b3]
            omega
        · simp only [Holds_pure, Loop.Sat]
          exact ⟨b1, b2, b3⟩
      · refine ⟨by (try dsimp only); omega, by (try dsimp only); omega, ?_⟩
        (try dsimp only)
        have := sumI_one (d.vertmin + d.vertnbr - 1) (fun i => (a.velotab.get i).1)
        rw [show d.vertmin + d.vertnbr - 1 + 1 = d.vertmin + d.vertnbr by omega] at this
        rw [show d.vertmin + d.vertnbr - 1 - 1 + 1 = d.vertmin + d.vertnbr - 1 by omega, this]
      · (try dsimp only); omega
    refine this.mono ?_
    rintro ⟨v, s⟩ ⟨b1, b2, b3⟩
    dsimp only at b1 b2 b3 ⊢
    simp only [Holds_pure]
    have hs := sumI_split (show d.vertmin ≤ v + 1 by omega) (show v + 1 ≤ d.vertmin + d.vertnbr by omega)
      (fun i => (a.velotab.get i).1)
    refine ⟨⟨g1, by (try dsimp only); omega, by (try dsimp only); omega, ?_⟩,
      ⟨by (try dsimp only); omega, by (try dsimp only); omega, by (try dsimp only); omega, ?_⟩, trivial, ?_, ?_, ?_⟩
    · (try dsimp only)
      rw [show d.vertmin + (v + 1 - d.vertmin) = v + 1 by omega, g4, b3]
      omega
    · (try dsimp only)
      rw [b3]
      congr 1
      omega
    · (try dsimp only); omega
    · (try dsimp only); omega
    · (try dsimp only); omega

theorem addLaws (h : WF a w) :
    AddLaws (ops a) a.vertnbr w (Valid a) (Has a) (fun d => d.vertnbr) (fun d => d.veloval) where
  within := by
    rintro d k hd ⟨i, h1, h2, rfl⟩
    have := hd.min
    have := hd.max
    have := h.inj.range i (by omega) (by omega)
    simpa using this
  frst := by
    simp only [ops, frst, Holds_pure]
    have hn := h.nbr
    refine ⟨⟨by simp, hn, by simp, ?_⟩, ?_⟩
    · simp [h.sum]
    · intro k h0 h1
      obtain ⟨i, i0, i1, e⟩ := h.inj.surj k h0 (by omega)
      exact ⟨i, i0, by simpa using i1, e⟩
  size := by intro d _; simp [ops, size]
  wght := by intro d _; simp [ops, wght]
  size_pos := fun d hd => hd.nbr
  bipart := by
    intro d hd
    refine (bipart_spec h d hd).mono ?_
    intro r hr
    cases r with
    | none =>
      dsimp only at hr
      refine ⟨hr, (a.velotab.get d.vertmin).2, ?_, ?_⟩
      · rw [hd.velo, hr, sumI_one]
        have := hd.min
        have := hd.max
        exact h.velo _ (by omega) (by omega)
      · intro j
        constructor
        · rintro ⟨i, i0, i1, rfl⟩
          rw [show i = d.vertmin by omega]
        · rintro rfl
          exact ⟨d.vertmin, by omega, by omega, rfl⟩
    | some p =>
      obtain ⟨d0, d1⟩ := p
      obtain ⟨v0, v1, e1, e2, e3, e4⟩ := hr
      have b0 := v0.nbr
      have b1 := v1.nbr
      have m0 := hd.min
      have m1 := hd.max
      refine ⟨v0, v1, e3, e4, ?_, ?_⟩
      · intro k
        constructor
        · rintro ⟨i, i0, i1, rfl⟩
          by_cases hc : i < d1.vertmin
          · exact .inl ⟨i, by omega, by omega, rfl⟩
          · exact .inr ⟨i, by omega, by omega, rfl⟩
        · rintro (⟨i, i0, i1, rfl⟩ | ⟨i, i0, i1, rfl⟩)
          · exact ⟨i, by omega, by omega, rfl⟩
          · exact ⟨i, by omega, by omega, rfl⟩
      · rintro k ⟨⟨i, i0, i1, rfl⟩, ⟨j, j0, j1, e⟩⟩
        have := h.inj.inj j i (by omega) (by omega) (by omega) (by omega) e
        omega
  num := by
    intro d hd
    have := hd.min
    have := hd.max
    have hn := hd.nbr
    have hlo := h.lo
    have hhi := h.hi
    simp only [ops, num, Holds_bind, Holds_pure]
    rw [Holds_rd]
    exact ⟨⟨by omega, by omega⟩, d.vertmin, by omega, by omega, rfl⟩
  term := by
    intro k k0 k1
    have hlo := h.lo
    have hhi := h.hi
    simp only [ops, term]
    rw [if_pos k1]
    simp only [Holds_bind]
    apply Holds_forUpB (fun i _ => ∀ j, 0 ≤ j → j < i → (a.velotab.get j).2 ≠ k)
      (fun v => 0 ≤ v ∧ v < a.vertnbr ∧ (a.velotab.get v).2 = k) (by have := h.nbr; omega)
    · intro j j0 j1; omega
    · intro i s i0 i1 hI
      simp only [Holds_bind]
      rw [Holds_rd]
      refine ⟨⟨by omega, by omega⟩, ?_⟩
      split
      · rename_i he
        simp only [Holds_pure, Loop.Sat]
        exact ⟨i0, i1, he⟩
      · rename_i he
        simp only [Holds_pure, Loop.Sat]
        intro j j0 j1
        by_cases hj : j = i
        · rw [hj]; exact he
        · exact hI j j0 (by omega)
    · intro _ hI
      obtain ⟨i, i0, i1, e⟩ := h.inj.surj k k0 (by omega)
      exact absurd e (hI i i0 (by omega))
    · rintro v ⟨v0, v1, e⟩
      simp only [Holds_bind]
      rw [Holds_rd]
      refine ⟨⟨by omega, by omega⟩, ?_⟩
      simp only [Holds_pure]
      refine ⟨_, rfl, ⟨v0, by simp, by (try dsimp only); omega, by (try dsimp only); rw [sumI_one]⟩, ?_, ?_⟩
      · intro j
        constructor
        · rintro ⟨i, i0, i1, rfl⟩
          dsimp only at i0 i1
          rw [show i = v by omega, e]
        · rintro rfl
          exact ⟨v, by simp, by simp, e⟩
      · rintro ⟨m, n, s⟩ hv hu
        have m0 : 0 ≤ m := hv.min
        have m1 : m + n ≤ a.vertnbr := hv.max
        have n1 : 1 ≤ n := hv.nbr
        have e1 := (hu _).1 ⟨m, by simp, by (try dsimp only); omega, rfl⟩
        have e2 := (hu _).1 ⟨m + n - 1, by (try dsimp only); omega, by (try dsimp only); omega, rfl⟩
        have q1 := h.inj.inj m v m0 (by omega) v0 (by omega) (by (try dsimp only); rw [e1, e])
        have q2 := h.inj.inj (m + n - 1) v (by omega) (by omega) v0 (by omega) (by (try dsimp only); rw [e2, e])
        have qn : n = 1 := by omega
        have hs := hv.velo
        dsimp only at hs
        subst q1 qn
        rw [hs, sumI_one]
  term_big := by
    intro k hk
    simp only [ops, term]
    rw [if_neg (by omega)]
    simp

theorem inclLaw (h : WF a w) : InclLaw (ops a) (Valid a) (Has a) := by
  intro d0 d1 h0 h1
  simp only [ops, incl, Holds_pure, decide_eq_true_iff]
  have a1 := h0.min
  have a2 := h0.max
  have b1 := h1.min
  have b2 := h1.max
  have b3 := h1.nbr
  constructor
  · rintro ⟨e1, e2⟩ k ⟨i, i0, i1, rfl⟩
    exact ⟨i, by omega, by omega, rfl⟩
  · intro hall
    have key : ∀ i, d1.vertmin ≤ i → i < d1.vertmin + d1.vertnbr →
        d0.vertmin ≤ i ∧ i < d0.vertmin + d0.vertnbr := by
      intro i i0 i1
      obtain ⟨j, j0, j1, e⟩ := hall _ ⟨i, i0, i1, rfl⟩
      have := h.inj.inj j i (by omega) (by omega) (by omega) (by omega) e
      omega
    have q1 := key d1.vertmin (by omega) (by omega)
    have q2 := key (d1.vertmin + d1.vertnbr - 1) (by omega) (by omega)
    omega

theorem distLaw (h : WF a w) : DistLaw (ops a) a.vertnbr (fun x y => if x = y then 0 else 1) := by
  intro x y x0 x1 y0 y1
  obtain ⟨rx, ex, dx, rfl, vx, hx, ux⟩ := Holds_iff_exists.1 ((addLaws h).term x x0 x1)
  obtain ⟨ry, ey, dy, rfl, vy, hy, uy⟩ := Holds_iff_exists.1 ((addLaws h).term y y0 y1)
  refine ⟨dx, dy, ex, ey, ?_⟩
  simp only [ops, dist]
  obtain ⟨i, i0, i1, ei⟩ := (hx x).2 rfl
  obtain ⟨j, j0, j1, ej⟩ := (hy y).2 rfl
  by_cases e : x = y
  · subst e
    have : dx = dy := uy dx vx hx
    subst this
    simp
    rfl
  · rw [if_neg e]
    rw [if_neg]
    · rfl
    · rintro ⟨e1, e2⟩
      have := (hy x).1 ⟨i, by omega, by omega, ei⟩
      exact e this

/-! ### Construction -/

theorem move_holds {α : Type} (dst src : Arr α) (p q n : Int) (hn : 0 ≤ n) (h1 : dst.lo ≤ p) (h2 : p + n ≤ dst.hi)
    (h3 : src.lo ≤ q) (h4 : q + n ≤ src.hi) :
    Holds (move dst p src q n) (fun r => r.lo = dst.lo ∧ r.hi = dst.hi ∧
      (∀ i, p ≤ i → i < p + n → r.get i = src.get (i + (q - p))) ∧
      ∀ i, ¬ (p ≤ i ∧ i < p + n) → r.get i = dst.get i) := by
  unfold move
  rw [if_pos ⟨hn, .inr ⟨h1, h2, h3, h4⟩⟩]
  refine ⟨rfl, rfl, ?_, ?_⟩
  · intro i i0 i1
    (try dsimp only)
    rw [if_pos ⟨i0, i1⟩]
    congr 1
    omega
  · intro i hi
    (try dsimp only)
    rw [if_neg hi]

/-- Invariant of the loop of `archCmpltwArchBuild3`: `v` records are still to be dispatched. -/
structure BInv (velo veso : Arr Rec) (off n v : Int) (s : BState) : Prop where
  vlo : s.velo.lo = velo.lo
  vhi : s.velo.hi = velo.hi
  slo : s.veso.lo = veso.lo
  shi : s.veso.hi = veso.hi
  out : ∀ i, ¬ (off ≤ i ∧ i < off + n) → s.velo.get i = velo.get i
  b0 : v - 1 ≤ s.ver0num
  c0 : s.ver0num ≤ n - 2
  c1 : s.ver1num ≤ n - 1
  cnt : (n - 1 - s.ver0num) + (n - 1 - s.ver1num) = n - v
  one : v ≤ n - 2 → s.ver1num ≤ n - 2
  init : v = n - 1 → s.vel1sum < s.vel0sum
  bag : bag s.velo off (off + v) + bag s.velo (off + s.ver0num + 1) (off + n)
    + bag s.veso (off + s.ver1num + 1) (off + n) = bag velo off (off + n)

theorem bag_wr_out {α : Type} {a : Arr α} {i lo hi : Int} (v : α) (h : ¬ (lo ≤ i ∧ i < hi)) :
    Scotch.bag (a.set i v) lo hi = Scotch.bag a lo hi := by
  apply bag_congr
  intro j h1 h2
  rw [Arr.set_get_ne]
  intro e
  subst e
  exact h ⟨h1, h2⟩

theorem bag_cons {α : Type} (a : Arr α) {lo hi : Int} (h : lo < hi) :
    Scotch.bag a lo hi = {a.get lo} + Scotch.bag a (lo + 1) hi := by
  rw [bag_split a (show lo ≤ lo + 1 by omega) (by omega), bag_single]

theorem bag_snoc {α : Type} (a : Arr α) {lo hi : Int} (h : lo < hi) :
    Scotch.bag a lo hi = Scotch.bag a lo (hi - 1) + {a.get (hi - 1)} := by
  rw [bag_split a (show lo ≤ hi - 1 by omega) (by omega)]
  have := bag_single a (hi - 1)
  rw [show hi - 1 + 1 = hi by omega] at this
  rw [this]

theorem buildStep_spec (velo veso : Arr Rec) (off n v : Int) (s : BState) (h1 : velo.lo ≤ off)
    (h2 : off + n ≤ velo.hi) (h3 : veso.lo ≤ off) (h4 : off + n ≤ veso.hi) (hv : 1 ≤ v)
    (hI : BInv velo veso off n v s) :
    Holds (buildStep off (v - 1) s) (fun s' => BInv velo veso off n (v - 1) s') := by
  obtain ⟨i1, i2, i3, i4, i5, i6, i7, i8, i9, i10, i11, i12⟩ := hI
  unfold buildStep
  simp only [Holds_bind]
  rw [Holds_rd]
  refine ⟨⟨by omega, by omega⟩, ?_⟩
  have hb := bag_snoc s.velo (lo := off) (hi := off + v) (by omega)
  rw [show off + v - 1 = off + (v - 1) by omega] at hb
  split
  · rename_i hlt
    simp only [Holds_bind]
    rw [Holds_wr]
    refine ⟨⟨by omega, by omega⟩, ?_⟩
    simp only [Holds_pure]
    refine ⟨i1, i2, i3, i4, i5, by (try dsimp only); omega, i7, by (try dsimp only); omega, by (try dsimp only); omega,
      by (try dsimp only); omega, by (try dsimp only); omega, ?_⟩
    (try dsimp only)
    rw [show off + (s.ver1num - 1) + 1 = off + s.ver1num by omega, bag_cons (s.veso.set _ _) (lo := off + s.ver1num) (by omega), Arr.set_get_same,
      bag_wr_out _ (by omega), ← i12, hb]
    abel
  · rename_i hge
    simp only [Holds_bind]
    rw [Holds_wr]
    refine ⟨⟨by omega, by omega⟩, ?_⟩
    simp only [Holds_pure]
    refine ⟨i1, i2, i3, i4, ?_, by (try dsimp only); omega, by (try dsimp only); omega, by (try dsimp only); omega,
      by (try dsimp only); omega, by (try dsimp only); omega, by (try dsimp only); omega, ?_⟩
    · intro i hi
      (try dsimp only)
      rw [Arr.set_get_ne _ _ (by omega)]
      exact i5 i hi
    · (try dsimp only)
      rw [show off + (s.ver0num - 1) + 1 = off + s.ver0num by omega, bag_cons (s.velo.set _ _) (lo := off + s.ver0num) (by omega),
        Arr.set_get_same, bag_wr_out _ (by omega), bag_wr_out _ (by omega), ← i12, hb]
      abel

theorem buildMerge_spec (velo veso : Arr Rec) (off n : Int) (s : BState) (h1 : velo.lo ≤ off)
    (h2 : off + n ≤ velo.hi) (h3 : veso.lo ≤ off) (h4 : off + n ≤ veso.hi) (hn : 2 ≤ n)
    (hI : BInv velo veso off n 0 s) :
    Holds (buildMerge off n s) (fun r => r.1.lo = velo.lo ∧ r.1.hi = velo.hi ∧ 1 ≤ r.2 ∧ r.2 ≤ n - 1 ∧
      (∀ i, ¬ (off ≤ i ∧ i < off + n) → r.1.get i = velo.get i) ∧
      Scotch.bag r.1 off (off + n) = Scotch.bag velo off (off + n)) := by
  obtain ⟨i1, i2, i3, i4, i5, i6, i7, i8, i9, i10, i11, i12⟩ := hI
  have i10 := i10 (by omega)
  unfold buildMerge
  split
  · simp only [Holds_bind, Holds_pure]
    refine (move_holds s.velo s.velo _ _ _ (by omega) (by omega) (by omega) (by omega) (by omega)).mono ?_
    rintro m ⟨m1, m2, m3, m4⟩
    refine (move_holds m s.veso _ _ _ (by omega) (by omega) (by omega) (by omega) (by omega)).mono ?_
    rintro r ⟨r1, r2, r3, r4⟩
    (try dsimp only)
    refine ⟨by omega, by omega, by omega, by omega, ?_, ?_⟩
    · intro i hi
      rw [r4 i (by omega), m4 i (by omega), i5 i hi]
    · rw [← i12, bag_empty _ (show off + 0 ≤ off by omega), zero_add,
        bag_split r (show off ≤ off + (n - s.ver0num - 1) by omega) (by omega)]
      congr 1
      · rw [bag_shift r s.velo (k := n - (n - s.ver0num - 1))]
        · congr 1 <;> omega
        · intro i a1 a2
          rw [r4 i (by omega), m3 i a1 a2]
          congr 1
          omega
      · rw [show off + s.ver1num + 1 = off + (n - s.ver0num - 1) by omega]
        apply bag_congr
        intro i a1 a2
        rw [r3 i a1 (by omega)]
        congr 1
        omega
  · simp only [Holds_bind, Holds_pure]
    refine (move_holds s.velo s.veso _ _ _ (by omega) (by omega) (by omega) (by omega) (by omega)).mono ?_
    rintro r ⟨m1, m2, m3, m4⟩
    (try dsimp only)
    refine ⟨by omega, by omega, by omega, by omega, ?_, ?_⟩
    · intro i hi
      rw [m4 i (by omega), i5 i hi]
    · rw [← i12, bag_empty _ (show off + 0 ≤ off by omega), zero_add,
        bag_split r (show off ≤ off + (n - s.ver1num - 1) by omega) (by omega), add_comm]
      congr 1
      · rw [show off + s.ver0num + 1 = off + (n - s.ver1num - 1) by omega]
        apply bag_congr
        intro i a1 a2
        rw [m4 i (by omega)]
      · rw [bag_shift r s.veso (k := n - (n - s.ver1num - 1))]
        · congr 1 <;> omega
        · intro i a1 a2
          rw [m3 i a1 a2]
          congr 1
          omega

/-- `archCmpltwArchBuild3` rearranges the records. -/
theorem build3_spec : ∀ (fuel : Nat) (off n : Int) (velo veso : Arr Rec), n.toNat < fuel → 2 ≤ n →
    velo.lo ≤ off → off + n ≤ velo.hi → veso.lo ≤ off → off + n ≤ veso.hi →
    (∀ x ∈ Scotch.bag velo off (off + n), 0 < x.1) →
    Holds (build3 fuel off n velo veso) (fun r => r.1.lo = velo.lo ∧ r.1.hi = velo.hi ∧
      r.2.lo = veso.lo ∧ r.2.hi = veso.hi ∧
      (∀ i, ¬ (off ≤ i ∧ i < off + n) → r.1.get i = velo.get i) ∧
      Scotch.bag r.1 off (off + n) = Scotch.bag velo off (off + n))
  | 0, _, _, _, _, h, _, _, _, _, _, _ => by omega
  | fuel + 1, off, n, velo, veso, hf, hn, h1, h2, h3, h4, hp => by
    simp only [build3, Holds_bind]
    rw [Holds_rd]
    refine ⟨⟨by omega, by omega⟩, ?_⟩
    apply Holds_forUp (fun i s => BInv velo veso off n (n - 1 - i) s) (show 0 ≤ n - 1 by omega)
    · refine ⟨rfl, rfl, rfl, rfl, fun _ _ => rfl, by (try dsimp only); omega, by (try dsimp only); omega, by (try dsimp only); omega,
        by (try dsimp only); omega, by (try dsimp only); omega, ?_, ?_⟩
      · intro _
        (try dsimp only)
        apply hp
        rw [mem_bag]
        exact ⟨off + (n - 1), by omega, by omega, rfl⟩
      · (try dsimp only)
        rw [bag_empty veso (by omega), add_zero]
        rw [show off + (n - 1 - 0) = off + (n - 2) + 1 by omega, ← bag_split velo (by omega) (by omega)]
    · intro i s i0 i1 hI
      have := buildStep_spec velo veso off n (n - 1 - i) s h1 h2 h3 h4 (by omega) hI
      rw [show n - 1 - i - 1 = n - 2 - i by omega] at this
      rw [show n - 1 - (i + 1) = n - 2 - i by omega]
      exact this
    · intro s hI
      rw [show n - 1 - (n - 1) = 0 by omega] at hI
      have hslo := hI.slo
      have hshi := hI.shi
      refine (buildMerge_spec velo veso off n s h1 h2 h3 h4 hn hI).mono ?_
      rintro ⟨m, k⟩ ⟨m1, m2, m3, m4, m5, m6⟩
      dsimp only at m1 m2 m3 m4 m5 m6 ⊢
      have hpm : ∀ x ∈ Scotch.bag m off (off + n), 0 < x.1 := by rw [m6]; exact hp
      have cont : ∀ p q : Arr Rec, p.lo = m.lo → p.hi = m.hi → q.lo = veso.lo → q.hi = veso.hi →
          (∀ i, ¬ (off ≤ i ∧ i < off + k) → p.get i = m.get i) →
          Scotch.bag p off (off + k) = Scotch.bag m off (off + k) →
          Holds (if n - k > 2 then build3 fuel (off + k) (n - k) p q else pure (p, q))
            (fun r => r.1.lo = velo.lo ∧ r.1.hi = velo.hi ∧ r.2.lo = veso.lo ∧ r.2.hi = veso.hi ∧
              (∀ i, ¬ (off ≤ i ∧ i < off + n) → r.1.get i = velo.get i) ∧
              Scotch.bag r.1 off (off + n) = Scotch.bag velo off (off + n)) := by
        intro p q p1 p2 p3 p4 p5 p6
        have hrest : Scotch.bag p (off + k) (off + n) = Scotch.bag m (off + k) (off + n) := by
          apply bag_congr
          intro i a1 a2
          exact p5 i (by omega)
        have hall : Scotch.bag p off (off + n) = Scotch.bag velo off (off + n) := by
          rw [bag_split p (show off ≤ off + k by omega) (by omega), p6, hrest,
            ← bag_split m (by omega) (by omega), m6]
        have hout : ∀ i, ¬ (off ≤ i ∧ i < off + n) → p.get i = velo.get i := by
          intro i hi
          rw [p5 i (by omega), m5 i hi]
        split
        · have hpk : ∀ x ∈ Scotch.bag p (off + k) (off + k + (n - k)), 0 < x.1 := by
            intro x hx
            rw [show off + k + (n - k) = off + n by omega, hrest] at hx
            apply hpm
            rw [bag_split m (show off ≤ off + k by omega) (by omega)]
            exact Multiset.mem_add.2 (.inr hx)
          refine (build3_spec fuel (off + k) (n - k) p q (by omega) (by omega) (by omega) (by omega) (by omega)
            (by omega) hpk).mono ?_
          rintro ⟨r, q'⟩ ⟨r1, r2, r3, r4, r5, r6⟩
          dsimp only at r1 r2 r3 r4 r5 r6 ⊢
          refine ⟨by omega, by omega, by omega, by omega, ?_, ?_⟩
          · intro i hi
            rw [r5 i (by omega), hout i hi]
          · rw [show off + k + (n - k) = off + n by omega] at r6
            rw [bag_split r (show off ≤ off + k by omega) (by omega), r6, ← hall,
              bag_split p (show off ≤ off + k by omega) (show off + k ≤ off + n by omega)]
            congr 1
            apply bag_congr
            intro i a1 a2
            exact r5 i (by omega)
        · simp only [Holds_pure]
          exact ⟨by omega, by omega, p3, p4, hout, hall⟩
      split
      · have hpk : ∀ x ∈ Scotch.bag m off (off + k), 0 < x.1 := by
          intro x hx
          apply hpm
          rw [bag_split m (show off ≤ off + k by omega) (by omega)]
          exact Multiset.mem_add.2 (.inl hx)
        simp only [Holds_bind]
        refine (build3_spec fuel off k m s.veso (by omega) (by omega) (by omega) (by omega) (by omega)
          (by omega) hpk).mono ?_
        rintro ⟨p, q⟩ ⟨p1, p2, p3, p4, p5, p6⟩
        exact cont p q p1 p2 (by rw [← hslo]; exact p3) (by rw [← hshi]; exact p4) p5 p6
      · simp only [Holds_bind, Holds_pure]
        exact cont m s.veso rfl rfl hslo hshi (fun _ _ => rfl) rfl

/-- Records with the right bag give a well-formed architecture. -/
theorem wf_of_bag (n : Int) (hn : 1 ≤ n) (w : Int → Int) (hw : ∀ k, 0 ≤ k → k < n → 0 < w k) (t : Arr Rec)
    (hlo : t.lo ≤ 0) (hhi : n ≤ t.hi) (u : Arr Rec) (hu : ∀ i, 0 ≤ i → i < n → u.get i = (w i, i))
    (hb : Scotch.bag t 0 n = Scotch.bag u 0 n) : WF ⟨n, t, sumI 0 n w⟩ w := by
  have hrec : ∀ i, 0 ≤ i → i < n → ∃ k, 0 ≤ k ∧ k < n ∧ t.get i = (w k, k) := by
    intro i i0 i1
    have : t.get i ∈ Scotch.bag t 0 n := (mem_bag t _).2 ⟨i, i0, i1, rfl⟩
    rw [hb, mem_bag] at this
    obtain ⟨k, k0, k1, e⟩ := this
    exact ⟨k, k0, k1, by rw [← e, hu k k0 k1]⟩
  have hsnd : (Multiset.Ico 0 n).map (fun i => (t.get i).2) = Multiset.Ico 0 n := by
    have e1 : (Multiset.Ico 0 n).map (fun i => (t.get i).2) = (Scotch.bag t 0 n).map Prod.snd := by
      unfold Scotch.bag; rw [Multiset.map_map]; rfl
    rw [e1, hb]
    unfold Scotch.bag
    rw [Multiset.map_map]
    conv_rhs => rw [← Multiset.map_id (Multiset.Ico 0 n)]
    apply Multiset.map_congr rfl
    intro i hi
    rw [Multiset.mem_Ico] at hi
    simp [hu i hi.1 hi.2]
  refine ⟨hn, hlo, hhi, ⟨?_, ?_⟩, ?_, hw, ?_⟩
  · intro i i0 i1
    obtain ⟨k, k0, k1, e⟩ := hrec i i0 (by simpa using i1)
    simp only [e]
    omega
  · intro i j i0 i1 j0 j1 e
    have hnd : ((Multiset.Ico 0 n).map (fun i => (t.get i).2)).Nodup := by
      rw [hsnd]; exact Multiset.nodup_Ico
    exact Multiset.inj_on_of_nodup_map hnd i (by simp at i1 ⊢; omega) j (by simp at j1 ⊢; omega) e
  · intro i i0 i1
    obtain ⟨k, k0, k1, e⟩ := hrec i i0 i1
    simp only [e]
  · have e1 : sumI 0 n (fun i => (t.get i).1) = ((Scotch.bag t 0 n).map Prod.fst).sum := by
      unfold sumI Scotch.bag; rw [Multiset.map_map]; rfl
    have e2 : sumI 0 n w = ((Scotch.bag u 0 n).map Prod.fst).sum := by
      have : sumI 0 n w = sumI 0 n (fun i => (u.get i).1) := sumI_congr (fun i i0 i1 => by rw [hu i i0 i1])
      rw [this]
      unfold sumI Scotch.bag; rw [Multiset.map_map]; rfl
    rw [e1, e2, hb]

/-- `archCmpltwArchBuild` fails exactly when there is no processor or some weight is not positive, and
otherwise yields a well-formed architecture. -/
theorem build_spec (n : Int) (velotab : Arr Int) (junk : Int → Rec) (hlo : velotab.lo ≤ 0) (hhi : n ≤ velotab.hi)
    (hmax : n < 2 ^ 31) :
    Holds (build n velotab junk) (fun r => match r with
    | none => n ≤ 0 ∨ ∃ k, 0 ≤ k ∧ k < n ∧ velotab.get k ≤ 0
    | some a => a.vertnbr = n ∧ WF a velotab.get) := by
  unfold build
  split
  · simp only [Holds_pure]; exact .inl (by omega)
  · simp only [Holds_bind]
    apply Holds_forUpB (fun i (s : Arr Rec × Int) => s.1.lo = 0 ∧ s.1.hi = n ∧
      (∀ k, 0 ≤ k → k < i → s.1.get k = (velotab.get k, k) ∧ 0 < velotab.get k) ∧ s.2 = sumI 0 i velotab.get)
      (fun _ => ∃ k, 0 ≤ k ∧ k < n ∧ velotab.get k ≤ 0) (show 0 ≤ n by omega)
    · refine ⟨rfl, rfl, fun k _ _ => by omega, ?_⟩
      rw [sumI_empty (by omega)]
    · rintro i ⟨t, s⟩ i0 i1 ⟨a1, a2, a3, a4⟩
      dsimp only at a1 a2 a3 a4
      simp only [Holds_bind]
      rw [Holds_rd]
      refine ⟨⟨by omega, by omega⟩, ?_⟩
      split
      · rename_i hneg
        simp only [Holds_pure, Loop.Sat]
        exact ⟨i, i0, i1, hneg⟩
      · rename_i hpos
        simp only [Holds_bind]
        rw [Holds_wr]
        refine ⟨⟨by omega, by omega⟩, ?_⟩
        simp only [Holds_pure, Loop.Sat]
        refine ⟨a1, a2, ?_, by rw [sumI_succ i0, a4]⟩
        intro k k0 k1
        by_cases hk : k = i
        · subst hk
          rw [Arr.set_get_same]
          exact ⟨rfl, by omega⟩
        · rw [Arr.set_get_ne _ _ hk]
          exact a3 k k0 (by omega)
    · rintro ⟨t, s⟩ ⟨a1, a2, a3, a4⟩
      dsimp only at a1 a2 a3 a4 ⊢
      have hw : ∀ k, 0 ≤ k → k < n → 0 < velotab.get k := fun k k0 k1 => (a3 k k0 k1).2
      have hu : ∀ k, 0 ≤ k → k < n → t.get k = (velotab.get k, k) := fun k k0 k1 => (a3 k k0 k1).1
      simp only [Holds_bind, Holds_pure]
      unfold build2
      split
      · simp only [Holds_pure]
        refine ⟨trivial, ?_⟩
        rw [a4]
        exact wf_of_bag n (by omega) _ hw t (by omega) (by omega) t hu rfl
      · rename_i h3
        dsimp only at h3 ⊢
        simp only [Holds_bind, Holds_pure]
        refine (C02_intSort2asc2 t n (by omega) hmax (by omega) (by omega)).mono ?_
        rintro p ⟨hp, -⟩
        have hbp := bag_perm t p hp
        have e1 := hp.1
        have e2 := hp.2.1
        refine (build3_spec (n.toNat + 1) 0 n p ⟨0, n, junk⟩ (by omega) (by omega) (by omega) (by omega) (by simp)
          (by simp) ?_).mono ?_
        · intro x hx
          rw [Int.zero_add, hbp, mem_bag] at hx
          obtain ⟨k, k0, k1, e⟩ := hx
          rw [← e, hu k k0 k1]
          exact hw k k0 k1
        · rintro ⟨q, r⟩ ⟨q1, q2, -, -, -, q6⟩
          dsimp only at q1 q2 q6 ⊢
          rw [Int.zero_add] at q6
          refine ⟨trivial, ?_⟩
          rw [a4]
          exact wf_of_bag n (by omega) _ hw q (by omega) (by omega) t hu (by rw [q6, hbp])
    · intro _ hk
      simp only [Holds_pure]
      exact .inr hk

end Arch.Cmpltw
end Scotch
