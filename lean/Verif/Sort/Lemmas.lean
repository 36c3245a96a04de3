import Verif.Sort.Model
import Verif.Sort.Spec
import Mathlib.Tactic.Ring
import Mathlib.Tactic.Linarith
import Mathlib.Tactic.Positivity

/-! # Sorting: helper lemmas -/

set_option linter.unusedSimpArgs false
set_option autoImplicit false

namespace Scotch
variable {α : Type}

theorem PermOn.refl (a : Arr α) (lo hi : Int) : PermOn a a lo hi :=
  ⟨rfl, rfl, Equiv.refl _, fun _ _ => rfl, fun _ => rfl⟩

theorem PermOn.trans {a b c : Arr α} {lo hi : Int} (h1 : PermOn a b lo hi) (h2 : PermOn b c lo hi) :
    PermOn a c lo hi := by
  obtain ⟨l1, u1, f, hf, gf⟩ := h1
  obtain ⟨l2, u2, g, hg, gg⟩ := h2
  refine ⟨by omg, by omg, g.trans f, ?_, ?_⟩
  · intro i hi'
    simp only [Equiv.trans_apply, hg i hi', hf i hi']
  · intro i
    simp only [Equiv.trans_apply, gg i, gf]

theorem PermOn.mono {a b : Arr α} {lo hi lo' hi' : Int} (h : PermOn a b lo hi) (h1 : lo' ≤ lo)
    (h2 : hi ≤ hi') : PermOn a b lo' hi' := by
  obtain ⟨l1, u1, f, hf, gf⟩ := h
  exact ⟨l1, u1, f, fun i hi => hf i (by omg), gf⟩

theorem PermOn.outside {a b : Arr α} {lo hi : Int} (h : PermOn a b lo hi) {i : Int}
    (hi' : ¬ (lo ≤ i ∧ i < hi)) : b.get i = a.get i := by
  obtain ⟨_, _, f, hf, gf⟩ := h
  rw [gf i, hf i hi']

/-- A property of all cells of a permuted segment is preserved. -/
theorem PermOn.inside {a b : Arr α} {lo hi : Int} (h : PermOn a b lo hi) {i : Int}
    (h1 : lo ≤ i) (h2 : i < hi) : ∃ j, lo ≤ j ∧ j < hi ∧ b.get i = a.get j := by
  obtain ⟨_, _, f, hf, gf⟩ := h
  refine ⟨f i, ?_⟩
  by_cases hj : lo ≤ f i ∧ f i < hi
  · exact ⟨hj.1, hj.2, gf i⟩
  · have := hf (f i) hj
    have := f.injective this
    omega

namespace Sorting

/-- Content after exchanging two cells. -/
theorem swap_holds (a : Arr α) {p q lo hi : Int} (hp : a.lo ≤ p ∧ p < a.hi) (hq : a.lo ≤ q ∧ q < a.hi)
    (hp' : lo ≤ p ∧ p < hi) (hq' : lo ≤ q ∧ q < hi) :
    Holds (swap a p q) (fun r => PermOn a r lo hi ∧ r.get p = a.get q ∧ r.get q = a.get p ∧
      ∀ i, i ≠ p → i ≠ q → r.get i = a.get i) := by
  unfold swap
  msimp
  have hget : ∀ i, ((a.set p (a.get q)).set q (a.get p)).get i = a.get (Equiv.swap p q i) := by
    intro i
    simp only [Arr.set_get, Equiv.swap_apply_def]
    by_cases h1 : i = q
    · subst h1
      by_cases h2 : i = p
      · subst h2; simp
      · simp [h2]
    · by_cases h2 : i = p
      · subst h2; simp [h1]
      · simp [h1, h2]
  refine ⟨hp, hq, hp, hq, ⟨rfl, rfl, Equiv.swap p q, ?_, hget⟩, ?_, ?_, ?_⟩
  · intro i hi'
    exact Equiv.swap_apply_of_ne_of_ne (by intro h; subst h; exact hi' hp')
      (by intro h; subst h; exact hi' hq')
  · rw [hget]; simp
  · rw [hget]; simp
  · intro i h1 h2
    rw [hget, Equiv.swap_apply_of_ne_of_ne h1 h2]

/-- `x ≤ y` for the preorder associated to `lt`. -/
abbrev Le (lt : α → α → Bool) (x y : α) : Prop := lt y x = false

variable {lt : α → α → Bool}

theorem le_refl' (h : StrictWeak lt) (x : α) : Le lt x x := by
  unfold Le
  cases e : lt x x with
  | false => rfl
  | true => rw [h.asymm x x e] at e; exact absurd e (by simp)

theorem le_of_lt' (h : StrictWeak lt) {x y : α} (e : lt x y = true) : Le lt x y := h.asymm x y e

theorem le_trans' (h : StrictWeak lt) {x y z : α} (h1 : Le lt x y) (h2 : Le lt y z) : Le lt x z :=
  h.trans x y z h1 h2

/-! ## Median of three -/

theorem swapIfLt_holds (h : StrictWeak lt) (a : Arr α) {lo mid hi : Int} (h1 : a.lo ≤ lo)
    (h2 : hi < a.hi) (hm : lo < mid ∧ mid < hi) :
    Holds (swapIfLt lt a mid lo) (fun r => PermOn a r lo (hi + 1) ∧ Le lt (r.get lo) (r.get mid) ∧
      (∀ x, Le lt (a.get lo) x → Le lt (a.get mid) x → Le lt (r.get mid) x) ∧
      r.get hi = a.get hi) := by
  unfold swapIfLt
  msimp
  refine ⟨by omg, by omg, ?_⟩
  split
  · rename_i hc
    refine (swap_holds a (lo := lo) (hi := hi + 1) (by omg) (by omg) (by omg)
      (by omg)).mono ?_
    rintro r ⟨p, e1, e2, e3⟩
    refine ⟨p, ?_, ?_, e3 hi (by omg) (by omg)⟩
    · rw [e1, e2]; exact le_of_lt' h hc
    · intro x hx _; rw [e1]; exact hx
  · rename_i hc
    msimp
    exact ⟨PermOn.refl _ _ _, by simpa using hc, fun x _ hx => hx, trivial⟩

theorem medianOfThree_holds (h : StrictWeak lt) (a : Arr α) {lo mid hi : Int} (h1 : a.lo ≤ lo)
    (h2 : hi < a.hi) (hm : lo < mid ∧ mid < hi) :
    Holds (medianOfThree lt a lo mid hi) (fun r => PermOn a r lo (hi + 1) ∧
      Le lt (r.get lo) (r.get mid) ∧ Le lt (r.get mid) (r.get hi)) := by
  unfold medianOfThree
  msimp
  refine (swapIfLt_holds h a h1 h2 hm).mono ?_
  rintro b ⟨pb, lb, _, _⟩
  have bl := pb.1
  have bh := pb.2.1
  refine ⟨by omg, by omg, ?_⟩
  split
  · rename_i hc
    msimp
    refine (swap_holds b (lo := lo) (hi := hi + 1) (by omg) (by omg) (by omg) (by omg)).mono ?_
    rintro c ⟨pc, e1, e2, e3⟩
    have cl := pc.1
    have ch := pc.2.1
    have e3 := e3 lo (by omg) (by omg)
    refine (swapIfLt_holds h c (lo := lo) (hi := hi) (by omg) (by omg) hm).mono ?_
    rintro d ⟨pd, ld, dx, dh⟩
    refine ⟨(pb.trans pc).trans pd, ld, ?_⟩
    rw [dh, e2]
    refine dx _ ?_ ?_
    · rw [e3]; exact lb
    · rw [e1]; exact le_of_lt' h hc
  · rename_i hc
    msimp
    exact ⟨pb, lb, by simpa using hc⟩

/-! ## Partition -/

theorem scanLeft_holds (a : Arr α) {mid stop : Int} (hm : a.lo ≤ mid ∧ mid < a.hi)
    (hs : stop < a.hi) (hstop : lt (a.get stop) (a.get mid) = false) (left : Int) (fuel : Nat)
    (hl : a.lo ≤ left) (hls : left ≤ stop) (hf : stop - left < fuel) :
    Holds (scanLeft lt a mid fuel left) (fun r => left ≤ r ∧ r ≤ stop ∧
      lt (a.get r) (a.get mid) = false ∧ ∀ i, left ≤ i → i < r → lt (a.get i) (a.get mid) = true) := by
  unfold scanLeft
  refine Holds_loopM (fun x => left ≤ x ∧ x ≤ stop ∧
    ∀ i, left ≤ i → i < x → lt (a.get i) (a.get mid) = true) (fun x => (stop - x).toNat) ?_ fuel left
    ⟨by omg, hls, fun i _ _ => by omg⟩ (by omg)
  rintro x ⟨x1, x2, x3⟩
  msimp
  refine ⟨by omg, by omg, ?_⟩
  split
  · rename_i hc
    msimp
    have hne : x ≠ stop := by intro e; subst e; rw [hstop] at hc; simp at hc
    refine ⟨⟨by omg, by omg, ?_⟩, by omg⟩
    intro i i1 i2
    by_cases e : i = x
    · subst e; exact hc
    · exact x3 i i1 (by omg)
  · rename_i hc
    msimp
    exact ⟨x1, x2, by simpa using hc, x3⟩

theorem scanRight_holds (a : Arr α) {mid stop : Int} (hm : a.lo ≤ mid ∧ mid < a.hi)
    (hs : a.lo ≤ stop) (hstop : lt (a.get mid) (a.get stop) = false) (right : Int) (fuel : Nat)
    (hl : right < a.hi) (hls : stop ≤ right) (hf : right - stop < fuel) :
    Holds (scanRight lt a mid fuel right) (fun r => r ≤ right ∧ stop ≤ r ∧
      lt (a.get mid) (a.get r) = false ∧ ∀ i, r < i → i ≤ right → lt (a.get mid) (a.get i) = true) := by
  unfold scanRight
  refine Holds_loopM (fun x => x ≤ right ∧ stop ≤ x ∧
    ∀ i, x < i → i ≤ right → lt (a.get mid) (a.get i) = true) (fun x => (x - stop).toNat) ?_ fuel right
    ⟨by omg, hls, fun i _ _ => by omg⟩ (by omg)
  rintro x ⟨x1, x2, x3⟩
  msimp
  refine ⟨by omg, by omg, ?_⟩
  split
  · rename_i hc
    msimp
    have hne : x ≠ stop := by intro e; subst e; rw [hstop] at hc; simp at hc
    refine ⟨⟨by omg, by omg, ?_⟩, by omg⟩
    intro i i1 i2
    by_cases e : i = x
    · subst e; exact hc
    · exact x3 i (by omg) i2
  · rename_i hc
    msimp
    exact ⟨x1, x2, by simpa using hc, x3⟩

/-- Invariant of the partition loop on segment `[lo, hi]`. -/
structure PInv (lt : α → α → Bool) (a : Arr α) (lo hi : Int) (s : PState α) : Prop where
  perm : PermOn a s.arr lo (hi + 1)
  mid : lo ≤ s.mid ∧ s.mid ≤ hi
  low : ∀ i, lo ≤ i → i < s.left → Le lt (s.arr.get i) (s.arr.get s.mid)
  high : ∀ i, s.right < i → i ≤ hi → Le lt (s.arr.get s.mid) (s.arr.get i)

/-- The partition loop ends with `[lo, right]` below the pivot, `[left, hi]` above. -/
structure PPost (lt : α → α → Bool) (a : Arr α) (lo hi : Int) (s : PState α) : Prop
    extends PInv lt a lo hi s where
  cross : s.right < s.left
  left1 : lo < s.left
  left2 : s.left ≤ hi
  right1 : lo ≤ s.right
  right2 : s.right < hi

theorem partition_holds (h : StrictWeak lt) (a b : Arr α) {lo mid hi : Int} (fuel : Nat)
    (h1 : a.lo ≤ lo) (h2 : hi < a.hi) (hm : lo < mid ∧ mid < hi) (hf : hi - lo < fuel)
    (pb : PermOn a b lo (hi + 1)) (hlo : Le lt (b.get lo) (b.get mid))
    (hhi : Le lt (b.get mid) (b.get hi)) :
    Holds (loopM (partStep lt fuel) fuel ⟨b, lo + 1, hi - 1, mid⟩) (PPost lt a lo hi) := by
  refine Holds_loopM (fun s => PInv lt a lo hi s ∧ lo < s.left ∧ s.right < hi ∧ s.left ≤ s.right)
    (fun s => (s.right - s.left + 1).toNat) ?_ fuel _ ⟨⟨pb, by omg, ?_, ?_⟩, by omg⟩
    (by omg)
  · rintro s ⟨⟨pp, hmid, low, high⟩, l1, r1, lr⟩
    have al := pp.1
    have ah := pp.2.1
    unfold partStep
    msimp
    refine (scanLeft_holds s.arr (stop := s.right + 1) (by omg) (by omg) (high _ (by omg) (by omg))
      s.left fuel (by omg) (by omg) (by omg)).mono ?_
    rintro left ⟨le1, le2, le3, le4⟩
    have hlow : ∀ i, lo ≤ i → i < left → Le lt (s.arr.get i) (s.arr.get s.mid) := by
      intro i i1 i2
      by_cases e : i < s.left
      · exact low i i1 e
      · exact le_of_lt' h (le4 i (by omg) i2)
    refine (scanRight_holds s.arr (stop := left - 1) (by omg) (by omg) (hlow _ (by omg) (by omg))
      s.right fuel (by omg) (by omg) (by omg)).mono ?_
    rintro right ⟨ri1, ri2, ri3, ri4⟩
    have hhigh : ∀ i, right < i → i ≤ hi → Le lt (s.arr.get s.mid) (s.arr.get i) := by
      intro i i1 i2
      by_cases e : s.right < i
      · exact high i e i2
      · exact le_of_lt' h (ri4 i i1 (by omg))
    split
    · rename_i hlr
      msimp
      refine (swap_holds s.arr (lo := lo) (hi := hi + 1) (p := left) (q := right) (by omg) (by omg)
        (by omg) (by omg)).mono ?_
      rintro c ⟨pc, c1, c2, c3⟩
      -- value of the pivot
      have hpiv : c.get (if s.mid = left then right else if s.mid = right then left else s.mid) =
          s.arr.get s.mid := by
        split
        · rename_i e; rw [c2, e]
        · split
          · rename_i e; rw [c1, e]
          · rename_i e1 e2; exact c3 _ e1 e2
      have inv : PInv lt a lo hi ⟨c, left + 1, right - 1,
          if s.mid = left then right else if s.mid = right then left else s.mid⟩ := by
        refine ⟨pp.trans pc, ?_, ?_, ?_⟩
        · simp only
          split
          · omega
          · split <;> omega
        · intro i i1 i2
          simp only at i2 ⊢
          rw [hpiv]
          by_cases e : i = left
          · subst e; rw [c1]; exact ri3
          · rw [c3 i e (by omg)]; exact hlow i i1 (by omg)
        · intro i i1 i2
          simp only at i1 ⊢
          rw [hpiv]
          by_cases e : i = right
          · subst e; rw [c2]; exact le3
          · rw [c3 i (by omg) e]; exact hhigh i (by omg) i2
      split
      · msimp
        exact ⟨⟨inv, by omg⟩, by omg⟩
      · msimp
        exact ⟨inv, by omg, by omg, by omg, by omg,
          by omg⟩
    · rename_i hlr
      split
      · rename_i e
        subst e
        msimp
        refine ⟨⟨pp, hmid, ?_, ?_⟩, by omg, by omg, by omg,
          by omg, by omg⟩
        · intro i i1 i2
          simp only at i2 ⊢
          by_cases e : i = left
          · subst e; exact ri3
          · exact hlow i i1 (by omg)
        · intro i i1 i2
          simp only at i1 ⊢
          by_cases e : i = left
          · subst e; exact le3
          · exact hhigh i (by omg) i2
      · rename_i hne
        rw [if_neg (by omg)]
        msimp
        exact ⟨⟨pp, hmid, hlow, hhigh⟩, by omg, by omg, by omg,
          by omg, by omg⟩
  · intro i i1 i2
    simp only at i2 ⊢
    have : i = lo := by omg
    subst this; exact hlo
  · intro i i1 i2
    simp only at i1 ⊢
    have : i = hi := by omg
    subst this; exact hhi

/-! ## Quicksort -/

theorem small_iff (d : Int) : small d = true ↔ 0 ≤ d ∧ d ≤ 6 := by
  unfold small maxThresh; exact decide_eq_true_iff

/-- Index `i` is in the segment. -/
def InSeg (p : Int × Int) (i : Int) : Prop := p.1 ≤ i ∧ i ≤ p.2

/-- Invariant: pairs of cells are in order unless they are in a same pending segment or close
to each other outside of all pending segments. -/
structure QInv (lt : α → α → Bool) (a : Arr α) (n : Int) (r : Arr α) (pend : List (Int × Int)) :
    Prop where
  perm : PermOn a r 0 n
  segs : ∀ p ∈ pend, 0 ≤ p.1 ∧ p.2 < n ∧ 6 ≤ p.2 - p.1
  disj : pend.Pairwise (fun p q => ∀ i, ¬ (InSeg p i ∧ InSeg q i))
  ord : ∀ i j, 0 ≤ i → i < j → j < n →
    (∃ p ∈ pend, InSeg p i ∧ InSeg p j) ∨
    (j - i ≤ 6 ∧ ∀ p ∈ pend, ¬ InSeg p i ∧ ¬ InSeg p j) ∨ Le lt (r.get i) (r.get j)

/-- Order facts after partitioning the first pending segment. -/
theorem QInv.part {a : Arr α} {n lo hi : Int} {r : Arr α} {st : List (Int × Int)}
    (h : StrictWeak lt) (hq : QInv lt a n r ((lo, hi) :: st)) {s : PState α}
    (hp : PPost lt r lo hi s) (new : List (Int × Int))
    (hnew : new = (if small (s.right - lo) then [] else [(lo, s.right)]) ++
      (if small (hi - s.left) then [] else [(s.left, hi)])) :
    QInv lt a n s.arr (new ++ st) := by
  obtain ⟨qp, qs, qd, qo⟩ := hq
  obtain ⟨⟨pp, hmid, low, high⟩, hc, l1, l2, r1, r2⟩ := hp
  have hseg := qs (lo, hi) (by simp)
  simp only at hseg
  have hd := (List.pairwise_cons.mp qd)
  have hmem : ∀ p ∈ new, (p = (lo, s.right) ∧ 7 ≤ s.right - lo) ∨ (p = (s.left, hi) ∧ 7 ≤ hi - s.left) := by
    intro p hp
    rw [hnew, List.mem_append] at hp
    rcases hp with hp | hp
    · split at hp
      · simp at hp
      · rename_i hh
        left
        rw [small_iff] at hh
        exact ⟨by simpa using hp, by omg⟩
    · split at hp
      · simp at hp
      · rename_i hh
        right
        rw [small_iff] at hh
        exact ⟨by simpa using hp, by omg⟩
  have hsub : ∀ p ∈ new, ∀ i, InSeg p i → InSeg (lo, hi) i := by
    intro p hp i hi'
    rcases hmem p hp with ⟨rfl, _⟩ | ⟨rfl, _⟩
    · simp only [InSeg] at *; omega
    · simp only [InSeg] at *; omega
  refine ⟨qp.trans (pp.mono (by omg) (by omg)), ?_, ?_, ?_⟩
  · intro p hp
    rw [List.mem_append] at hp
    rcases hp with hp | hp
    · rcases hmem p hp with ⟨rfl, _⟩ | ⟨rfl, _⟩
      · omg
      · omg
    · exact qs p (by simp [hp])
  · rw [List.pairwise_append]
    refine ⟨?_, hd.2, ?_⟩
    · rw [hnew]
      split <;> split <;> simp [InSeg]
      intro i _ _ _; omega
    · intro p hp q hq i hi'
      exact hd.1 q hq i ⟨hsub p hp i hi'.1, hi'.2⟩
  · intro i j i1 ij jn
    have hout : ∀ k, ¬ (lo ≤ k ∧ k ≤ hi) → s.arr.get k = r.get k := fun k hk =>
      pp.outside (by omg)
    by_cases hi' : lo ≤ i ∧ i ≤ hi
    · by_cases hj' : lo ≤ j ∧ j ≤ hi
      · -- both in the partitioned segment
        by_cases jr : j ≤ s.right
        · by_cases hsm : small (s.right - lo) = true
          · rw [small_iff] at hsm
            right; left
            refine ⟨by omg, ?_⟩
            intro p hp
            rw [List.mem_append] at hp
            rcases hp with hp | hp
            · rcases hmem p hp with ⟨rfl, _⟩ | ⟨rfl, _⟩
              · omega
              · simp only [InSeg]; omega
            · exact ⟨fun hh => hd.1 p hp i ⟨hi', hh⟩, fun hh => hd.1 p hp j ⟨hj', hh⟩⟩
          · left
            refine ⟨(lo, s.right), ?_, ?_, ?_⟩
            · rw [hnew]; simp [hsm]
            · simp only [InSeg]; omega
            · simp only [InSeg]; omega
        · by_cases il : s.left ≤ i
          · by_cases hsm : small (hi - s.left) = true
            · rw [small_iff] at hsm
              right; left
              refine ⟨by omg, ?_⟩
              intro p hp
              rw [List.mem_append] at hp
              rcases hp with hp | hp
              · rcases hmem p hp with ⟨rfl, _⟩ | ⟨rfl, _⟩
                · simp only [InSeg]; omega
                · omega
              · exact ⟨fun hh => hd.1 p hp i ⟨hi', hh⟩, fun hh => hd.1 p hp j ⟨hj', hh⟩⟩
            · left
              refine ⟨(s.left, hi), ?_, ?_, ?_⟩
              · rw [hnew]; simp [hsm]
              · simp only [InSeg]; omega
              · simp only [InSeg]; omega
          · right; right
            exact le_trans' h (low i hi'.1 (by omg)) (high j (by omg) hj'.2)
      · -- i inside, j beyond
        right; right
        have hall : ∀ k, lo ≤ k → k ≤ hi → Le lt (r.get k) (r.get j) := by
          intro k k1 k2
          rcases qo k j (by omg) (by omg) jn with ⟨p, hp, hpk, hpj⟩ | ⟨_, hp⟩ | hle
          · simp only [List.mem_cons] at hp
            rcases hp with rfl | hp
            · exact absurd hpj hj'
            · exact absurd ⟨⟨k1, k2⟩, hpk⟩ (hd.1 p hp k)
          · exact absurd ⟨k1, k2⟩ (hp (lo, hi) (by simp)).1
          · exact hle
        obtain ⟨k, k1, k2, ek⟩ := pp.inside (i := i) hi'.1 (by omg)
        rw [ek, hout j hj']
        exact hall k k1 (by omg)
    · by_cases hj' : lo ≤ j ∧ j ≤ hi
      · right; right
        have hall : ∀ k, lo ≤ k → k ≤ hi → Le lt (r.get i) (r.get k) := by
          intro k k1 k2
          rcases qo i k i1 (by omg) (by omg) with ⟨p, hp, hpi, hpk⟩ | ⟨_, hp⟩ | hle
          · simp only [List.mem_cons] at hp
            rcases hp with rfl | hp
            · exact absurd hpi hi'
            · exact absurd ⟨⟨k1, k2⟩, hpk⟩ (hd.1 p hp k)
          · exact absurd ⟨k1, k2⟩ (hp (lo, hi) (by simp)).2
          · exact hle
        obtain ⟨k, k1, k2, ek⟩ := pp.inside (i := j) hj'.1 (by omg)
        rw [ek, hout i hi']
        exact hall k k1 (by omg)
      · -- both outside
        rw [hout i hi', hout j hj']
        rcases qo i j i1 ij jn with ⟨p, hp, hpi, hpj⟩ | ⟨hle, hp⟩ | hle
        · simp only [List.mem_cons] at hp
          rcases hp with rfl | hp
          · exact absurd hpi hi'
          · left; exact ⟨p, by simp [hp], hpi, hpj⟩
        · right; left
          refine ⟨hle, ?_⟩
          intro p hp'
          rw [List.mem_append] at hp'
          rcases hp' with hp' | hp'
          · exact ⟨fun hh => hi' (hsub p hp' i hh), fun hh => hj' (hsub p hp' j hh)⟩
          · exact hp p (by simp [hp'])
        · exact Or.inr (Or.inr hle)

theorem QInv.perm_list {a : Arr α} {n : Int} {r : Arr α} {l l' : List (Int × Int)}
    (hq : QInv lt a n r l) (hp : l.Perm l') : QInv lt a n r l' := by
  obtain ⟨qp, qs, qd, qo⟩ := hq
  refine ⟨qp, fun p h => qs p (hp.mem_iff.mpr h), ?_, ?_⟩
  · exact (hp.pairwise_iff (fun {x y} hxy i => by rintro ⟨u, v⟩; exact hxy i ⟨v, u⟩)).mp qd
  · intro i j h1 h2 h3
    rcases qo i j h1 h2 h3 with ⟨p, hp', hh⟩ | ⟨h4, h5⟩ | h4
    · exact Or.inl ⟨p, hp.mem_iff.mp hp', hh⟩
    · exact Or.inr (Or.inl ⟨h4, fun p h => h5 p (hp.mem_iff.mpr h)⟩)
    · exact Or.inr (Or.inr h4)

/-- Sum of the weights of pending segments (variant of the main loop). -/
def weight : List (Int × Int) → Int
  | [] => 0
  | p :: r => 2 * (p.2 - p.1) + 1 + weight r

theorem weight_nonneg : ∀ (l : List (Int × Int)), (∀ p ∈ l, 6 ≤ p.2 - p.1) → 0 ≤ weight l
  | [], _ => by simp [weight]
  | p :: r, h => by
    have := weight_nonneg r (fun q hq => h q (by simp [hq]))
    have := h p (by simp)
    simp only [weight]; omega

/-- Each pending segment is at most half as large as the one below it on the stack: this bounds
the height of the stack. -/
def HeightOk (n : Int) : List (Int × Int) → Prop
  | [] => True
  | p :: r => (p.2 - p.1 + 1) * 2 ^ r.length ≤ n ∧ HeightOk n r

theorem push_holds {stackSize : Nat} {st : List (Int × Int)} {p : Int × Int}
    (h : st.length < stackSize) : push stackSize st p = .ok (p :: st) := by
  unfold push; rw [if_pos h]

/-- State invariant of the main loop. -/
def QState.Inv (lt : α → α → Bool) (a : Arr α) (n : Int) (s : QState α) : Prop :=
  ∃ pend, s.stack = pend ++ [(0, 0)] ∧ QInv lt a n s.arr ((s.lo, s.hi) :: pend) ∧
    HeightOk n ((s.lo, s.hi) :: pend) 

theorem nextSegment_holds (h : StrictWeak lt) {a : Arr α} {n : Int} {bits : Nat}
    (hn : n < 2 ^ bits) {r : Arr α} {lo hi : Int} {pend : List (Int × Int)}
    (hq : QInv lt a n r ((lo, hi) :: pend)) (hh : HeightOk n ((lo, hi) :: pend))
    {p : PState α} (hp : PPost lt r lo hi p) :
    Holds (nextSegment (bits + 1) lo hi (pend ++ [(0, 0)]) p) (fun s =>
      (s.stack = [] ∧ QInv lt a n s.arr []) ∨
      (∃ pend', s.stack = pend' ++ [(0, 0)] ∧ QInv lt a n s.arr ((s.lo, s.hi) :: pend') ∧
        HeightOk n ((s.lo, s.hi) :: pend') ∧
        weight ((s.lo, s.hi) :: pend') < weight ((lo, hi) :: pend))) := by
  have hc := hp.cross
  have hl1 := hp.left1
  have hl2 := hp.left2
  have hr1 := hp.right1
  have hr2 := hp.right2
  have hseg := hq.segs (lo, hi) (by simp)
  simp only at hseg
  have hpart := hq.part h hp _ rfl
  have hpow : (0 : Int) < 2 ^ pend.length := by positivity
  have hstk : ∀ x : Int, 8 ≤ x → x * 2 ^ (pend.length + 1) ≤ n →
      (pend ++ [((0 : Int), (0 : Int))]).length < bits + 1 := by
    intro x hx hxn
    simp only [List.length_append, List.length_singleton]
    by_contra hcon
    have hb : bits ≤ pend.length := by omega
    have h1 : (2 : Int) ^ bits ≤ 2 ^ (pend.length + 1) :=
      pow_le_pow_right₀ (by norm_num) (by omega)
    have h2 : (0 : Int) < 2 ^ (pend.length + 1) := by positivity
    nlinarith
  unfold nextSegment
  simp only [HeightOk] at hh
  split
  · rename_i s1
    split
    · rename_i s2
      simp only [s1, s2, if_true, List.nil_append] at hpart
      cases pend with
      | nil => left; exact ⟨rfl, hpart⟩
      | cons q pend' =>
        right
        refine ⟨pend', rfl, hpart, hh.2, ?_⟩
        simp only [weight]; omega
    · rename_i s2
      simp only [s1, s2, if_true, if_false, List.nil_append, List.singleton_append] at hpart
      right
      refine ⟨pend, rfl, hpart, ⟨?_, hh.2⟩, ?_⟩
      · have h1 : hi - p.left + 1 ≤ hi - lo + 1 := by omega
        exact le_trans (mul_le_mul_of_nonneg_right h1 hpow.le) hh.1
      · simp only [weight]; omega
  · rename_i s1
    split
    · rename_i s2
      simp only [s1, s2, if_true, if_false, List.append_nil, List.singleton_append] at hpart
      right
      refine ⟨pend, rfl, hpart, ⟨?_, hh.2⟩, ?_⟩
      · have h1 : p.right - lo + 1 ≤ hi - lo + 1 := by omega
        exact le_trans (mul_le_mul_of_nonneg_right h1 hpow.le) hh.1
      · simp only [weight]; omega
    · rename_i s2
      simp only [s1, s2, if_false, List.singleton_append, List.cons_append] at hpart
      rw [small_iff] at s1 s2
      have hhalf : ∀ x : Int, 2 * x ≤ hi - lo + 1 → x * 2 ^ (pend.length + 1) ≤ n := by
        intro x hx
        have e : x * 2 ^ (pend.length + 1) = (2 * x) * 2 ^ pend.length := by ring
        rw [e]
        exact le_trans (mul_le_mul_of_nonneg_right hx hpow.le) hh.1
      split
      · rename_i hbig
        have hx := hhalf (hi - p.left + 1) (by omega)
        rw [push_holds (hstk _ (by omega) hx)]
        msimp
        right
        refine ⟨(lo, p.right) :: pend, rfl, ?_, ⟨?_, ?_, hh.2⟩, ?_⟩
        · exact hpart.perm_list (List.Perm.swap _ _ _)
        · simpa using hx
        · have h1 : p.right - lo + 1 ≤ hi - lo + 1 := by omega
          exact le_trans (mul_le_mul_of_nonneg_right h1 hpow.le) hh.1
        · simp only [weight]; omega
      · rename_i hbig
        have hx := hhalf (p.right - lo + 1) (by omega)
        rw [push_holds (hstk _ (by omega) hx)]
        msimp
        right
        refine ⟨(p.left, hi) :: pend, rfl, ?_, ⟨?_, ?_, hh.2⟩, ?_⟩
        · exact hpart
        · simpa using hx
        · have h1 : hi - p.left + 1 ≤ hi - lo + 1 := by omega
          exact le_trans (mul_le_mul_of_nonneg_right h1 hpow.le) hh.1
        · simp only [weight]; omega

/-- Order of the array when only close pairs may be out of order. -/
def Rough (lt : α → α → Bool) (r : Arr α) (n : Int) : Prop :=
  ∀ i j, 0 ≤ i → j < n → i + 6 < j → Le lt (r.get i) (r.get j)

theorem weight_sentinel : ∀ l : List (Int × Int), weight (l ++ [(0, 0)]) = weight l + 1
  | [] => by simp [weight]
  | p :: r => by simp only [List.cons_append, weight, weight_sentinel r]; omega

theorem quickPart_holds (h : StrictWeak lt) (a : Arr α) (n : Int) (bits : Nat)
    (hn : n < 2 ^ bits) (h1 : a.lo ≤ 0) (h2 : n ≤ a.hi) :
    Holds (quickPart lt (bits + 1) a n) (fun r => PermOn a r 0 n ∧ Rough lt r n) := by
  unfold quickPart
  split
  · rename_i hn6
    simp only [maxThresh] at hn6
    rw [push_holds (by simp)]
    msimp
    refine Holds_loopM (Q := fun r => PermOn a r 0 n ∧ Rough lt r n)
      (fun s => ∃ pend, s.stack = pend ++ [(0, 0)] ∧ QInv lt a n s.arr ((s.lo, s.hi) :: pend) ∧
        HeightOk n ((s.lo, s.hi) :: pend))
      (fun s => (weight ((s.lo, s.hi) :: s.stack) - 1).toNat) ?_ _ _ ?_ ?_
    · rintro ⟨r, lo, hi, st⟩ ⟨pend, hst, hq, hh⟩
      simp only at hst hq hh
      subst hst
      have hseg := hq.segs (lo, hi) (by simp)
      simp only at hseg
      have rl := hq.perm.1
      have rh := hq.perm.2.1
      have hw := weight_nonneg _ (fun p hp => (hq.segs p hp).2.2)
      unfold quickStep
      msimp
      try dsimp only
      have hmid : lo < lo + (hi - lo) / 2 ∧ lo + (hi - lo) / 2 < hi := by omega
      refine (medianOfThree_holds h r (by omega) (by omega) hmid).mono ?_
      rintro b ⟨pb, b1, b2⟩
      refine (partition_holds h r b n.toNat (by omega) (by omega) hmid (by omega) pb b1 b2).mono ?_
      intro p hp
      refine (nextSegment_holds h hn hq hh hp).mono ?_
      rintro ⟨r', lo', hi', st'⟩ (⟨rfl, hq'⟩ | ⟨pend', rfl, hq', hh', hw'⟩)
      · msimp
        refine ⟨hq'.perm, ?_⟩
        intro i j i1 j1 hij
        rcases hq'.ord i j i1 (by omega) j1 with ⟨p, hp, _⟩ | ⟨h6, _⟩ | hle
        · simp at hp
        · omega
        · exact hle
      · dsimp only at hq' hh' hw' ⊢
        have hw2 := weight_nonneg _ (fun p hp => (hq'.segs p hp).2.2)
        have : ∃ x y, pend' ++ [((0 : Int), (0 : Int))] = x :: y := by
          cases pend' with
          | nil => exact ⟨_, _, rfl⟩
          | cons x y => exact ⟨_, _, rfl⟩
        obtain ⟨x, y, hxy⟩ := this
        rw [hxy]
        msimp
        rw [← hxy]
        refine ⟨⟨pend', rfl, hq', hh'⟩, ?_⟩
        try dsimp only
        simp only [weight, weight_sentinel] at *
        omega
    · refine ⟨[], rfl, ⟨PermOn.refl _ _ _, ?_, ?_, ?_⟩, ?_⟩
      · intro p hp
        simp only [List.mem_singleton] at hp
        subst hp
        dsimp only; omega
      · simp
      · intro i j i1 ij jn
        left
        refine ⟨(0, n - 1), by simp, ?_, ?_⟩
        · simp only [InSeg]; omega
        · simp only [InSeg]; omega
      · simp [HeightOk]
    · simp only [weight]; omega
  · rename_i hn6
    simp only [maxThresh] at hn6
    msimp
    exact ⟨PermOn.refl _ _ _, fun i j _ _ _ => by omega⟩

/-! ## Insertion sort -/

theorem minIndex_holds (h : StrictWeak lt) (a : Arr α) (thresh : Int) (h0 : 0 ≤ thresh)
    (h1 : a.lo ≤ 0) (h2 : thresh < a.hi) :
    Holds (minIndex lt a thresh) (fun r => 0 ≤ r ∧ r ≤ thresh ∧
      ∀ i, 0 ≤ i → i ≤ thresh → Le lt (a.get r) (a.get i)) := by
  unfold minIndex
  refine Holds_forUp (fun m r => 0 ≤ r ∧ r ≤ thresh ∧ ∀ i, 0 ≤ i → i < m → Le lt (a.get r) (a.get i))
    (by omega) ⟨by omega, by omega, ?_⟩ ?_ ?_
  · intro i i1 i2
    have : i = 0 := by omega
    subst this; exact le_refl' h _
  · rintro i r i1 i2 ⟨r1, r2, r3⟩
    msimp
    refine ⟨by omega, by omega, ?_⟩
    split
    · rename_i hc
      msimp
      refine ⟨by omega, by omega, ?_⟩
      intro j j1 j2
      by_cases e : j = i
      · subst e; exact le_refl' h _
      · exact le_trans' h (le_of_lt' h hc) (r3 j j1 (by omega))
    · rename_i hc
      msimp
      refine ⟨by omega, by omega, ?_⟩
      intro j j1 j2
      by_cases e : j = i
      · subst e; simpa using hc
      · exact r3 j j1 (by omega)
  · rintro r ⟨r1, r2, r3⟩
    exact ⟨r1, r2, fun i i1 i2 => r3 i i1 (by omega)⟩

theorem insertPlace_holds (a : Arr α) (run : Int) (fuel : Nat) (h1 : a.lo ≤ 0) (h2 : run < a.hi)
    (hr : 0 < run) (hs : Le lt (a.get 0) (a.get run)) (hf : run ≤ fuel) :
    Holds (insertPlace lt a run fuel) (fun r => 0 ≤ r ∧ r < run ∧ Le lt (a.get r) (a.get run) ∧
      ∀ i, r < i → i < run → lt (a.get run) (a.get i) = true) := by
  unfold insertPlace
  refine Holds_loopM (fun x => 0 ≤ x ∧ x < run ∧ ∀ i, x < i → i < run → lt (a.get run) (a.get i) = true)
    (fun x => x.toNat) ?_ fuel _ ⟨by omega, by omega, fun i _ _ => by omega⟩ (by omega)
  rintro x ⟨x1, x2, x3⟩
  msimp
  refine ⟨by omega, by omega, ?_⟩
  split
  · rename_i hc
    msimp
    have hne : x ≠ 0 := by intro e; subst e; rw [hs] at hc; simp at hc
    refine ⟨⟨by omega, by omega, ?_⟩, by omega⟩
    intro i i1 i2
    by_cases e : i = x
    · subst e; exact hc
    · exact x3 i (by omega) i2
  · rename_i hc
    msimp
    exact ⟨x1, x2, by simpa using hc, x3⟩

theorem insertShift_holds (a : Arr α) (tmp run n : Int) (h0 : 0 ≤ tmp) (h1 : a.lo ≤ tmp)
    (h2 : run < a.hi) (hr : tmp ≤ run) (hn : run < n) :
    Holds (insertShift a tmp run) (fun r => PermOn a r 0 n ∧ r.get tmp = a.get run ∧
      (∀ i, tmp < i → i ≤ run → r.get i = a.get (i - 1)) ∧
      (∀ i, (i < tmp ∨ run < i) → r.get i = a.get i)) := by
  unfold insertShift
  msimp
  refine ⟨by omega, ?_⟩
  refine Holds_forUp (fun m (s : Arr α × Int) => s.2 = run - m ∧
      PermOn a (s.1.set s.2 (a.get run)) 0 n ∧
      (∀ i, s.2 < i → i ≤ run → s.1.get i = a.get (i - 1)) ∧
      (∀ i, (i < s.2 ∨ run < i) → s.1.get i = a.get i)) (by omega) ⟨by omg, ?_, ?_, ?_⟩ ?_ ?_
  · refine ⟨rfl, rfl, Equiv.refl _, fun _ _ => rfl, ?_⟩
    intro i
    simp only [Arr.set_get, Equiv.refl_apply]
    by_cases e : i = run
    · subst e; simp
    · simp [e]
  · intro i i1 i2; omg
  · intro i _; rfl
  · rintro m ⟨b, p⟩ m1 m2 ⟨e, hp, hs, ho⟩
    dsimp only at e hp hs ho ⊢
    have bl := hp.1
    have bh := hp.2.1
    simp only [Arr.set_lo, Arr.set_hi] at bl bh
    msimp
    refine ⟨by omega, by omega, by omg, ?_, ?_, ?_⟩
    · try dsimp only
      obtain ⟨l, u, f, hf, gf⟩ := hp
      refine ⟨bl, bh, (Equiv.swap p (p - 1)).trans f, ?_, ?_⟩
      · intro i hi
        rw [Equiv.trans_apply, Equiv.swap_apply_of_ne_of_ne (by omega) (by omega)]
        exact hf i hi
      · intro i
        rw [Equiv.trans_apply, ← gf]
        simp only [Arr.set_get, Equiv.swap_apply_def]
        by_cases e1 : i = p
        · subst e1
          have : i ≠ i - 1 := by omega
          have h' : i - 1 ≠ i := by omega
          simp [this, h']
        · by_cases e2 : i = p - 1
          · subst e2
            simp
          · simp [e1, e2]
    · try dsimp only
      intro i i1 i2
      by_cases e1 : i = p
      · subst e1
        rw [Arr.set_get_same, ho _ (by omega)]
      · rw [Arr.set_get_ne _ _ e1]; exact hs i (by omega) i2
    · try dsimp only
      intro i hi
      rw [Arr.set_get_ne _ _ (by omega)]
      exact ho i (by omega)
  · rintro ⟨b, p⟩ ⟨e, hp, hs, ho⟩
    dsimp only at e hp hs ho ⊢
    have bl := hp.1
    have bh := hp.2.1
    simp only [Arr.set_lo, Arr.set_hi] at bl bh
    have e : p = tmp := by omega
    subst e
    refine ⟨by omega, hp, by simp, ?_, ?_⟩
    · intro i i1 i2
      rw [Arr.set_get_ne _ _ (by omega)]
      exact hs i i1 i2
    · intro i hi
      rw [Arr.set_get_ne _ _ (by omega)]
      exact ho i hi

theorem insertPart_holds (h : StrictWeak lt) (a : Arr α) (n : Int) (hn : 1 ≤ n)
    (h1 : a.lo ≤ 0) (h2 : n ≤ a.hi) (hr : Rough lt a n) :
    Holds (insertPart lt a n) (fun r => PermOn a r 0 n ∧ SortedOn lt r 0 n) := by
  unfold insertPart
  msimp
  try dsimp only
  have ht : 0 ≤ min (n - 1) maxThresh ∧ min (n - 1) maxThresh < n ∧
      (min (n - 1) maxThresh = n - 1 ∨ min (n - 1) maxThresh = 6) := by
    unfold maxThresh; omega
  refine (minIndex_holds h a _ ht.1 h1 (by omega)).mono ?_
  rintro m ⟨m1, m2, m3⟩
  have hmin : ∀ i, 0 ≤ i → i < n → Le lt (a.get m) (a.get i) := by
    intro i i1 i2
    by_cases hi : i ≤ min (n - 1) maxThresh
    · exact m3 i i1 hi
    · exact le_trans' h (m3 0 (by omega) ht.1) (hr 0 i (by omega) i2 (by omega))
  -- after the possible exchange, the first cell is a minimum
  have hfirst : ∀ b : Arr α, PermOn a b 0 n → b.get 0 = a.get m → ∀ i, 0 ≤ i → i < n →
      Le lt (b.get 0) (b.get i) := by
    intro b pb e i i1 i2
    obtain ⟨j, j1, j2, ej⟩ := pb.inside i1 i2
    rw [e, ej]; exact hmin j j1 j2
  have hloop : ∀ b : Arr α, PermOn a b 0 n → b.get 0 = a.get m →
      Holds (forUp 2 (n - 1 + 1) b fun run a => do
        let tmp ← insertPlace lt a run n.toNat
        if tmp + 1 ≠ run then insertShift a (tmp + 1) run else pure a)
        (fun r => PermOn a r 0 n ∧ SortedOn lt r 0 n) := by
    intro b pb eb
    refine Holds_forUp' (fun k c => PermOn a c 0 n ∧ c.get 0 = a.get m ∧
      SortedOn lt c 0 (min k n)) ⟨pb, eb, ?_⟩ ?_ ?_
    · intro i j i1 ij j2
      have : i = 0 := by omega
      subst this
      exact hfirst b pb eb j (by omega) (by omega)
    · rintro run c r1 r2 ⟨pc, ec, sc⟩
      have cl := pc.1
      have ch := pc.2.1
      msimp
      refine (insertPlace_holds (lt := lt) c run n.toNat (by omega) (by omega) (by omega)
        (hfirst c pc ec run (by omega) (by omega)) (by omega)).mono ?_
      rintro t ⟨t1, t2, t3, t4⟩
      split
      · rename_i hne
        refine (insertShift_holds c (t + 1) run n (by omega) (by omega) (by omega) (by omega)
          (by omega)).mono ?_
        rintro d ⟨pd, d1, d2, d3⟩
        refine ⟨pc.trans pd, ?_, ?_⟩
        · rw [d3 0 (by omega)]; exact ec
        · -- sortedness
          have hval : ∀ i, 0 ≤ i → i < run + 1 →
              (i ≤ t ∧ d.get i = c.get i) ∨ (i = t + 1 ∧ d.get i = c.get run) ∨
              (t + 1 < i ∧ d.get i = c.get (i - 1)) := by
            intro i i1 i2
            by_cases e1 : i ≤ t
            · exact Or.inl ⟨e1, d3 i (by omega)⟩
            · by_cases e2 : i = t + 1
              · subst e2; exact Or.inr (Or.inl ⟨rfl, d1⟩)
              · exact Or.inr (Or.inr ⟨by omega, d2 i (by omega) (by omega)⟩)
          have hle : ∀ i, 0 ≤ i → i ≤ t → Le lt (c.get i) (c.get run) := by
            intro i i1 i2
            by_cases e : i = t
            · subst e; exact t3
            · exact le_trans' h (sc i t i1 (by omega) (by omega)) t3
          intro i j i1 ij j2
          rcases hval i i1 (by omega) with ⟨a1, e1⟩ | ⟨a1, e1⟩ | ⟨a1, e1⟩ <;>
          rcases hval j (by omega) (by omega) with ⟨b1, e2⟩ | ⟨b1, e2⟩ | ⟨b1, e2⟩ <;>
          rw [e1, e2] <;> first
            | omega
            | exact sc _ _ (by omega) (by omega) (by omega)
            | exact hle i i1 a1
            | exact le_of_lt' h (t4 _ (by omega) (by omega))
      · rename_i hne
        have hne : t + 1 = run := by simpa using hne
        msimp
        refine ⟨pc, ec, ?_⟩
        intro i j i1 ij j2
        by_cases e : j = run
        · subst e
          by_cases e2 : i = t
          · subst e2; exact t3
          · exact le_trans' h (sc i t i1 (by omega) (by omega)) t3
        · exact sc i j i1 ij (by omega)
    · rintro c ⟨pc, _, sc⟩
      exact ⟨pc, fun i j i1 ij jn => sc i j i1 ij (by omega)⟩
  split
  · rename_i hm
    msimp
    refine (swap_holds a (p := m) (q := 0) (lo := 0) (hi := n) (by omega) (by omega) (by omega)
      (by omega)).mono ?_
    rintro b ⟨pb, b1, b2, _⟩
    exact hloop b pb b2
  · rename_i hm
    have hm : m = 0 := by simpa using hm
    subst hm
    exact hloop a (PermOn.refl _ _ _) rfl

theorem sort_holds (h : StrictWeak lt) (a : Arr α) (n : Int) (bits : Nat) (h0 : 0 ≤ n)
    (hn : n < 2 ^ bits) (h1 : a.lo ≤ 0) (h2 : n ≤ a.hi) :
    Holds (sort lt (bits + 1) a n) (fun r => PermOn a r 0 n ∧ SortedOn lt r 0 n) := by
  unfold sort
  split
  · rename_i e
    subst e
    msimp
    exact ⟨PermOn.refl _ _ _, fun i j _ _ _ => by omega⟩
  · msimp
    refine (quickPart_holds h a n bits hn h1 h2).mono ?_
    rintro b ⟨pb, hb⟩
    have := pb.1
    have := pb.2.1
    refine (insertPart_holds h b n (by omega) (by omega) (by omega) hb).mono ?_
    rintro c ⟨pc, hc⟩
    exact ⟨pb.trans pc, hc⟩

end Sorting
end Scotch
