import Verif.Sort.Partial
import Verif.Sort.Lemmas

set_option autoImplicit false
set_option linter.unusedSimpArgs false

namespace Scotch.Sorting

variable {α : Type} {lt : α → α → Bool}

/-- Cells before `k` are not greater than cells from `k` on. -/
def CutAt (lt : α → α → Bool) (r : Arr α) (n k : Int) : Prop := ∀ i j, 0 ≤ i → i < k → k ≤ j → j < n → Le lt (r.get i) (r.get j)

def seg2 (p : Int × Int × Int) : Int × Int := (p.1, p.2.1)

structure LInv (lt : α → α → Bool) (a : Arr α) (n : Int) (r : Arr α) (pend : List (Int × Int)) : Prop where
  perm : PermOn a r 0 n
  segs : ∀ p ∈ pend, 0 ≤ p.1 ∧ p.2 < n ∧ 6 ≤ p.2 - p.1
  cut : pend = [(0, n - 1)] ∨ ∃ k, 0 < k ∧ k < n ∧ CutAt lt r n k ∧ ∀ p ∈ pend, k ≤ p.1 ∨ p.2 < k

theorem CutAt.perm {a r : Arr α} {n k lo hi : Int} (h : CutAt lt a n k) (hp : PermOn a r lo (hi + 1)) (hlo : 0 ≤ lo) (hhi : hi < n)
    (hk : k ≤ lo ∨ hi < k) : CutAt lt r n k := by
  intro i j h1 h2 h3 h4
  have hi' : ∃ i', 0 ≤ i' ∧ i' < k ∧ r.get i = a.get i' := by
    by_cases hin : lo ≤ i ∧ i < hi + 1
    · obtain ⟨i', b1, b2, b3⟩ := hp.inside hin.1 hin.2
      exact ⟨i', by omega, by omega, b3⟩
    · exact ⟨i, h1, h2, hp.outside hin⟩
  have hj' : ∃ j', k ≤ j' ∧ j' < n ∧ r.get j = a.get j' := by
    by_cases hin : lo ≤ j ∧ j < hi + 1
    · obtain ⟨j', b1, b2, b3⟩ := hp.inside hin.1 hin.2
      exact ⟨j', by omega, by omega, b3⟩
    · exact ⟨j, h3, h4, hp.outside hin⟩
  obtain ⟨i', a1, a2, a3⟩ := hi'
  obtain ⟨j', b1, b2, b3⟩ := hj'
  rw [a3, b3]
  exact h i' j' a1 a2 b1 b2

/-- Effect of a partition on the invariant. -/
theorem LInv.part {a r : Arr α} {n lo hi : Int} {st : List (Int × Int)} (h : StrictWeak lt) (hq : LInv lt a n r ((lo, hi) :: st)) {s : PState α}
    (hp : PPost lt r lo hi s) (new : List (Int × Int)) (hnew : ∀ p ∈ new, 6 ≤ p.2 - p.1 ∧ ((lo ≤ p.1 ∧ p.2 ≤ s.right) ∨ (s.left ≤ p.1 ∧ p.2 ≤ hi))) :
    LInv lt a n s.arr (new ++ st) := by
  have hseg := hq.segs (lo, hi) (by simp)
  simp only at hseg
  have c1 := hp.cross
  have c2 := hp.left1
  have c3 := hp.left2
  have c4 := hp.right1
  have c5 := hp.right2
  refine ⟨hq.perm.trans (hp.perm.mono (by omega) (by omega)), ?_, Or.inr ?_⟩
  · intro p hpm
    rcases List.mem_append.1 hpm with hpm | hpm
    · have := hnew p hpm; omega
    · exact hq.segs p (by simp [hpm])
  · rcases hq.cut with e | ⟨k, k1, k2, k3, k4⟩
    · injection e with e1 e2
      injection e1 with e3 e4
      subst e3; subst e4; subst e2
      refine ⟨s.left, by omega, by omega, ?_, ?_⟩
      · intro i j i1 i2 i3 i4
        exact le_trans' h (hp.low i i1 i2) (hp.high j (by omega) (by omega))
      · intro p hpm
        have := hnew p (by simpa using hpm)
        omega
    · have hk := k4 (lo, hi) (by simp)
      simp only at hk
      refine ⟨k, k1, k2, k3.perm hp.perm hseg.1 hseg.2.1 hk, ?_⟩
      intro p hpm
      rcases List.mem_append.1 hpm with hpm | hpm
      · have := hnew p hpm; omega
      · exact k4 p (by simp [hpm])

theorem LInv.perm_list {a r : Arr α} {n : Int} {x y : Int × Int} {st : List (Int × Int)} {k : Int} (hq : LInv lt a n r (x :: y :: st))
    (_ : k = k) : LInv lt a n r (y :: x :: st) := by
  refine ⟨hq.perm, ?_, ?_⟩
  · intro p hp; exact hq.segs p (by simp at hp ⊢; tauto)
  · rcases hq.cut with e | ⟨k, k1, k2, k3, k4⟩
    · simp at e
    · exact Or.inr ⟨k, k1, k2, k3, fun p hp => k4 p (by simp at hp ⊢; tauto)⟩

theorem pushL_holds {stackSize : Nat} {st : List (Int × Int × Int)} {p : Int × Int × Int} (h : st.length < stackSize) : pushL stackSize st p = .ok (p :: st) := by
  unfold pushL; rw [if_pos h]

/-- The result of the choice of the next segment. -/
def NextOk (lt : α → α → Bool) (a : Arr α) (n : Int) (w : Int) (s : LState α) : Prop :=
  (s.stack = [] ∧ LInv lt a n s.arr []) ∨
  (∃ pend', s.stack = pend' ++ [(0, 0, 0)] ∧ LInv lt a n s.arr ((s.lo, s.hi) :: pend'.map seg2) ∧ HeightOk n ((s.lo, s.hi) :: pend'.map seg2) ∧
    weight ((s.lo, s.hi) :: pend'.map seg2) < w)

theorem pop_holds (h : StrictWeak lt) {a r : Arr α} {n lo hi : Int} {bits : Nat} {pend : List (Int × Int × Int)} (hq : LInv lt a n r ((lo, hi) :: pend.map seg2))
    (hh : HeightOk n ((lo, hi) :: pend.map seg2)) {p : PState α} (hp : PPost lt r lo hi p) {lo' hi' lvl : Int} (s1 : small (p.right - lo') = true)
    (s2 : small (hi' - p.left) = true) :
    Holds (pickSegment (bits + 1) lo' hi' lvl (pend ++ [(0, 0, 0)]) p) (NextOk lt a n (weight ((lo, hi) :: pend.map seg2))) := by
  have hseg := hq.segs (lo, hi) (by simp)
  simp only at hseg
  unfold pickSegment
  rw [if_pos s1, if_pos s2]
  have hpart := hq.part h hp [] (by simp)
  cases pend with
  | nil => exact Or.inl ⟨rfl, hpart⟩
  | cons q pend' =>
    refine Or.inr ⟨pend', rfl, hpart, hh.2, ?_⟩
    simp only [weight, List.map_cons, seg2]; omega

theorem pickSegment_holds (h : StrictWeak lt) {a r : Arr α} {n lo hi : Int} {bits : Nat} (hn : n < 2 ^ bits) {pend : List (Int × Int × Int)}
    (hq : LInv lt a n r ((lo, hi) :: pend.map seg2)) (hh : HeightOk n ((lo, hi) :: pend.map seg2)) {p : PState α} (hp : PPost lt r lo hi p) (lvl : Int) :
    Holds (pickSegment (bits + 1) lo hi lvl (pend ++ [(0, 0, 0)]) p) (NextOk lt a n (weight ((lo, hi) :: pend.map seg2))) := by
  have hc := hp.cross
  have hl1 := hp.left1
  have hl2 := hp.left2
  have hr1 := hp.right1
  have hr2 := hp.right2
  have hseg := hq.segs (lo, hi) (by simp)
  simp only at hseg
  have hpow : (0 : Int) < 2 ^ pend.length := by positivity
  have hstk : ∀ x : Int, 8 ≤ x → x * 2 ^ (pend.length + 1) ≤ n → (pend ++ [((0 : Int), (0 : Int), (0 : Int))]).length < bits + 1 := by
    intro x hx hxn
    simp only [List.length_append, List.length_singleton]
    by_contra hcon
    have hb : bits ≤ pend.length := by omega
    have h1 : (2 : Int) ^ bits ≤ 2 ^ (pend.length + 1) := pow_le_pow_right₀ (by norm_num) (by omega)
    have h2 : (0 : Int) < 2 ^ (pend.length + 1) := by positivity
    nlinarith
  have hh0 := hh
  simp only [HeightOk, List.length_map] at hh
  by_cases s1 : small (p.right - lo) = true
  · by_cases s2 : small (hi - p.left) = true
    · exact pop_holds h hq hh0 hp s1 s2
    · unfold pickSegment
      rw [if_pos s1, if_neg s2, Holds_ok]
      rw [small_iff] at s1 s2
      have hpart := hq.part h hp [(p.left, hi)] (by intro q hqm; rw [List.mem_singleton] at hqm; subst hqm; dsimp only; omega)
      refine Or.inr ⟨pend, rfl, hpart, ⟨?_, hh.2⟩, ?_⟩
      · have h1 : hi - p.left + 1 ≤ hi - lo + 1 := by omega
        rw [List.length_map]
        exact le_trans (mul_le_mul_of_nonneg_right h1 hpow.le) hh.1
      · simp only [weight]; omega
  · by_cases s2 : small (hi - p.left) = true
    · unfold pickSegment
      rw [if_neg s1, if_pos s2, Holds_ok]
      rw [small_iff] at s1 s2
      have hpart := hq.part h hp [(lo, p.right)] (by intro q hqm; rw [List.mem_singleton] at hqm; subst hqm; dsimp only; omega)
      refine Or.inr ⟨pend, rfl, hpart, ⟨?_, hh.2⟩, ?_⟩
      · have h1 : p.right - lo + 1 ≤ hi - lo + 1 := by omega
        rw [List.length_map]
        exact le_trans (mul_le_mul_of_nonneg_right h1 hpow.le) hh.1
      · simp only [weight]; omega
    · unfold pickSegment
      rw [if_neg s1, if_neg s2]
      rw [small_iff] at s1 s2
      have hhalf : ∀ x : Int, 2 * x ≤ hi - lo + 1 → x * 2 ^ (pend.length + 1) ≤ n := by
        intro x hx
        have e : x * 2 ^ (pend.length + 1) = (2 * x) * 2 ^ pend.length := by ring
        rw [e]
        exact le_trans (mul_le_mul_of_nonneg_right hx hpow.le) hh.1
      have hpart := hq.part h hp [(lo, p.right), (p.left, hi)] (by
        intro q hqm
        simp only [List.mem_cons, List.not_mem_nil, or_false] at hqm
        rcases hqm with e | e <;> subst e <;> dsimp only <;> omega)
      by_cases hbig : p.right - lo > hi - p.left
      · rw [if_pos hbig]
        have hx := hhalf (hi - p.left + 1) (by omega)
        rw [pushL_holds (hstk _ (by omega) hx)]
        msimp
        refine Or.inr ⟨(lo, p.right, lvl) :: pend, rfl, ?_, ⟨?_, ?_, hh.2⟩, ?_⟩
        · exact hpart.perm_list rfl (k := 0)
        · simpa using hx
        · have h1 : p.right - lo + 1 ≤ hi - lo + 1 := by omega
          rw [List.length_map]
          exact le_trans (mul_le_mul_of_nonneg_right h1 hpow.le) hh.1
        · simp only [weight, List.map_cons, seg2]; omega
      · rw [if_neg hbig]
        have hx := hhalf (p.right - lo + 1) (by omega)
        rw [pushL_holds (hstk _ (by omega) hx)]
        msimp
        refine Or.inr ⟨(p.left, hi, lvl) :: pend, rfl, hpart, ⟨?_, ?_, hh.2⟩, ?_⟩
        · simpa using hx
        · have h1 : hi - p.left + 1 ≤ hi - lo + 1 := by omega
          rw [List.length_map]
          exact le_trans (mul_le_mul_of_nonneg_right h1 hpow.le) hh.1
        · simp only [weight, List.map_cons, seg2]; omega

theorem weight_sentinel' : ∀ l : List (Int × Int × Int), weight ((l ++ [(0, 0, 0)]).map seg2) = weight (l.map seg2) + 1
  | [] => by simp [weight, seg2]
  | p :: r => by simp only [List.cons_append, List.map_cons, weight, weight_sentinel' r]; omega

theorem psort_holds (h : StrictWeak lt) (a : Arr α) (n : Int) (bits : Nat) (maxLevels : Int) (hn : n < 2 ^ bits) (h1 : a.lo ≤ 0) (h2 : n ≤ a.hi) :
    Holds (psort lt (bits + 1) maxLevels a n) (fun r => PermOn a r 0 n ∧ (n > 6 → ∃ k, 0 < k ∧ k < n ∧ CutAt lt r n k)) := by
  unfold psort
  split
  · rename_i hn6
    simp only [maxThresh] at hn6
    rw [pushL_holds (by simp)]
    msimp
    refine Holds_loopM (Q := fun r => PermOn a r 0 n ∧ (n > 6 → ∃ k, 0 < k ∧ k < n ∧ CutAt lt r n k))
      (fun s => ∃ pend, s.stack = pend ++ [(0, 0, 0)] ∧ LInv lt a n s.arr ((s.lo, s.hi) :: pend.map seg2) ∧
        HeightOk n ((s.lo, s.hi) :: pend.map seg2))
      (fun s => (weight ((s.lo, s.hi) :: s.stack.map seg2) - 1).toNat) ?_ _ _ ?_ ?_
    · rintro ⟨r, lo, hi, lvl, st⟩ ⟨pend, hst, hq, hh⟩
      simp only at hst hq hh
      subst hst
      have hseg := hq.segs (lo, hi) (by simp)
      simp only at hseg
      have rl := hq.perm.1
      have rh := hq.perm.2.1
      have hw := weight_nonneg _ (fun p hp => (hq.segs p hp).2.2)
      unfold psortStep
      msimp
      try dsimp only
      have hmid : lo < lo + (hi - lo) / 2 ∧ lo + (hi - lo) / 2 < hi := by omega
      refine (medianOfThree_holds h r (by omega) (by omega) hmid).mono ?_
      rintro b ⟨pb, b1, b2⟩
      refine (partition_holds h r b n.toNat (by omega) (by omega) hmid (by omega) pb b1 b2).mono ?_
      intro p hp
      have hnext : Holds (nextSegmentL (bits + 1) maxLevels lo hi lvl (pend ++ [(0, 0, 0)]) p) (NextOk lt a n (weight ((lo, hi) :: pend.map seg2))) := by
        unfold nextSegmentL
        dsimp only
        split
        · exact pop_holds h hq hh hp (by rw [small_iff]; omega) (by rw [small_iff]; omega)
        · exact pickSegment_holds h hn hq hh hp _
      refine hnext.mono ?_
      rintro ⟨r', lo', hi', lvl', st'⟩ (⟨e, hq'⟩ | ⟨pend', e, hq', hh', hw'⟩)
      · simp only at e hq'
        subst e
        msimp
        refine ⟨hq'.perm, fun _ => ?_⟩
        rcases hq'.cut with e | ⟨k, k1, k2, k3, _⟩
        · simp at e
        · exact ⟨k, k1, k2, k3⟩
      · dsimp only at e hq' hh' hw' ⊢
        subst e
        have hw2 := weight_nonneg _ (fun p hp => (hq'.segs p hp).2.2)
        have : ∃ x y, pend' ++ [((0 : Int), (0 : Int), (0 : Int))] = x :: y := by
          cases pend' with
          | nil => exact ⟨_, _, rfl⟩
          | cons x y => exact ⟨_, _, rfl⟩
        obtain ⟨x, y, hxy⟩ := this
        rw [hxy]
        msimp
        rw [← hxy]
        refine ⟨⟨pend', rfl, hq', hh'⟩, ?_⟩
        try dsimp only
        simp only [weight, weight_sentinel'] at *
        omega
    · refine ⟨[], rfl, ⟨PermOn.refl _ _ _, ?_, Or.inl rfl⟩, ?_⟩
      · intro p hp
        simp only [List.map_nil, List.mem_singleton] at hp
        subst hp
        dsimp only; omega
      · simp [HeightOk]
    · simp only [weight, List.map_cons, List.map_nil, seg2]; omega
  · rename_i hn6
    simp only [maxThresh] at hn6
    msimp
    exact ⟨PermOn.refl _ _ _, fun hc => absurd hc (by omega)⟩

end Scotch.Sorting
