import Verif.Thread.LemmasCollective
import Mathlib.Data.Nat.Bitwise

set_option autoImplicit false
set_option linter.unusedSimpArgs false

namespace Scotch.Thread

/-! ## Segments -/

theorem raceFree_cons {n : Nat} {p : Nat → List (List Op)} {s : Nat → List Op} {q : Nat → List (List Op)}
    (hp : ∀ t, t < n → p t = s t :: q t)
    (hs : ∀ t u, t < n → u < n → t ≠ u → ∀ o ∈ s t, ∀ o' ∈ s u, ¬ Conflict o o') (hq : RaceFree n q) : RaceFree n p := by
  intro k t u ht hu htu
  rw [hp t ht, hp u hu]
  cases k with
  | zero => exact hs t u ht hu htu
  | succ k => exact hq k t u ht hu htu

theorem raceFree_nil {n : Nat} {p : Nat → List (List Op)} (hp : ∀ t, t < n → p t = []) : RaceFree n p := by
  intro k t u ht hu htu o ho
  rw [hp t ht] at ho
  simp at ho

theorem inCells_cons {n : Nat} {p : Nat → List (List Op)} {s : Nat → List Op} {q : Nat → List (List Op)}
    (hp : ∀ t, t < n → p t = s t :: q t)
    (hs : ∀ t, t < n → ∀ o ∈ s t, ∀ x ∈ o.dst :: o.reads, 0 ≤ x.1 ∧ x.1 < n ∧ x.2 < 2) (hq : InCells n q) : InCells n p := by
  intro t ht l hl
  rw [hp t ht] at hl
  rcases List.mem_cons.1 hl with rfl | hl
  · exact hs t ht
  · exact hq t ht l hl

theorem inCells_nil {n : Nat} {p : Nat → List (List Op)} (hp : ∀ t, t < n → p t = []) : InCells n p := by
  intro t ht l hl
  rw [hp t ht] at hl
  simp at hl

/-! ## Ranks -/

/-- Rank of thread `t` with respect to the root. -/
def rk (n root t : Nat) : Nat := if root ≤ t then t - root else t + n - root

/-- Thread of rank `q`. -/
def thr (n root q : Nat) : Nat := if q + root < n then q + root else q + root - n

theorem rk_eq {n root t : Nat} (hr : root < n) (ht : t < n) : (t + n - root) % n = rk n root t := by
  unfold rk
  split
  · rw [show t + n - root = (t - root) + n by omega, Nat.add_mod_right, Nat.mod_eq_of_lt (by omega)]
  · rw [Nat.mod_eq_of_lt (by omega)]

theorem thr_eq {n root q : Nat} (hr : root < n) (hq : q < n) : (q + root) % n = thr n root q := by
  unfold thr
  split
  · rw [Nat.mod_eq_of_lt (by omega)]
  · rw [show q + root = (q + root - n) + n by omega, Nat.add_mod_right, Nat.mod_eq_of_lt (by omega)]
    omega

theorem rk_lt {n root t : Nat} (hr : root < n) (ht : t < n) : rk n root t < n := by
  unfold rk; split <;> omega
theorem thr_lt {n root q : Nat} (hr : root < n) (hq : q < n) : thr n root q < n := by
  unfold thr; split <;> omega
theorem rk_thr {n root q : Nat} (hr : root < n) (hq : q < n) : rk n root (thr n root q) = q := by
  unfold rk thr; split <;> split <;> omega
theorem thr_rk {n root t : Nat} (hr : root < n) (ht : t < n) : thr n root (rk n root t) = t := by
  unfold rk thr; split <;> split <;> omega

theorem xor_pow (k m : Nat) : (2 ^ k * m) ^^^ 2 ^ k = 2 ^ k * (m ^^^ 1) := by
  apply Nat.eq_of_testBit_eq
  intro i
  rw [Nat.testBit_xor]
  rw [show (2:Nat) ^ k = 2 ^ k * 1 by omega, Nat.mul_one, Nat.testBit_two_pow_mul, Nat.testBit_two_pow_mul, Nat.testBit_xor]
  have : Nat.testBit (2 ^ k) i = (decide (k ≤ i) && Nat.testBit 1 (i - k)) := by
    rw [← Nat.testBit_two_pow_mul, Nat.mul_one]
  rw [this]
  cases decide (k ≤ i) <;> simp

theorem pow_succ2 (k : Nat) : 2 ^ (k + 1) = 2 * 2 ^ k := by rw [Nat.pow_succ, Nat.mul_comm]

theorem mod_succ_iff {k q : Nat} (h : q % 2 ^ k = 0) :
    (q % 2 ^ (k + 1) = 0 ∧ q ^^^ 2 ^ k = q + 2 ^ k) ∨ (q % 2 ^ (k + 1) ≠ 0 ∧ (q ^^^ 2 ^ k) + 2 ^ k = q) := by
  obtain ⟨m, rfl⟩ : ∃ m, q = 2 ^ k * m := ⟨q / 2 ^ k, by have := Nat.div_add_mod q (2 ^ k); omega⟩
  have hp : 0 < 2 ^ k := Nat.pos_of_ne_zero (by simp)
  rw [xor_pow, Nat.pow_succ, Nat.mul_mod_mul_left]
  rcases Nat.mod_two_eq_zero_or_one m with hm | hm
  · left
    rw [hm, Nat.xor_one_of_even (Nat.even_iff.2 hm)]
    exact ⟨by simp, by rw [Nat.mul_add, Nat.mul_one]⟩
  · right
    rw [hm, Nat.xor_one_of_odd (Nat.odd_iff.2 hm)]
    refine ⟨by simp, ?_⟩
    obtain ⟨m, rfl⟩ : ∃ m', m = m' + 1 := ⟨m - 1, by omega⟩
    rw [Nat.add_sub_cancel, Nat.mul_add, Nat.mul_one]

theorem mod_of_succ {k q : Nat} (h : q % 2 ^ (k + 1) = 0) : q % 2 ^ k = 0 := by
  apply Nat.mod_eq_zero_of_dvd
  exact Nat.dvd_trans ⟨2, by rw [Nat.pow_succ]⟩ (Nat.dvd_of_mod_eq_zero h)

/-! ## Canonical reduction -/

/-- Operations of a turn. -/
def rOps (n root t : Nat) (msk nsk : Nat) : List Op :=
  if nsk ^^^ msk < n then
    if nsk ^^^ msk > nsk then [⟨((t : Int), 0), ((t : Int), 0), some ((((nsk ^^^ msk) + root) % n : Nat), 0)⟩] else []
  else []

def rNext (n msk nsk : Nat) : Nat :=
  if nsk ^^^ msk < n then if nsk ^^^ msk > nsk then nsk else nsk + n else nsk

def rTail (n root t : Nat) : Nat → Nat → Nat → List (List Op)
  | 0, _, _ => []
  | fuel + 1, msk, nsk => if msk < n then rOps n root t msk nsk :: rTail n root t fuel (msk * 2) (rNext n msk nsk) else []

theorem reduceLoop_eq (n root t : Nat) : ∀ fuel msk nsk, reduceLoop n root t t fuel msk nsk = [] :: rTail n root t fuel msk nsk := by
  intro fuel
  induction fuel with
  | zero => intro msk nsk; rfl
  | succ fuel ih =>
    intro msk nsk
    simp only [reduceLoop, rTail, rOps, rNext]
    by_cases h : msk < n
    · simp only [h, if_true]
      by_cases h1 : nsk ^^^ msk < n
      · simp only [h1, if_true]
        by_cases h2 : nsk ^^^ msk > nsk
        · simp only [h2, if_true, ih, prepend, List.append_nil]
          rw [show (t : Int) + ((((nsk ^^^ msk) + root) % n : Nat) - (t : Int)) = (((nsk ^^^ msk) + root) % n : Nat) by omega]
        · simp only [h2, if_false, ih]
      · simp only [h1, if_false, ih]
    · simp only [h, if_false]

theorem rTail_length (n root t t' : Nat) : ∀ fuel msk nsk nsk',
    (rTail n root t fuel msk nsk).length = (rTail n root t' fuel msk nsk').length := by
  intro fuel
  induction fuel with
  | zero => intro msk nsk nsk'; rfl
  | succ fuel ih =>
    intro msk nsk nsk'
    simp only [rTail]
    split
    · simp only [List.length_cons]; rw [ih]
    · rfl

/-- Ranks are known, or the thread has sent its value and does nothing more. -/
def RInv (n root k : Nat) (ν : Nat → Nat) : Prop :=
  ∀ t, t < n → (rk n root t % 2 ^ k = 0 ∧ ν t = rk n root t) ∨ (rk n root t % 2 ^ k ≠ 0 ∧ n ≤ ν t)

theorem rOps_spec {n root k : Nat} {ν : Nat → Nat} (hr : root < n) (h : RInv n root k ν) {t : Nat} (ht : t < n) :
    (rk n root t % 2 ^ (k + 1) = 0 ∧ rk n root t + 2 ^ k < n ∧
      rOps n root t (2 ^ k) (ν t) = [⟨((t : Int), 0), ((t : Int), 0), some ((thr n root (rk n root t + 2 ^ k) : Nat), 0)⟩]) ∨
    (¬ (rk n root t % 2 ^ (k + 1) = 0 ∧ rk n root t + 2 ^ k < n) ∧ rOps n root t (2 ^ k) (ν t) = []) := by
  have hp : 0 < 2 ^ k := Nat.pos_of_ne_zero (by simp)
  rcases h t ht with ⟨h1, h2⟩ | ⟨h1, h2⟩
  · rw [h2]
    rcases mod_succ_iff h1 with ⟨g1, g2⟩ | ⟨g1, g2⟩
    · unfold rOps
      rw [g2]
      by_cases hl : rk n root t + 2 ^ k < n
      · left
        refine ⟨g1, hl, ?_⟩
        rw [if_pos hl, if_pos (by omega), thr_eq hr hl]
      · right
        refine ⟨fun hc => hl hc.2, ?_⟩
        rw [if_neg hl]
    · right
      refine ⟨fun hc => g1 hc.1, ?_⟩
      unfold rOps
      have := rk_lt hr ht
      rw [if_pos (by omega), if_neg (by omega)]
  · right
    refine ⟨fun hc => h1 (mod_of_succ hc.1), ?_⟩
    unfold rOps
    split
    · rw [if_neg (by omega)]
    · rfl

theorem rNext_inv {n root k : Nat} {ν : Nat → Nat} (hr : root < n) (h : RInv n root k ν) :
    RInv n root (k + 1) (fun t => rNext n (2 ^ k) (ν t)) := by
  have hp : 0 < 2 ^ k := Nat.pos_of_ne_zero (by simp)
  intro t ht
  have hlt := rk_lt hr ht
  dsimp only
  rcases h t ht with ⟨h1, h2⟩ | ⟨h1, h2⟩
  · rw [h2]
    unfold rNext
    rcases mod_succ_iff h1 with ⟨g1, g2⟩ | ⟨g1, g2⟩
    · left
      refine ⟨g1, ?_⟩
      rw [g2]
      split
      · rw [if_pos (by omega)]
      · rfl
    · right
      refine ⟨g1, ?_⟩
      rw [if_pos (by omega), if_neg (by omega)]
      omega
  · right
    refine ⟨fun hc => h1 (mod_of_succ hc), ?_⟩
    unfold rNext
    split
    · split <;> omega
    · omega

theorem rOps_mem {n root k : Nat} {ν : Nat → Nat} (hr : root < n) (h : RInv n root k ν) {t : Nat} (ht : t < n) {o : Op}
    (ho : o ∈ rOps n root t (2 ^ k) (ν t)) :
    rk n root t % 2 ^ (k + 1) = 0 ∧ rk n root t + 2 ^ k < n ∧
      o = ⟨((t : Int), 0), ((t : Int), 0), some ((thr n root (rk n root t + 2 ^ k) : Nat), 0)⟩ := by
  rcases rOps_spec hr h ht with ⟨g1, g2, g3⟩ | ⟨_, g2⟩
  · rw [g3] at ho
    simp only [List.mem_singleton] at ho
    exact ⟨g1, g2, ho⟩
  · rw [g2] at ho; simp at ho

/-- A thread which sends its value does not receive any. -/
theorem rank_ne {k q q' : Nat} (h : q % 2 ^ (k + 1) = 0) (h' : q' % 2 ^ (k + 1) = 0) : q + 2 ^ k ≠ q' := by
  intro e
  have hp : 0 < 2 ^ k := Nat.pos_of_ne_zero (by simp)
  have h1 : 2 ^ (k + 1) ∣ q' - q := Nat.dvd_sub (Nat.dvd_of_mod_eq_zero h') (Nat.dvd_of_mod_eq_zero h)
  rw [show q' - q = 2 ^ k by omega] at h1
  have := Nat.le_of_dvd hp h1
  rw [pow_succ2] at this
  omega

theorem rOps_race {n root k : Nat} {ν : Nat → Nat} (hr : root < n) (h : RInv n root k ν) {t u : Nat} (ht : t < n) (hu : u < n)
    (htu : t ≠ u) : ∀ o ∈ rOps n root t (2 ^ k) (ν t), ∀ o' ∈ rOps n root u (2 ^ k) (ν u), ¬ Conflict o o' := by
  intro o ho o' ho'
  obtain ⟨a1, a2, rfl⟩ := rOps_mem hr h ht ho
  obtain ⟨b1, b2, rfl⟩ := rOps_mem hr h hu ho'
  have h1 : t ≠ thr n root (rk n root u + 2 ^ k) := by
    intro e
    have := rk_thr hr b2
    rw [← e] at this
    exact rank_ne b1 a1 this.symm
  have h2 : u ≠ thr n root (rk n root t + 2 ^ k) := by
    intro e
    have := rk_thr hr a2
    rw [← e] at this
    exact rank_ne a1 b1 this.symm
  unfold Conflict Op.reads
  simp only [Prod.mk.injEq, Option.toList, List.mem_cons, List.not_mem_nil, or_false, and_true]
  omega

theorem rTail_race {n root : Nat} (hr : root < n) : ∀ (fuel k : Nat) (ν : Nat → Nat), RInv n root k ν →
    RaceFree n (fun t => rTail n root t fuel (2 ^ k) (ν t)) := by
  intro fuel
  induction fuel with
  | zero => intro k ν _; exact raceFree_nil (fun t _ => rfl)
  | succ fuel ih =>
    intro k ν h
    by_cases hk : 2 ^ k < n
    · refine raceFree_cons (s := fun t => rOps n root t (2 ^ k) (ν t))
        (q := fun t => rTail n root t fuel (2 ^ (k + 1)) (rNext n (2 ^ k) (ν t))) ?_ ?_ (ih (k + 1) _ (rNext_inv hr h))
      · intro t _; simp only [rTail, hk, if_true, Nat.pow_succ]
      · intro t u ht hu htu; exact rOps_race hr h ht hu htu
    · exact raceFree_nil (fun t _ => by simp only [rTail, hk, if_false])

theorem rTail_cells {n root : Nat} (hr : root < n) : ∀ (fuel k : Nat) (ν : Nat → Nat), RInv n root k ν →
    InCells n (fun t => rTail n root t fuel (2 ^ k) (ν t)) := by
  intro fuel
  induction fuel with
  | zero => intro k ν _; exact inCells_nil (fun t _ => rfl)
  | succ fuel ih =>
    intro k ν h
    by_cases hk : 2 ^ k < n
    · refine inCells_cons (s := fun t => rOps n root t (2 ^ k) (ν t))
        (q := fun t => rTail n root t fuel (2 ^ (k + 1)) (rNext n (2 ^ k) (ν t))) ?_ ?_ (ih (k + 1) _ (rNext_inv hr h))
      · intro t _; simp only [rTail, hk, if_true, Nat.pow_succ]
      · intro t ht o ho x hx
        obtain ⟨a1, a2, rfl⟩ := rOps_mem hr h ht ho
        have := thr_lt hr a2
        simp only [Op.reads, Option.toList, List.mem_cons, List.not_mem_nil, or_false] at hx
        rcases hx with rfl | rfl | rfl <;> simp only <;> omega
    · exact inCells_nil (fun t _ => by simp only [rTail, hk, if_false])

section values
variable {α : Type} {op : α → α → α}

/-- Values of the cells of the threads that are still active. -/
def RVal (op : α → α → α) (n root k : Nat) (c : Nat → α) (m : Mem α) : Prop :=
  ∀ q, q < n → q % 2 ^ k = 0 → m ((thr n root q : Nat), 0) = foldFrom op c q (min (2 ^ k) (n - q) - 1)

theorem rSeg_val (ha : ∀ x y z, op (op x y) z = op x (op y z)) {n root k : Nat} {ν : Nat → Nat} (hr : root < n)
    (h : RInv n root k ν) {c : Nat → α} {m : Mem α} (hv : RVal op n root k c m) {l : List Op}
    (hl : Inter n (fun t => rOps n root t (2 ^ k) (ν t)) l) : RVal op n root (k + 1) c (execs op l m) := by
  have hp : 0 < 2 ^ k := Nat.pos_of_ne_zero (by simp)
  intro q hq hqk
  have ht := thr_lt hr hq
  rw [seg_val hl m ht]
  · rcases rOps_spec hr h ht with ⟨g1, g2, g3⟩ | ⟨g1, g2⟩
    · rw [rk_thr hr hq] at g1 g2 g3
      rw [g3]
      simp only [execs, Op.exec, if_true]
      rw [hv q hq (mod_of_succ hqk)]
      rw [hv (q + 2 ^ k) g2 (by rw [Nat.add_mod_right]; exact mod_of_succ hqk)]
      have := foldFrom_add ha c q (2 ^ k - 1) (min (2 ^ k) (n - (q + 2 ^ k)) - 1)
      rw [show q + (2 ^ k - 1 + 1) = q + 2 ^ k by omega] at this
      rw [show min (2 ^ k) (n - q) = 2 ^ k by omega, this]
      rw [pow_succ2]
      congr 1
      omega
    · rw [rk_thr hr hq] at g1
      rw [g2]
      simp only [execs]
      rw [hv q hq (mod_of_succ hqk)]
      have : n ≤ q + 2 ^ k := by
        apply Nat.le_of_not_lt
        intro hc; exact g1 ⟨hqk, hc⟩
      rw [pow_succ2]
      congr 1
      omega
  · intro u hu hut o ho
    obtain ⟨a1, a2, rfl⟩ := rOps_mem hr h hu ho
    intro e
    simp only [Prod.mk.injEq] at e
    omega
  · intro u hu hut o ho o' ho' hc
    exact rOps_race hr h hu ht hut o ho o' ho' (Or.inr (Or.inl hc))

theorem rTail_val (ha : ∀ x y z, op (op x y) z = op x (op y z)) {n root : Nat} (hr : root < n) (c : Nat → α) :
    ∀ (fuel k : Nat) (ν : Nat → Nat) (m m' : Mem α), RInv n root k ν → RVal op n root k c m → n ≤ fuel + 2 ^ k →
      Runs n op (fun t => rTail n root t fuel (2 ^ k) (ν t)) m m' → m' ((root : Nat), 0) = foldFrom op c 0 (n - 1) := by
  have hend : ∀ (k : Nat) (m : Mem α), RVal op n root k c m → n ≤ 2 ^ k → m ((root : Nat), 0) = foldFrom op c 0 (n - 1) := by
    intro k m hv hk
    have := hv 0 (by omega) (by simp)
    rw [show thr n root 0 = root by unfold thr; simp [hr]] at this
    rw [this]
    congr 1
    omega
  intro fuel
  induction fuel with
  | zero =>
    intro k ν m m' _ hv hf hr'
    rw [runs_nil (by omega) hr' (fun t _ => rfl)]
    exact hend k m hv (by omega)
  | succ fuel ih =>
    intro k ν m m' h hv hf hr'
    by_cases hk : 2 ^ k < n
    · obtain ⟨l, hl, hr2⟩ := runs_cons (by omega) (s := fun t => rOps n root t (2 ^ k) (ν t))
        (q := fun t => rTail n root t fuel (2 ^ (k + 1)) (rNext n (2 ^ k) (ν t))) hr'
        (by intro t _; simp only [rTail, hk, if_true, Nat.pow_succ])
      refine ih (k + 1) _ _ m' (rNext_inv hr h) (rSeg_val ha hr h hv hl) ?_ hr2
      have hp : 0 < 2 ^ k := Nat.pos_of_ne_zero (by simp)
      rw [pow_succ2]; omega
    · rw [runs_nil (by omega) hr' (fun t _ => by simp only [rTail, hk, if_false])]
      exact hend k m hv (by omega)

end values

theorem rInv_init {n root : Nat} (hr : root < n) : RInv n root 0 (fun t => (t + n - root) % n) := by
  intro t ht
  left
  exact ⟨by rw [Nat.pow_zero, Nat.mod_one], rk_eq hr ht⟩

theorem reduceCan_eq {n root t : Nat} (hn : 1 < n) :
    reduceCan n root t t = [] :: rTail n root t n (2 ^ 0) ((t + n - root) % n) := by
  unfold reduceCan
  rw [if_neg (by omega), reduceLoop_eq, Nat.pow_zero]

/-! ## Default reduction -/

theorem reduceRoot_mem {n root : Nat} : ∀ (len i : Nat) (o : Op), o ∈ reduceRoot n root (root : Nat) len i →
    ∃ j, i ≤ j ∧ j < i + len ∧ o = ⟨((root : Int), 0), ((root : Int), 0), some (((root + j) % n : Nat), 0)⟩ := by
  intro len
  induction len with
  | zero => intro i o ho; simp [reduceRoot] at ho
  | succ len ih =>
    intro i o ho
    simp only [reduceRoot, List.mem_cons] at ho
    rcases ho with rfl | ho
    · refine ⟨i, by omega, by omega, ?_⟩
      rw [show (root : Int) + ((((root + i) % n : Nat) : Int) - (root : Int)) = ((root + i) % n : Nat) by omega]
    · obtain ⟨j, h1, h2, h3⟩ := ih (i + 1) o ho
      exact ⟨j, by omega, by omega, h3⟩

theorem rot_ne {n root j : Nat} (hr : root < n) (h1 : 1 ≤ j) (h2 : j < n) : (root + j) % n ≠ root := by
  rw [Nat.add_comm, thr_eq hr h2]
  unfold thr
  split <;> omega

theorem reduceRoot_val {α : Type} {op : α → α → α} {n root : Nat} (hr : root < n) (m : Mem α) :
    ∀ (len i : Nat) (m1 : Mem α), 1 ≤ i → i + len ≤ n → (∀ x, x ≠ ((root : Int), 0) → m1 x = m x) →
      m1 ((root : Int), 0) = foldFrom op (fun q => m (((root + q) % n : Nat), 0)) 0 (i - 1) →
      execs op (reduceRoot n root (root : Nat) len i) m1 ((root : Int), 0) =
        foldFrom op (fun q => m (((root + q) % n : Nat), 0)) 0 (i + len - 1) := by
  intro len
  induction len with
  | zero => intro i m1 _ _ _ h; exact h
  | succ len ih =>
    intro i m1 hi hn ho hv
    simp only [reduceRoot, execs]
    rw [show i + (len + 1) - 1 = (i + 1) + len - 1 by omega]
    apply ih (i + 1) _ (by omega) (by omega)
    · intro x hx
      rw [exec_ne _ _ hx]; exact ho x hx
    · simp only [Op.exec, if_true]
      rw [hv]
      rw [show (root : Int) + ((((root + i) % n : Nat) : Int) - (root : Int)) = ((root + i) % n : Nat) by omega]
      rw [ho _ (by
        intro e
        simp only [Prod.mk.injEq, and_true] at e
        exact rot_ne hr hi (by omega) (by omega))]
      obtain ⟨i, rfl⟩ : ∃ i', i = i' + 1 := ⟨i - 1, by omega⟩
      simp only [Nat.add_sub_cancel, foldFrom, Nat.zero_add]

end Scotch.Thread
