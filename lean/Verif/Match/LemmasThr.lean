import Verif.Match.LemmasSeq
import Mathlib.Algebra.BigOperators.Intervals
import Mathlib.Tactic.Ring

set_option autoImplicit false
set_option linter.unusedSimpArgs false

namespace Scotch.Match

/-- The thread is about to write the mate of this vertex. -/
def Pending (t : Thr) (x : Int) : Prop := (∃ v b, t.pc = .write1 v b ∧ (x = v ∨ x = b)) ∨ (∃ b, t.pc = .write2 x b)

/-- The thread holds the lock of this vertex, which it has not mated yet. -/
def Holding (t : Thr) (x : Int) : Prop := (∃ b, t.pc = .lock2 x b) ∨ (∃ b, t.pc = .unlock x b)

/-- Coarse vertices created but not yet counted. -/
def pend (t : Thr) : Int := match t.pc with | .write1 _ _ => 1 | .write2 _ _ => 1 | _ => 0

/-- What a thread knows about its current vertex. -/
structure Chosen (E : Env) (m : Int → Int) (v b : Int) : Prop where
  vert : E.g.Vertex b
  good : Good E v b
  self : b = v → ∀ y, Adj E.g v y → Compat E v y → 0 ≤ m y

def PcOk (E : Env) (m : Int → Int) (t : Thr) (e0 : Int) : Prop :=
  match t.pc with
  | .top => True
  | .search v => t.qnum < t.nnd ∧ t.queue.get t.qnum = v
  | .lock1 v b => t.qnum < e0 ∧ t.queue.get t.qnum = v ∧ Chosen E m v b
  | .lock2 v b => t.qnum < e0 ∧ t.queue.get t.qnum = v ∧ Chosen E m v b ∧ b ≠ v ∧ m v < 0
  | .unlock v _ => t.qnum < e0 ∧ t.queue.get t.qnum = v ∧ m v < 0
  | .write1 v b => t.qnum < e0 ∧ t.queue.get t.qnum = v ∧ E.g.Vertex b ∧ m v = b ∧ m b = v
  | .write2 v b => t.qnum < e0 ∧ t.queue.get t.qnum = v ∧ E.g.Vertex b ∧ m v = b
  | .done => t.nnd ≤ t.qnum

/-- Invariant of a thread, in charge of vertices `[bas, nnd0)`. -/
structure TOk (E : Env) (m : Int → Int) (t : Thr) (bas nnd0 : Int) : Prop where
  lo : t.queue.lo ≤ 0
  hi : 2 * (nnd0 - bas) ≤ t.queue.hi
  new0 : 0 ≤ t.qnew
  new1 : t.qnew * 2 + 1 ≤ t.qnum
  odd : t.qnum % 2 = 1
  oddn : t.nnd % 2 = 1
  le : t.nnd ≤ 1 + 2 * (nnd0 - bas)
  leq : t.qnum ≤ 1 + 2 * (nnd0 - bas)
  old : ∀ j, t.qnum ≤ j → j < 1 + 2 * (nnd0 - bas) → j % 2 = 1 → bas ≤ t.queue.get j ∧ t.queue.get j < nnd0
  new : ∀ j, 0 ≤ j → j < t.qnew → bas ≤ t.queue.get j ∧ t.queue.get j < nnd0
  all : ∀ x, bas ≤ x → x < nnd0 → 0 ≤ m x ∨ (∃ j, t.qnum ≤ j ∧ j < t.nnd ∧ j % 2 = 1 ∧ t.queue.get j = x) ∨ (∃ j, 0 ≤ j ∧ j < t.qnew ∧ t.queue.get j = x)
  pc : PcOk E m t (1 + 2 * (nnd0 - bas))

/-- Ranges of vertices of the threads. -/
structure Ranges (E : Env) (n : Nat) (bas : Nat → Int) : Prop where
  first : bas 0 = E.g.baseval
  last : bas n = E.g.vertnnd
  mono : ∀ i, i < n → bas i ≤ bas (i + 1)

theorem Ranges.le {E : Env} {n : Nat} {bas : Nat → Int} (R : Ranges E n bas) : ∀ j i, i ≤ j → j ≤ n → bas i ≤ bas j := by
  intro j
  induction j with
  | zero => intro i h _; rw [show i = 0 by omega]
  | succ j ih =>
    intro i h1 h2
    by_cases e : i = j + 1
    · rw [e]
    · have := ih i (by omega) (by omega)
      have := R.mono j (by omega)
      omega

theorem Ranges.vertex {E : Env} {n : Nat} {bas : Nat → Int} (R : Ranges E n bas) {i : Nat} (hi : i < n) {x : Int} (h1 : bas i ≤ x) (h2 : x < bas (i + 1)) : E.g.Vertex x := by
  have := R.le i 0 (by omega) (by omega)
  have := R.le n (i + 1) (by omega) (by omega)
  have := R.first
  have := R.last
  exact ⟨by omega, by omega⟩

theorem Ranges.uniq {E : Env} {n : Nat} {bas : Nat → Int} (R : Ranges E n bas) {i j : Nat} (hi : i < n) (hj : j < n) {x : Int} (h1 : bas i ≤ x) (h2 : x < bas (i + 1))
    (h3 : bas j ≤ x) (h4 : x < bas (j + 1)) : i = j := by
  rcases Nat.lt_trichotomy i j with h | h | h
  · have := R.le j (i + 1) (by omega) (by omega); omega
  · exact h
  · have := R.le i (j + 1) (by omega) (by omega); omega

theorem Ranges.cover {E : Env} {n : Nat} {bas : Nat → Int} (R : Ranges E n bas) {x : Int} (hx : E.g.Vertex x) : ∃ i, i < n ∧ bas i ≤ x ∧ x < bas (i + 1) := by
  have key : ∀ k, k ≤ n → x < bas k → ∃ i, i < n ∧ bas i ≤ x ∧ x < bas (i + 1) := by
    intro k
    induction k with
    | zero => intro _ h; have := hx.1; have := R.first; omega
    | succ k ih =>
      intro h1 h2
      by_cases h : x < bas k
      · exact ih (by omega) h
      · exact ⟨k, by omega, by omega, h2⟩
  exact key n (Nat.le_refl _) (by have := hx.2; have := R.last; omega)

/-- Invariant of the system; `m` is the matching, as defined by the acquisition of the last lock. -/
structure TInv (E : Env) (n : Nat) (bas : Nat → Int) (s : Sys) (m : Int → Int) : Prop where
  covm : Covers E.g s.sh.mate
  covl : Covers E.g s.sh.lock
  part : Part E m
  lag : ∀ x, E.g.Vertex x → s.sh.mate.get x = m x ∨ (s.sh.mate.get x < 0 ∧ 0 ≤ m x ∧ ∃ i, i < n ∧ Pending (s.thr i) x)
  lock : ∀ x, E.g.Vertex x → (s.sh.lock.get x ≠ 0 ↔ (0 ≤ m x ∨ ∃ i, i < n ∧ Holding (s.thr i) x))
  thr : ∀ i, i < n → TOk E m (s.thr i) (bas i) (bas (i + 1))
  cnt : cntOf E m = (Finset.range n).sum (fun i => (s.thr i).cnt + pend (s.thr i))

/-- Updating the state of one thread. -/
theorem sum_update (n i : Nat) (hi : i < n) (f g : Nat → Int) (h : ∀ j, j < n → j ≠ i → g j = f j) :
    (Finset.range n).sum g = (Finset.range n).sum f - f i + g i := by
  have hm : i ∈ Finset.range n := Finset.mem_range.2 hi
  rw [← Finset.add_sum_erase _ g hm, ← Finset.add_sum_erase _ f hm]
  have : ((Finset.range n).erase i).sum g = ((Finset.range n).erase i).sum f := by
    refine Finset.sum_congr rfl fun j hj => ?_
    rw [Finset.mem_erase, Finset.mem_range] at hj
    exact h j hj.2 hj.1
  rw [this]; ring

/-- A thread's invariant is kept when others make progress. -/
theorem TOk.mono {E : Env} {m m' : Int → Int} {t : Thr} {b c : Int} (T : TOk E m t b c) (h : ∀ x, 0 ≤ m x → m' x = m x)
    (hcur : ∀ v, Holding t v → m v < 0 → m' v < 0) (hb : 0 ≤ E.g.baseval) (hbb : 0 ≤ b) : TOk E m' t b c := by
  obtain ⟨a1, a2, a3, a4, a5, a6, a7, a8, a9, a10, a11, a12⟩ := T
  refine ⟨a1, a2, a3, a4, a5, a6, a7, a8, a9, a10, ?_, ?_⟩
  · intro x h1 h2
    rcases a11 x h1 h2 with h' | h'
    · left; rw [h x h']; exact h'
    · exact Or.inr h'
  · have hch : ∀ v w, Chosen E m v w → Chosen E m' v w := fun v w ⟨c1, c2, c3⟩ => ⟨c1, c2, fun e y h1 h2 => by have := c3 e y h1 h2; rw [h y this]; exact this⟩
    unfold PcOk at a12 ⊢
    cases hpc : t.pc with
    | top => trivial
    | search v => rw [hpc] at a12; exact a12
    | lock1 v w => rw [hpc] at a12; exact ⟨a12.1, a12.2.1, hch _ _ a12.2.2⟩
    | lock2 v w => rw [hpc] at a12; exact ⟨a12.1, a12.2.1, hch _ _ a12.2.2.1, a12.2.2.2.1, hcur v (Or.inl ⟨w, hpc⟩) a12.2.2.2.2⟩
    | unlock v w => rw [hpc] at a12; exact ⟨a12.1, a12.2.1, hcur v (Or.inr ⟨w, hpc⟩) a12.2.2⟩
    | write1 v w =>
      rw [hpc] at a12
      dsimp only at a12 ⊢
      obtain ⟨b1, b2, b3, b4, b5⟩ := a12
      have hq := a9 t.qnum (Int.le_refl _) b1 a5
      have := b3.1
      exact ⟨b1, b2, b3, (h v (by omega)).trans b4, (h w (by omega)).trans b5⟩
    | write2 v w =>
      rw [hpc] at a12
      dsimp only at a12 ⊢
      obtain ⟨b1, b2, b3, b4⟩ := a12
      have := b3.1
      exact ⟨b1, b2, b3, (h v (by omega)).trans b4⟩
    | done => rw [hpc] at a12; exact a12

/-- A thread has finished with a vertex that is mated. -/
theorem TOk.adv {E : Env} {m : Int → Int} {t t' : Thr} {b c : Int} (T : TOk E m t b c) (hlt : t.qnum < 1 + 2 * (c - b)) (hm : 0 ≤ m (t.queue.get t.qnum))
    (e1 : t'.queue = t.queue) (e2 : t'.qnum = t.qnum + 2) (e3 : t'.qnew = t.qnew) (e4 : t'.nnd = t.nnd) (e5 : t'.pc = .top) : TOk E m t' b c := by
  obtain ⟨a1, a2, a3, a4, a5, a6, a7, a8, a9, a10, a11, a12⟩ := T
  refine ⟨by rw [e1]; exact a1, by rw [e1]; exact a2, by omega, by omega, by omega, by omega, by omega, by omega, ?_, ?_, ?_, ?_⟩
  · intro j h1 h2 h3; rw [e1]; exact a9 j (by omega) h2 h3
  · intro j h1 h2; rw [e1]; exact a10 j h1 (by omega)
  · intro x h1 h2
    rw [e1, e2, e3, e4]
    rcases a11 x h1 h2 with h | ⟨j, j1, j2, j3, j4⟩ | h
    · exact Or.inl h
    · by_cases e : j = t.qnum
      · left; rw [← j4, e]; exact hm
      · exact Or.inr (Or.inl ⟨j, by omega, j2, j3, j4⟩)
    · exact Or.inr (Or.inr h)
  · unfold PcOk; rw [e5]; trivial

/-- Number of steps that remain for a thread. -/
def work (e0 : Int) (t : Thr) : Int := (e0 - t.qnum) * 4 +
  match t.pc with | .top => 7 | .search _ => 6 | .lock1 _ _ => 5 | .lock2 _ _ => 4 | .unlock _ _ => 3 | .write1 _ _ => 3 | .write2 _ _ => 2 | .done => 0

def upd (s : Sys) (i : Nat) (sh : Shared) (t : Thr) : Sys := ⟨sh, fun j => if j = i then t else s.thr j⟩

/-- Other threads which hold a lock, or which are about to write. -/
def OthHold (s : Sys) (n i : Nat) (x : Int) : Prop := ∃ j, j < n ∧ j ≠ i ∧ Holding (s.thr j) x
def OthPend (s : Sys) (n i : Nat) (x : Int) : Prop := ∃ j, j < n ∧ j ≠ i ∧ Pending (s.thr j) x

section
variable {E : Env} {n : Nat} {bas : Nat → Int} {s : Sys} {m : Int → Int}

theorem TInv.lock' (I : TInv E n bas s m) {i : Nat} (hi : i < n) {x : Int} (hx : E.g.Vertex x) :
    s.sh.lock.get x ≠ 0 ↔ (0 ≤ m x ∨ Holding (s.thr i) x ∨ OthHold s n i x) := by
  rw [I.lock x hx]
  constructor
  · rintro (h | ⟨j, h1, h2⟩)
    · exact Or.inl h
    · by_cases e : j = i
      · subst e; exact Or.inr (Or.inl h2)
      · exact Or.inr (Or.inr ⟨j, h1, e, h2⟩)
  · rintro (h | h | ⟨j, h1, _, h2⟩)
    · exact Or.inl h
    · exact Or.inr ⟨i, hi, h⟩
    · exact Or.inr ⟨j, h1, h2⟩

theorem TInv.lag' (I : TInv E n bas s m) {i : Nat} (_hi : i < n) {x : Int} (hx : E.g.Vertex x) :
    s.sh.mate.get x = m x ∨ (s.sh.mate.get x < 0 ∧ 0 ≤ m x ∧ (Pending (s.thr i) x ∨ OthPend s n i x)) := by
  rcases I.lag x hx with h | ⟨h1, h2, j, h3, h4⟩
  · exact Or.inl h
  · refine Or.inr ⟨h1, h2, ?_⟩
    by_cases e : j = i
    · subst e; exact Or.inl h4
    · exact Or.inr ⟨j, h3, e, h4⟩

theorem TInv.mated (I : TInv E n bas s m) {x : Int} (hx : E.g.Vertex x) (h : 0 ≤ s.sh.mate.get x) : 0 ≤ m x := by
  rcases I.lag x hx with h' | h' <;> omega

theorem TInv.upd (V : Valid E) (R : Ranges E n bas) (I : TInv E n bas s m) {i : Nat} (hi : i < n) {sh : Shared} {t : Thr} {m' : Int → Int}
    (c1 : Covers E.g sh.mate) (c2 : Covers E.g sh.lock) (P : Part E m') (hmono : ∀ x, 0 ≤ m x → m' x = m x)
    (hoth : ∀ x, OthHold s n i x → m x < 0 → m' x < 0)
    (hlag : ∀ x, E.g.Vertex x → sh.mate.get x = m' x ∨ (sh.mate.get x < 0 ∧ 0 ≤ m' x ∧ (Pending t x ∨ OthPend s n i x)))
    (hlock : ∀ x, E.g.Vertex x → (sh.lock.get x ≠ 0 ↔ (0 ≤ m' x ∨ Holding t x ∨ OthHold s n i x)))
    (T : TOk E m' t (bas i) (bas (i + 1))) (hcnt : cntOf E m' - cntOf E m = t.cnt + pend t - ((s.thr i).cnt + pend (s.thr i))) :
    TInv E n bas (upd s i sh t) m' := by
  have hti : (Match.upd s i sh t).thr i = t := if_pos rfl
  have htj : ∀ j, j ≠ i → (Match.upd s i sh t).thr j = s.thr j := fun j h => if_neg h
  refine ⟨c1, c2, P, ?_, ?_, ?_, ?_⟩
  · intro x hx
    rcases hlag x hx with h | ⟨h1, h2, h3 | ⟨j, h3, h4, h5⟩⟩
    · exact Or.inl h
    · exact Or.inr ⟨h1, h2, i, hi, by rw [hti]; exact h3⟩
    · exact Or.inr ⟨h1, h2, j, h3, by rw [htj j h4]; exact h5⟩
  · intro x hx
    refine (hlock x hx).trans ?_
    constructor
    · rintro (h | h | ⟨j, h3, h4, h5⟩)
      · exact Or.inl h
      · exact Or.inr ⟨i, hi, by rw [hti]; exact h⟩
      · exact Or.inr ⟨j, h3, by rw [htj j h4]; exact h5⟩
    · rintro (h | ⟨j, h1, h2⟩)
      · exact Or.inl h
      · by_cases e : j = i
        · rw [e, hti] at h2; exact Or.inr (Or.inl h2)
        · rw [htj j e] at h2; exact Or.inr (Or.inr ⟨j, h1, e, h2⟩)
  · intro j hj
    by_cases e : j = i
    · rw [e, hti]; exact T
    · rw [htj j e]
      have := R.le j 0 (by omega) (by omega)
      have := R.first
      exact (I.thr j hj).mono hmono (fun v h => hoth v ⟨j, hj, e, h⟩) V.base (by have := V.base; omega)
  · rw [sum_update n i hi (fun j => (s.thr j).cnt + pend (s.thr j)) _ (fun j _ h => by rw [htj j h]), hti]
    have := I.cnt
    omega

/-- Steps that change the state of one thread only. -/
theorem TInv.loc (V : Valid E) (R : Ranges E n bas) (I : TInv E n bas s m) {i : Nat} (hi : i < n) {t : Thr} (T : TOk E m t (bas i) (bas (i + 1)))
    (h1 : ∀ x, Pending t x ↔ Pending (s.thr i) x) (h2 : ∀ x, Holding t x ↔ Holding (s.thr i) x) (h3 : t.cnt + pend t = (s.thr i).cnt + pend (s.thr i)) :
    TInv E n bas (Match.upd s i s.sh t) m := by
  refine I.upd V R hi I.covm I.covl I.part (fun _ _ => rfl) (fun _ _ h => h) ?_ ?_ T (by omega)
  · intro x hx
    rw [h1]; exact I.lag' hi hx
  · intro x hx
    rw [h2]; exact I.lock' hi hx

theorem hold_iff (t : Thr) (x : Int) : Holding t x ↔ (match t.pc with | .lock2 v _ => x = v | .unlock v _ => x = v | _ => False) := by
  unfold Holding
  cases h : t.pc <;> simp [h, eq_comm]

theorem pend_iff (t : Thr) (x : Int) : Pending t x ↔ (match t.pc with | .write1 v b => x = v ∨ x = b | .write2 v _ => x = v | _ => False) := by
  unfold Pending
  cases h : t.pc <;> simp [h, eq_comm]

/-- A step of a thread keeps the invariant, without fault, and gets closer to the end. -/
theorem sysStep_holds (V : Valid E) (R : Ranges E n bas) (I : TInv E n bas s m) {i : Nat} (hi : i < n) {w1 w2 : Int → Int} (hw : Admissible s w1 w2) :
    Holds (sysStep E w1 w2 i s) (fun s' => (∃ m', TInv E n bas s' m') ∧ (∀ j, j ≠ i → s'.thr j = s.thr j) ∧
      ((s.thr i).pc ≠ .done → work (1 + 2 * (bas (i + 1) - bas i)) (s'.thr i) < work (1 + 2 * (bas (i + 1) - bas i)) (s.thr i))) := by
  have T := I.thr i hi
  generalize hEt : s.thr i = t at T
  have hR : ∀ x, bas i ≤ x → x < bas (i + 1) → E.g.Vertex x := fun x h1 h2 => R.vertex hi h1 h2
  have hUq : ∀ x, bas i ≤ x → x < bas (i + 1) → ¬ OthHold s n i x := by
    rintro x h1 h2 ⟨j, j1, j2, j3⟩
    have Tj := I.thr j j1
    rw [hold_iff] at j3
    have hpj := Tj.pc
    unfold PcOk at hpj
    have hin : bas j ≤ x ∧ x < bas (j + 1) := by
      cases hp : (s.thr j).pc with
      | lock2 v b => rw [hp] at j3 hpj; dsimp only at j3 hpj; have := Tj.old _ (Int.le_refl _) hpj.1 Tj.odd; rw [hpj.2.1] at this; rw [j3]; exact this
      | unlock v b => rw [hp] at j3 hpj; dsimp only at j3 hpj; have := Tj.old _ (Int.le_refl _) hpj.1 Tj.odd; rw [hpj.2.1] at this; rw [j3]; exact this
      | top => rw [hp] at j3; exact j3.elim
      | search v => rw [hp] at j3; exact j3.elim
      | lock1 v b => rw [hp] at j3; exact j3.elim
      | write1 v b => rw [hp] at j3; exact j3.elim
      | write2 v b => rw [hp] at j3; exact j3.elim
      | done => rw [hp] at j3; exact j3.elim
    exact j2 (R.uniq j1 hi hin.1 hin.2 h1 h2)
  have hfin : ∀ (D : Prop) sh' t' m', TInv E n bas (Match.upd s i sh' t') m' → (D → work (1 + 2 * (bas (i + 1) - bas i)) t' < work (1 + 2 * (bas (i + 1) - bas i)) t) →
      (∃ m', TInv E n bas (Match.upd s i sh' t') m') ∧ (∀ j, j ≠ i → (Match.upd s i sh' t').thr j = s.thr j) ∧
      (D → work (1 + 2 * (bas (i + 1) - bas i)) ((Match.upd s i sh' t').thr i) < work (1 + 2 * (bas (i + 1) - bas i)) t) := by
    intro D sh' t' m' h1 h2
    refine ⟨⟨m', h1⟩, fun j h => if_neg h, ?_⟩
    have : (Match.upd s i sh' t').thr i = t' := if_pos rfl
    rw [this]; exact h2
  have cm1 := I.covm.1
  have cm2 := I.covm.2
  have cl1 := I.covl.1
  have cl2 := I.covl.2
  have hbase := V.base
  have hpc := T.pc
  unfold PcOk at hpc
  have hlag := fun x hx => I.lag' (i := i) hi (x := x) hx
  have hlk := fun x hx => I.lock' (i := i) hi (x := x) hx
  rw [hEt] at hlag hlk
  obtain ⟨lo, hiq, new0, new1, odd, oddn, le, leq, old, new, all, -⟩ := id T
  unfold sysStep
  rw [Holds_bind, hEt]
  show Holds (thrStep E w1 w2 s.sh t) (fun r => Holds (pure (Match.upd s i r.1 r.2)) _)
  unfold thrStep
  cases hp : t.pc with
  | top =>
    dsimp only
    by_cases hlt : t.qnum < t.nnd
    · rw [if_pos hlt, Holds_bind, Arr.rd_ok _ (by omega) (by omega), Holds_ok]
      obtain ⟨v1, v2⟩ := old t.qnum (Int.le_refl _) (by omega) odd
      have hv := hR _ v1 v2
      have := hv.1
      have := hv.2
      rw [Holds_bind, Arr.rd_ok _ (by omega) (by omega), Holds_ok]
      by_cases hge : s.sh.mate.get (t.queue.get t.qnum) ≥ 0
      · rw [if_pos hge, Holds_pure, Holds_pure]
        (try dsimp only)
        refine hfin _ _ _ m ?_ ?_
        refine I.loc V R hi (T.adv (by omega) (I.mated hv hge) rfl rfl rfl rfl rfl) ?_ ?_ ?_
        · intro x; rw [hEt, pend_iff, pend_iff, hp]
        · intro x; rw [hEt, hold_iff, hold_iff, hp]
        · rw [hEt]; unfold pend; rw [hp]
        · intro _; unfold work; rw [hp]; dsimp only; omega
      · rw [if_neg hge, Holds_pure, Holds_pure]
        (try dsimp only)
        refine hfin _ _ _ m ?_ ?_
        refine I.loc V R hi ⟨lo, hiq, new0, new1, odd, oddn, le, leq, old, new, all, ⟨hlt, rfl⟩⟩ ?_ ?_ ?_
        · intro x; rw [hEt, pend_iff, pend_iff, hp]
        · intro x; rw [hEt, hold_iff, hold_iff, hp]
        · rw [hEt]; unfold pend; rw [hp]
        · intro _; unfold work; rw [hp]; dsimp only; omega
    · rw [if_neg hlt, Holds_pure, Holds_pure]
      (try dsimp only)
      refine hfin _ _ _ m ?_ ?_
      refine I.loc V R hi ⟨lo, hiq, new0, new1, odd, oddn, le, leq, old, new, all, by unfold PcOk; dsimp only; omega⟩ ?_ ?_ ?_
      · intro x; rw [hEt, pend_iff, pend_iff, hp]
      · intro x; rw [hEt, hold_iff, hold_iff, hp]
      · rw [hEt]; unfold pend; rw [hp]
      · intro _; unfold work; rw [hp]; dsimp only; omega
  | search v =>
    rw [hp] at hpc
    dsimp only at hpc ⊢
    obtain ⟨hlt, hqv⟩ := hpc
    obtain ⟨v1, v2⟩ := old t.qnum (Int.le_refl _) (by omega) odd
    rw [hqv] at v1 v2
    have hv := hR _ v1 v2
    have Q : QOk E.g t.queue 2 t.qnum t.nnd := by
      refine ⟨Or.inr rfl, by unfold Ix; omega, by omega, by omega, fun j j1 j2 j3 => ?_⟩
      unfold Ix at j3
      have := old j j1 (by omega) (by omega)
      exact hR _ this.1 this.2
    rw [Holds_bind]
    refine (findMate_holds V false (m1 := { s.sh.mate with get := w1 }) (m2 := { s.sh.mate with get := w2 }) I.covm I.covm Q (by omega) hv).mono ?_
    rintro ⟨b, nnd'⟩ ⟨F, hskip⟩
    obtain ⟨f1, f2, f3, f4, f5, f6, f7, f8⟩ := F
    dsimp only at f1 f2 f3 f4 f5 f6 f7 f8 hskip ⊢
    unfold Ix at f6
    rw [Holds_pure, Holds_pure]
    (try dsimp only)
    refine hfin _ _ _ m ?_ ?_
    refine I.loc V R hi ⟨lo, hiq, new0, new1, odd, by dsimp only; omega, by dsimp only; omega, leq, old, new, ?_, ?_⟩ ?_ ?_ ?_
    · intro x h1 h2
      dsimp only
      rcases all x h1 h2 with h | ⟨j, j1, j2, j3, j4⟩ | h
      · exact Or.inl h
      · by_cases e : j < nnd'
        · exact Or.inr (Or.inl ⟨j, j1, e, j3, j4⟩)
        · left
          have := hskip rfl j (by omega) j2 (by unfold Ix; omega)
          rw [j4] at this
          exact I.mated (hR x h1 h2) (hw x (Or.inl this))
      · exact Or.inr (Or.inr h)
    · refine ⟨by dsimp only; omega, hqv, f1, f2, ?_⟩
      intro e y h1 h2
      exact I.mated (h1.symm V.cons hv).2.1 (hw y (Or.inr (f8 e y h1 h2)))
    · intro x; rw [hEt, pend_iff, pend_iff, hp]
    · intro x; rw [hEt, hold_iff, hold_iff, hp]
    · rw [hEt]; unfold pend; rw [hp]
    · intro _; unfold work; rw [hp]; dsimp only; omega
  | lock1 v b =>
    rw [hp] at hpc
    dsimp only at hpc ⊢
    obtain ⟨hlt, hqv, hch⟩ := hpc
    obtain ⟨v1, v2⟩ := old t.qnum (Int.le_refl _) (by omega) odd
    rw [hqv] at v1 v2
    have hv := hR _ v1 v2
    have hv1 := hv.1
    have hv2 := hv.2
    have hnh : ∀ x, ¬ Holding t x := by intro x; rw [hold_iff, hp]; exact id
    have hnp : ∀ x, ¬ Pending t x := by intro x; rw [pend_iff, hp]; exact id
    rw [Holds_bind, Arr.rd_ok _ (by omega) (by omega), Holds_ok]
    by_cases hl : s.sh.lock.get v ≠ 0
    · rw [if_pos hl, Holds_pure, Holds_pure]
      have hmv : 0 ≤ m v := by
        rcases (hlk v hv).1 hl with h | h | h
        · exact h
        · exact absurd h (hnh v)
        · exact absurd h (hUq v v1 v2)
      (try dsimp only)
      refine hfin _ _ _ m ?_ ?_
      refine I.loc V R hi (T.adv hlt (by rw [hqv]; exact hmv) rfl rfl rfl rfl rfl) ?_ ?_ ?_
      · intro x; rw [hEt, pend_iff, pend_iff, hp]
      · intro x; rw [hEt, hold_iff, hold_iff, hp]
      · rw [hEt]; unfold pend; rw [hp]
      · intro _; unfold work; rw [hp]; dsimp only; omega
    · rw [if_neg hl, Holds_bind, Arr.wr_ok _ _ (by omega) (by omega), Holds_ok, Holds_pure, Holds_pure]
      have hmv : m v < 0 := by
        apply Classical.byContradiction
        intro h
        exact hl ((hlk v hv).2 (Or.inl (by omega)))
      by_cases hbv : b ≠ v
      · rw [if_pos hbv]
        (try dsimp only)
        refine hfin _ _ _ m ?_ ?_
        refine I.upd V R hi (m' := m) I.covm (show Covers E.g (s.sh.lock.set v 1) from I.covl) I.part (fun _ _ => rfl) (fun _ _ h => h) ?_ ?_
          ⟨lo, hiq, new0, new1, odd, oddn, le, leq, old, new, all, ⟨hlt, hqv, hch, hbv, hmv⟩⟩ ?_
        · intro x hx
          rcases hlag x hx with h | ⟨h1, h2, h3 | h3⟩
          · exact Or.inl h
          · exact absurd h3 (hnp x)
          · exact Or.inr ⟨h1, h2, Or.inr h3⟩
        · intro x hx
          dsimp only
          rw [hold_iff]
          dsimp only
          by_cases e : x = v
          · rw [e, Arr.set_get_same]; simp
          · rw [Arr.set_get_ne _ _ e, hlk x hx]
            constructor
            · rintro (h | h | h)
              · exact Or.inl h
              · exact absurd h (hnh x)
              · exact Or.inr (Or.inr h)
            · rintro (h | h | h)
              · exact Or.inl h
              · exact absurd h e
              · exact Or.inr (Or.inr h)
        · rw [hEt]; unfold pend; rw [hp]; dsimp only; omega
        · intro _; unfold work; rw [hp]; dsimp only; omega
      · rw [if_neg hbv]
        have hbe : b = v := Classical.not_not.1 hbv
        subst hbe
        obtain ⟨P', hc'⟩ := I.part.put V hv hv hmv hmv hch.good hch.self
        have hmn : ∀ x, 0 ≤ m x → put2 m b b x = m x := by
          intro x hx
          unfold put2
          rw [if_neg (by intro e; subst e; omega), if_neg (by intro e; subst e; omega)]
        have hpv : put2 m b b b = b := by unfold put2; rw [if_pos rfl]
        have hne : ∀ x, x ≠ b → put2 m b b x = m x := by intro x h; unfold put2; rw [if_neg h, if_neg h]
        have TT : TOk E (put2 m b b) { t with pc := .write2 b b } (bas i) (bas (i + 1)) := by
          refine ⟨lo, hiq, new0, new1, odd, oddn, le, leq, old, new, ?_, ⟨hlt, hqv, hv, hpv⟩⟩
          intro x h1 h2
          rcases all x h1 h2 with h | h
          · left; rw [hmn x h]; exact h
          · exact Or.inr h
        (try dsimp only)
        refine hfin _ _ _ (put2 m b b) ?_ ?_
        refine I.upd V R hi (m' := put2 m b b) I.covm (show Covers E.g (s.sh.lock.set b 1) from I.covl) P' hmn ?_ ?_ ?_ TT ?_
        · intro x h1 h2
          by_cases e : x = b
          · rw [e] at h1; exact absurd h1 (hUq b v1 v2)
          · rw [hne x e]; exact h2
        · intro x hx
          dsimp only
          rw [pend_iff]
          dsimp only
          by_cases e : x = b
          · subst e
            right
            rcases hlag x hx with h | ⟨h1, h2, h3⟩
            · exact ⟨by omega, by omega, Or.inl rfl⟩
            · omega
          · rw [hne x e]
            rcases hlag x hx with h | ⟨h1, h2, h3 | h3⟩
            · exact Or.inl h
            · exact absurd h3 (hnp x)
            · exact Or.inr ⟨h1, h2, Or.inr h3⟩
        · intro x hx
          dsimp only
          rw [hold_iff]
          dsimp only
          by_cases e : x = b
          · rw [e, Arr.set_get_same, hpv]; constructor
            · intro _; left; omega
            · intro _; decide
          · rw [Arr.set_get_ne _ _ e, hne x e, hlk x hx]
            constructor
            · rintro (h | h | h)
              · exact Or.inl h
              · exact absurd h (hnh x)
              · exact Or.inr (Or.inr h)
            · rintro (h | h | h)
              · exact Or.inl h
              · exact h.elim
              · exact Or.inr (Or.inr h)
        · rw [hEt]; unfold pend; rw [hp]; dsimp only; omega
        · intro _; unfold work; rw [hp]; dsimp only; omega
  | lock2 v b =>
    rw [hp] at hpc
    dsimp only at hpc ⊢
    obtain ⟨hlt, hqv, hch, hbv, hmv⟩ := hpc
    obtain ⟨v1, v2⟩ := old t.qnum (Int.le_refl _) (by omega) odd
    rw [hqv] at v1 v2
    have hv := hR _ v1 v2
    have hv1 := hv.1
    have hv2 := hv.2
    have hb := hch.vert
    have hb1 := hb.1
    have hb2 := hb.2
    have hnh : ∀ x, Holding t x ↔ x = v := by intro x; rw [hold_iff, hp]
    have hnp : ∀ x, ¬ Pending t x := by intro x; rw [pend_iff, hp]; exact id
    rw [Holds_bind, Arr.rd_ok _ (by omega) (by omega), Holds_ok]
    by_cases hl : s.sh.lock.get b ≠ 0
    · rw [if_pos hl, Holds_pure, Holds_pure]
      (try dsimp only)
      refine hfin _ _ _ m ?_ ?_
      refine I.loc V R hi ⟨lo, hiq, new0, new1, odd, oddn, le, leq, old, new, all, ⟨hlt, hqv, hmv⟩⟩ ?_ ?_ ?_
      · intro x; rw [hEt, pend_iff, pend_iff, hp]
      · intro x; rw [hEt, hold_iff, hold_iff, hp]
      · rw [hEt]; unfold pend; rw [hp]
      · intro _; unfold work; rw [hp]; dsimp only; omega
    · rw [if_neg hl, Holds_bind, Arr.wr_ok _ _ (by omega) (by omega), Holds_ok, Holds_pure, Holds_pure]
      have hmb : m b < 0 := by
        apply Classical.byContradiction
        intro h
        exact hl ((hlk b hb).2 (Or.inl (by omega)))
      have hbo : ¬ OthHold s n i b := fun h => hl ((hlk b hb).2 (Or.inr (Or.inr h)))
      obtain ⟨P', hc'⟩ := I.part.put V hv hb hmv hmb hch.good hch.self
      have hmn : ∀ x, 0 ≤ m x → put2 m v b x = m x := by
        intro x hx
        unfold put2
        rw [if_neg (by intro e; subst e; omega), if_neg (by intro e; subst e; omega)]
      have hpv : put2 m v b v = b := by unfold put2; rw [if_pos rfl]
      have hpb : put2 m v b b = v := by unfold put2; rw [if_neg hbv, if_pos rfl]
      have hne : ∀ x, x ≠ v → x ≠ b → put2 m v b x = m x := by intro x h h'; unfold put2; rw [if_neg h, if_neg h']
      have TT : TOk E (put2 m v b) { t with pc := .write1 v b } (bas i) (bas (i + 1)) := by
        refine ⟨lo, hiq, new0, new1, odd, oddn, le, leq, old, new, ?_, ⟨hlt, hqv, hb, hpv, hpb⟩⟩
        intro x h1 h2
        rcases all x h1 h2 with h | h
        · left; rw [hmn x h]; exact h
        · exact Or.inr h
      (try dsimp only)
      refine hfin _ _ _ (put2 m v b) ?_ ?_
      refine I.upd V R hi (m' := put2 m v b) I.covm (show Covers E.g (s.sh.lock.set b 1) from I.covl) P' hmn ?_ ?_ ?_ TT ?_
      · intro x h1 h2
        by_cases e : x = v
        · rw [e] at h1; exact absurd h1 (hUq v v1 v2)
        · by_cases e' : x = b
          · rw [e'] at h1; exact absurd h1 hbo
          · rw [hne x e e']; exact h2
      · intro x hx
        dsimp only
        rw [pend_iff]
        dsimp only
        by_cases e : x = v
        · subst e
          right
          rcases hlag x hx with h | ⟨h1, h2, h3⟩
          · exact ⟨by omega, by omega, Or.inl (Or.inl rfl)⟩
          · omega
        · by_cases e' : x = b
          · subst e'
            right
            rcases hlag x hx with h | ⟨h1, h2, h3⟩
            · exact ⟨by omega, by omega, Or.inl (Or.inr rfl)⟩
            · omega
          · rw [hne x e e']
            rcases hlag x hx with h | ⟨h1, h2, h3 | h3⟩
            · exact Or.inl h
            · exact absurd h3 (hnp x)
            · exact Or.inr ⟨h1, h2, Or.inr h3⟩
      · intro x hx
        dsimp only
        rw [hold_iff]
        dsimp only
        by_cases e' : x = b
        · rw [e', Arr.set_get_same, hpb]; constructor
          · intro _; left; omega
          · intro _; decide
        · rw [Arr.set_get_ne _ _ e', hlk x hx, hnh]
          by_cases e : x = v
          · rw [e, hpv]; constructor
            · intro _; left; omega
            · intro _; exact Or.inr (Or.inl rfl)
          · rw [hne x e e']
            simp only [e, false_or]
      · rw [hEt]; unfold pend; rw [hp]; dsimp only; omega
      · intro _; unfold work; rw [hp]; dsimp only; omega
  | unlock v b =>
    rw [hp] at hpc
    dsimp only at hpc ⊢
    obtain ⟨hlt, hqv, hmv⟩ := hpc
    obtain ⟨v1, v2⟩ := old t.qnum (Int.le_refl _) (by omega) odd
    rw [hqv] at v1 v2
    have hv := hR _ v1 v2
    have hv1 := hv.1
    have hv2 := hv.2
    have hnh : ∀ x, Holding t x ↔ x = v := by intro x; rw [hold_iff, hp]
    have hnp : ∀ x, ¬ Pending t x := by intro x; rw [pend_iff, hp]; exact id
    rw [Holds_bind, Arr.wr_ok _ _ (by omega) (by omega), Holds_ok, Holds_bind, Arr.wr_ok _ _ (by omega) (by omega), Holds_ok, Holds_pure, Holds_pure]
    (try dsimp only)
    refine hfin _ _ _ m ?_ ?_
    refine I.upd V R hi (m' := m) I.covm (show Covers E.g (s.sh.lock.set v 0) from I.covl) I.part (fun _ _ => rfl) (fun _ _ h => h) ?_ ?_
      ⟨lo, hiq, by dsimp only; omega, by dsimp only; omega, by dsimp only; omega, oddn, le, by dsimp only; omega, ?_, ?_, ?_, trivial⟩ ?_
    · intro x hx
      rcases hlag x hx with h | ⟨h1, h2, h3 | h3⟩
      · exact Or.inl h
      · exact absurd h3 (hnp x)
      · exact Or.inr ⟨h1, h2, Or.inr h3⟩
    · intro x hx
      dsimp only
      rw [hold_iff]
      dsimp only
      by_cases e : x = v
      · rw [e, Arr.set_get_same]
        constructor
        · intro h; exact absurd rfl h
        · rintro (h | h | h)
          · omega
          · exact h.elim
          · exact absurd h (hUq v v1 v2)
      · rw [Arr.set_get_ne _ _ e, hlk x hx, hnh]
        simp only [e]
    · intro j h1 h2 h3
      dsimp only at h1 h2 ⊢
      rw [Arr.set_get_ne _ _ (by omega)]
      exact old j (by omega) h2 h3
    · intro j h1 h2
      dsimp only at h2 ⊢
      by_cases e : j = t.qnew
      · rw [e, Arr.set_get_same]; exact ⟨v1, v2⟩
      · rw [Arr.set_get_ne _ _ e]; exact new j h1 (by omega)
    · intro x h1 h2
      dsimp only
      rcases all x h1 h2 with h | ⟨j, j1, j2, j3, j4⟩ | ⟨j, j1, j2, j3⟩
      · exact Or.inl h
      · by_cases e : j = t.qnum
        · refine Or.inr (Or.inr ⟨t.qnew, by omega, by omega, ?_⟩)
          rw [Arr.set_get_same, ← j4, e, hqv]
        · refine Or.inr (Or.inl ⟨j, by omega, j2, j3, ?_⟩)
          rw [Arr.set_get_ne _ _ (by omega)]; exact j4
      · refine Or.inr (Or.inr ⟨j, j1, by omega, ?_⟩)
        rw [Arr.set_get_ne _ _ (by omega)]; exact j3
    · rw [hEt]; unfold pend; rw [hp]; dsimp only; omega
    · intro _; unfold work; rw [hp]; dsimp only; omega
  | write1 v b =>
    rw [hp] at hpc
    dsimp only at hpc ⊢
    obtain ⟨hlt, hqv, hb, hmv, hmb⟩ := hpc
    have hb1 := hb.1
    have hb2 := hb.2
    have hnh : ∀ x, ¬ Holding t x := by intro x; rw [hold_iff, hp]; exact id
    have hnp : ∀ x, Pending t x ↔ (x = v ∨ x = b) := by intro x; rw [pend_iff, hp]
    rw [Holds_bind, Arr.wr_ok _ _ (by omega) (by omega), Holds_ok, Holds_pure, Holds_pure]
    (try dsimp only)
    refine hfin _ _ _ m ?_ ?_
    refine I.upd V R hi (m' := m) (show Covers E.g (s.sh.mate.set b v) from I.covm) I.covl I.part (fun _ _ => rfl) (fun _ _ h => h) ?_ ?_
      ⟨lo, hiq, new0, new1, odd, oddn, le, leq, old, new, all, ⟨hlt, hqv, hb, hmv⟩⟩ ?_
    · intro x hx
      dsimp only
      rw [pend_iff]
      dsimp only
      by_cases e : x = b
      · left; rw [e, Arr.set_get_same, hmb]
      · rw [Arr.set_get_ne _ _ e]
        rcases hlag x hx with h | ⟨h1, h2, h3 | h3⟩
        · exact Or.inl h
        · rw [hnp] at h3
          exact Or.inr ⟨h1, h2, Or.inl (h3.resolve_right e)⟩
        · exact Or.inr ⟨h1, h2, Or.inr h3⟩
    · intro x hx
      rw [hold_iff]
      dsimp only
      rw [hlk x hx]
      simp only [hnh]
    · rw [hEt]; unfold pend; rw [hp]; dsimp only; omega
    · intro _; unfold work; rw [hp]; dsimp only; omega
  | write2 v b =>
    rw [hp] at hpc
    dsimp only at hpc ⊢
    obtain ⟨hlt, hqv, hb, hmv⟩ := hpc
    have hb1 := hb.1
    obtain ⟨v1, v2⟩ := old t.qnum (Int.le_refl _) (by omega) odd
    rw [hqv] at v1 v2
    have hv := hR _ v1 v2
    have hv1 := hv.1
    have hv2 := hv.2
    have hnh : ∀ x, ¬ Holding t x := by intro x; rw [hold_iff, hp]; exact id
    have hnp : ∀ x, Pending t x ↔ x = v := by intro x; rw [pend_iff, hp]
    rw [Holds_bind, Arr.wr_ok _ _ (by omega) (by omega), Holds_ok, Holds_pure, Holds_pure]
    (try dsimp only)
    refine hfin _ _ _ m ?_ ?_
    refine I.upd V R hi (m' := m) (show Covers E.g (s.sh.mate.set v b) from I.covm) I.covl I.part (fun _ _ => rfl) (fun _ _ h => h) ?_ ?_
      (T.adv hlt (by rw [hqv]; omega) rfl rfl rfl rfl rfl) ?_
    · intro x hx
      dsimp only
      rw [pend_iff]
      dsimp only
      by_cases e : x = v
      · left; rw [e, Arr.set_get_same, hmv]
      · rw [Arr.set_get_ne _ _ e]
        rcases hlag x hx with h | ⟨h1, h2, h3 | h3⟩
        · exact Or.inl h
        · rw [hnp] at h3
          exact absurd h3 e
        · exact Or.inr ⟨h1, h2, Or.inr h3⟩
    · intro x hx
      rw [hold_iff]
      dsimp only
      rw [hlk x hx]
      simp only [hnh]
    · rw [hEt]; unfold pend; rw [hp]; dsimp only; omega
    · intro _; unfold work; rw [hp]; dsimp only; omega
  | done =>
    dsimp only
    rw [Holds_pure, Holds_pure]
    (try dsimp only)
    refine hfin _ _ _ m ?_ (fun h => absurd rfl h)
    refine I.loc V R hi T ?_ ?_ ?_
    · intro x; rw [hEt]
    · intro x; rw [hEt]
    · rw [hEt]

end

end Scotch.Match
