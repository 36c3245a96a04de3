import Verif.Rand.Lemmas

/-!
# Pseudo-random generator, random permutation, block distribution, GCD: properties C03, C04, C05, C45
-/

set_option autoImplicit false
set_option linter.unusedSimpArgs false

namespace Scotch
open Rand Text

/-! ## C03: random permutation -/

/-- **C03**. Whatever the generator state, `intPerm` ends without leaving the array, and rearranges
the `n` cells of the array by a permutation. -/
theorem C03_intPerm (w : Nat) (a : Arr Int) (n : Nat) (c : Ctx) (hlo : a.lo = 0) (hhi : a.hi = n) :
    Holds (intPerm w a n c) (fun r => PermOn a r.1 0 n) := by
  have := intPermLoop_holds w n 0 a c (by omega) (by omega)
  simpa [intPerm] using this

/-- `intAscn` fills the array with the consecutive values from `baseval` on. -/
theorem C03_intAscn (a : Arr Int) (n base : Int) (hn : 0 ≤ n) (hlo : a.lo = base)
    (hhi : a.hi = base + n) :
    Holds (intAscn a n base) (fun r => r.lo = a.lo ∧ r.hi = a.hi ∧
      ∀ i, base ≤ i → i < base + n → r.get i = i) := by
  unfold intAscn
  refine Holds_forUp (fun i (r : Arr Int) => r.lo = a.lo ∧ r.hi = a.hi ∧
      ∀ j, base ≤ j → j < i → r.get j = j) (by omega) ⟨rfl, rfl, fun j h1 h2 => by omega⟩ ?_ ?_
  · rintro i r h1 h2 ⟨e1, e2, h⟩
    msimp
    refine ⟨by omega, e1, e2, ?_⟩
    intro j hj1 hj2
    by_cases hji : j = i
    · subst hji; simp
    · rw [Arr.set_get_ne _ _ hji]; exact h j hj1 (by omega)
  · intro r h; exact h

/-- An initialised context, as after `SCOTCH_randomSeed (7)`. -/
def randExample : Ctx := Rand.seed 32 ⟨0, 0, 0, ⟨0, 0⟩⟩ 7

/-- The two theorems apply to the creation of a random ordering of 6 cells; the result is not the
identity. -/
example : (match intAscn (Arr.const 0 6 0) 6 0 with
    | .ok a => (match intPerm 32 a 6 randExample with
      | .ok (r, _) => some (r.toList)
      | .error _ => none)
    | .error _ => none) = some [3, 1, 0, 4, 2, 5] := by decide +kernel

/-! ## C04: random generator -/

/-- Calls on a random context: draws (with or without a bound), new seeds, resets, changes of the
process number, initialisations (with the value of the clock). -/
inductive RandOp where
  | draw (bound : Nat)
  | draw2
  | seed (s : Int)
  | reset
  | proc (p : Int)
  | init (now : Int)

/-- Effect of a call: value returned (0 if none) and new context. -/
def RandOp.run (w : Nat) (c : Ctx) : RandOp → M (Nat × Ctx)
  | .draw n => val w c n
  | .draw2 => .ok (val2 w c)
  | .seed s => .ok (0, Rand.seed w c s)
  | .reset => .ok (0, Rand.reset w c)
  | .proc p => .ok (0, Rand.proc c p)
  | .init now => .ok (0, Rand.init w now c)

/-- Effect of a sequence of calls: list of the values returned, and final context. -/
def runAll (w : Nat) (c : Ctx) : List RandOp → M (List Nat × Ctx)
  | [] => .ok ([], c)
  | op :: l => do
    let (v, c) ← op.run w c
    let (vs, c) ← runAll w c l
    return (v :: vs, c)

/-- Draws only, with non-zero bounds. -/
def OnlyDraws (l : List RandOp) : Prop :=
  ∀ op ∈ l, op = .draw2 ∨ ∃ n, 0 < n ∧ op = .draw n

/-- **C04**, bound. A draw with a non-zero bound ends and gives a value smaller than the bound. -/
theorem C04_bounded (w : Nat) (c : Ctx) (n : Nat) (h : 0 < n) :
    Holds (val w c n) (fun r => r.1 < n) :=
  (val_holds w c n h).mono (fun _ hr => hr.1)

/-- An unbounded draw fits in an unsigned integer of the width of `INT`. -/
theorem C04_bounded_unsigned (w : Nat) (c : Ctx) : (val2 w c).1 < 2 ^ w :=
  Nat.mod_lt _ (Nat.two_pow_pos w)

theorem draws_keep (w : Nat) : ∀ (l : List RandOp) (c : Ctx), OnlyDraws l →
    Holds (runAll w c l) (fun r => r.1.length = l.length ∧ r.2.flagval = c.flagval ∧
      r.2.procval = c.procval ∧ r.2.seedval = c.seedval)
  | [], c, _ => ⟨rfl, rfl, rfl, rfl⟩
  | op :: l, c, h => by
    have hl : OnlyDraws l := fun x hx => h x (by simp [hx])
    simp only [runAll, Holds_bind]
    have h1 : Holds (op.run w c) (fun r => r.2.flagval = c.flagval ∧ r.2.procval = c.procval ∧
        r.2.seedval = c.seedval) := by
      rcases h op (by simp) with rfl | ⟨n, hn, rfl⟩
      · exact ⟨rfl, rfl, rfl⟩
      · exact (val_holds w c n hn).mono (fun r hr => ⟨hr.2.1, hr.2.2.1, hr.2.2.2.1⟩)
    refine h1.mono ?_
    rintro ⟨v, c'⟩ ⟨e1, e2, e3⟩
    refine (draws_keep w l c' hl).mono ?_
    rintro ⟨vs, c''⟩ ⟨f0, f1, f2, f3⟩
    exact ⟨by simpa using f0, f1.trans e1, f2.trans e2, f3.trans e3⟩

/-- **C04**, reproducibility. After any number of draws, resetting the generator brings it back
exactly to the context that follows its seeding: the same sequence of calls then gives the same
values again. -/
theorem C04_reset_reproduces (w : Nat) (c : Ctx) (s : Int) (before after : List RandOp)
    (hb : OnlyDraws before) :
    Holds (runAll w (Rand.seed w c s) before) (fun r =>
      runAll w (Rand.reset w r.2) after = runAll w (Rand.seed w c s) after) := by
  refine (draws_keep w before (Rand.seed w c s) hb).mono ?_
  rintro ⟨vs, c'⟩ ⟨-, e1, e2, e3⟩
  have : Rand.reset w c' = Rand.seed w c s := by
    dsimp only at e1 e2 e3
    simp only [Rand.seed, Rand.reset] at e1 e2 e3 ⊢
    rw [e2, e3]
  dsimp only
  rw [this]

/-- Same seed and process number, same sequence: the history of a context before it is seeded has no
influence on the values that are drawn afterwards. -/
theorem C04_seed_deterministic (w : Nat) (c c' : Ctx) (s : Int) (hp : c.procval = c'.procval)
    (after : List RandOp) :
    runAll w (Rand.seed w c s) after = runAll w (Rand.seed w c' s) after := by
  have : Rand.seed w c s = Rand.seed w c' s := by
    simp only [Rand.seed, Rand.reset, hp]
  rw [this]

/-- The state transition loses no information: distinct states have distinct successors. -/
theorem C04_step_injective (s t : State) (h : stepState s = stepState t) : s = t :=
  stepState_inj s t h

/-- **C04**, zero state. Once a generator has been initialised, no sequence of calls brings it into the
all-zero state, in which it would only yield zeros. -/
theorem C04_never_zero (w : Nat) : ∀ (l : List RandOp) (c : Ctx),
    c.flagval = 0 ∨ c.stat ≠ ⟨0, 0⟩ → ∀ r, runAll w c l = .ok r →
    r.2.flagval = 0 ∨ r.2.stat ≠ ⟨0, 0⟩
  | [], c, h, r, hr => by cases hr; exact h
  | op :: l, c, h, r, hr => by
    simp only [runAll] at hr
    cases ho : op.run w c with
    | error e => rw [ho] at hr; cases hr
    | ok p =>
      obtain ⟨v, c'⟩ := p
      rw [ho] at hr
      have hstep : stepState c.stat = ⟨0, 0⟩ → c.stat = ⟨0, 0⟩ := fun e =>
        stepState_inj _ _ (e.trans stepState_zero.symm)
      have hc' : c'.flagval = 0 ∨ c'.stat ≠ ⟨0, 0⟩ := by
        cases op with
        | draw n =>
          unfold RandOp.run at ho
          by_cases hn : n = 0
          · simp [val, hn] at ho
          · have hk := (val_holds w c n (by omega)).elim ho
            rcases h with h | h
            · exact .inl (hk.2.1.trans h)
            · exact .inr (fun e => h (hstep (hk.2.2.2.2.symm.trans e)))
        | draw2 =>
          cases ho
          rcases h with h | h
          · exact .inl h
          · exact .inr (fun e => h (hstep e))
        | seed s => cases ho; exact .inr (seed2_ne_zero _ _)
        | reset => cases ho; exact .inr (seed2_ne_zero _ _)
        | proc p => cases ho; exact h
        | init now =>
          cases ho
          unfold Rand.init
          split
          · exact .inr (seed2_ne_zero _ _)
          · exact h
      cases hrest : runAll w c' l with
      | error e => simp [bind, Except.bind, hrest] at hr
      | ok q =>
        have := C04_never_zero w l c' hc' q hrest
        simp only [bind, Except.bind, hrest, pure, Except.pure, Except.ok.injEq] at hr
        subst hr
        exact this

/-- A seeded generator meets the hypothesis of `C04_never_zero`, whatever the seed and the process
number. -/
theorem C04_seed_nonzero (w : Nat) (c : Ctx) (s : Int) : (Rand.seed w c s).stat ≠ ⟨0, 0⟩ :=
  seed2_ne_zero _ _

/-- Spawned generators are not in the zero state either. -/
theorem C04_spawn_nonzero (w : Nat) (old : Ctx) (p : Int) (new : Ctx) :
    (Rand.spawn w old p new).stat ≠ ⟨0, 0⟩ :=
  seed2_ne_zero _ _

/-- **C04**, save and load. The text written by `SCOTCH_randomSave` from an initialised generator is
read back by `SCOTCH_randomLoad`, in any context, as exactly the same generator (up to the non-zero
value of the initialisation flag), so that the sequence of draws resumes where it was. -/
theorem C04_save_load (intMax : Int) (hmax : 1 ≤ intMax) (c d : Ctx) (hf : c.flagval = 1)
    (hp : -2 ^ 31 ≤ c.procval ∧ c.procval < 2 ^ 31) :
    (save c).1 = 0 ∧ load intMax d (save c).2 = .ok (0, c) := by
  have hs : save c = (0, [49] ++ ([10] ++ (printInt c.procval ++ ([9] ++ (printNat c.seedval.toNat ++
      ([10] ++ (printNat c.stat.t0.toNat ++ ([9] ++ (printNat c.stat.t1.toNat ++ [10]))))))))) := by
    unfold save
    rw [if_neg (by omega)]
    simp
  rw [hs]
  refine ⟨rfl, ?_⟩
  have sp : ∀ k : Nat, (k = 9 ∨ k = 10) → AllSpaces [k] := by
    intro k hk c hc
    simp only [List.mem_singleton] at hc
    subst hc
    rw [isspace_iff]; omega
  have nd : ∀ (k : Nat) (r : Stream), (k = 9 ∨ k = 10) → NoDigit ([k] ++ r) := by
    intro k r hk
    simp only [NoDigit, List.cons_append, List.nil_append]
    omega
  unfold load
  have hd : AllDigits [49] := by intro c hc; simp only [List.mem_singleton] at hc; omega
  rw [intLoad_digits hd (by simp) (nd 10 _ (.inr rfl)) (by simp [value]; omega)]
  simp only [value, bind, Except.bind, Int.reduceMul, Int.reduceAdd, Int.reduceSub, Nat.cast_ofNat]
  simp only [ne_eq, not_true_eq_false, if_false]
  rw [scanD_print _ hp (sp 10 (.inr rfl)) (nd 9 _ (.inl rfl))]
  simp only [bind, Except.bind]
  rw [scanU64_print _ (sp 9 (.inl rfl)) (nd 10 _ (.inr rfl))]
  simp only [load2, bind, Except.bind]
  rw [scanU64_print _ (sp 10 (.inr rfl)) (nd 9 _ (.inl rfl))]
  simp only [bind, Except.bind]
  have h10 : NoDigit [10] := by simp [NoDigit]
  rw [scanU64_print _ (sp 9 (.inl rfl)) h10]
  obtain ⟨f, p, s, t⟩ := c
  dsimp only at hf
  subst hf
  rfl

/-- Every context of the library that has been initialised has flag value 1: the hypothesis of
`C04_save_load` holds after seeding, whatever is drawn afterwards. -/
example : randExample.flagval = 1 := rfl
example : (match runAll 32 randExample [.draw 100, .draw 100, .draw2, .draw 3] with
    | .ok (vs, _) => some vs | .error _ => none) = some [63, 30, 4249117581, 1] := by decide +kernel

/-! ## C05: block distribution -/

/-- **C05**. The ranges `[DATASCAN (n,p,i), DATASCAN (n,p,i) + DATASIZE (n,p,i))` are consecutive, from
0 to `n`; sizes are non-negative, do not increase with the rank, and differ by at most one. -/
theorem C05_distribution (n p : Int) (hn : 0 ≤ n) (hp : 0 < p) :
    ∃ size start : Int → Int,
      (∀ i, 0 ≤ i → i < p → dataSize n p i = .ok (size i)) ∧
      (∀ i, 0 ≤ i → i ≤ p → dataScan n p i = .ok (start i)) ∧
      start 0 = 0 ∧ start p = n ∧
      (∀ i, 0 ≤ i → i < p → start (i + 1) = start i + size i) ∧
      (∀ i, 0 ≤ i → i < p → 0 ≤ size i) ∧
      (∀ i j, 0 ≤ i → i ≤ j → j < p → size j ≤ size i ∧ size i ≤ size j + 1) ∧
      (∀ x, 0 ≤ x → x < n → ∃ i, (0 ≤ i ∧ i < p ∧ start i ≤ x ∧ x < start i + size i) ∧
        ∀ j, 0 ≤ j → j < p → start j ≤ x → x < start j + size j → j = i) := by
  have hq : 0 ≤ n / p := Int.ediv_nonneg hn (by omega)
  have hr1 := Int.emod_nonneg n (by omega : p ≠ 0)
  have hr2 := Int.emod_lt_of_pos n hp
  have hnq : n = p * (n / p) + n % p := (Int.mul_ediv_add_emod n p).symm
  set q := n / p with hqd
  set r := n % p with hrd
  have hsz : ∀ i, 0 ≤ i → i < p → dataSize n p i = .ok (q + if i < r then 1 else 0) := by
    intro i h1 h2
    unfold dataSize cdiv
    rw [if_neg (by omega), Int.tdiv_eq_ediv_of_nonneg (by omega)]
    congr 1
    have e : n + (p - 1 - i) = (r + (p - 1 - i)) + p * q := by rw [hnq]; ring
    rw [e, Int.add_mul_ediv_left _ _ (by omega)]
    split
    · have e2 : r + (p - 1 - i) = (r - 1 - i) + p * 1 := by ring
      rw [e2, Int.add_mul_ediv_left _ _ (by omega), Int.ediv_eq_zero_of_lt (by omega) (by omega)]
      ring
    · rw [Int.ediv_eq_zero_of_lt (by omega) (by omega)]; ring
  have hsc : ∀ i, 0 ≤ i → i ≤ p → dataScan n p i = .ok (i * q + min i r) := by
    intro i h1 h2
    unfold dataScan cdiv cmod
    rw [if_neg (by omega), if_neg (by omega), Int.tdiv_eq_ediv_of_nonneg hn,
      Int.tmod_eq_emod_of_nonneg hn, ← hqd, ← hrd]
    simp only [bind, Except.bind, pure, Except.pure, Except.ok.injEq]
    congr 1
    split <;> omega
  refine ⟨_, _, hsz, hsc, ?_, ?_, ?_, ?_, ?_, ?_⟩
  · simp only [zero_mul]; omega
  · rw [hnq]; have : min p r = r := by omega
    rw [this]
  · intro i h1 h2
    have : (i + 1) * q = i * q + q := by ring
    rw [this]
    split <;> omega
  · intro i h1 h2; split <;> omega
  · intro i j h1 h2 h3; split <;> split <;> omega
  · intro x hx1 hx2
    have mono : ∀ j, 0 ≤ j → ∀ i, j < i → j * q + min j r + (q + if j < r then 1 else 0) ≤ i * q + min i r := by
      intro j hj i hji
      have h1 : (j + 1) * q ≤ i * q := Int.mul_le_mul_of_nonneg_right (by omega) hq
      have h2 : (j + 1) * q = j * q + q := by ring
      split <;> omega
    have ex : ∃ i, 0 ≤ i ∧ i < p ∧ i * q + min i r ≤ x ∧ x < i * q + min i r + (q + if i < r then 1 else 0) := by
      by_contra hno
      have key : ∀ k : Nat, (k : Int) ≤ p → (k : Int) * q + min (k : Int) r ≤ x := by
        intro k
        induction k with
        | zero => intro _; simp only [Nat.cast_zero, zero_mul]; omega
        | succ k ih =>
          intro hk
          push_cast at hk
          have h1 := ih (by omega)
          by_contra h2
          apply hno
          refine ⟨k, by omega, by omega, h1, ?_⟩
          have e : ((k + 1 : Nat) : Int) * q = k * q + q := by push_cast; ring
          rw [e] at h2
          push_cast at h2
          split <;> omega
      have := key p.toNat (by omega)
      have e : ((p.toNat : Nat) : Int) = p := by omega
      rw [e] at this
      have : min p r = r := by omega
      omega
    obtain ⟨i, h1, h2, h3, h4⟩ := ex
    refine ⟨i, ⟨h1, h2, h3, h4⟩, ?_⟩
    intro j g1 g2 g3 g4
    by_contra hne
    rcases Int.lt_or_gt_of_ne hne with h | h
    · have := mono j g1 i h; omega
    · have := mono i h1 j h; omega

example : (List.range 4).map (fun (i : Nat) => (dataScan 10 4 i, dataSize 10 4 i))
    = [(.ok 0, .ok 3), (.ok 3, .ok 3), (.ok 6, .ok 2), (.ok 8, .ok 2)] := by decide +kernel

/-! ## C45: greatest common divisor -/

/-- **C45**. On non-negative integers, `intGcd` ends and gives the greatest common divisor. -/
theorem C45_gcd (u v : Int) (hu : 0 ≤ u) (hv : 0 ≤ v) :
    intGcd u v = .ok (Int.gcd u v) := by
  have key : ∀ (a b : Int) (f : Nat), 0 ≤ a → 0 ≤ b → b.natAbs + 1 < f →
      Holds (gcdLoop f a b) (fun r => r = Int.gcd a b) := by
    intro a b f ha hb hf
    unfold gcdLoop
    refine Holds_loopM (fun p : Int × Int => 0 ≤ p.1 ∧ 0 ≤ p.2 ∧ Int.gcd p.1 p.2 = Int.gcd a b)
      (fun p => p.2.natAbs) ?_ f (a, b) ⟨ha, hb, rfl⟩ (by dsimp only; omega)
    rintro ⟨x, y⟩ ⟨h1, h2, h3⟩
    dsimp only at h1 h2 h3 ⊢
    rw [Holds_ite]
    constructor
    · intro hy
      msimp
      rw [Int.tmod_eq_emod_of_nonneg h1]
      have k1 := Int.emod_nonneg x hy
      have k2 := Int.emod_lt_of_pos x (by omega : 0 < y)
      refine ⟨⟨h2, k1, ?_⟩, by omega⟩
      rw [← h3]
      obtain ⟨m, rfl⟩ := Int.eq_ofNat_of_zero_le h1
      obtain ⟨k, rfl⟩ := Int.eq_ofNat_of_zero_le h2
      rw [← Int.natCast_mod, Int.gcd_natCast_natCast, Int.gcd_natCast_natCast, Nat.gcd_comm m k,
        Nat.gcd_rec k m, Nat.gcd_comm]
    · intro hy
      msimp
      have : y = 0 := by omega
      subst this
      rw [← h3, Int.gcd_zero_right]; omega
  unfold intGcd
  split
  · obtain ⟨r, e, rfl⟩ := Holds_iff_exists.1 (key v u (u.natAbs + 2) hv hu (by omega))
    rw [e, Int.gcd_comm]
  · obtain ⟨r, e, rfl⟩ := Holds_iff_exists.1 (key u v (v.natAbs + 2) hu hv (by omega))
    rw [e]

example : intGcd 84 36 = .ok 12 := by decide +kernel
example : intGcd 0 5 = .ok 5 := by decide +kernel

end Scotch
