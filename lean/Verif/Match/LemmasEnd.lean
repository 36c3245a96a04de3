import Verif.Match.LemmasThr

set_option autoImplicit false
set_option linter.unusedSimpArgs false

namespace Scotch.Match

theorem sysInit_inv {E : Env} (V : Valid E) {n : Nat} {bas : Nat → Int} (R : Ranges E n bas) {queue : Nat → Arr Int} (hq : ∀ i, i < n → QueueOf (bas i) (bas (i + 1)) (queue i)) :
    TInv E n bas (sysInit E bas queue) (fun _ => -1) := by
  obtain ⟨p1, p2⟩ := part_empty E V (fun _ => -1) (fun _ _ => rfl)
  have hh : ∀ i x, ¬ Holding ((sysInit E bas queue).thr i) x := by intro i x; rw [hold_iff]; exact id
  refine ⟨⟨Int.le_refl _, Int.le_refl _⟩, ⟨Int.le_refl _, Int.le_refl _⟩, p1, fun x _ => Or.inl rfl, ?_, ?_, ?_⟩
  · intro x hx
    constructor
    · intro h; exact absurd rfl h
    · rintro (h | ⟨i, _, h⟩)
      · omega
      · exact absurd h (hh i x)
  · intro i hi
    have Q := hq i hi
    have := R.mono i hi
    refine ⟨Q.lo, Q.hi, Int.le_refl _, Int.le_refl _, rfl, ?_, Int.le_refl _, ?_, ?_, ?_, ?_, trivial⟩
    · simp only [sysInit]; omega
    · simp only [sysInit]; omega
    · intro j h1 h2 h3
      simp only [sysInit] at h1 h2 ⊢
      have := Q.inside (j / 2) (by omega) (by omega)
      rwa [show 1 + j / 2 * 2 = j by omega] at this
    · intro j h1 h2; simp only [sysInit] at h2; omega
    · intro x h1 h2
      obtain ⟨k, k1, k2, k3⟩ := Q.all x h1 h2
      refine Or.inr (Or.inl ⟨1 + k * 2, ?_, ?_, ?_, k3⟩)
      · simp only [sysInit]; omega
      · simp only [sysInit]; omega
      · omega
  · rw [p2]
    symm
    exact Finset.sum_eq_zero fun i _ => rfl

theorem finish_holds {E : Env} (V : Valid E) {n : Nat} {bas : Nat → Int} (R : Ranges E n bas) {s : Sys} {m : Int → Int} (I : TInv E n bas s m)
    (hdone : ∀ i, i < n → (s.thr i).pc = .done) : ∀ (k i : Nat) (mate : Arr Int) (sum : Int), i + k = n → Covers E.g mate → Part E mate.get →
    (∀ x, 0 ≤ m x → 0 ≤ mate.get x) → (∀ j, j < i → ∀ x, bas j ≤ x → x < bas (j + 1) → 0 ≤ mate.get x) →
    sum + (Finset.range k).sum (fun j => (s.thr (i + j)).cnt) = cntOf E mate.get →
    Holds (finish E s k i mate sum) (fun r => Part E r.1.get ∧ (∀ j, j < n → ∀ x, bas j ≤ x → x < bas (j + 1) → 0 ≤ r.1.get x) ∧ r.2 = cntOf E r.1.get) := by
  intro k
  induction k with
  | zero =>
    intro i mate sum h1 h2 h3 h4 h5 h6
    unfold finish
    rw [Holds_ok]
    refine ⟨h3, fun j hj => h5 j (by omega), ?_⟩
    simpa using h6
  | succ k ih =>
    intro i mate sum h1 h2 h3 h4 h5 h6
    have hi : i < n := by omega
    have T := I.thr i hi
    have hpc := T.pc
    unfold PcOk at hpc
    rw [hdone i hi] at hpc
    have q1 := T.lo
    have q2 := T.hi
    have q3 := T.new0
    have q4 := T.new1
    have q5 := T.leq
    unfold finish
    rw [Holds_bind]
    refine (scanSeq_holds V (Or.inl rfl) q3 h2 h3 (by omega) (by omega) ?_).mono ?_
    · intro j j1 j2
      have := T.new j j1 j2
      rw [show (1 : Int) / 2 + j * 1 = j by omega]
      exact R.vertex hi this.1 this.2
    · rintro ⟨mate', cnt'⟩ ⟨c1, c2, c3, c4, c5⟩
      dsimp only at c1 c2 c3 c4 c5 ⊢
      refine ih (i + 1) mate' (sum + cnt') (by omega) c1 c2 ?_ ?_ ?_
      · intro x hx
        have := h4 x hx
        rw [c3 x this]; exact this
      · intro j hj x x1 x2
        by_cases e : j = i
        · subst e
          rcases T.all x x1 x2 with h | ⟨j', j1, j2, _⟩ | ⟨j', j1, j2, j3⟩
          · have := h4 x h
            rw [c3 x this]; exact this
          · dsimp only at hpc; omega
          · have := c4 j' j1 j2
            rwa [show (1 : Int) / 2 + j' * 1 = j' by omega, j3] at this
        · have := h5 j (by omega) x x1 x2
          rw [c3 x this]; exact this
      · rw [Finset.sum_range_succ'] at h6
        have e : (Finset.range k).sum (fun j => (s.thr (i + 1 + j)).cnt) = (Finset.range k).sum (fun j => (s.thr (i + (j + 1))).cnt) := by
          refine Finset.sum_congr rfl fun j _ => ?_
          rw [show i + 1 + j = i + (j + 1) by omega]
        rw [e]
        simp only [Nat.add_zero] at h6
        omega

theorem done_mating {E : Env} (V : Valid E) {n : Nat} {bas : Nat → Int} (R : Ranges E n bas) {s : Sys} {m : Int → Int} (I : TInv E n bas s m)
    (hdone : ∀ i, i < n → (s.thr i).pc = .done) :
    Holds (finish E s n 0 s.sh.mate 0) (fun r => Mating E r.1.get ∧ r.2 = coarseCount E r.1.get) := by
  have hnp : ∀ i x, i < n → ¬ Pending (s.thr i) x := by
    intro i x hi; rw [pend_iff, hdone i hi]; exact id
  have heq : ∀ x, E.g.Vertex x → s.sh.mate.get x = m x := by
    intro x hx
    rcases I.lag x hx with h | ⟨_, _, i, h1, h2⟩
    · exact h
    · exact absurd h2 (hnp i x h1)
  have hP : Part E s.sh.mate.get := by
    refine ⟨fun x hx h0 => ?_, fun x y hx h1 h2 h3 => ?_⟩
    · rw [heq x hx] at h0 ⊢
      obtain ⟨a, b, c⟩ := I.part.val x hx h0
      exact ⟨a, by rw [heq _ a]; exact b, c⟩
    · rw [heq x hx] at h3
      rw [heq y (h1.symm V.cons hx).2.1]
      exact I.part.max x y hx h1 h2 h3
  have hc : cntOf E s.sh.mate.get = cntOf E m := sumI_congr fun x h1 h2 => by rw [heq x ⟨h1, h2⟩]
  -- the ghost matching is only known on vertices
  have hcnt : (0 : Int) + (Finset.range n).sum (fun j => (s.thr (0 + j)).cnt) = cntOf E s.sh.mate.get := by
    rw [hc, I.cnt, Int.zero_add]
    refine Finset.sum_congr rfl fun j hj => ?_
    rw [Finset.mem_range] at hj
    unfold pend
    rw [hdone j hj, Nat.zero_add]
    simp
  have I' : TInv E n bas s s.sh.mate.get := by
    refine ⟨I.covm, I.covl, hP, fun x _ => Or.inl rfl, fun x hx => by rw [heq x hx]; exact I.lock x hx, ?_, by rw [hc]; exact I.cnt⟩
    intro i hi
    obtain ⟨a1, a2, a3, a4, a5, a6, a7, a8, a9, a10, a11, a12⟩ := I.thr i hi
    refine ⟨a1, a2, a3, a4, a5, a6, a7, a8, a9, a10, fun x h1 h2 => ?_, ?_⟩
    · rw [heq x (R.vertex hi h1 h2)]; exact a11 x h1 h2
    · unfold PcOk at a12 ⊢; rw [hdone i hi] at a12 ⊢; exact a12
  refine (finish_holds V R I' hdone n 0 s.sh.mate 0 (by omega) I.covm hP (fun x h => h) (fun j h => by omega) hcnt).mono ?_
  rintro ⟨mate, cnt⟩ ⟨c1, c2, c3⟩
  obtain ⟨m1, m2⟩ := c1.mating V (fun v hv => by
    obtain ⟨i, i1, i2, i3⟩ := R.cover hv
    exact c2 i i1 v i2 i3)
  exact ⟨m1, c3.trans m2.symm⟩

end Scotch.Match
