import Verif.Thread.LemmasPool

/-!
# Thread pool: property C50
-/

set_option autoImplicit false
set_option linter.unusedSimpArgs false

namespace Scotch.Thread.Pool
variable {n : Nat}

/-- The functions of the launches 1, …, `k`, in this order. -/
def launches (k : Nat) : List Nat := (List.range k).map (· + 1)

/-- **C50.** Each thread calls the function of each launch at most once, in the order of launches, and never calls the function of a launch that has
not been made yet; it is never late by more than one launch. -/
theorem C50_order {W : Nat} (hW : 2 ≤ W) {s : St n} (h : Reach W s) (i : Fin (n + 1)) :
    ∃ k, (s.th i).log = launches k ∧ k ≤ s.calls ∧ s.calls ≤ k + 1 := by
  obtain ⟨b0, R, hr⟩ := reach_inv hW h
  refine ⟨(s.th i).log.length, hr.log i, ?_⟩
  have hc := hr.calls
  have hT := hr.th i
  unfold TOk at hT
  cases hst : s.statval with
  | run =>
    rw [if_pos hst] at hc
    cases hp : (s.th i).pc <;> rw [hp, hst] at hT <;> simp only [reduceCtorEq, false_and, and_false, true_and] at hT <;> omega
  | rdy =>
    rw [if_neg (by rw [hst]; simp)] at hc
    cases hp : (s.th i).pc <;> rw [hp, hst] at hT <;> simp only [reduceCtorEq, false_and, and_false, true_and, false_or] at hT <;> omega
  | dwn =>
    rw [if_neg (by rw [hst]; simp)] at hc
    cases hp : (s.th i).pc <;> rw [hp, hst] at hT <;> simp only [reduceCtorEq, false_and, and_false, true_and, false_or] at hT <;> omega

/-- **C50.** When a launch returns to the master, all threads have called all functions launched so far, exactly once; this also holds when the
context is being terminated. -/
theorem C50_complete {W : Nat} (hW : 2 ≤ W) {s : St n} (h : Reach W s)
    (hi : (s.th 0).pc = .idle ∨ (s.th 0).pc = .spin ∨ (s.th 0).pc = .fin) (i : Fin (n + 1)) :
    (s.th i).log = launches s.calls := by
  obtain ⟨b0, R, hr⟩ := reach_inv hW h
  have hst : s.statval ≠ .run := by
    have h0 := hr.th 0
    unfold TOk at h0
    rcases hi with hi | hi | hi <;> rw [hi] at h0 <;> simp only at h0 <;> intro e <;> rw [e] at h0 <;> simp at h0
  have hc := hr.calls
  rw [if_neg hst] at hc
  have hl : (s.th i).log.length = R := by
    have hT := hr.th i
    unfold TOk at hT
    cases hp : (s.th i).pc <;> rw [hp] at hT <;> simp only [hst, false_and, false_or] at hT
    · exact hT.2.2.1
    · exact hT.2
    · exact hT.2.1
    · exact hT.2.1
    · exact hT.2.2
    · exact hT.2.2
    · exact hT.2
  rw [hr.log i, hl, hc]
  rfl

/-- **C50.** The termination of the context ends after all slave threads have left their loop. -/
theorem C50_exit {W : Nat} (hW : 2 ≤ W) {s s' : St n} (h : Reach W s) (hp : (s.th 0).pc = .spin)
    (hs : step W s (.run 0) = some s') : ∀ i, i ≠ 0 → (s.th i).pc = .fin := by
  obtain ⟨b0, R, hr⟩ := reach_inv hW h
  have h0 := hr.th 0
  unfold TOk at h0
  rw [hp] at h0
  have hst : s.statval = .dwn := h0.2.1
  simp only [step, runTh, hp] at hs
  split at hs
  · rename_i hb
    have hc := hr.cntf hst
    have hsub : finished s ⊆ Finset.univ.erase 0 := by
      intro j hj
      exact Finset.mem_erase.2 ⟨(Finset.mem_filter.1 hj).2.1, Finset.mem_univ _⟩
    have heq : finished s = Finset.univ.erase 0 := by
      apply Finset.eq_of_subset_of_card_le hsub
      rw [Finset.card_erase_of_mem (Finset.mem_univ _), Finset.card_univ, Fintype.card_fin]
      omega
    intro i hi
    have : i ∈ finished s := by rw [heq]; exact Finset.mem_erase.2 ⟨hi, Finset.mem_univ _⟩
    exact (Finset.mem_filter.1 this).2.2
  · cases hs

/-- **C50.** No deadlock: while a launch or a termination is in progress, some thread can go on (without any spurious
wake-up). -/
theorem C50_no_deadlock {W : Nat} (hW : 2 ≤ W) {s : St n} (h : Reach W s) (h1 : (s.th 0).pc ≠ .idle) (h2 : (s.th 0).pc ≠ .fin) :
    ∃ i, (step W s (.run i)).isSome := by
  obtain ⟨b0, R, hr⟩ := reach_inv hW h
  by_cases hex : ∃ i, (s.th i).pc = .chk ∨ (s.th i).pc = .go ∨ (s.th i).pc = .bar ∨ (∃ b, (s.th i).pc = .bchk b) ∨ (s.th i).pc = .ack
  · obtain ⟨i, hi⟩ := hex
    refine ⟨i, ?_⟩
    rcases hi with hi | hi | hi | ⟨b, hi⟩ | hi <;> simp only [step, runTh, hi]
    · cases s.statval <;> rfl
    · rfl
    · rfl
    · split <;> rfl
    · rfl
  · have hno : ∀ i, (s.th i).pc ≠ .chk ∧ (s.th i).pc ≠ .go ∧ (s.th i).pc ≠ .bar ∧ (∀ b, (s.th i).pc ≠ .bchk b) ∧ (s.th i).pc ≠ .ack := by
      intro i
      refine ⟨fun e => hex ⟨i, Or.inl e⟩, fun e => hex ⟨i, Or.inr (Or.inl e)⟩, fun e => hex ⟨i, Or.inr (Or.inr (Or.inl e))⟩,
        fun b e => hex ⟨i, Or.inr (Or.inr (Or.inr (Or.inl ⟨b, e⟩)))⟩, fun e => hex ⟨i, Or.inr (Or.inr (Or.inr (Or.inr e)))⟩⟩
    have h0 := hr.th 0
    unfold TOk at h0
    have hn0 := hno 0
    cases hp : (s.th 0).pc with
    | idle => exact absurd hp h1
    | fin => exact absurd hp h2
    | chk => exact absurd hp hn0.1
    | go => exact absurd hp hn0.2.1
    | bar => exact absurd hp hn0.2.2.1
    | bchk b => exact absurd hp (hn0.2.2.2.1 b)
    | ack => exact absurd hp hn0.2.2.2.2
    | slp => rw [hp] at h0; exact absurd rfl h0.1
    | bslp b =>
      exfalso
      rw [hp] at h0
      have hst : s.statval = .run := h0.1
      have hall : counted R s = Finset.univ := by
        unfold counted
        apply Finset.filter_true_of_mem
        intro i _
        have hT := hr.th i
        have hni := hno i
        unfold TOk at hT
        cases hpi : (s.th i).pc with
        | bslp b => rw [hpi] at hT; exact ⟨rfl, hT.2.1⟩
        | idle => rw [hpi, hst] at hT; simp at hT
        | fin => rw [hpi, hst] at hT; simp at hT
        | slp => rw [hpi, hst] at hT; simp at hT
        | spin => rw [hpi, hst] at hT; simp at hT
        | chk => exact absurd hpi hni.1
        | go => exact absurd hpi hni.2.1
        | bar => exact absurd hpi hni.2.2.1
        | bchk b => exact absurd hpi (hni.2.2.2.1 b)
        | ack => exact absurd hpi hni.2.2.2.2
      have hc := hr.cnt (by rw [hst]; simp)
      have hlt := hr.lt
      rw [hall, Finset.card_univ, Fintype.card_fin] at hc
      push_cast at hc
      omega
    | spin =>
      rw [hp] at h0
      have hst : s.statval = .dwn := h0.2.1
      have hall : finished s = Finset.univ.erase 0 := by
        ext i
        simp only [finished, Finset.mem_filter, Finset.mem_univ, true_and, Finset.mem_erase, and_true]
        refine ⟨fun h => h.1, fun hi0 => ⟨hi0, ?_⟩⟩
        have hT := hr.th i
        have hni := hno i
        unfold TOk at hT
        cases hpi : (s.th i).pc with
        | fin => rfl
        | bslp b => rw [hpi, hst] at hT; simp at hT
        | idle => rw [hpi, hst] at hT; simp at hT
        | slp => rw [hpi, hst] at hT; simp at hT
        | spin => rw [hpi] at hT; exact absurd hT.1 hi0
        | chk => exact absurd hpi hni.1
        | go => exact absurd hpi hni.2.1
        | bar => exact absurd hpi hni.2.2.1
        | bchk b => exact absurd hpi (hni.2.2.2.1 b)
        | ack => exact absurd hpi hni.2.2.2.2
      have hc := hr.cntf hst
      rw [hall, Finset.card_erase_of_mem (Finset.mem_univ _), Finset.card_univ, Fintype.card_fin] at hc
      refine ⟨0, ?_⟩
      simp only [step, runTh, hp]
      rw [if_pos (by simpa using hc)]
      rfl

/-- Execution of a list of transitions. -/
def runActs (W : Nat) (s : St n) : List (Act n) → Option (St n)
  | [] => some s
  | a :: l => match step W s a with
    | none => none
    | some s' => runActs W s' l

-- Two launches and termination, with one slave
example : ((runActs 4 (init (n := 1) 3 0)
    [.run 1, .launch, .run 0, .run 1, .run 0, .run 1, .run 1, .run 0, .launch, .run 1, .run 1, .run 1, .spurious 1, .run 1, .run 0, .run 0,
     .run 1, .exit, .run 1, .run 1, .run 0]).map
      fun s => [(s.th 0).log, (s.th 1).log]) = some [[1, 2], [1, 2]] := by decide +kernel

end Scotch.Thread.Pool
