import Verif.Arch.Spec

/-!
# Target architectures: facts common to all classes

Additivity of sizes and weights gives the laws on cardinals; recursive bisection reaches every
processor exactly once.
-/

set_option autoImplicit false

namespace Scotch

theorem tally_congr {n : Int} {w : Int → Int} {P Q : Int → Prop} (h : ∀ k, 0 ≤ k → k < n → (P k ↔ Q k)) :
    tally n w P = tally n w Q := by
  classical
  unfold tally
  refine sumI_congr ?_
  intro i h1 h2
  by_cases hp : P i
  · rw [if_pos hp, if_pos ((h i h1 h2).1 hp)]
  · rw [if_neg hp, if_neg (fun hq => hp ((h i h1 h2).2 hq))]

theorem tally_or {n : Int} {w : Int → Int} {P Q : Int → Prop} (h : ∀ k, ¬ (P k ∧ Q k)) :
    tally n w (fun k => P k ∨ Q k) = tally n w P + tally n w Q := by
  classical
  unfold tally
  rw [← sumI_add_dist]
  refine sumI_congr ?_
  intro i _ _
  by_cases hp : P i
  · have hq : ¬ Q i := fun hq => h i ⟨hp, hq⟩
    simp [hp, hq]
  · simp [hp]

theorem tally_single {n k : Int} {w : Int → Int} (h1 : 0 ≤ k) (h2 : k < n) :
    tally n w (fun j => j = k) = w k := by
  classical
  unfold tally
  have := sumI_update h1 h2 (fun _ => 0) (w k)
  have e : sumI 0 n (fun _ => (0 : Int)) = 0 := by rw [sumI_const (by omega)]; simp
  rw [e] at this
  rw [← show sumI 0 n (fun j => if j = k then w k else 0) = w k by simpa using this]
  refine sumI_congr ?_
  intro i _ _
  by_cases hi : i = k
  · subst hi; simp
  · simp [hi]

/-- Laws of a class, with additive sizes and weights instead of cardinals. -/
structure AddLaws {D : Type} (o : ArchOps D) (n : Int) (w : Int → Int) (Valid : D → Prop)
    (Has : D → Int → Prop) (sz wt : D → Int) : Prop where
  within : ∀ d k, Valid d → Has d k → 0 ≤ k ∧ k < n
  frst : Holds o.frst (fun d => Valid d ∧ ∀ k, 0 ≤ k → k < n → Has d k)
  size : ∀ d, Valid d → Holds (o.size d) (fun s => s = sz d)
  wght : ∀ d, Valid d → Holds (o.wght d) (fun s => s = wt d)
  size_pos : ∀ d, Valid d → 1 ≤ sz d
  bipart : ∀ d, Valid d → Holds (o.bipart d) (fun r => match r with
    | none => sz d = 1 ∧ ∃ k, wt d = w k ∧ ∀ j, Has d j ↔ j = k
    | some (d0, d1) => Valid d0 ∧ Valid d1 ∧ sz d = sz d0 + sz d1 ∧ wt d = wt d0 + wt d1 ∧
        (∀ k, Has d k ↔ Has d0 k ∨ Has d1 k) ∧ ∀ k, ¬ (Has d0 k ∧ Has d1 k))
  num : ∀ d, Valid d → Holds (o.num d) (Has d)
  term : ∀ k, 0 ≤ k → k < n → Holds (o.term k) (fun r => ∃ d, r = some d ∧ Valid d ∧
    (∀ j, Has d j ↔ j = k) ∧ ∀ d', Valid d' → (∀ j, Has d' j ↔ j = k) → d' = d)
  term_big : ∀ k, n ≤ k → Holds (o.term k) (fun r => r = none)

section
variable {D : Type} {o : ArchOps D} {n : Int} {w : Int → Int} {Valid : D → Prop}
  {Has : D → Int → Prop} {sz wt : D → Int}

theorem AddLaws.tallies (h : AddLaws o n w Valid Has sz wt) : ∀ (m : Nat) (d : D), Valid d →
    sz d ≤ m → sz d = tally n (fun _ => 1) (Has d) ∧ wt d = tally n w (Has d) ∧ ∃ k, Has d k := by
  intro m
  induction m with
  | zero => intro d hd hm; have := h.size_pos d hd; omega
  | succ m ih =>
    intro d hd hm
    obtain ⟨r, -, hr⟩ := Holds_iff_exists.1 (h.bipart d hd)
    cases r with
    | none =>
      obtain ⟨h1, k, h2, h3⟩ := hr
      have hk := h.within d k hd ((h3 k).2 rfl)
      rw [tally_congr (Q := fun j => j = k) (fun j _ _ => h3 j),
        tally_congr (w := w) (Q := fun j => j = k) (fun j _ _ => h3 j),
        tally_single hk.1 hk.2, tally_single hk.1 hk.2]
      exact ⟨h1, h2, k, (h3 k).2 rfl⟩
    | some p =>
      obtain ⟨d0, d1⟩ := p
      obtain ⟨v0, v1, hs, hw, hu, hdis⟩ := hr
      have p0 := h.size_pos d0 v0
      have p1 := h.size_pos d1 v1
      obtain ⟨a0, b0, k0, c0⟩ := ih d0 v0 (by push_cast at hm; omega)
      obtain ⟨a1, b1, -⟩ := ih d1 v1 (by push_cast at hm; omega)
      rw [tally_congr (Q := fun k => Has d0 k ∨ Has d1 k) (fun j _ _ => hu j),
        tally_congr (w := w) (Q := fun k => Has d0 k ∨ Has d1 k) (fun j _ _ => hu j),
        tally_or hdis, tally_or hdis]
      exact ⟨by omega, by omega, k0, (hu k0).2 (.inl c0)⟩

theorem AddLaws.nonempty (h : AddLaws o n w Valid Has sz wt) (d : D) (hd : Valid d) : ∃ k, Has d k :=
  (h.tallies (sz d).toNat d hd (by omega)).2.2

theorem AddLaws.laws (h : AddLaws o n w Valid Has sz wt) : ArchLaws o n w Valid Has where
  within := h.within
  frst := h.frst
  size := fun d hd => (h.size d hd).mono (fun s hs => hs.trans
    (h.tallies (sz d).toNat d hd (by omega)).1)
  wght := fun d hd => (h.wght d hd).mono (fun s hs => hs.trans
    (h.tallies (sz d).toNat d hd (by omega)).2.1)
  bipart := by
    intro d hd
    refine (h.bipart d hd).mono ?_
    intro r hr
    cases r with
    | none => exact ⟨hr.2.choose, hr.2.choose_spec.2⟩
    | some p => exact ⟨hr.1, hr.2.1, h.nonempty _ hr.1, h.nonempty _ hr.2.1, hr.2.2.2.2.1, hr.2.2.2.2.2⟩
  num := h.num
  term := h.term
  term_big := h.term_big

theorem tally_one_pos {P : Int → Prop} {k : Int} (h1 : 0 ≤ k) (h2 : k < n) (hk : P k) :
    1 ≤ tally n (fun _ => 1) P := by
  classical
  have e : tally n (fun _ => 1) P = tally n (fun _ => 1) (fun j => j = k ∨ (j ≠ k ∧ P j)) := by
    apply tally_congr
    intro j _ _
    by_cases hj : j = k
    · subst hj; simp [hk]
    · simp [hj]
  rw [e, tally_or (by intro j hj; exact hj.2.1 hj.1), tally_single h1 h2]
  have : 0 ≤ tally n (fun _ => 1) (fun j => j ≠ k ∧ P j) := by
    unfold tally
    apply sumI_nonneg
    intro i _ _
    split <;> simp
  omega

/-- Recursive bisection of a domain ends, whatever the domain, within a number of levels equal to its
number of processors, and yields each processor of the domain exactly once. -/
theorem ArchLaws.bisectAll (h : ArchLaws o n w Valid Has) : ∀ (f : Nat) (d : D), Valid d →
    tally n (fun _ => 1) (Has d) ≤ f →
    Holds (Scotch.bisectAll o f d) (fun l => l.Nodup ∧ ∀ k, k ∈ l ↔ Has d k) := by
  intro f
  induction f with
  | zero =>
    intro d hd hf
    obtain ⟨k, -, hk⟩ := Holds_iff_exists.1 (h.num d hd)
    have hb := h.within d k hd hk
    have := tally_one_pos hb.1 hb.2 hk
    omega
  | succ f ih =>
    intro d hd hf
    simp only [Scotch.bisectAll, Holds_bind]
    refine (h.bipart d hd).mono ?_
    intro r hr
    cases r with
    | none =>
      obtain ⟨k, hk⟩ := hr
      simp only [Holds_bind, Holds_pure]
      refine (h.num d hd).mono ?_
      intro j hj
      refine ⟨by simp, ?_⟩
      intro i
      rw [List.mem_singleton, hk i, (hk j).1 hj]
    | some p =>
      obtain ⟨d0, d1⟩ := p
      obtain ⟨v0, v1, ⟨k0, e0⟩, ⟨k1, e1⟩, hu, hdis⟩ := hr
      have ht : tally n (fun _ => 1) (Has d)
          = tally n (fun _ => 1) (Has d0) + tally n (fun _ => 1) (Has d1) := by
        rw [tally_congr (Q := fun k => Has d0 k ∨ Has d1 k) (fun j _ _ => hu j), tally_or hdis]
      have w0 := h.within d0 k0 v0 e0
      have w1 := h.within d1 k1 v1 e1
      have p0 := tally_one_pos w0.1 w0.2 e0
      have p1 := tally_one_pos w1.1 w1.2 e1
      simp only [Holds_bind, Holds_pure]
      refine (ih d0 v0 (by push_cast at hf; omega)).mono ?_
      intro l0 h0
      refine (ih d1 v1 (by push_cast at hf; omega)).mono ?_
      intro l1 h1
      refine ⟨?_, ?_⟩
      · rw [List.nodup_append]
        refine ⟨h0.1, h1.1, ?_⟩
        intro a ha b hb hab
        subst hab
        exact hdis a ⟨(h0.2 a).1 ha, (h1.2 a).1 hb⟩
      · intro k
        rw [List.mem_append, hu k, h0.2 k, h1.2 k]

/-- Number of a terminal domain, and back. -/
theorem ArchLaws.roundtrip (h : ArchLaws o n w Valid Has) (k : Int) (h1 : 0 ≤ k) (h2 : k < n) :
    Holds (o.term k) (fun r => ∃ d, r = some d ∧ Valid d ∧ o.num d = .ok k) := by
  refine (h.term k h1 h2).mono ?_
  rintro r ⟨d, rfl, hv, hd, -⟩
  refine ⟨d, rfl, hv, ?_⟩
  obtain ⟨j, e, hj⟩ := Holds_iff_exists.1 (h.num d hv)
  rw [e, (hd j).1 hj]

/-- A domain that cannot be split is the terminal domain of its number. -/
theorem ArchLaws.roundtrip' (h : ArchLaws o n w Valid Has) (d : D) (hv : Valid d)
    (hb : o.bipart d = .ok none) : ∃ k, o.num d = .ok k ∧ o.term k = .ok (some d) := by
  obtain ⟨k, hk⟩ := (h.bipart d hv).elim hb
  obtain ⟨j, e, hj⟩ := Holds_iff_exists.1 (h.num d hv)
  have hjk := (hk j).1 hj
  subst hjk
  refine ⟨j, e, ?_⟩
  have hw := h.within d j hv hj
  obtain ⟨r, e', d', rfl, -, -, hu⟩ := Holds_iff_exists.1 (h.term j hw.1 hw.2)
  rw [e', hu d hv hk]

theorem AddLaws.withDist (h : AddLaws o n w Valid Has sz wt) (f : D → D → M Int) :
    AddLaws { o with dist := f } n w Valid Has sz wt where
  within := h.within
  frst := h.frst
  size := h.size
  wght := h.wght
  size_pos := h.size_pos
  bipart := h.bipart
  num := h.num
  term := h.term
  term_big := h.term_big

theorem ArchLaws.bisects (h : ArchLaws o n w Valid Has) : Bisects o n := by
  unfold Bisects
  simp only [Holds_bind]
  refine h.frst.mono ?_
  rintro d ⟨hv, hall⟩
  have e : ∀ k, Has d k ↔ 0 ≤ k ∧ k < n := fun k => ⟨h.within d k hv, fun hk => hall k hk.1 hk.2⟩
  have ht : tally n (fun _ => 1) (Has d) ≤ n.toNat := by
    have : tally n (fun _ => 1) (Has d) ≤ sumI 0 n (fun _ => 1) := by
      unfold tally
      apply sumI_mono
      intro i _ _
      split <;> simp
    by_cases hn : 0 ≤ n
    · rw [sumI_const hn] at this
      omega
    · rw [sumI_empty (by omega)] at this
      omega
  refine (h.bisectAll n.toNat d hv ht).mono ?_
  rintro l ⟨h1, h2⟩
  exact ⟨h1, fun k => by rw [h2, e]⟩

theorem ArchLaws.numbers (h : ArchLaws o n w Valid Has) : NumberLaws o n Valid Has where
  there := by
    intro k k0 k1
    obtain ⟨r, e, d, rfl, hv, hd, -⟩ := Holds_iff_exists.1 (h.term k k0 k1)
    refine ⟨d, e, hv, ?_, ?_, ?_⟩
    · obtain ⟨j, e', hj⟩ := Holds_iff_exists.1 (h.num d hv)
      rw [e', (hd j).1 hj]
    · obtain ⟨s, e', rfl⟩ := Holds_iff_exists.1 (h.size d hv)
      rw [e', tally_congr (Q := fun j => j = k) (fun j _ _ => hd j), tally_single k0 k1]
    · obtain ⟨b, e', hb⟩ := Holds_iff_exists.1 (h.bipart d hv)
      cases b with
      | none => exact e'
      | some p =>
        obtain ⟨d0, d1⟩ := p
        obtain ⟨-, -, ⟨k0, e0⟩, ⟨k1, e1⟩, hu, hdis⟩ := hb
        have q0 := (hd k0).1 ((hu k0).2 (.inl e0))
        have q1 := (hd k1).1 ((hu k1).2 (.inr e1))
        subst q0
        subst q1
        exact absurd ⟨e0, e1⟩ (hdis _)
  back := h.roundtrip'
  big := by
    intro k hk
    obtain ⟨r, e, rfl⟩ := Holds_iff_exists.1 (h.term_big k hk)
    exact e
  all := by
    obtain ⟨d, e, hd⟩ := Holds_iff_exists.1 h.frst
    exact ⟨d, e, hd⟩

end
end Scotch
