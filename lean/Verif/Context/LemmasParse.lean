import Verif.Context.Lemmas
import Verif.Seg

set_option autoImplicit false
set_option linter.unusedSimpArgs false

namespace Scotch.Ctx
open CtxSpec
variable {D : Type}

/-- `optionSetNum` on the two values it accepts. -/
theorem optionSetNum_01 (w : World D) (c : Nat) (k v : Int) (h : v = 0 ∨ v = 1) :
    optionSetNum w c k v = setInt w c k v := by
  unfold optionSetNum RANDOMFIXEDSEED DETERMINISTIC
  rcases h with rfl | rfl
  · simp
  · simp

theorem optionSetNum_bad (w : World D) (c : Nat) (k v : Int) (h0 : v ≠ 0) (h1 : v ≠ 1) :
    optionSetNum w c k v = .ok (1, w) := by
  unfold optionSetNum RANDOMFIXEDSEED DETERMINISTIC
  simp [h0, h1, pure, Except.pure]

/-- Effect of an option letter on a table. -/
def applyChar (t : Table D) (ch : Int) : Table D :=
  match optionOf ch with
  | none => t
  | some (num, val) => { t with ints := fun j => if j = num then val else t.ints j }

/-- Characters that are neither white space nor commas. -/
def sig (l : List Int) : List Int := l.filter fun ch => !isSpace ch && decide (ch ≠ 44)

theorem sig_append (l l' : List Int) : sig (l ++ l') = sig l ++ sig l' := List.filter_append ..

theorem sig_space {ch : Int} (h : isSpace ch = true) : sig [ch] = [] := by simp [sig, h]

theorem sig_comma : sig [44] = [] := by decide

theorem skip_ok (str : Arr Int) (z : Int) (hlo : str.lo ≤ 0) (hz : z < str.hi) (h0 : str.get z = 0) (fuel : Nat) (p : Int)
    (hp : 0 ≤ p) (hpz : p ≤ z) (hnz : ∀ i, 0 ≤ i → i < z → str.get i ≠ 0) (hf : z < p + fuel) :
    Holds (skip str fuel p) (fun r => p ≤ r.2 ∧ r.2 ≤ z ∧ r.1 = str.get r.2 ∧ isSpace r.1 = false ∧
      sig (seg str.get 0 r.2) = sig (seg str.get 0 p)) := by
  unfold skip
  refine Holds_loopM (fun q => p ≤ q ∧ q ≤ z ∧ sig (seg str.get 0 q) = sig (seg str.get 0 p)) (fun q => (z - q).toNat) ?_
    fuel p ⟨Int.le_refl _, hpz, rfl⟩ (by omega)
  rintro q ⟨h1, h2, h3⟩
  rw [Arr.rd_ok str (by omega) (by omega)]
  simp only [bind, Except.bind]
  by_cases hs : isSpace (str.get q) = true
  · rw [if_pos hs]
    have hq : q ≠ z := by intro e; rw [e, h0] at hs; simp [isSpace] at hs
    refine ⟨⟨by omega, by omega, ?_⟩, by omega⟩
    rw [seg_succ str.get (by omega), sig_append, sig_space hs, List.append_nil, h3]
  · rw [if_neg hs]
    exact ⟨h1, h2, rfl, by simpa using hs, h3⟩

section
variable {nd : Int} {p0 : Nat} {b0 : Block D}

/-- State of the parsing loop. -/
def PInv (nd : Int) (p0 : Nat) (b0 : Block D) (s : State D) (c : Nat) (t : Table D) (str : Arr Int) (z : Int)
    (x : Int × World D) : Prop :=
  0 ≤ x.1 ∧ x.1 ≤ z ∧ (∀ ch ∈ sig (seg str.get 0 x.1), optionOf ch ≠ none) ∧
    Inv OPTIONNUMNBR nd p0 b0 x.2 (s.put c (some ((sig (seg str.get 0 x.1)).foldl applyChar t)))

/-- Result of the parsing loop. -/
def PRes (nd : Int) (p0 : Nat) (b0 : Block D) (s : State D) (c : Nat) (t : Table D) (str : Arr Int) (z : Int)
    (x : Int × World D) : Prop :=
  (x.1 = 0 ∧ (∀ ch ∈ sig (seg str.get 0 z), optionOf ch ≠ none) ∧
    Inv OPTIONNUMNBR nd p0 b0 x.2 (s.put c (some ((sig (seg str.get 0 z)).foldl applyChar t)))) ∨
  (x.1 = 1 ∧ ∃ q, 0 ≤ q ∧ q ≤ z ∧
    Inv OPTIONNUMNBR nd p0 b0 x.2 (s.put c (some ((sig (seg str.get 0 q)).foldl applyChar t))))

theorem optionOf_range {ch num val : Int} (h : optionOf ch = some (num, val)) :
    0 ≤ num ∧ num < OPTIONNUMNBR ∧ (val = 0 ∨ val = 1) ∧ isSpace ch = false ∧ ch ≠ 44 := by
  unfold optionOf DETERMINISTIC RANDOMFIXEDSEED at h
  unfold OPTIONNUMNBR isSpace
  split at h
  · cases h; simp_all
  · split at h
    · cases h; simp_all
    · split at h
      · cases h; simp_all
      · split at h
        · cases h; simp_all
        · cases h

theorem put_put (s : State D) (c : Nat) (a b : Option (Table D)) : (s.put c a).put c b = s.put c b := by
  funext d; simp only [State.put]; split <;> rfl

theorem put_at (s : State D) (c : Nat) (a : Option (Table D)) : s.put c a c = a := by simp [State.put]

theorem parseStep_ok (s : State D) (c : Nat) (t : Table D) (str : Arr Int) (z : Int) (hlo : str.lo ≤ 0) (hz : z < str.hi)
    (h0 : str.get z = 0) (hnz : ∀ i, 0 ≤ i → i < z → str.get i ≠ 0) (fuel : Nat) (hf : z < fuel) (x : Int × World D)
    (hx : PInv nd p0 b0 s c t str z x) :
    Holds (parseStep str fuel c x) (Loop.Sat (fun x' => PInv nd p0 b0 s c t str z x' ∧ (z - x'.1).toNat < (z - x.1).toNat)
      (PRes nd p0 b0 s c t str z)) := by
  obtain ⟨p, w⟩ := x
  obtain ⟨h1, h2, h3, h4⟩ := hx
  simp only at h1 h2 h3 h4
  unfold parseStep
  rw [Holds_bind, Holds_rd]
  refine ⟨⟨by simp only; omega, by simp only; omega⟩, ?_⟩
  by_cases hend : str.get p = 0
  · simp only [hend, if_true]
    have hpz : p = z := by
      by_contra hne
      exact hnz p h1 (by omega) hend
    subst hpz
    exact Or.inl ⟨rfl, h3, h4⟩
  · simp only [hend, if_false]
    rw [Holds_bind]
    refine (skip_ok str z hlo hz h0 fuel p h1 h2 hnz (by omega)).mono ?_
    rintro ⟨ch, q⟩ ⟨g1, g2, g3, g4, g5⟩
    simp only at g1 g2 g3 g4 g5 ⊢
    have hI : Inv OPTIONNUMNBR nd p0 b0 w (s.put c (some ((sig (seg str.get 0 q)).foldl applyChar t))) := by
      rw [g5]; exact h4
    by_cases ha : ¬ isAlpha ch = true
    · rw [if_pos ha]
      exact Or.inr ⟨rfl, q, by omega, g2, hI⟩
    · rw [if_neg ha]
      cases ho : optionOf ch with
      | none => exact Or.inr ⟨rfl, q, by omega, g2, hI⟩
      | some nv =>
        obtain ⟨num, val⟩ := nv
        obtain ⟨k1, k2, k3, k4, k5⟩ := optionOf_range ho
        have hqz : q ≠ z := by
          intro e; rw [g3, e, h0] at ho; simp [optionOf] at ho
        simp only
        rw [Holds_bind, optionSetNum_01 _ _ _ _ k3]
        refine (setInt_ok hI (put_at s c _) num val).mono ?_
        rintro ⟨code, w1⟩ hw1
        simp only [k1, k2, and_self, if_true] at hw1
        have hsig : sig (seg str.get 0 (q + 1)) = sig (seg str.get 0 q) ++ [ch] := by
          rw [seg_succ str.get (by omega), sig_append, ← g3]
          congr 1
          simp [sig, k4, k5]
        have hI1 : Inv OPTIONNUMNBR nd p0 b0 w1 (s.put c (some ((sig (seg str.get 0 (q + 1))).foldl applyChar t))) := by
          rw [hsig, List.foldl_append]
          simp only [List.foldl_cons, List.foldl_nil]
          rw [show applyChar ((sig (seg str.get 0 q)).foldl applyChar t) ch = _ from by
            unfold applyChar; rw [ho]]
          have := hw1.2
          rw [put_put] at this
          exact this
        have hall : ∀ ch' ∈ sig (seg str.get 0 (q + 1)), optionOf ch' ≠ none := by
          rw [hsig]
          intro ch' hm
          rcases List.mem_append.1 hm with hm | hm
          · rw [g5] at hm; exact h3 ch' hm
          · rw [List.mem_singleton.1 hm, ho]; simp
        rw [Holds_bind]
        refine (skip_ok str z hlo hz h0 fuel (q + 1) (by omega) (by omega) hnz (by omega)).mono ?_
        rintro ⟨ch2, q2⟩ ⟨m1, m2, m3, m4, m5⟩
        simp only at m1 m2 m3 m4 m5 ⊢
        have hI2 : Inv OPTIONNUMNBR nd p0 b0 w1 (s.put c (some ((sig (seg str.get 0 q2)).foldl applyChar t))) := by
          rw [m5]; exact hI1
        have hall2 : ∀ ch' ∈ sig (seg str.get 0 q2), optionOf ch' ≠ none := by rw [m5]; exact hall
        by_cases hc0 : ch2 = 0
        · rw [if_pos hc0]
          have hq2 : q2 = z := by
            by_contra hne
            exact hnz q2 (by omega) (by omega) (by rw [← m3]; exact hc0)
          subst hq2
          exact Or.inl ⟨rfl, hall2, hI2⟩
        · rw [if_neg hc0]
          have hq2 : q2 ≠ z := by intro e; rw [m3, e, h0] at hc0; exact hc0 rfl
          by_cases hcm : ch2 = 44
          · rw [if_pos hcm]
            have e44 : sig (seg str.get 0 (q2 + 1)) = sig (seg str.get 0 q2) := by
              rw [seg_succ str.get (by omega), sig_append, ← m3, hcm, sig_comma, List.append_nil]
            refine ⟨⟨by simp only; omega, by simp only; omega, ?_, ?_⟩, by simp only; omega⟩
            · simp only; rw [e44]; exact hall2
            · simp only; rw [e44]; exact hI2
          · rw [if_neg hcm]
            exact ⟨⟨by simp only; omega, by simp only; omega, hall2, hI2⟩, by simp only; omega⟩

theorem optionParse_ok (s : State D) (c : Nat) (t : Table D) (hc : s c = some t) (w : World D)
    (h : Inv OPTIONNUMNBR nd p0 b0 w s) (str : Arr Int) (z : Int) (hlo : str.lo ≤ 0) (hz0 : 0 ≤ z) (hz : z < str.hi)
    (h0 : str.get z = 0) (hnz : ∀ i, 0 ≤ i → i < z → str.get i ≠ 0) :
    Holds (optionParse w c str) (PRes nd p0 b0 s c t str z) := by
  unfold optionParse
  refine Holds_loopM (PInv nd p0 b0 s c t str z) (fun x => (z - x.1).toNat)
    (fun x hx => parseStep_ok s c t str z hlo hz h0 hnz _ (by omega) x hx) _ _ ?_ (by simp only; omega)
  refine ⟨Int.le_refl _, hz0, ?_, ?_⟩
  · rw [seg_empty _ (Int.le_refl _)]; simp [sig]
  · rw [seg_empty _ (Int.le_refl _)]
    simp only [sig, List.filter_nil, List.foldl_nil]
    rw [put_same s hc]; exact h

end
end Scotch.Ctx
