import Verif.Str.Lemmas
import Mathlib.Data.Nat.Find

/-!
# C67: patterns in strategy strings

The default strategies of the library, and those which SCOTCH_stratGraphMapBuild and other such routines build, are made by replacing patterns by values, in a buffer, in place.
-/

set_option autoImplicit false

namespace Scotch.Str

/-- Replacing a pattern that is not empty ends without access out of the buffer, and the buffer then holds the text in which all occurrences are replaced, from left to right, whether replacements are shorter or longer than the pattern,
if this text, and its final 0, fit in the buffer. -/
theorem C67_subst (pat rep : List Int) (hp : pat ≠ []) (hr : (0 : Int) ∉ rep) (s t : List Int) (R : Replaced pat rep s t) (a : Arr Int) (A : Holds0 a s) (ht : a.lo + t.length < a.hi) :
    ∃ b, stringSubst pat rep a = .ok b ∧ b.lo = a.lo ∧ b.hi = a.hi ∧ Holds0 b t := by
  have := A.fits
  obtain ⟨b, e, D⟩ := subst2_ok hp R ((a.hi - a.lo).toNat + 1) a a.lo a.lo (by omega) A.text A.nz (Int.le_refl _) (Int.le_refl _) A.fits ht (fun _ => Int.le_refl _) (fun _ => rfl) (fun _ => Int.le_refl _)
  refine ⟨b, e, D.lo, D.hi, by rw [D.lo, D.hi]; exact ht, by rw [D.lo]; exact D.text, ?_⟩
  have z := A.nz
  clear e D A ht this
  induction R with
  | none s _ => exact z
  | some l r t _ _ ih =>
    have z1 : (0 : Int) ∉ l := fun k => z (by simp [k])
    have z2 := ih fun k => z (by simp [k])
    simp [z1, z2, hr]

/-- There is one, and only one, such text. -/
theorem C67_text (pat rep : List Int) (hp : pat ≠ []) (s : List Int) : ∃ t, Replaced pat rep s t ∧ ∀ t', Replaced pat rep s t' → t' = t := by
  have ex : ∀ n (s : List Int), s.length ≤ n → ∃ t, Replaced pat rep s t := by
    intro n
    induction n with
    | zero =>
      intro s hs
      refine ⟨s, .none s fun l r k => ?_⟩
      have := congrArg List.length k
      have := List.length_pos_iff.2 hp
      simp only [List.length_append] at *
      omega
    | succ n ih =>
      intro s hs
      by_cases h : ∃ k l r, s = l ++ pat ++ r ∧ l.length = k
      · classical
        obtain ⟨l, r, rfl, hk⟩ := Nat.find_spec h
        have := List.length_pos_iff.2 hp
        simp only [List.length_append] at hs
        obtain ⟨t, ht⟩ := ih r (by omega)
        refine ⟨_, .some l r t (fun l' r' k => ?_) ht⟩
        rw [hk]
        exact Nat.find_min' h ⟨l', r', k, rfl⟩
      · exact ⟨s, .none s fun l r k => h ⟨_, l, r, k, rfl⟩⟩
  have un : ∀ (s t t' : List Int), Replaced pat rep s t → Replaced pat rep s t' → t' = t := by
    intro s t t' R
    induction R generalizing t' with
    | none s hs =>
      intro R'
      cases R' with
      | none => rfl
      | some l r => exact absurd rfl (hs l r)
    | some l r t hm R ih =>
      intro R'
      generalize hq : l ++ pat ++ r = q at R'
      cases R' with
      | none _ hs => exact absurd hq.symm (hs l r)
      | some l' r' t2 hm' R2 =>
        have e : l.length = l'.length := Nat.le_antisymm (hm l' r' hq) (hm' l r hq.symm)
        rw [List.append_assoc, List.append_assoc] at hq
        obtain ⟨h1, h2⟩ := List.append_inj hq e
        have h3 := List.append_cancel_left h2
        subst h1 h3
        rw [ih t2 R2]
  obtain ⟨t, ht⟩ := ex s.length s (Nat.le_refl _)
  exact ⟨t, ht, fun t' h => un s t t' ht h⟩

/-- Without occurrences, the text is unchanged. -/
theorem C67_absent (pat rep : List Int) (hp : pat ≠ []) (s : List Int) (hs : ¬ pat <:+: s) (a : Arr Int) (A : Holds0 a s) (hr : (0 : Int) ∉ rep) : ∃ b, stringSubst pat rep a = .ok b ∧ Holds0 b s := by
  obtain ⟨b, e, _, _, H⟩ := C67_subst pat rep hp hr s s (.none s fun l r k => hs ⟨l, r, k.symm⟩) a A A.fits
  exact ⟨b, e, H⟩

/-! ## Cases -/

/-- "a<B>c<B>", in a buffer of 20 characters. -/
def exBuf : Arr Int := ⟨0, 20, fun i => [97, 60, 66, 62, 99, 60, 66, 62, 0].getD i.toNat 7⟩

theorem exBuf_holds : Holds0 exBuf [97, 60, 66, 62, 99, 60, 66, 62] := ⟨by decide, by simp [Has, exBuf], by decide⟩

/-- A longer replacement, and a shorter one. -/
theorem exBuf_run : (stringSubst [60, 66, 62] [1, 2, 3, 4, 5] exBuf).map (fun b => (List.range 13).map fun i => b.get i) = .ok [97, 1, 2, 3, 4, 5, 99, 1, 2, 3, 4, 5, 0] ∧
    (stringSubst [60, 66, 62] [1] exBuf).map (fun b => (List.range 5).map fun i => b.get i) = .ok [97, 1, 99, 1, 0] := by
  decide +kernel

theorem exBuf_text : Replaced [60, 66, 62] [1, 2, 3, 4, 5] [97, 60, 66, 62, 99, 60, 66, 62] [97, 1, 2, 3, 4, 5, 99, 1, 2, 3, 4, 5] :=
  .some [97] [99, 60, 66, 62] [99, 1, 2, 3, 4, 5] (fun l' r' h => by cases l' with | nil => simp at h | cons => simp)
    (.some [99] [] [] (fun l' r' h => by cases l' with | nil => simp at h | cons => simp) (.none [] fun l r h => by simp at h))

example := C67_subst _ _ (by decide) (by decide) _ _ exBuf_text exBuf exBuf_holds (by decide)

example := C67_text [60, 66, 62] [1, 2, 3, 4, 5] (by decide) [97, 60, 66, 62, 99, 60, 66, 62]

example := C67_absent [60, 67, 62] [1] (by decide) _ (by decide) exBuf exBuf_holds (by decide)

end Scotch.Str
