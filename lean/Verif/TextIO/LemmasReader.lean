import Verif.TextIO.Reader
import Verif.TextIO.Lemmas
import Verif.TextIO.Props
import Verif.Safe

/-! # Reading sequences of integers: lemmas -/

set_option autoImplicit false
set_option linter.unusedSimpArgs false

namespace Scotch
open Text

variable {α β : Type}

theorem Holds_andThen (x : M (Option α)) (f : α → M (Option β)) (Q : Option β → Prop) :
    Holds (x >?> f) Q ↔ Holds x (fun r => match r with | none => Q none | some a => Holds (f a) Q) := by
  unfold andThen
  rw [Holds_bind]
  constructor <;> intro h <;> refine h.mono ?_ <;> intro r hr <;> cases r <;> exact hr

theorem Safe_andThen (x : M (Option α)) (f : α → M (Option β)) (Q : Option β → Prop) :
    Safe (x >?> f) Q ↔ Safe x (fun r => match r with | none => Q none | some a => Safe (f a) Q) := by
  unfold andThen
  rw [Safe_bind]
  constructor <;> intro h <;> refine h.mono ?_ <;> intro r hr <;> cases r <;> exact hr

theorem andThen_ok (a : α) (f : α → M (Option β)) : ((.ok (some a) : M (Option α)) >?> f) = f a := rfl
theorem andThen_pure (a : α) (f : α → M (Option β)) : ((pure (some a) : M (Option α)) >?> f) = f a := rfl

theorem Holds_guardO (c : Prop) [Decidable c] (Q : Option Unit → Prop) :
    Holds (guardO c) Q ↔ (if c then Q (some ()) else Q none) := by
  unfold guardO
  split <;> exact Iff.rfl

theorem Safe_guardO (c : Prop) [Decidable c] (Q : Option Unit → Prop) :
    Safe (guardO c) Q ↔ (if c then Q (some ()) else Q none) := by
  unfold guardO
  split <;> exact Iff.rfl

theorem guardO_true {c : Prop} [Decidable c] (h : c) : guardO c = .ok (some ()) := by
  unfold guardO; rw [if_pos h]; rfl

/-- Postcondition of a step that may fail. -/
def OSat {α : Type} (I : α → Prop) (B : Prop) : Option α → Prop
  | none => B
  | some a => I a

theorem Holds_loopO {σ : Type} {lo hi : Int} {st : σ} {body : Int → σ → M (Option σ)} {Q : Option σ → Prop}
    (I : Int → σ → Prop) (B : Prop) (hle : lo ≤ hi) (h0 : I lo st)
    (hstep : ∀ i s, lo ≤ i → i < hi → I i s → Holds (body i s) (OSat (I (i + 1)) B))
    (hQ : ∀ s, I hi s → Q (some s)) (hB : B → Q none) : Holds (loopO lo hi st body) Q := by
  unfold loopO
  rw [Holds_bind]
  refine Holds_forUpB I (fun _ => B) hle h0 ?_ (fun s hs => hQ s hs) (fun _ h => hB h)
  intro i s h1 h2 hI
  rw [Holds_bind]
  refine (hstep i s h1 h2 hI).mono ?_
  intro r hr
  cases r <;> exact hr

theorem Safe_loopO {σ : Type} {lo hi : Int} {st : σ} {body : Int → σ → M (Option σ)} {Q : Option σ → Prop}
    (I : Int → σ → Prop) (B : Prop) (h0 : I lo st)
    (hstep : ∀ i s, lo ≤ i → i < hi → I i s → Safe (body i s) (OSat (I (i + 1)) B))
    (hQ : ∀ s, I (max lo hi) s → Q (some s)) (hB : B → Q none) : Safe (loopO lo hi st body) Q := by
  unfold loopO
  rw [Safe_bind]
  refine Safe_forUpB' I (fun _ => B) h0 ?_ (fun s hs => hQ s hs) (fun _ h => hB h)
  intro i s h1 h2 hI
  rw [Safe_bind]
  refine (hstep i s h1 h2 hI).mono ?_
  intro r hr
  cases r <;> exact hr

/-- Printed integers are read back. -/
theorem getInt_print (intMax v : Int) (ws rest : Stream) (h1 : -intMax ≤ v) (h2 : v ≤ intMax) (hws : AllSpaces ws)
    (hrest : NoDigit rest) : getInt intMax (ws ++ (printInt v ++ rest)) = .ok (some (v, rest)) := by
  unfold getInt
  have := C01_save_load_partial intMax v ws rest h1 h2 hws hrest
  rw [List.append_assoc] at this
  rw [this]
  rfl

theorem getInt_print0 (intMax v : Int) (rest : Stream) (h1 : -intMax ≤ v) (h2 : v ≤ intMax)
    (hrest : NoDigit rest) : getInt intMax (printInt v ++ rest) = .ok (some (v, rest)) :=
  getInt_print intMax v [] rest h1 h2 (by intro c hc; cases hc) hrest

theorem getInt_print1 (intMax v : Int) (c : Nat) (rest : Stream) (hc : c = 9 ∨ c = 10) (h1 : -intMax ≤ v) (h2 : v ≤ intMax)
    (hrest : NoDigit rest) : getInt intMax (c :: (printInt v ++ rest)) = .ok (some (v, rest)) :=
  getInt_print intMax v [c] rest h1 h2 (by
    intro d hd
    rw [List.mem_singleton] at hd
    subst hd
    rw [isspace_iff]
    omega) hrest

theorem chk_safe (intMax v : Int) : Safe (chk intMax v) (fun r => r = v) := by
  unfold chk
  split
  · rfl
  · rfl

theorem intLoadDigits_safe (intMax : Int) : ∀ (s : Stream) (v : Int), 0 ≤ v →
    Safe (intLoadDigits intMax s v) (fun r => 0 ≤ r.1 ∧ ∀ c ∈ r.2, c ∈ s)
  | [], v, hv => ⟨hv, by
      intro c hc
      unfold ungetc at hc
      simp at hc⟩
  | c :: r, v, hv => by
    unfold intLoadDigits
    split
    · refine ⟨hv, ?_⟩
      intro d hd
      unfold ungetc at hd
      rw [if_neg (by omega)] at hd
      simpa using hd
    · rename_i hd
      have hd : 48 ≤ (c : Int) ∧ (c : Int) ≤ 57 := by
        rw [← isdigit_iff]
        simpa using hd
      rw [Safe_bind]
      refine (chk_safe intMax _).mono ?_
      rintro p rfl
      rw [Safe_bind]
      refine (chk_safe intMax _).mono ?_
      rintro w rfl
      refine (intLoadDigits_safe intMax r _ (by omega)).mono ?_
      rintro x ⟨h1, h2⟩
      exact ⟨h1, fun d hd => List.mem_cons_of_mem _ (h2 d hd)⟩

/-- What the first loop of `intLoad` leaves is part of the stream; a sign flag comes from a minus sign. -/
def StartOk (s : Stream) : Start → Prop
  | .fail _ => True
  | .ok sign _ r => (sign = true → 45 ∈ s) ∧ ∀ c ∈ r, c ∈ s

theorem intLoadStart_mem : ∀ (s : Stream), StartOk s (intLoadStart s)
  | [] => trivial
  | c :: r => by
    unfold intLoadStart
    have hg : ∀ d ∈ (getc r).2, d ∈ c :: r := by
      intro d hd
      cases r with
      | nil => cases hd
      | cons x y => exact List.mem_cons_of_mem _ (List.mem_cons_of_mem _ hd)
    split
    · have := intLoadStart_mem r
      cases hr : intLoadStart r with
      | fail _ => trivial
      | ok sign car q =>
        rw [hr] at this
        exact ⟨fun h => List.mem_cons_of_mem _ (this.1 h), fun d hd => List.mem_cons_of_mem _ (this.2 d hd)⟩
    · split
      · exact ⟨fun h => (by cases h), fun d hd => List.mem_cons_of_mem _ hd⟩
      · split
        · rename_i hc
          have : c = 45 := by omega
          subst this
          exact ⟨fun _ => List.mem_cons_self, hg⟩
        · split
          · exact ⟨fun h => (by cases h), hg⟩
          · trivial

/-- Reading an integer is memory safe; it consumes a part of the stream; in the absence of minus sign,
the value is not negative. -/
theorem getInt_safe (intMax : Int) (s : Stream) :
    Safe (getInt intMax s) (fun r => ∀ v s', r = some (v, s') → (∀ c ∈ s', c ∈ s) ∧ (45 ∉ s → 0 ≤ v)) := by
  unfold getInt
  have : Safe (intLoad intMax s) (fun r => ∀ v, r.1 = some v → (∀ c ∈ r.2, c ∈ s) ∧ (45 ∉ s → 0 ≤ v)) := by
    unfold intLoad
    have hm := intLoadStart_mem s
    split
    · intro v hv; cases hv
    · rename_i sign car r hr
      rw [hr] at hm
      split
      · intro v hv; cases hv
      · rename_i hcar
        rw [Safe_bind]
        refine (intLoadDigits_safe intMax r _ (by omega)).mono ?_
        rintro ⟨v, r'⟩ ⟨h1, h2⟩
        dsimp only
        split
        · rename_i hs
          rw [Safe_bind]
          refine (chk_safe intMax _).mono ?_
          rintro w rfl
          rintro x ⟨⟩
          exact ⟨fun c hc => hm.2 c (h2 c hc), fun h45 => absurd (hm.1 hs) h45⟩
        · rintro x ⟨⟩
          exact ⟨fun c hc => hm.2 c (h2 c hc), fun _ => h1⟩
  rw [Safe_bind]
  refine this.mono ?_
  rintro ⟨o, s'⟩ h
  cases o with
  | none => intro v s'' h'; cases h'
  | some v =>
    rintro v s'' ⟨⟩
    exact h v rfl

end Scotch
