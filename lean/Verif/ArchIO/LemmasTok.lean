import Verif.ArchIO.Spec

/-! # Target architectures and domains in files: texts made of integers -/

set_option autoImplicit false
set_option linter.unusedSimpArgs false

namespace Scotch.ArchIO
open Text

/-- Reading the integers of the list, one after another, leads from the stream to `r`, but for white space. -/
inductive Toks (m : Int) (r : Stream) : Stream → List Int → Prop
  | nil {ws : Stream} : AllSpaces ws → Toks m r (ws ++ r) []
  | cons {ws t : Stream} {v : Int} {l : List Int} : AllSpaces ws → -m ≤ v → v ≤ m → NoDigit t → Toks m r t l → Toks m r (ws ++ (printInt v ++ t)) (v :: l)

variable {m : Int} {r s t : Stream} {v : Int} {l : List Int}

theorem Toks.get (h : Toks m r s (v :: l)) : ∃ s', getInt m s = .ok (some (v, s')) ∧ Toks m r s' l := by
  cases h with
  | cons hw h1 h2 h3 h4 => exact ⟨_, getInt_print m v _ _ h1 h2 hw h3, h4⟩

theorem Toks.scan (h : Toks m r s (v :: l)) : ∃ s', scanInt m s = .ok (some (v, s')) ∧ Toks m r s' l := by
  cases h with
  | cons hw h1 h2 h3 h4 =>
    refine ⟨_, ?_, h4⟩
    unfold scanInt
    have e := Rand.scanNum_printInt v hw h3
    rw [e]
    dsimp only
    rw [if_pos ⟨by omega, h2⟩]

theorem Toks.done (h : Toks m r s []) : ∃ ws, AllSpaces ws ∧ s = ws ++ r := by
  cases h with
  | nil hw => exact ⟨_, hw, rfl⟩

theorem allSpaces_nil : AllSpaces [] := fun _ h => by cases h

theorem allSpaces_cons {c : Nat} {ws : Stream} (hc : c = 32 ∨ c = 9 ∨ c = 10) (h : AllSpaces ws) : AllSpaces (c :: ws) := by
  intro d hd
  rcases List.mem_cons.1 hd with rfl | hd
  · rw [isspace_iff]
    omega
  · exact h d hd

theorem allSpaces_append {ws vs : Stream} (h : AllSpaces ws) (k : AllSpaces vs) : AllSpaces (ws ++ vs) := by
  intro d hd
  rcases List.mem_append.1 hd with hd | hd
  · exact h d hd
  · exact k d hd

theorem noDigit_sp {c : Nat} (hc : c = 32 ∨ c = 9 ∨ c = 10) (s : Stream) : NoDigit (c :: s) := by
  unfold NoDigit
  dsimp only
  omega

/-- White space before the integers. -/
theorem Toks.sp {ws : Stream} (hw : AllSpaces ws) (h : Toks m r s l) : Toks m r (ws ++ s) l := by
  cases h with
  | nil hw' =>
    rw [← List.append_assoc]
    exact .nil (allSpaces_append hw hw')
  | @cons ws' t _ _ hw' h1 h2 h3 h4 =>
    rw [← List.append_assoc]
    exact .cons (allSpaces_append hw hw') h1 h2 h3 h4

theorem Toks.sp1 {c : Nat} (hc : c = 32 ∨ c = 9 ∨ c = 10) (h : Toks m r s l) : Toks m r (c :: s) l :=
  Toks.sp (ws := [c]) (allSpaces_cons hc allSpaces_nil) h

/-- An integer followed by a character. -/
theorem Toks.numc {c : Nat} (hc : c = 32 ∨ c = 9 ∨ c = 10) (h1 : -m ≤ v ∧ v ≤ m) (h : Toks m r t l) : Toks m r (printInt v ++ (c :: t)) (v :: l) :=
  Toks.cons (ws := []) allSpaces_nil h1.1 h1.2 (noDigit_sp hc t) (h.sp1 hc)

/-- End of the text. -/
theorem Toks.last : Toks m r r [] := Toks.nil (ws := []) allSpaces_nil

/-- An integer followed by white space. -/
theorem Toks.num (h1 : -m ≤ v) (h2 : v ≤ m) (h3 : NoDigit t) (h : Toks m r t l) : Toks m r (printInt v ++ t) (v :: l) :=
  Toks.cons (ws := []) allSpaces_nil h1 h2 h3 h

/-- Texts made of one piece by index. -/
theorem toks_pieces {φ : Stream → Prop} {P : Int → Stream} {L : Int → List Int} {lo hi : Int} (hle : lo ≤ hi)
    (h : ∀ i t l, lo ≤ i → i < hi → φ t → Toks m r t l → Toks m r (P i ++ t) (L i ++ l) ∧ φ (P i ++ t)) (ht : φ t) (hl : Toks m r t l) :
    Toks m r ((seg P lo hi).flatten ++ t) ((seg L lo hi).flatten ++ l) ∧ φ ((seg P lo hi).flatten ++ t) := by
  obtain ⟨n, hn⟩ : ∃ n : Nat, hi - lo = n := ⟨(hi - lo).toNat, by omega⟩
  induction n generalizing lo with
  | zero =>
    rw [seg_empty _ (show hi ≤ lo by omega), seg_empty _ (show hi ≤ lo by omega)]
    exact ⟨hl, ht⟩
  | succ n ih =>
    obtain ⟨k1, k2⟩ := ih (lo := lo + 1) (by omega) (fun i t l i1 i2 => h i t l (by omega) i2) (by push_cast at hn; omega)
    rw [seg_cons P (show lo < hi by omega), seg_cons L (show lo < hi by omega), List.flatten_cons, List.flatten_cons, List.append_assoc, List.append_assoc]
    exact h lo _ _ (Int.le_refl _) (by omega) k2 k1

/-- Loops that write. -/
theorem writeAll_eq {lo hi : Int} (hle : lo ≤ hi) {f : Int → M Stream} {P : Int → Stream} (out : Stream) (h : ∀ i, lo ≤ i → i < hi → f i = .ok (P i)) :
    writeAll lo hi out f = .ok (out ++ (seg P lo hi).flatten) := by
  have : Holds (writeAll lo hi out f) (fun s => s = out ++ (seg P lo hi).flatten) := by
    unfold writeAll
    refine Holds_forUp (fun i s => s = out ++ (seg P lo i).flatten) hle (by rw [seg_empty _ (Int.le_refl _)]; simp) ?_ (fun _ h => h)
    rintro i s i1 i2 rfl
    rw [Holds_bind, h i i1 i2, Holds_ok, Holds_pure, seg_succ _ i1]
    simp
  obtain ⟨s, e, rfl⟩ := Holds_iff_exists.1 this
  exact e

theorem flatten_seg_cons {α : Type} (L : Int → List α) {i hi : Int} (h : i < hi) (l : List α) : (seg L i hi).flatten ++ l = L i ++ ((seg L (i + 1) hi).flatten ++ l) := by
  rw [seg_cons L h, List.flatten_cons, List.append_assoc]

/-! ## Names -/

theorem takeWord_name : ∀ (w : Stream) (n : Nat) (t : Stream), w.length ≤ n → (∀ c ∈ w, isspace (c : Int) = false) → takeWord n (w ++ (10 :: t)) = (w, 10 :: t)
  | [], 0, t, _, _ => rfl
  | [], n + 1, t, _, _ => by
    rw [List.nil_append, takeWord, if_pos (by decide)]
  | c :: w, 0, t, h, _ => by simp at h
  | c :: w, n + 1, t, h, hs => by
    have ih := takeWord_name w n t (by simpa using h) (fun d hd => hs d (List.mem_cons_of_mem _ hd))
    rw [List.cons_append, takeWord, if_neg (by rw [hs c (by simp)]; decide), ih]

theorem scanWord_name (c : Class) {ws : Stream} (hw : AllSpaces ws) (t : Stream) : scanWord (ws ++ (chars c.name ++ (10 :: t))) = some (chars c.name, 10 :: t) := by
  have h1 : ∀ d ∈ chars c.name, isspace (d : Int) = false := by cases c <;> decide +kernel
  have h2 : (chars c.name).length ≤ 255 := by cases c <;> decide +kernel
  have h3 : ∃ d w, chars c.name = d :: w := by cases c <;> exact ⟨_, _, rfl⟩
  unfold scanWord
  rw [Rand.skipSpace_spaces hw]
  have e : Rand.skipSpace (chars c.name ++ (10 :: t)) = chars c.name ++ (10 :: t) := by
    obtain ⟨d, w, e⟩ := h3
    rw [e] at h1 ⊢
    rw [List.cons_append, Rand.skipSpace, if_neg (by rw [h1 d (by simp)]; decide)]
  rw [e, takeWord_name _ 255 t h2 h1]
  obtain ⟨d, w, e⟩ := h3
  rw [e]

theorem archClass_name (c : Class) : archClass (chars c.name) = some c := by cases c <;> decide +kernel

theorem chars_length (c : Class) : 1 ≤ (chars c.name).length := by cases c <;> decide +kernel

end Scotch.ArchIO
