import Verif.Str.Model
import Mathlib.Data.List.Infix

/-! # Substitution in strings: lemmas -/

set_option autoImplicit false

namespace Scotch.Str

theorem Has_append (f : Int → Int) (l r : List Int) (p : Int) : Has f p (l ++ r) ↔ Has f p l ∧ Has f (p + l.length) r := by
  induction l generalizing p with
  | nil => simp [Has]
  | cons c l ih =>
    simp only [List.cons_append, Has, ih, List.length_cons]
    have e : p + ((l.length + 1 : Nat) : Int) = p + 1 + l.length := by omega
    rw [e, and_assoc]

theorem Has_congr {f g : Int → Int} {l : List Int} {p : Int} (h : Has f p l) (hc : ∀ x, p ≤ x → x < p + l.length → g x = f x) : Has g p l := by
  induction l generalizing p with
  | nil => trivial
  | cons c l ih =>
    simp only [List.length_cons] at hc
    refine ⟨(hc p (by omega) (by omega)).trans h.1, ih h.2 fun x x1 x2 => hc x (by omega) (by omega)⟩

theorem cstr_ok {a : Arr Int} {s : List Int} {p : Int} {n : Nat} (h : Has a.get p (s ++ [0])) (hz : (0 : Int) ∉ s) (h1 : a.lo ≤ p) (h2 : p + s.length < a.hi) (hn : s.length < n) : cstr a n p = .ok s := by
  induction s generalizing p n with
  | nil =>
    obtain ⟨n, rfl⟩ : ∃ k, n = k + 1 := ⟨n - 1, by simp at hn; omega⟩
    simp only [List.length_nil] at h2
    have hc : a.get p = 0 := h.1
    unfold cstr
    rw [Arr.rd_ok a h1 (by omega)]
    simp [bind, Except.bind, hc, pure, Except.pure]
  | cons c s ih =>
    simp only [List.length_cons] at h2 hn
    obtain ⟨n, rfl⟩ : ∃ k, n = k + 1 := ⟨n - 1, by omega⟩
    have hc : a.get p = c := h.1
    have c0 : c ≠ 0 := fun k => hz (by simp [k])
    unfold cstr
    rw [Arr.rd_ok a h1 (by omega)]
    simp only [bind, Except.bind, hc, if_neg c0]
    rw [ih h.2 (fun k => hz (by simp [k])) (by omega) (by omega) (by omega)]
    rfl

theorem rdN_ok {a : Arr Int} {l : List Int} {p : Int} (h : Has a.get p l) (h1 : a.lo ≤ p) (h2 : p + l.length ≤ a.hi) : rdN a p l.length = .ok l := by
  induction l generalizing p with
  | nil => rfl
  | cons c l ih =>
    simp only [List.length_cons] at h2 ⊢
    unfold rdN
    rw [Arr.rd_ok a h1 (by omega)]
    simp only [bind, Except.bind]
    rw [ih h.2 (by omega) (by omega), h.1]
    rfl

/-- A text is written. -/
structure Written (a : Arr Int) (p : Int) (l : List Int) (b : Arr Int) : Prop where
  lo : b.lo = a.lo
  hi : b.hi = a.hi
  text : Has b.get p l
  frame : ∀ x, x < p ∨ p + l.length ≤ x → b.get x = a.get x

theorem wrL_ok {l : List Int} (a : Arr Int) {p : Int} (h1 : a.lo ≤ p) (h2 : p + l.length ≤ a.hi) : ∃ b, wrL a p l = .ok b ∧ Written a p l b := by
  induction l generalizing a p with
  | nil => exact ⟨a, rfl, rfl, rfl, trivial, fun _ _ => rfl⟩
  | cons c l ih =>
    simp only [List.length_cons] at h2
    obtain ⟨b, e, w⟩ := ih (a.set p c) (p := p + 1) (by show a.lo ≤ _; omega) (by show _ ≤ a.hi; omega)
    refine ⟨b, ?_, w.lo, w.hi, ⟨?_, w.text⟩, fun x hx => ?_⟩
    · unfold wrL
      rw [Arr.wr_ok a c h1 (by omega)]
      exact e
    · rw [w.frame p (by omega), Arr.set_get_same]
    · simp only [List.length_cons] at hx
      rw [w.frame x (by omega), Arr.set_get_ne _ _ (by omega)]

theorem memMov_ok {l : List Int} {a : Arr Int} {src dst : Int} (h : Has a.get src l) (s1 : a.lo ≤ src) (s2 : src + l.length ≤ a.hi) (d1 : a.lo ≤ dst) (d2 : dst + l.length ≤ a.hi) : ∃ b, memMov a dst src l.length = .ok b ∧ Written a dst l b := by
  obtain ⟨b, e, w⟩ := wrL_ok a (l := l) d1 d2
  refine ⟨b, ?_, w⟩
  unfold memMov
  rw [rdN_ok h s1 s2]
  exact e

theorem find_none {pat s : List Int} (h : ∀ l r, s ≠ l ++ pat ++ r) : find pat s = none := by
  induction s with
  | nil =>
    unfold find
    rw [if_neg]
    intro k
    exact h [] [] (by simp [k])
  | cons c s ih =>
    unfold find
    rw [if_neg, ih]
    · rfl
    · intro l r k
      exact h (c :: l) r (by simp [k])
    · intro k
      obtain ⟨r, hr⟩ := List.isPrefixOf_iff_prefix.1 k
      exact h [] r (by simp [hr])

theorem find_some {pat : List Int} (l r : List Int) (h : ∀ l' r', l ++ pat ++ r = l' ++ pat ++ r' → l.length ≤ l'.length) : find pat (l ++ pat ++ r) = some l.length := by
  induction l with
  | nil =>
    cases hq : [] ++ pat ++ r with
    | nil =>
      have : pat = [] := by
        have := congrArg List.length hq
        simp at this
        exact this.1
      simp [find, this]
    | cons c q =>
      unfold find
      rw [if_pos]
      · rfl
      · rw [List.isPrefixOf_iff_prefix, ← hq]
        simp
  | cons c l ih =>
    show find pat (c :: (l ++ pat ++ r)) = _
    unfold find
    rw [if_neg, ih]
    · rfl
    · intro l' r' k
      have := h (c :: l') r' (by simpa using k)
      simpa using this
    · intro k
      obtain ⟨q, hq⟩ := List.isPrefixOf_iff_prefix.1 k
      have := h [] q (by simpa using hq.symm)
      simp at this

/-- The result of a call. -/
structure Done (a : Arr Int) (dst : Int) (t : List Int) (b : Arr Int) : Prop where
  lo : b.lo = a.lo
  hi : b.hi = a.hi
  text : Has b.get dst (t ++ [0])
  frame : ∀ x, x < dst → b.get x = a.get x

theorem subst2_ok {pat rep s t : List Int} (hp : pat ≠ []) (R : Replaced pat rep s t) : ∀ (fuel : Nat) (a : Arr Int) (src dst : Int), s.length < fuel → Has a.get src (s ++ [0]) → (0 : Int) ∉ s → a.lo ≤ src → a.lo ≤ dst → src + s.length < a.hi → dst + t.length < a.hi →
    (rep.length < pat.length → dst ≤ src) → (rep.length = pat.length → dst = src) → (pat.length < rep.length → src ≤ dst) → ∃ b, subst2 pat rep fuel a src dst = .ok b ∧ Done a dst t b := by
  induction R with
  | none s hs =>
    intro fuel a src dst hf h hz h1 h2 h3 h4 c1 c2 c3
    obtain ⟨fuel, rfl⟩ : ∃ k, fuel = k + 1 := ⟨fuel - 1, by omega⟩
    have hc := cstr_ok (n := (a.hi - src).toNat) h hz h1 h3 (by omega)
    have len : (s ++ [0]).length = s.length + 1 := by simp
    unfold subst2
    rw [hc]
    simp only [bind, Except.bind, find_none hs, pure, Except.pure]
    rcases Nat.lt_trichotomy rep.length pat.length with k | k | k
    · obtain ⟨b, e, w⟩ := memMov_ok h h1 (by omega) h2 (dst := dst) (by omega)
      rw [len] at e
      refine ⟨b, ?_, w.lo, w.hi, w.text, fun x hx => w.frame x (Or.inl hx)⟩
      rw [if_pos k, e]
      dsimp only
      rw [if_neg (by omega)]
    · refine ⟨a, ?_, rfl, rfl, by rw [c2 k]; exact h, fun _ _ => rfl⟩
      rw [if_neg (by omega)]
      rw [if_neg (by omega)]
    · obtain ⟨b, e, w⟩ := memMov_ok h h1 (by omega) h2 (dst := dst) (by omega)
      rw [len] at e
      refine ⟨b, ?_, w.lo, w.hi, w.text, fun x hx => w.frame x (Or.inl hx)⟩
      rw [if_neg (by omega)]
      rw [if_pos k, e]
  | some l r t hm R ih =>
    intro fuel a src dst hf h hz h1 h2 h3 h4 c1 c2 c3
    obtain ⟨fuel, rfl⟩ : ∃ k, fuel = k + 1 := ⟨fuel - 1, by omega⟩
    have hp0 : 0 < pat.length := List.length_pos_iff.2 hp
    have hc := cstr_ok (n := (a.hi - src).toNat) h hz h1 h3 (by omega)
    simp only [List.length_append] at hf h3 h4
    have zr : (0 : Int) ∉ r := fun k => hz (by simp [k])
    rw [List.append_assoc, List.append_assoc, Has_append, Has_append] at h
    obtain ⟨g1, _, g2⟩ := h
    -- the end of the work, once the text after the occurrence is done
    have fin : ∀ (b : Arr Int), b.lo = a.lo → b.hi = a.hi → Has b.get dst l → Has b.get (dst + l.length + rep.length) (t ++ [0]) → (∀ x, x < dst → b.get x = a.get x) → ∃ c, wrL b (dst + l.length) rep = .ok c ∧ Done a dst (l ++ rep ++ t) c := by
      intro b b1 b2 b3 b4 b5
      obtain ⟨c, e, w⟩ := wrL_ok b (l := rep) (p := dst + l.length) (by omega) (by omega)
      refine ⟨c, e, w.lo.trans b1, w.hi.trans b2, ?_, fun x hx => (w.frame x (Or.inl (by omega))).trans (b5 x hx)⟩
      rw [List.append_assoc, List.append_assoc, Has_append, Has_append]
      exact ⟨Has_congr b3 fun x x1 x2 => w.frame x (Or.inl x2), w.text, Has_congr b4 fun x x1 x2 => w.frame x (Or.inr x1)⟩
    unfold subst2
    rw [hc]
    simp only [bind, Except.bind, find_some l r hm, pure, Except.pure]
    rcases Nat.lt_trichotomy rep.length pat.length with k | k | k
    · have := c1 k
      obtain ⟨a1, e1, w1⟩ := memMov_ok g1 h1 (by omega) h2 (dst := dst) (by omega)
      have q1 := w1.lo
      have q2 := w1.hi
      obtain ⟨b, e2, D⟩ := ih fuel a1 (src + l.length + pat.length) (dst + l.length + rep.length) (by omega) (Has_congr g2 fun x x1 x2 => w1.frame x (Or.inr (by omega))) zr (by omega) (by omega) (by omega) (by omega)
        (fun _ => by omega) (fun _ => by omega) (fun _ => by omega)
      obtain ⟨c, e3, F⟩ := fin b (D.lo.trans q1) (D.hi.trans q2) (Has_congr w1.text fun x x1 x2 => D.frame x (by omega)) D.text fun x hx => (D.frame x (by omega)).trans (w1.frame x (Or.inl hx))
      refine ⟨c, ?_, F⟩
      rw [if_pos k, e1]
      dsimp only
      rw [e2]
      dsimp only
      rw [if_neg (by omega)]
      exact e3
    · have q := c2 k
      subst q
      obtain ⟨b, e2, D⟩ := ih fuel a (dst + l.length + pat.length) (dst + l.length + rep.length) (by omega) g2 zr (by omega) (by omega) (by omega) (by omega)
        (fun _ => by omega) (fun _ => by omega) (fun _ => by omega)
      obtain ⟨c, e3, F⟩ := fin b D.lo D.hi (Has_congr g1 fun x x1 x2 => D.frame x (by omega)) D.text fun x hx => D.frame x (by omega)
      refine ⟨c, ?_, F⟩
      rw [if_neg (by omega)]
      rw [e2]
      dsimp only
      rw [if_neg (by omega)]
      exact e3
    · have := c3 k
      obtain ⟨b, e2, D⟩ := ih fuel a (src + l.length + pat.length) (dst + l.length + rep.length) (by omega) g2 zr (by omega) (by omega) (by omega) (by omega)
        (fun _ => by omega) (fun _ => by omega) (fun _ => by omega)
      have q1 := D.lo
      have q2 := D.hi
      obtain ⟨b', e1, w⟩ := memMov_ok (a := b) (src := src) (dst := dst) (Has_congr g1 fun x x1 x2 => D.frame x (by omega)) (by omega) (by omega) (by omega) (by omega)
      obtain ⟨c, e3, F⟩ := fin b' (w.lo.trans q1) (w.hi.trans q2) w.text (Has_congr D.text fun x x1 x2 => w.frame x (Or.inr (by omega))) fun x hx => (w.frame x (Or.inl hx)).trans (D.frame x (by omega))
      refine ⟨c, ?_, F⟩
      rw [if_neg (by omega)]
      rw [e2]
      dsimp only
      rw [if_pos k, e1]
      exact e3

end Scotch.Str
