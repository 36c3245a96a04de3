import Verif.Gain.LemmasIdx
import Verif.Gain.LemmasMove

set_option autoImplicit false
set_option linter.unusedSimpArgs false

namespace Scotch.Gain

def idx (w : Nat) (t : Tabl) (g : Int) : Int := if t.logflag then idxLog w t g else idxLin t g

theorem idx_cfg {w : Nat} {t u : Tabl} (h : cfg t = cfg u) (g : Int) : idx w t g = idx w u g := by
  simp only [cfg, Prod.mk.injEq] at h
  obtain ⟨h1, h2, h3, h4, h5, h6⟩ := h
  simp only [idx, idxLog, idxLin, h1, h2, h3, h5, h6]

/-- Entry of a gain in the initial table. -/
def slot (w : Nat) (gainmax : Int) (s : Nat) (g : Int) : Int := idx w (init w gainmax s (fun _ => .dummy) (fun _ => .dummy) (fun _ => 0)) g

theorem cfg_init (w : Nat) (gainmax : Int) (s : Nat) (n p n' p' : Ptr → Ptr) (l l' : Int → Int) :
    cfg (init w gainmax s n p l) = cfg (init w gainmax s n' p' l') := rfl

theorem slot_log {w : Nat} {gainmax : Int} {s : Nat} (hg : GAIN_LINMAX ≤ gainmax) (g : Int) :
    slot w gainmax s g = ((w : Int) - s) * 2 ^ s + (if 0 ≤ g then lval s w g else - (lval s w (- (g + 1)) + 1)) := by
  have hd : ((w : Int) - s) * 2 ^ (s + 1) / 2 = (w - s) * 2 ^ s := by
    rw [pow_succ']
    have : ((w : Int) - s) * (2 * 2 ^ s) = 2 * ((w - s) * 2 ^ s) := by
      rw [← Int.mul_assoc, Int.mul_comm (w - s : Int) 2, Int.mul_assoc]
    rw [this]
    omega
  have hg' : gainmax ≥ GAIN_LINMAX := hg
  simp only [slot, idx, idxLog, init, hg', decide_true, if_true, lval, Int.toNat_natCast, hd]
  split <;> rfl

theorem slot_lin {w : Nat} {gainmax : Int} {s : Nat} (hg : ¬ GAIN_LINMAX ≤ gainmax) (g : Int) :
    slot w gainmax s g = if 1024 + g < 0 then 0 else if 1024 + g > 2047 then 2047 else 1024 + g := by
  have hg' : ¬ gainmax ≥ GAIN_LINMAX := hg
  simp only [slot, idx, idxLin, init, hg', decide_false, if_false, Bool.false_eq_true]
  rfl

/-- `INT` of `w` bits. -/
def IsInt (w : Nat) (g : Int) : Prop := - 2 ^ (w - 1) ≤ g ∧ g < 2 ^ (w - 1)

theorem pow_le' {a b : Nat} (h : a ≤ b) : (2 : Int) ^ a ≤ 2 ^ b := by
  obtain ⟨c, rfl⟩ : ∃ c, b = a + c := ⟨b - a, by omega⟩
  rw [Int.pow_add]
  have h6 : (1 : Int) ≤ 2 ^ c := by have := pow_pos' c; omega
  have := Int.mul_le_mul_of_nonneg_left h6 (Int.le_of_lt (pow_pos' a))
  omega

theorem slot_mono {w s : Nat} {gainmax : Int} (_hs : s + 2 ≤ w) {g h : Int} (hg : IsInt w g) (hh : IsInt w h) (hgh : g ≤ h) :
    slot w gainmax s g ≤ slot w gainmax s h := by
  by_cases hl : GAIN_LINMAX ≤ gainmax
  · rw [slot_log hl, slot_log hl]
    have hle : (2 : Int) ^ (w - 1) ≤ 2 ^ (s + 1 + w) := pow_le' (by omega)
    obtain ⟨g1, g2⟩ := hg
    obtain ⟨h1, h2⟩ := hh
    by_cases g0 : 0 ≤ g
    · rw [if_pos g0, if_pos (by omega)]
      have := lval_mono (s := s) (w := w) g0 hgh (by omega)
      omega
    · rw [if_neg g0]
      have ga := lval_nonneg (s := s) (w := w) (j := - (g + 1)) (by omega) (by omega)
      by_cases h0 : 0 ≤ h
      · rw [if_pos h0]
        have := lval_nonneg (s := s) (w := w) h0 (by omega)
        omega
      · rw [if_neg h0]
        have := lval_mono (s := s) (w := w) (i := - (h + 1)) (j := - (g + 1)) (by omega) (by omega) (by omega)
        omega
  · rw [slot_lin hl, slot_lin hl]
    split <;> split <;> (try split) <;> (try split) <;> omega

theorem slot_range {w s : Nat} {gainmax : Int} (hs : s + 2 ≤ w) {g : Int} (hg : IsInt w g) (n p : Ptr → Ptr) (l : Int → Int) :
    0 ≤ slot w gainmax s g ∧ slot w gainmax s g < (init w gainmax s n p l).totsize := by
  by_cases hl : GAIN_LINMAX ≤ gainmax
  · have hg' : gainmax ≥ GAIN_LINMAX := hl
    rw [slot_log hl]
    have hle : (2 : Int) ^ (w - 1) ≤ 2 ^ (s + 1 + w) := pow_le' (by omega)
    have hts : (init w gainmax s n p l).totsize = 2 * (((w : Int) - s) * 2 ^ s) := by
      simp only [init, hg', if_true]
      rw [pow_succ', ← Int.mul_assoc, Int.mul_comm (w - s : Int) 2, Int.mul_assoc]
    rw [hts]
    obtain ⟨g1, g2⟩ := hg
    by_cases g0 : 0 ≤ g
    · rw [if_pos g0]
      have a := lval_nonneg (s := s) (w := w) g0 (by omega)
      have b := lval_lt (s := s) (w := w) hs g0 g2
      omega
    · rw [if_neg g0]
      have a := lval_nonneg (s := s) (w := w) (j := - (g + 1)) (by omega) (by omega)
      have b := lval_lt (s := s) (w := w) hs (j := - (g + 1)) (by omega) (by omega)
      omega
  · rw [slot_lin hl]
    have hg' : ¬ gainmax ≥ GAIN_LINMAX := hl
    have hts : (init w gainmax s n p l).totsize = 2048 := by
      simp only [init, hg', if_false]; rfl
    rw [hts]
    split <;> (try split) <;> omega

/-- Small gains have an entry of their own. -/
theorem slot_exact {w s : Nat} {gainmax : Int} (hs : s + 2 ≤ w) {g h : Int} (hg : IsInt w g) (hh : IsInt w h)
    (hsm : if GAIN_LINMAX ≤ gainmax then - 2 ^ (s + 1) ≤ g ∧ g < 2 ^ (s + 1) else - 1024 < g ∧ g < 1023) (he : slot w gainmax s g = slot w gainmax s h) : g = h := by
  by_cases hl : GAIN_LINMAX ≤ gainmax
  · rw [if_pos hl] at hsm
    rw [slot_log hl, slot_log hl] at he
    have hle : (2 : Int) ^ (w - 1) ≤ 2 ^ (s + 1 + w) := pow_le' (by omega)
    obtain ⟨g1, g2⟩ := hg
    obtain ⟨h1, h2⟩ := hh
    -- a value whose image is small is small
    have key : ∀ a b : Int, 0 ≤ a → a < 2 ^ (s + 1) → 0 ≤ b → b < 2 ^ (w - 1) → lval s w a = lval s w b → a = b := by
      intro a b a0 a1 b0 b1 e
      rw [lval_small (by omega) a0 a1] at e
      by_cases hb : b < 2 ^ (s + 1)
      · rw [lval_small (by omega) b0 hb] at e; exact e
      · have hp := pow_succ' s
        have hps := pow_pos' s
        obtain ⟨k, _, e', l1, l2⟩ := lval_spec (s := s) (w := w) b0 (by omega)
        by_cases hk : k = 0
        · subst hk
          simp only [Int.pow_zero, Int.ediv_one] at l1
          omega
        · have := l2 (by omega)
          have h3 : (1 : Int) * 2 ^ s ≤ k * 2 ^ s := mul_le_of (by omega) (by omega)
          omega
    by_cases g0 : 0 ≤ g
    · rw [if_pos g0] at he
      have ga := lval_nonneg (s := s) (w := w) g0 (by omega)
      by_cases h0 : 0 ≤ h
      · rw [if_pos h0] at he
        exact key g h g0 hsm.2 h0 h2 (by omega)
      · rw [if_neg h0] at he
        have := lval_nonneg (s := s) (w := w) (j := - (h + 1)) (by omega) (by omega)
        omega
    · rw [if_neg g0] at he
      have ga := lval_nonneg (s := s) (w := w) (j := - (g + 1)) (by omega) (by omega)
      by_cases h0 : 0 ≤ h
      · rw [if_pos h0] at he
        have := lval_nonneg (s := s) (w := w) h0 (by omega)
        omega
      · rw [if_neg h0] at he
        have := key (- (g + 1)) (- (h + 1)) (by omega) (by omega) (by omega) (by omega) (by omega)
        omega
  · rw [if_neg hl] at hsm
    rw [slot_lin hl, slot_lin hl] at he
    split at he <;> split at he <;> (try split at he) <;> (try split at he) <;> omega

/-! ## Histories -/

theorem Rep.congr {t : Tabl} {B C : Int → List Int} (h : Rep t B) (he : ∀ i, 0 ≤ i → i < t.totsize → B i = C i) : Rep t C := by
  refine ⟨h.size, h.tend, ?_, ?_, ?_, h.tmin, h.tmax, ?_⟩
  · intro i a b; rw [← he i a b]; exact h.chain i a b
  · intro i a b; rw [← he i a b]; exact h.tab i a b
  · intro i a b; rw [← he i a b]; exact h.nodup i a b
  · intro i a b; rw [← he i a b]; exact h.rng i a b

theorem addAt_cfg {t t' : Tabl} {l e : Int} (h : addAt t l e = .ok t') : cfg t' = cfg t := by
  unfold addAt at h
  dsimp only at h
  split at h
  · injection h with h; rw [← h]; rfl
  · cases h

theorem frst_cfg (t : Tabl) : cfg (frst t).1 = cfg t := by
  unfold frst
  split
  · rfl
  · split <;> rfl

end Scotch.Gain
