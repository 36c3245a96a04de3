import Verif.Thread.Barrier
import Mathlib.Data.Fintype.Card

set_option autoImplicit false
set_option linter.unusedSimpArgs false

namespace Scotch.Thread
variable {n : Nat}

/-- The thread owns the mutex. -/
def holder : Pc → Bool
  | .out => false
  | .w1 => false
  | .w2 => false
  | _ => true

/-- The thread waits for the end of the round. -/
def waits : Pc → Bool
  | .w0 => true
  | .w1 => true
  | .w2 => true
  | .w3 => true
  | _ => false

/-- Threads that are counted in the current round `r`. -/
def counted (r : Nat) (s : St n) : Finset (Fin n) :=
  Finset.univ.filter fun i => waits (s.th i).pc = true ∧ (s.th i).ent = r + 1

/-- Local invariant of thread `i`, in round `r`. -/
def TOk (W r : Nat) (s : St n) (i : Fin n) : Prop :=
  match (s.th i).pc with
  | .out => (s.th i).ent = r ∧ (s.th i).left = r
  | .client => (s.th i).ent = r ∧ (s.th i).left = r
  | .e1 => (s.th i).ent = r + 1 ∧ (s.th i).left = r
  | .e2 => (s.th i).ent = r + 1 ∧ (s.th i).left = r ∧ (s.th i).barrnbr = s.barrnbr + 1 ∧ (s.th i).bainnum = s.bainnum ∧
      (s.th i).o = 0
  | .e3 => (s.th i).ent = r + 1 ∧ (s.th i).left = r ∧ (s.th i).bainnum = s.bainnum ∧ s.barrnbr = 0 ∧
      ∀ j, j ≠ i → waits (s.th j).pc = true ∧ (s.th j).ent = r + 1
  | .e4 => (s.th i).ent = r ∧ (s.th i).left + 1 = r
  | .ret => (s.th i).ent = r ∧ (s.th i).left + 1 = r
  | .w0 => (s.th i).ent = r + 1 ∧ (s.th i).left = r ∧ (s.th i).bainnum = r % W ∧ (s.th i).o = 0
  | .w1 => (s.th i).left + 1 = (s.th i).ent ∧ (s.th i).bainnum = (s.th i).left % W ∧ (s.th i).o = 0 ∧
      ((s.th i).ent = r + 1 ∨ ((s.th i).ent = r ∧ ∃ j, (s.th j).pc = .e4))
  | .w2 => (s.th i).left + 1 = (s.th i).ent ∧ (s.th i).bainnum = (s.th i).left % W ∧ (s.th i).o = 0 ∧
      ((s.th i).ent = r + 1 ∨ (s.th i).ent = r)
  | .w3 => (s.th i).left + 1 = (s.th i).ent ∧ (s.th i).bainnum = (s.th i).left % W ∧ (s.th i).o = 0 ∧
      ((s.th i).ent = r + 1 ∨ (s.th i).ent = r)

/-- Thread `j` is, or will be told that it is, the last one of round `k` if and only if it is `i0`. -/
def HOk (k : Nat) (i0 : Fin n) (t : Th) (j : Fin n) : Prop :=
  (∀ v, t.rets[k]? = some v → v = if j = i0 then SERIAL else 0) ∧
  (k = t.left → (t.pc = .e4 → j = i0) ∧ (t.pc = .ret → t.o = if j = i0 then SERIAL else 0) ∧ (waits t.pc = true → j ≠ i0))

structure Inv (W r : Nat) (s : St n) : Prop where
  lock : ∀ i, holder (s.th i).pc = true ↔ s.lock = some i
  bain : s.bainnum = r % W
  th : ∀ i, TOk W r s i
  cnt : (∀ j, (s.th j).pc ≠ .e3) → s.barrnbr = (counted r s).card
  his : ∀ k, k < r → ∃ i0, ∀ j, HOk k i0 (s.th j) j

theorem Inv.only {W r : Nat} {s : St n} (h : Inv W r s) {i j : Fin n} (hi : holder (s.th i).pc = true)
    (hj : holder (s.th j).pc = true) : j = i := by
  have h1 := (h.lock i).1 hi
  have h2 := (h.lock j).1 hj
  rw [h1] at h2
  injection h2 with h2
  exact h2.symm

theorem upd_same (f : Fin n → Th) (i : Fin n) (t : Th) : upd f i t i = t := by simp [upd]
theorem upd_ne (f : Fin n → Th) {i j : Fin n} (t : Th) (h : j ≠ i) : upd f i t j = f j := by simp [upd, h]

theorem broadcast_ent (f : Fin n → Th) (j : Fin n) : (broadcast f j).ent = (f j).ent := by
  unfold broadcast; split <;> rfl
theorem broadcast_rets (f : Fin n → Th) (j : Fin n) : (broadcast f j).rets = (f j).rets := by
  unfold broadcast; split <;> rfl
theorem broadcast_left (f : Fin n → Th) (j : Fin n) : (broadcast f j).left = (f j).left := by
  unfold broadcast; split <;> rfl
theorem broadcast_bain (f : Fin n → Th) (j : Fin n) : (broadcast f j).bainnum = (f j).bainnum := by
  unfold broadcast; split <;> rfl
theorem broadcast_o (f : Fin n → Th) (j : Fin n) : (broadcast f j).o = (f j).o := by
  unfold broadcast; split <;> rfl
theorem broadcast_pc (f : Fin n → Th) (j : Fin n) :
    (broadcast f j).pc = if (f j).pc = .w1 then .w2 else (f j).pc := by
  unfold broadcast; split <;> rfl

theorem counted_congr {r : Nat} {s s' : St n}
    (h : ∀ j, (waits (s'.th j).pc = true ∧ (s'.th j).ent = r + 1) ↔ (waits (s.th j).pc = true ∧ (s.th j).ent = r + 1)) :
    counted r s' = counted r s := by
  unfold counted
  exact Finset.filter_congr (fun j _ => h j)

/-- Local invariant of a thread which does not own the mutex, after a transition of another thread in the same round. -/
theorem TOk.frame {W r : Nat} {s s' : St n} {j : Fin n} (h : TOk W r s j) (hj : s'.th j = s.th j)
    (hn : holder (s.th j).pc = false) (he : (∃ k, (s.th k).pc = .e4) → ∃ k, (s'.th k).pc = .e4) : TOk W r s' j := by
  unfold TOk at h ⊢
  rw [hj]
  cases hp : (s.th j).pc <;> rw [hp] at hn <;> simp only [holder, Bool.true_eq_false, Bool.false_eq_true] at hn <;>
    simp only [hp] at h ⊢
  · exact h
  · obtain ⟨h1, h2, h3, h4⟩ := h
    refine ⟨h1, h2, h3, ?_⟩
    rcases h4 with h4 | ⟨h4, h5⟩
    · exact Or.inl h4
    · exact Or.inr ⟨h4, he h5⟩
  · exact h

theorem Inv.nonholder {W r : Nat} {s : St n} (h : Inv W r s) {i j : Fin n} (hi : holder (s.th i).pc = true) (hj : j ≠ i) :
    holder (s.th j).pc = false := by
  cases hh : holder (s.th j).pc with
  | false => rfl
  | true => exact absurd (h.only hi hh) hj

theorem Inv.free {W r : Nat} {s : St n} (h : Inv W r s) (hl : s.lock = none) (j : Fin n) :
    holder (s.th j).pc = false := by
  cases hh : holder (s.th j).pc with
  | false => rfl
  | true => have := (h.lock j).1 hh; rw [hl] at this; cases this

theorem init_inv (W : Nat) (junk : Fin n → Int × Nat × Int) : Inv W 0 (init junk) := by
  refine ⟨?_, ?_, ?_, ?_, ?_⟩
  · intro i; simp [init, holder]
  · simp [init]
  · intro i; simp [TOk, init, Th.left]
  · intro _
    have : counted 0 (init junk) = ∅ := by
      unfold counted
      apply Finset.filter_false_of_mem
      intro j _
      simp [init, waits]
    rw [this]; rfl
  · intro k hk; omega

/-- A thread takes or keeps the mutex while no other thread changes, in the same round. -/
theorem Inv.local_step {W r : Nat} {s : St n} (h : Inv W r s) (i : Fin n) (t' : Th) (lock' : Option (Fin n)) (barr' : Int)
    (hothers : ∀ j, j ≠ i → holder (s.th j).pc = false) (hlock' : ∀ j, j ≠ i → lock' ≠ some j)
    (hlock : holder t'.pc = true ↔ lock' = some i)
    (he4 : (s.th i).pc ≠ .e4)
    (hth : TOk W r { s with lock := lock', barrnbr := barr', th := upd s.th i t' } i)
    (hcnt : (∀ j, (upd s.th i t' j).pc ≠ .e3) →
      barr' = (counted r { s with lock := lock', barrnbr := barr', th := upd s.th i t' }).card)
    (hhis : ∀ k, k < r → ∀ i0, HOk k i0 (s.th i) i → HOk k i0 t' i) :
    Inv W r { s with lock := lock', barrnbr := barr', th := upd s.th i t' } := by
  refine ⟨?_, h.bain, ?_, hcnt, ?_⟩
  · intro j
    by_cases hj : j = i
    · subst hj; simp only [upd_same]; exact hlock
    · simp only [upd_ne _ _ hj]
      rw [hothers j hj]
      simp [hlock' j hj]
  · intro j
    by_cases hj : j = i
    · subst hj; exact hth
    · refine (h.th j).frame (by simp only [upd_ne _ _ hj]) (hothers j hj) ?_
      rintro ⟨k, hk⟩
      have hki : k ≠ i := by intro e; subst e; exact he4 hk
      refine ⟨k, ?_⟩
      simp only [upd_ne _ _ hki]; exact hk
  · intro k hk
    obtain ⟨i0, hi0⟩ := h.his k hk
    refine ⟨i0, ?_⟩
    intro j
    by_cases hj : j = i
    · subst hj; simp only [upd_same]; exact hhis k hk i0 (hi0 j)
    · simp only [upd_ne _ _ hj]; exact hi0 j

theorem no_e3 {W r : Nat} {s : St n} (h : Inv W r s) (i : Fin n) (hothers : ∀ j, j ≠ i → holder (s.th j).pc = false)
    (hi : (s.th i).pc ≠ .e3) : ∀ j, (s.th j).pc ≠ .e3 := by
  intro j hj
  by_cases hji : j = i
  · subst hji; exact hi hj
  · have := hothers j hji; rw [hj] at this; simp [holder] at this

theorem step_inv {W : Nat} (hW : 2 ≤ W) {r : Nat} {s s' : St n} (h : Inv W r s) (a : Act n) (hs : step W s a = some s') :
    ∃ r', Inv W r' s' := by
  cases a with
  | spurious i =>
    simp only [step] at hs
    split at hs
    · rename_i hp
      cases hs
      refine ⟨r, ?_, h.bain, ?_, ?_, ?_⟩
      · intro j
        by_cases hj : j = i
        · subst hj; simp only [upd_same]; have := h.lock j; rw [hp] at this; simpa [holder] using this
        · simp only [upd_ne _ _ hj]; exact h.lock j
      · intro j
        by_cases hj : j = i
        · subst hj
          have := h.th j
          unfold TOk at this ⊢
          rw [hp] at this
          simp only [upd_same] at this ⊢
          obtain ⟨h1, h2, h3, h4⟩ := this
          exact ⟨h1, h2, h3, h4.imp id (fun h => h.1)⟩
        · cases hh : holder (s.th j).pc with
          | false =>
            refine (h.th j).frame (by simp only [upd_ne _ _ hj]) hh ?_
            rintro ⟨k, hk⟩
            have hki : k ≠ i := by intro e; subst e; rw [hp] at hk; cases hk
            exact ⟨k, by simp only [upd_ne _ _ hki]; exact hk⟩
          | true =>
            have hT := h.th j
            unfold TOk at hT ⊢
            simp only [upd_ne _ _ hj]
            cases hpj : (s.th j).pc <;> rw [hpj] at hh <;> simp only [holder, Bool.false_eq_true] at hh <;>
              simp only [hpj] at hT ⊢ <;> try exact hT
            obtain ⟨h1, h2, h3, h4, h5⟩ := hT
            refine ⟨h1, h2, h3, h4, ?_⟩
            intro k hk
            by_cases hki : k = i
            · subst hki; simp only [upd_same]; exact ⟨rfl, (h5 k hk).2⟩
            · simp only [upd_ne _ _ hki]; exact h5 k hk
      · intro hne
        have hne' : ∀ j, (s.th j).pc ≠ .e3 := by
          intro j hj
          by_cases hji : j = i
          · subst hji; rw [hp] at hj; cases hj
          · apply hne j; simp only [upd_ne _ _ hji]; exact hj
        rw [counted_congr (s := s)]
        · exact h.cnt hne'
        · intro j
          by_cases hj : j = i
          · subst hj; simp [upd_same, waits, hp]
          · simp only [upd_ne _ _ hj]
      · intro k hk
        obtain ⟨i0, hi0⟩ := h.his k hk
        refine ⟨i0, ?_⟩
        intro j
        by_cases hj : j = i
        · subst hj
          simp only [upd_same]
          obtain ⟨g1, g2⟩ := hi0 j
          refine ⟨g1, ?_⟩
          intro hkl
          obtain ⟨_, _, g3⟩ := g2 hkl
          refine ⟨fun e => by simp at e, fun e => by simp at e, fun _ => g3 (by rw [hp]; rfl)⟩
        · simp only [upd_ne _ _ hj]; exact hi0 j
    · cases hs
  | client i =>
    simp only [step] at hs
    cases hp : (s.th i).pc <;> rw [hp] at hs <;> simp only [reduceCtorEq] at hs
    · split at hs
      · rename_i hl
        cases hs
        have hT := h.th i
        unfold TOk at hT
        rw [hp] at hT
        refine ⟨r, h.local_step i _ (some i) s.barrnbr (fun j _ => h.free hl j) ?_ ?_ (by rw [hp]; simp) ?_ ?_ ?_⟩
        · intro j hj e; injection e with e; exact hj e.symm
        · simp [holder]
        · unfold TOk; simp only [upd_same]; exact hT
        · intro _
          rw [counted_congr (s := s)]
          · exact h.cnt (no_e3 h i (fun j _ => h.free hl j) (by rw [hp]; simp))
          · intro j
            by_cases hj : j = i
            · subst hj; simp [upd_same, waits, hp]
            · simp only [upd_ne _ _ hj]
        · intro k hk i0 hH
          refine ⟨hH.1, ?_⟩
          intro hkl
          refine ⟨fun e => by simp at e, fun e => by simp at e, fun e => by simp [waits] at e⟩
      · cases hs
    · cases hs
      have hh : holder (s.th i).pc = true := by rw [hp]; rfl
      have hT := h.th i
      unfold TOk at hT
      rw [hp] at hT
      refine ⟨r, h.local_step i _ none s.barrnbr (fun j hj => h.nonholder hh hj) ?_ ?_ (by rw [hp]; simp) ?_ ?_ ?_⟩
      · intro j _ e; cases e
      · simp [holder]
      · unfold TOk; simp only [upd_same]; exact hT
      · intro _
        rw [counted_congr (s := s)]
        · exact h.cnt (no_e3 h i (fun j hj => h.nonholder hh hj) (by rw [hp]; simp))
        · intro j
          by_cases hj : j = i
          · subst hj; simp [upd_same, waits, hp]
          · simp only [upd_ne _ _ hj]
      · intro k hk i0 hH
        refine ⟨hH.1, ?_⟩
        intro hkl
        refine ⟨fun e => by simp at e, fun e => by simp at e, fun e => by simp [waits] at e⟩
  | run i =>
    simp only [step, runTh] at hs
    have hT := h.th i
    unfold TOk at hT
    cases hp : (s.th i).pc <;> rw [hp] at hs <;> simp only [hp] at hT <;> simp only [reduceCtorEq] at hs
    -- out
    · split at hs
      · rename_i hl
        cases hs
        refine ⟨r, h.local_step i _ (some i) s.barrnbr (fun j _ => h.free hl j) ?_ ?_ (by rw [hp]; simp) ?_ ?_ ?_⟩
        · intro j hj e; injection e with e; exact hj e.symm
        · simp [holder]
        · unfold TOk; simp only [upd_same, Th.left] at hT ⊢; omega
        · intro _
          rw [counted_congr (s := s)]
          · exact h.cnt (no_e3 h i (fun j _ => h.free hl j) (by rw [hp]; simp))
          · intro j
            by_cases hj : j = i
            · subst hj; simp [upd_same, waits, hp]
            · simp only [upd_ne _ _ hj]
        · intro k hk i0 hH
          refine ⟨hH.1, ?_⟩
          intro hkl
          refine ⟨fun e => by simp at e, fun e => by simp at e, fun e => by simp [waits] at e⟩
      · cases hs
    -- e1
    · cases hs
      have hh : holder (s.th i).pc = true := by rw [hp]; rfl
      refine ⟨r, h.local_step i _ s.lock s.barrnbr (fun j hj => h.nonholder hh hj) ?_ ?_ (by rw [hp]; simp) ?_ ?_ ?_⟩
      · intro j hj e; rw [(h.lock i).1 hh] at e; injection e with e; exact hj e.symm
      · simp [holder, (h.lock i).1 hh]
      · unfold TOk; simp only [upd_same, Th.left] at hT ⊢; exact ⟨hT.1, hT.2, trivial, trivial, trivial⟩
      · intro _
        rw [counted_congr (s := s)]
        · exact h.cnt (no_e3 h i (fun j hj => h.nonholder hh hj) (by rw [hp]; simp))
        · intro j
          by_cases hj : j = i
          · subst hj; simp [upd_same, waits, hp]
          · simp only [upd_ne _ _ hj]
      · intro k hk i0 hH
        refine ⟨hH.1, ?_⟩
        intro hkl
        refine ⟨fun e => by simp at e, fun e => by simp at e, fun e => by simp [waits] at e⟩
    -- e2
    · have hh : holder (s.th i).pc = true := by rw [hp]; rfl
      have hcard := h.cnt (no_e3 h i (fun j hj => h.nonholder hh hj) (by rw [hp]; simp))
      have hni : i ∉ counted r s := by
        intro hm
        have hm2 := (Finset.mem_filter.1 hm).2.1
        rw [hp] at hm2
        simp [waits] at hm2
      obtain ⟨t1, t2, t3, t4, t5⟩ := hT
      split at hs
      · rename_i hb
        cases hs
        have hall : ∀ j, j ≠ i → waits (s.th j).pc = true ∧ (s.th j).ent = r + 1 := by
          intro j hj
          have hc : (counted r s).card + 1 = n := by omega
          have hu : insert i (counted r s) = Finset.univ := by
            apply Finset.eq_univ_of_card
            rw [Finset.card_insert_of_notMem hni, hc, Fintype.card_fin]
          have hm : j ∈ insert i (counted r s) := by rw [hu]; exact Finset.mem_univ j
          rcases Finset.mem_insert.1 hm with e | e
          · exact absurd e hj
          · exact (Finset.mem_filter.1 e).2
        refine ⟨r, h.local_step i _ s.lock 0 (fun j hj => h.nonholder hh hj) ?_ ?_ (by rw [hp]; simp) ?_ ?_ ?_⟩
        · intro j hj e; rw [(h.lock i).1 hh] at e; injection e with e; exact hj e.symm
        · simp [holder, (h.lock i).1 hh]
        · unfold TOk; simp only [upd_same, Th.left] at t2 ⊢
          refine ⟨t1, t2, t4, trivial, ?_⟩
          intro j hj
          simp only [upd_ne _ _ hj]; exact hall j hj
        · intro hne
          exact absurd (by simp [upd_same]) (hne i)
        · intro k hk i0 hH
          refine ⟨hH.1, ?_⟩
          intro hkl
          refine ⟨fun e => by simp at e, fun e => by simp at e, fun e => by simp [waits] at e⟩
      · rename_i hb
        cases hs
        refine ⟨r, h.local_step i _ s.lock (s.th i).barrnbr (fun j hj => h.nonholder hh hj) ?_ ?_ (by rw [hp]; simp) ?_ ?_ ?_⟩
        · intro j hj e; rw [(h.lock i).1 hh] at e; injection e with e; exact hj e.symm
        · simp [holder, (h.lock i).1 hh]
        · unfold TOk; simp only [upd_same, Th.left] at t2 ⊢
          exact ⟨t1, t2, by rw [t4, h.bain], t5⟩
        · intro _
          have : counted r { s with barrnbr := (s.th i).barrnbr, th := upd s.th i { s.th i with pc := .w0 } } =
              insert i (counted r s) := by
            ext j
            simp only [counted, Finset.mem_filter, Finset.mem_univ, true_and, Finset.mem_insert]
            by_cases hj : j = i
            · subst hj; simp [upd_same, waits, t1]
            · simp [upd_ne _ _ hj, hj]
          rw [this, Finset.card_insert_of_notMem hni]
          push_cast; omega
        · intro k hk i0 hH
          refine ⟨hH.1, ?_⟩
          intro hkl
          have : k ≠ r := by omega
          exact absurd (show k = r by simp only [Th.left] at hkl t2; omega) this
    -- e3
    · cases hs
      have hh : holder (s.th i).pc = true := by rw [hp]; rfl
      obtain ⟨t1, t2, t3, t4, t5⟩ := hT
      refine ⟨r + 1, ?_, ?_, ?_, ?_, ?_⟩
      · intro j
        by_cases hj : j = i
        · subst hj; simp [upd_same, holder, (h.lock j).1 hh]
        · simp only [upd_ne _ _ hj]; exact h.lock j
      · show ((s.th i).bainnum + 1) % W = (r + 1) % W
        rw [t3, h.bain, Nat.mod_add_mod]
      · intro j
        by_cases hj : j = i
        · subst hj
          unfold TOk; simp only [upd_same, Th.left] at t2 ⊢; omega
        · have hTj := h.th j
          have hn := h.nonholder hh hj
          obtain ⟨w1, w2⟩ := t5 j hj
          unfold TOk at hTj ⊢
          simp only [upd_ne _ _ hj]
          cases hpj : (s.th j).pc <;> rw [hpj] at hn w1 <;> simp only [holder, waits, Bool.true_eq_false, Bool.false_eq_true] at hn w1 <;>
            simp only [hpj] at hTj ⊢
          · obtain ⟨q1, q2, q3, q4⟩ := hTj
            exact ⟨q1, q2, q3, Or.inr ⟨w2, i, by simp [upd_same]⟩⟩
          · obtain ⟨q1, q2, q3, q4⟩ := hTj
            exact ⟨q1, q2, q3, Or.inr w2⟩
      · intro _
        have : counted (r + 1) { s with bainnum := ((s.th i).bainnum + 1) % W, th := upd s.th i { s.th i with pc := .e4 } } = ∅ := by
          unfold counted
          apply Finset.filter_false_of_mem
          intro j _
          by_cases hj : j = i
          · subst hj; simp [upd_same, waits]
          · simp only [upd_ne _ _ hj]
            intro hc
            have := (t5 j hj).2
            omega
        rw [this, t4]; rfl
      · intro k hk
        by_cases hkr : k = r
        · subst hkr
          refine ⟨i, ?_⟩
          intro j
          by_cases hj : j = i
          · subst hj
            simp only [upd_same]
            refine ⟨?_, ?_⟩
            · intro v hv
              simp only [Th.left] at t2
              have hv' : (s.th j).rets[k]? = some v := hv
              rw [List.getElem?_eq_none (by omega)] at hv'
              cases hv'
            · intro _
              exact ⟨fun _ => rfl, fun e => by simp at e, fun e => by simp [waits] at e⟩
          · simp only [upd_ne _ _ hj]
            have hTj := h.th j
            have hn := h.nonholder hh hj
            obtain ⟨w1, w2⟩ := t5 j hj
            have hl : (s.th j).left = k := by
              unfold TOk at hTj
              cases hpj : (s.th j).pc <;> rw [hpj] at w1 hTj <;> simp only [waits, Bool.false_eq_true] at w1 <;> simp only at hTj <;> omega
            refine ⟨?_, ?_⟩
            · intro v hv
              simp only [Th.left] at hl
              rw [List.getElem?_eq_none (by omega)] at hv
              cases hv
            · intro _
              refine ⟨fun e => ?_, fun e => ?_, fun _ => hj⟩
              · rw [e] at w1; simp [waits] at w1
              · rw [e] at w1; simp [waits] at w1
        · obtain ⟨i0, hi0⟩ := h.his k (by omega)
          refine ⟨i0, ?_⟩
          intro j
          by_cases hj : j = i
          · subst hj
            simp only [upd_same]
            refine ⟨(hi0 j).1, ?_⟩
            intro hkl
            simp only [Th.left] at hkl t2
            omega
          · simp only [upd_ne _ _ hj]; exact hi0 j
    -- e4
    · cases hs
      have hh : holder (s.th i).pc = true := by rw [hp]; rfl
      refine ⟨r, ?_, h.bain, ?_, ?_, ?_⟩
      · intro j
        by_cases hj : j = i
        · subst hj; simp [upd_same, holder, (h.lock j).1 hh]
        · simp only [upd_ne _ _ hj, broadcast_pc]
          have hn := h.nonholder hh hj
          have := h.lock j
          rw [hn] at this
          split
          · simpa [holder] using this
          · rw [hn]; exact this
      · intro j
        by_cases hj : j = i
        · subst hj
          unfold TOk; simp only [upd_same, Th.left] at hT ⊢; exact hT
        · have hTj := h.th j
          have hn := h.nonholder hh hj
          unfold TOk at hTj ⊢
          simp only [upd_ne _ _ hj, broadcast_pc, broadcast_ent, broadcast_left, broadcast_bain, broadcast_o]
          cases hpj : (s.th j).pc <;> rw [hpj] at hn <;> simp only [holder, Bool.true_eq_false] at hn <;>
            simp only [hpj] at hTj ⊢ <;> simp only [reduceCtorEq, if_false, if_true]
          · exact hTj
          · obtain ⟨q1, q2, q3, q4⟩ := hTj
            exact ⟨q1, q2, q3, q4.imp id (fun h => h.1)⟩
          · exact hTj
      · intro _
        rw [counted_congr (s := s)]
        · exact h.cnt (no_e3 h i (fun j hj => h.nonholder hh hj) (by rw [hp]; simp))
        · intro j
          by_cases hj : j = i
          · subst hj; simp [upd_same, waits, hp]
          · simp only [upd_ne _ _ hj, broadcast_pc, broadcast_ent]
            by_cases hw : (s.th j).pc = .w1
            · simp [hw, waits]
            · simp [hw]
      · intro k hk
        obtain ⟨i0, hi0⟩ := h.his k hk
        refine ⟨i0, ?_⟩
        intro j
        by_cases hj : j = i
        · subst hj
          simp only [upd_same]
          refine ⟨(hi0 j).1, ?_⟩
          intro hkl
          obtain ⟨g1, _, _⟩ := (hi0 j).2 hkl
          refine ⟨fun e => by simp at e, fun _ => ?_, fun e => by simp [waits] at e⟩
          simp [g1 hp]
        · simp only [upd_ne _ _ hj]
          obtain ⟨g1, g2⟩ := hi0 j
          refine ⟨?_, ?_⟩
          · rw [broadcast_rets]; exact g1
          · rw [broadcast_left, broadcast_pc, broadcast_o]
            intro hkl
            obtain ⟨m1, m2, m3⟩ := g2 hkl
            by_cases hw : (s.th j).pc = .w1
            · rw [if_pos hw]
              exact ⟨fun e => by simp at e, fun e => by simp at e, fun _ => m3 (by rw [hw]; rfl)⟩
            · rw [if_neg hw]; exact ⟨m1, m2, m3⟩
    -- ret
    · cases hs
      have hh : holder (s.th i).pc = true := by rw [hp]; rfl
      refine ⟨r, h.local_step i _ none s.barrnbr (fun j hj => h.nonholder hh hj) ?_ ?_ (by rw [hp]; simp) ?_ ?_ ?_⟩
      · intro j hj e; cases e
      · simp [holder]
      · unfold TOk; simp only [upd_same, Th.left, List.length_append, List.length_singleton] at hT ⊢; exact hT
      · intro _
        rw [counted_congr (s := s)]
        · exact h.cnt (no_e3 h i (fun j hj => h.nonholder hh hj) (by rw [hp]; simp))
        · intro j
          by_cases hj : j = i
          · subst hj; simp [upd_same, waits, hp]
          · simp only [upd_ne _ _ hj]
      · intro k hk i0 hH
        refine ⟨?_, ?_⟩
        · intro v hv
          simp only [List.getElem?_append] at hv
          split at hv
          · exact hH.1 v hv
          · rename_i hlt
            have hk0 : k = (s.th i).left := by
              simp only [Th.left] at hT ⊢
              omega
            have := (hH.2 hk0).2.1 hp
            simp only [Th.left] at hk0
            rw [hk0, Nat.sub_self] at hv
            simp only [List.getElem?_cons_zero, Option.some.injEq] at hv
            rw [← hv]; exact this
        · intro hkl
          refine ⟨fun e => by simp at e, fun e => by simp at e, fun e => by simp [waits] at e⟩
    -- w0
    · cases hs
      have hh : holder (s.th i).pc = true := by rw [hp]; rfl
      obtain ⟨t1, t2, t3, t4⟩ := hT
      refine ⟨r, h.local_step i _ none s.barrnbr (fun j hj => h.nonholder hh hj) ?_ ?_ (by rw [hp]; simp) ?_ ?_ ?_⟩
      · intro j hj e; cases e
      · simp [holder]
      · unfold TOk; simp only [upd_same, Th.left] at t2 ⊢
        exact ⟨by omega, by rw [t2]; exact t3, t4, Or.inl t1⟩
      · intro _
        rw [counted_congr (s := s)]
        · exact h.cnt (no_e3 h i (fun j hj => h.nonholder hh hj) (by rw [hp]; simp))
        · intro j
          by_cases hj : j = i
          · subst hj; simp [upd_same, waits, hp]
          · simp only [upd_ne _ _ hj]
      · intro k hk i0 hH
        refine ⟨hH.1, ?_⟩
        intro hkl
        have := hH.2 hkl
        refine ⟨fun e => by simp at e, fun e => by simp at e, fun _ => this.2.2 (by rw [hp]; rfl)⟩
    -- w2
    · split at hs
      · rename_i hl
        cases hs
        refine ⟨r, h.local_step i _ (some i) s.barrnbr (fun j _ => h.free hl j) ?_ ?_ (by rw [hp]; simp) ?_ ?_ ?_⟩
        · intro j hj e; injection e with e; exact hj e.symm
        · simp [holder]
        · unfold TOk; simp only [upd_same, Th.left] at hT ⊢; exact hT
        · intro _
          rw [counted_congr (s := s)]
          · exact h.cnt (no_e3 h i (fun j _ => h.free hl j) (by rw [hp]; simp))
          · intro j
            by_cases hj : j = i
            · subst hj; simp [upd_same, waits, hp]
            · simp only [upd_ne _ _ hj]
        · intro k hk i0 hH
          refine ⟨hH.1, ?_⟩
          intro hkl
          have := hH.2 hkl
          refine ⟨fun e => by simp at e, fun e => by simp at e, fun _ => this.2.2 (by rw [hp]; rfl)⟩
      · cases hs
    -- w3
    · have hh : holder (s.th i).pc = true := by rw [hp]; rfl
      obtain ⟨t1, t2, t3, t4⟩ := hT
      have hL : ∀ j, j ≠ i → s.lock ≠ some j := by
        intro j hj e; rw [(h.lock i).1 hh] at e; injection e with e; exact hj e.symm
      split at hs
      · rename_i hb
        cases hs
        rw [h.bain, t2] at hb
        have hent : (s.th i).ent = r + 1 := by
          rcases t4 with t4 | t4
          · exact t4
          · exfalso
            have : (s.th i).left + 1 = r := by omega
            rw [← this] at hb
            have h1 : ((s.th i).left + 1) % W = ((s.th i).left % W + 1) % W := by rw [Nat.mod_add_mod]
            rw [h1] at hb
            have h2 : (s.th i).left % W < W := Nat.mod_lt _ (by omega)
            by_cases hlt : (s.th i).left % W + 1 < W
            · rw [Nat.mod_eq_of_lt hlt] at hb; omega
            · have : (s.th i).left % W + 1 = W := by omega
              rw [this, Nat.mod_self] at hb; omega
        refine ⟨r, h.local_step i _ s.lock s.barrnbr (fun j hj => h.nonholder hh hj) hL ?_ (by rw [hp]; simp) ?_ ?_ ?_⟩
        · simp [holder, (h.lock i).1 hh]
        · unfold TOk; simp only [upd_same, Th.left] at t1 t2 ⊢
          exact ⟨hent, by omega, by rw [t2]; congr 1; omega, t3⟩
        · intro _
          rw [counted_congr (s := s)]
          · exact h.cnt (no_e3 h i (fun j hj => h.nonholder hh hj) (by rw [hp]; simp))
          · intro j
            by_cases hj : j = i
            · subst hj; simp [upd_same, waits, hp]
            · simp only [upd_ne _ _ hj]
        · intro k hk i0 hH
          refine ⟨hH.1, ?_⟩
          intro hkl
          have := hH.2 hkl
          refine ⟨fun e => by simp at e, fun e => by simp at e, fun _ => this.2.2 (by rw [hp]; rfl)⟩
      · rename_i hb
        cases hs
        have hent : (s.th i).ent = r := by
          rcases t4 with t4 | t4
          · exfalso; apply hb
            rw [h.bain, t2]; congr 1; omega
          · exact t4
        refine ⟨r, h.local_step i _ s.lock s.barrnbr (fun j hj => h.nonholder hh hj) hL ?_ (by rw [hp]; simp) ?_ ?_ ?_⟩
        · simp [holder, (h.lock i).1 hh]
        · unfold TOk; simp only [upd_same, Th.left] at t1 t2 ⊢
          exact ⟨hent, by omega⟩
        · intro _
          rw [counted_congr (s := s)]
          · exact h.cnt (no_e3 h i (fun j hj => h.nonholder hh hj) (by rw [hp]; simp))
          · intro j
            by_cases hj : j = i
            · subst hj; simp [upd_same, waits, hp, hent]
            · simp only [upd_ne _ _ hj]
        · intro k hk i0 hH
          refine ⟨hH.1, ?_⟩
          intro hkl
          have := (hH.2 hkl).2.2 (by rw [hp]; rfl)
          refine ⟨fun e => by simp at e, fun _ => ?_, fun e => by simp [waits] at e⟩
          simp [t3, this]

theorem reach_inv {W : Nat} (hW : 2 ≤ W) {s : St n} (h : Reach W s) : ∃ r, Inv W r s := by
  induction h with
  | init junk => exact ⟨0, init_inv W junk⟩
  | step s s' a _ hs ih =>
    obtain ⟨r, hr⟩ := ih
    exact step_inv hW hr a hs

theorem barr_lt {W : Nat} (hW : 2 ≤ W) (hn : 2 ≤ n) {s : St n} (h : Reach W s) : s.barrnbr < n := by
  induction h with
  | init junk => show (0 : Int) < n; omega
  | step s s' a hr hs ih =>
    obtain ⟨r, hI⟩ := reach_inv hW hr
    cases a with
    | spurious i =>
      simp only [step] at hs
      split at hs <;> cases hs
      exact ih
    | client i =>
      simp only [step] at hs
      split at hs
      · split at hs <;> cases hs
        exact ih
      · cases hs; exact ih
      · cases hs
    | run i =>
      simp only [step, runTh] at hs
      cases hp : (s.th i).pc <;> rw [hp] at hs <;> simp only [reduceCtorEq] at hs
      · split at hs <;> cases hs
        exact ih
      · cases hs; exact ih
      · have hT := hI.th i
        unfold TOk at hT
        rw [hp] at hT
        obtain ⟨_, _, t3, _⟩ := hT
        split at hs <;> cases hs
        · show (0 : Int) < n; omega
        · show (s.th i).barrnbr < n; omega
      · cases hs; exact ih
      · cases hs; exact ih
      · cases hs; exact ih
      · cases hs; exact ih
      · split at hs <;> cases hs
        exact ih
      · split at hs <;> cases hs <;> exact ih

end Scotch.Thread
