import Verif.Thread.Pool
import Mathlib.Data.Fintype.Card

set_option autoImplicit false
set_option linter.unusedSimpArgs false

namespace Scotch.Thread.Pool
variable {n : Nat}

/-- The thread is counted in the final barrier. -/
def inBar : Pc → Bool
  | .bslp _ => true
  | .bchk _ => true
  | _ => false

def counted (R : Nat) (s : St n) : Finset (Fin (n + 1)) :=
  Finset.univ.filter fun i => inBar (s.th i).pc = true ∧ (s.th i).log.length = R + 1

def finished (s : St n) : Finset (Fin (n + 1)) :=
  Finset.univ.filter fun i => i ≠ 0 ∧ (s.th i).pc = .fin

/-- Local invariant; `R` is the number of rounds which have been completed, `b0` the initial value of `bainnum`. -/
def TOk (W b0 R : Nat) (s : St n) (i : Fin (n + 1)) : Prop :=
  match (s.th i).pc with
  | .idle => i = 0 ∧ s.calls = R ∧ (s.th i).log.length = R ∧ s.statval = .rdy
  | .chk => i ≠ 0 ∧ (s.th i).log.length = R
  | .slp => i ≠ 0 ∧ (s.th i).log.length = R ∧ s.statval = .rdy
  | .go => s.statval = .run ∧ (s.th i).log.length = R
  | .bar => s.statval = .run ∧ (s.th i).log.length = R + 1
  | .bslp b => s.statval = .run ∧ (s.th i).log.length = R + 1 ∧ b = (b0 + R) % W
  | .bchk b => (s.statval = .run ∧ (s.th i).log.length = R + 1 ∧ b = (b0 + R) % W) ∨
      ((i = 0 → s.statval = .rdy) ∧ (s.th i).log.length = R ∧ ∃ R', R = R' + 1 ∧ b = (b0 + R') % W)
  | .ack => i ≠ 0 ∧ s.statval = .dwn ∧ (s.th i).log.length = R
  | .spin => i = 0 ∧ s.statval = .dwn ∧ (s.th i).log.length = R
  | .fin => s.statval = .dwn ∧ (s.th i).log.length = R

structure Inv (W b0 R : Nat) (s : St n) : Prop where
  bain : s.bainnum = (b0 + R) % W
  calls : s.calls = if s.statval = .run then R + 1 else R
  func : s.statval = .run → s.funcnum = R + 1
  th : ∀ i, TOk W b0 R s i
  log : ∀ i, (s.th i).log = (List.range (s.th i).log.length).map (· + 1)
  cnt : s.statval ≠ .dwn → s.barrnbr = (counted R s).card
  cntf : s.statval = .dwn → s.barrnbr = (finished s).card
  lt : s.barrnbr ≤ n
  mas : s.statval = .dwn → (s.th 0).pc = .spin ∨ (s.th 0).pc = .fin
  mrun : s.statval = .rdy → (s.th 0).pc = .idle ∨ ∃ b, (s.th 0).pc = .bchk b

theorem upd_same (f : Fin (n + 1) → Th) (i : Fin (n + 1)) (t : Th) : upd f i t i = t := by simp [upd]
theorem upd_ne (f : Fin (n + 1) → Th) {i j : Fin (n + 1)} (t : Th) (h : j ≠ i) : upd f i t j = f j := by simp [upd, h]

theorem counted_congr {R : Nat} {s s' : St n}
    (h : ∀ j, (inBar (s'.th j).pc = true ∧ (s'.th j).log.length = R + 1) ↔ (inBar (s.th j).pc = true ∧ (s.th j).log.length = R + 1)) :
    counted R s' = counted R s := by
  unfold counted
  exact Finset.filter_congr (fun j _ => h j)

theorem finished_congr {s s' : St n} (h : ∀ j, j ≠ 0 → ((s'.th j).pc = .fin ↔ (s.th j).pc = .fin)) : finished s' = finished s := by
  unfold finished
  refine Finset.filter_congr (fun j _ => ?_)
  constructor
  · rintro ⟨h1, h2⟩; exact ⟨h1, (h j h1).1 h2⟩
  · rintro ⟨h1, h2⟩; exact ⟨h1, (h j h1).2 h2⟩

/-- A thread moves, the shared state does not change. -/
theorem Inv.local_step {W b0 R : Nat} {s : St n} (h : Inv W b0 R s) (i : Fin (n + 1)) (p : Pc)
    (hth : TOk W b0 R { s with th := upd s.th i { s.th i with pc := p } } i)
    (hin : (inBar p = true ∧ (s.th i).log.length = R + 1) ↔ (inBar (s.th i).pc = true ∧ (s.th i).log.length = R + 1))
    (hfin : i ≠ 0 → (p = .fin ↔ (s.th i).pc = .fin))
    (hmas : i = 0 → s.statval = .dwn → p = .spin ∨ p = .fin)
    (hrun : i = 0 → s.statval = .rdy → p = .idle ∨ ∃ b, p = .bchk b) :
    Inv W b0 R { s with th := upd s.th i { s.th i with pc := p } } := by
  refine ⟨h.bain, h.calls, h.func, ?_, ?_, ?_, ?_, h.lt, ?_, ?_⟩
  · intro j
    by_cases hj : j = i
    · subst hj; exact hth
    · have := h.th j
      unfold TOk at this ⊢
      simp only [upd_ne _ _ hj]
      exact this
  · intro j
    by_cases hj : j = i
    · subst hj; simp only [upd_same]; exact h.log j
    · simp only [upd_ne _ _ hj]; exact h.log j
  · intro hd
    rw [counted_congr (s := s)]
    · exact h.cnt hd
    · intro j
      by_cases hj : j = i
      · subst hj; simp only [upd_same]; exact hin
      · simp only [upd_ne _ _ hj]
  · intro hd
    rw [finished_congr (s := s)]
    · exact h.cntf hd
    · intro j hj0
      by_cases hj : j = i
      · subst hj; simp only [upd_same]; exact hfin hj0
      · simp only [upd_ne _ _ hj]
  · intro hd
    by_cases hj : (0 : Fin (n + 1)) = i
    · subst hj; simp only [upd_same]; exact hmas rfl hd
    · simp only [upd_ne _ _ hj]; exact h.mas hd
  · intro hd
    by_cases hj : (0 : Fin (n + 1)) = i
    · subst hj; simp only [upd_same]; exact hrun rfl hd
    · simp only [upd_ne _ _ hj]; exact h.mrun hd

theorem init_inv {W bain func : Nat} (hb : bain < W) : Inv W bain 0 (init (n := n) bain func) := by
  have hc : counted 0 (init (n := n) bain func) = ∅ := by
    unfold counted
    apply Finset.filter_false_of_mem
    intro j _
    simp [init]
  refine ⟨?_, rfl, ?_, ?_, ?_, ?_, ?_, ?_, ?_, ?_⟩
  · show bain = (bain + 0) % W
    rw [Nat.add_zero, Nat.mod_eq_of_lt hb]
  · intro h; cases h
  · intro i
    by_cases hi : i = 0
    · subst hi; simp [TOk, init]
    · simp [TOk, init, hi]
  · intro i; simp [init]
  · intro _; rw [hc]; rfl
  · intro h; cases h
  · show (0 : Int) ≤ n; omega
  · intro h; cases h
  · intro _; left; simp [init]

theorem wake_inBar (p : Pc) : inBar (wake p) = inBar p := by cases p <;> rfl
theorem wake_fin (p : Pc) : wake p = .fin ↔ p = .fin := by cases p <;> simp [wake]

theorem step_inv {W : Nat} (hW : 2 ≤ W) {b0 R : Nat} {s s' : St n} (h : Inv W b0 R s) (a : Act n) (hs : step W s a = some s') :
    ∃ R', Inv W b0 R' s' := by
  cases a with
  | spurious i =>
    simp only [step] at hs
    have hT := h.th i
    unfold TOk at hT
    cases hp : (s.th i).pc <;> rw [hp] at hs <;> simp only [hp] at hT <;> simp only [reduceCtorEq] at hs <;> cases hs
    · refine ⟨R, h.local_step i _ ?_ ?_ ?_ ?_ ?_⟩
      · unfold TOk; simp only [upd_same]; exact ⟨hT.1, hT.2.1⟩
      · rw [hp]; simp [inBar]
      · intro _; rw [hp]; simp
      · intro e; exact absurd e hT.1
      · intro e; exact absurd e hT.1
    · refine ⟨R, h.local_step i _ ?_ ?_ ?_ ?_ ?_⟩
      · unfold TOk; simp only [upd_same]; exact Or.inl hT
      · rw [hp]; simp [inBar]
      · intro _; rw [hp]; simp
      · intro _ e; rw [hT.1] at e; cases e
      · intro _ e; rw [hT.1] at e; cases e
  | launch =>
    simp only [step] at hs
    split at hs
    · rename_i hp
      cases hs
      have h0 := h.th 0
      unfold TOk at h0
      rw [hp] at h0
      obtain ⟨_, c1, c2, c3⟩ := h0
      refine ⟨R, h.bain, ?_, ?_, ?_, ?_, ?_, ?_, h.lt, ?_, ?_⟩
      · simp [c1]
      · intro _; simp [c1]
      · intro j
        by_cases hj : j = 0
        · subst hj; unfold TOk; simp only [upd_same]; exact ⟨trivial, c2⟩
        · have hT := h.th j
          unfold TOk at hT ⊢
          simp only [upd_ne _ _ hj, broadcast]
          cases hpj : (s.th j).pc <;> simp only [hpj, wake] at hT ⊢
          · exact absurd hT.1 hj
          · exact hT
          · exact ⟨hT.1, hT.2.1⟩
          · rw [c3] at hT; simp at hT
          · rw [c3] at hT; simp at hT
          · rw [c3] at hT; simp at hT
          · rw [c3] at hT
            rcases hT with hT | hT
            · simp at hT
            · exact Or.inr ⟨fun e => absurd e hj, hT.2⟩
          · rw [c3] at hT; simp at hT
          · rw [c3] at hT; simp at hT
          · rw [c3] at hT; simp at hT
      · intro j
        by_cases hj : j = 0
        · subst hj; simp only [upd_same]; exact h.log 0
        · simp only [upd_ne _ _ hj, broadcast]; exact h.log j
      · intro _
        rw [counted_congr (s := s)]
        · exact h.cnt (by rw [c3]; simp)
        · intro j
          by_cases hj : j = 0
          · subst hj; simp [upd_same, hp, inBar]
          · simp only [upd_ne _ _ hj, broadcast, wake_inBar]
      · intro e; cases e
      · intro e; cases e
      · intro e; cases e
    · cases hs
  | exit =>
    simp only [step] at hs
    split at hs
    · rename_i hp
      cases hs
      have h0 := h.th 0
      unfold TOk at h0
      rw [hp] at h0
      obtain ⟨_, c1, c2, c3⟩ := h0
      -- no thread is counted
      have hz : counted R s = ∅ := by
        unfold counted
        apply Finset.filter_false_of_mem
        rintro j _ ⟨h1, h2⟩
        have hT := h.th j
        unfold TOk at hT
        cases hpj : (s.th j).pc <;> rw [hpj] at h1 hT <;> simp only [inBar, Bool.false_eq_true] at h1
        · rw [c3] at hT; simp at hT
        · rw [c3] at hT
          rcases hT with hT | hT
          · simp at hT
          · omega
      have hb := h.cnt (by rw [c3]; simp)
      rw [hz] at hb
      refine ⟨R, h.bain, ?_, ?_, ?_, ?_, ?_, ?_, h.lt, ?_, ?_⟩
      · simp [c1]
      · intro e; cases e
      · intro j
        by_cases hj : j = 0
        · subst hj; unfold TOk; simp only [upd_same]; exact ⟨trivial, trivial, c2⟩
        · have hT := h.th j
          unfold TOk at hT ⊢
          simp only [upd_ne _ _ hj, broadcast]
          cases hpj : (s.th j).pc <;> simp only [hpj, wake] at hT ⊢
          · exact absurd hT.1 hj
          · exact hT
          · exact ⟨hT.1, hT.2.1⟩
          · rw [c3] at hT; simp at hT
          · rw [c3] at hT; simp at hT
          · rw [c3] at hT; simp at hT
          · rw [c3] at hT
            rcases hT with hT | hT
            · simp at hT
            · exact Or.inr ⟨fun e => absurd e hj, hT.2⟩
          · rw [c3] at hT; simp at hT
          · rw [c3] at hT; simp at hT
          · rw [c3] at hT; simp at hT
      · intro j
        by_cases hj : j = 0
        · subst hj; simp only [upd_same]; exact h.log 0
        · simp only [upd_ne _ _ hj, broadcast]; exact h.log j
      · intro e; simp at e
      · intro _
        have : finished { s with statval := Stat.dwn, th := upd (broadcast s.th) 0 { s.th 0 with pc := Pc.spin } } = ∅ := by
          unfold finished
          apply Finset.filter_false_of_mem
          rintro j _ ⟨hj, hf⟩
          simp only [upd_ne _ _ hj, broadcast, wake_fin] at hf
          have hT := h.th j
          unfold TOk at hT
          rw [hf, c3] at hT
          simp at hT
        refine hb.trans ?_
        exact congrArg (fun x : Finset (Fin (n + 1)) => (x.card : Int)) this.symm
      · intro _; left; simp [upd_same]
      · intro e; cases e
    · cases hs
  | run i =>
    simp only [step, runTh] at hs
    have hT := h.th i
    unfold TOk at hT
    cases hp : (s.th i).pc <;> rw [hp] at hs <;> simp only [hp] at hT <;> simp only [reduceCtorEq] at hs
    -- chk
    · obtain ⟨t1, t2⟩ := hT
      split at hs <;> rename_i hst <;> cases hs
      · refine ⟨R, h.local_step i _ ?_ ?_ ?_ (fun e => absurd e t1) (fun e => absurd e t1)⟩
        · unfold TOk; simp only [upd_same]; exact ⟨t1, t2, hst⟩
        · rw [hp]; simp [inBar]
        · intro _; rw [hp]; simp
      · refine ⟨R, h.local_step i _ ?_ ?_ ?_ (fun e => absurd e t1) (fun e => absurd e t1)⟩
        · unfold TOk; simp only [upd_same]; exact ⟨hst, t2⟩
        · rw [hp]; simp [inBar]
        · intro _; rw [hp]; simp
      · refine ⟨R, h.local_step i _ ?_ ?_ ?_ (fun e => absurd e t1) (fun e => absurd e t1)⟩
        · unfold TOk; simp only [upd_same]; exact ⟨t1, hst, t2⟩
        · rw [hp]; simp [inBar]
        · intro _; rw [hp]; simp
    -- go
    · cases hs
      obtain ⟨t1, t2⟩ := hT
      refine ⟨R, h.bain, h.calls, h.func, ?_, ?_, ?_, ?_, h.lt, ?_, ?_⟩
      · intro j
        by_cases hj : j = i
        · subst hj; unfold TOk; simp only [upd_same, List.length_append, List.length_singleton, t2]; exact ⟨t1, trivial⟩
        · have := h.th j
          unfold TOk at this ⊢
          simp only [upd_ne _ _ hj]
          exact this
      · intro j
        by_cases hj : j = i
        · subst hj
          simp only [upd_same, List.length_append, List.length_singleton, t2]
          rw [h.log j, t2, h.func t1, List.range_succ, List.map_append]
          rfl
        · simp only [upd_ne _ _ hj]; exact h.log j
      · intro hd
        rw [counted_congr (s := s)]
        · exact h.cnt hd
        · intro j
          by_cases hj : j = i
          · subst hj; simp [upd_same, hp, inBar]
          · simp only [upd_ne _ _ hj]
      · intro e; rw [t1] at e; cases e
      · intro e; rw [t1] at e; cases e
      · intro e; rw [t1] at e; cases e
    -- bar
    · cases hs
      obtain ⟨t1, t2⟩ := hT
      have hni : i ∉ counted R s := by
        intro hm
        have hm2 := (Finset.mem_filter.1 hm).2.1
        rw [hp] at hm2
        simp [inBar] at hm2
      have hcnt := h.cnt (by rw [t1]; simp)
      unfold enterBar
      dsimp only
      split
      · rename_i hb
        have hall : ∀ j, j ≠ i → inBar (s.th j).pc = true ∧ (s.th j).log.length = R + 1 := by
          intro j hj
          have hc : (counted R s).card + 1 = n + 1 := by omega
          have hu : insert i (counted R s) = Finset.univ := by
            apply Finset.eq_univ_of_card
            rw [Finset.card_insert_of_notMem hni, hc, Fintype.card_fin]
          have hm : j ∈ insert i (counted R s) := by rw [hu]; exact Finset.mem_univ j
          rcases Finset.mem_insert.1 hm with e | e
          · exact absurd e hj
          · exact (Finset.mem_filter.1 e).2
        refine ⟨R + 1, ?_, ?_, ?_, ?_, ?_, ?_, ?_, ?_, ?_, ?_⟩
        · show (s.bainnum + 1) % W = (b0 + (R + 1)) % W
          rw [h.bain, Nat.mod_add_mod]; rfl
        · have := h.calls
          rw [t1, if_pos rfl] at this
          simp [this]
        · intro e; cases e
        · intro j
          by_cases hj : j = i
          · subst hj
            unfold TOk
            simp only [upd_same, afterBar]
            by_cases h0 : j = 0
            · simp only [h0, if_true]
              have := h.calls
              rw [t1, if_pos rfl] at this
              rw [h0] at t2
              exact ⟨trivial, this, t2, trivial⟩
            · simp only [h0, if_false]
              exact ⟨h0, t2⟩
          · obtain ⟨w1, w2⟩ := hall j hj
            have hTj := h.th j
            unfold TOk at hTj ⊢
            simp only [upd_ne _ _ hj, broadcast]
            cases hpj : (s.th j).pc <;> rw [hpj] at w1 <;> simp only [inBar, Bool.false_eq_true] at w1 <;> simp only [hpj, wake] at hTj ⊢
            · exact Or.inr ⟨fun _ => trivial, w2, R, rfl, hTj.2.2⟩
            · rcases hTj with hTj | hTj
              · exact Or.inr ⟨fun _ => trivial, w2, R, rfl, hTj.2.2⟩
              · omega
        · intro j
          by_cases hj : j = i
          · subst hj; simp only [upd_same]; exact h.log j
          · simp only [upd_ne _ _ hj, broadcast]; exact h.log j
        · intro _
          have : counted (R + 1) { s with statval := Stat.rdy, barrnbr := 0, bainnum := (s.bainnum + 1) % W, th := upd (broadcast s.th) i { s.th i with pc := afterBar i } } = ∅ := by
            unfold counted
            apply Finset.filter_false_of_mem
            rintro j _ ⟨_, h2⟩
            by_cases hj : j = i
            · subst hj; simp only [upd_same] at h2; omega
            · simp only [upd_ne _ _ hj, broadcast] at h2
              have := (hall j hj).2
              omega
          rw [this]; rfl
        · intro e; cases e
        · show (0 : Int) ≤ n; omega
        · intro e; cases e
        · intro _
          by_cases hj : (0 : Fin (n + 1)) = i
          · subst hj; left; simp [upd_same, afterBar]
          · right
            obtain ⟨w1, _⟩ := hall 0 hj
            simp only [upd_ne _ _ hj, broadcast]
            cases hpj : (s.th 0).pc <;> rw [hpj] at w1 <;> simp only [inBar, Bool.false_eq_true] at w1
            · exact ⟨_, rfl⟩
            · exact ⟨_, rfl⟩
      · rename_i hb
        refine ⟨R, h.bain, h.calls, h.func, ?_, ?_, ?_, ?_, ?_, ?_, ?_⟩
        · intro j
          by_cases hj : j = i
          · subst hj; unfold TOk; simp only [upd_same]; exact ⟨t1, t2, h.bain⟩
          · have := h.th j
            unfold TOk at this ⊢
            simp only [upd_ne _ _ hj]
            exact this
        · intro j
          by_cases hj : j = i
          · subst hj; simp only [upd_same]; exact h.log j
          · simp only [upd_ne _ _ hj]; exact h.log j
        · intro _
          have : counted R { s with barrnbr := s.barrnbr + 1, th := upd s.th i { s.th i with pc := .bslp s.bainnum } } = insert i (counted R s) := by
            ext j
            simp only [counted, Finset.mem_filter, Finset.mem_univ, true_and, Finset.mem_insert]
            by_cases hj : j = i
            · subst hj; simp [upd_same, inBar, t2]
            · simp [upd_ne _ _ hj, hj]
          rw [this, Finset.card_insert_of_notMem hni]
          push_cast
          show s.barrnbr + 1 = _
          omega
        · intro e
          have e' : s.statval = .dwn := e
          rw [t1] at e'; cases e'
        · have := h.lt
          show s.barrnbr + 1 ≤ n
          omega
        · intro e
          have e' : s.statval = .dwn := e
          rw [t1] at e'; cases e'
        · intro e
          have e' : s.statval = .rdy := e
          rw [t1] at e'; cases e'
    -- bchk
    · rename_i b
      have hmod : ∀ R', (b0 + (R' + 1)) % W ≠ (b0 + R') % W := by
        intro R' e
        rw [← Nat.add_assoc, ← Nat.mod_add_mod] at e
        have h2 : (b0 + R') % W < W := Nat.mod_lt _ (by omega)
        by_cases hlt : (b0 + R') % W + 1 < W
        · rw [Nat.mod_eq_of_lt hlt] at e; omega
        · have : (b0 + R') % W + 1 = W := by omega
          rw [this, Nat.mod_self] at e; omega
      split at hs
      · rename_i hb
        cases hs
        have hcur : s.statval = .run ∧ (s.th i).log.length = R + 1 ∧ b = (b0 + R) % W := by
          rcases hT with hT | ⟨_, _, R', rfl, hR⟩
          · exact hT
          · exfalso
            rw [h.bain, hR] at hb
            exact hmod R' hb
        refine ⟨R, h.local_step i _ ?_ ?_ ?_ ?_ ?_⟩
        · unfold TOk; simp only [upd_same]; exact hcur
        · rw [hp]; simp [inBar]
        · intro _; rw [hp]; simp
        · intro _ e; rw [hcur.1] at e; cases e
        · intro _ e; rw [hcur.1] at e; cases e
      · rename_i hb
        cases hs
        have hold : (i = 0 → s.statval = .rdy) ∧ (s.th i).log.length = R := by
          rcases hT with hT | hT
          · exfalso; apply hb; rw [h.bain, hT.2.2]
          · exact ⟨hT.1, hT.2.1⟩
        refine ⟨R, h.local_step i _ ?_ ?_ ?_ ?_ ?_⟩
        · unfold TOk
          simp only [upd_same, afterBar]
          by_cases h0 : i = 0
          · simp only [h0, if_true]
            have hr := hold.1 h0
            have hc := h.calls
            rw [hr] at hc
            simp only [reduceCtorEq, if_false] at hc
            exact ⟨trivial, hc, by rw [← h0]; exact hold.2, hr⟩
          · simp only [h0, if_false]
            exact ⟨h0, hold.2⟩
        · constructor
          · rintro ⟨e, _⟩
            unfold afterBar at e
            split at e <;> simp [inBar] at e
          · rintro ⟨_, e⟩; omega
        · intro h0; rw [hp]; simp [afterBar, h0]
        · intro h0 e; rw [hold.1 h0] at e; cases e
        · intro h0 _; left; simp [afterBar, h0]
    -- ack
    · cases hs
      obtain ⟨t1, t2, t3⟩ := hT
      have hni : i ∉ finished s := by
        intro hm
        have hm2 := (Finset.mem_filter.1 hm).2.2
        rw [hp] at hm2
        cases hm2
      have hins : finished { s with barrnbr := s.barrnbr + 1, th := upd s.th i { s.th i with pc := .fin } } = insert i (finished s) := by
        ext j
        simp only [finished, Finset.mem_filter, Finset.mem_univ, true_and, Finset.mem_insert]
        by_cases hj : j = i
        · subst hj; simp [upd_same, t1]
        · simp [upd_ne _ _ hj, hj]
      have hcard : (insert i (finished s)).card = (finished s).card + 1 := Finset.card_insert_of_notMem hni
      have hle : (insert i (finished s)).card ≤ n := by
        have hsub : insert i (finished s) ⊆ Finset.univ.erase 0 := by
          intro j hj
          rcases Finset.mem_insert.1 hj with rfl | hj
          · exact Finset.mem_erase.2 ⟨t1, Finset.mem_univ _⟩
          · exact Finset.mem_erase.2 ⟨(Finset.mem_filter.1 hj).2.1, Finset.mem_univ _⟩
        have := Finset.card_le_card hsub
        rw [Finset.card_erase_of_mem (Finset.mem_univ _), Finset.card_univ, Fintype.card_fin] at this
        omega
      have hc := h.cntf t2
      refine ⟨R, h.bain, h.calls, h.func, ?_, ?_, ?_, ?_, ?_, ?_, ?_⟩
      · intro j
        by_cases hj : j = i
        · subst hj; unfold TOk; simp only [upd_same]; exact ⟨t2, t3⟩
        · have := h.th j
          unfold TOk at this ⊢
          simp only [upd_ne _ _ hj]
          exact this
      · intro j
        by_cases hj : j = i
        · subst hj; simp only [upd_same]; exact h.log j
        · simp only [upd_ne _ _ hj]; exact h.log j
      · intro e; exact absurd t2 e
      · intro _
        rw [hins, hcard]
        push_cast
        show s.barrnbr + 1 = _
        omega
      · show s.barrnbr + 1 ≤ n
        omega
      · intro e
        have hi0 : (0 : Fin (n + 1)) ≠ i := fun e => t1 e.symm
        simp only [upd_ne _ _ hi0]
        exact h.mas e
      · intro e
        have e' : s.statval = .rdy := e
        rw [t2] at e'; cases e'
    -- spin
    · split at hs
      · cases hs
        obtain ⟨t1, t2, t3⟩ := hT
        refine ⟨R, h.local_step i _ ?_ ?_ ?_ ?_ ?_⟩
        · unfold TOk; simp only [upd_same]; exact ⟨t2, t3⟩
        · rw [hp]; simp [inBar]
        · intro e; exact absurd t1 e
        · intro _ _; right; rfl
        · intro _ e; rw [t2] at e; cases e
      · cases hs

theorem reach_inv {W : Nat} (hW : 2 ≤ W) {s : St n} (h : Reach W s) : ∃ b0 R, Inv W b0 R s := by
  induction h with
  | init bain func hb => exact ⟨bain, 0, init_inv hb⟩
  | step s s' a _ hs ih =>
    obtain ⟨b0, R, hr⟩ := ih
    obtain ⟨R', h'⟩ := step_inv hW hr a hs
    exact ⟨b0, R', h'⟩

end Scotch.Thread.Pool
