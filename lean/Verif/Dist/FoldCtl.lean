import Verif.Dist.FoldSort

set_option autoImplicit false
set_option linter.unusedSimpArgs false

namespace Scotch.Fold

/-- All vertices of a sender have been sent. -/
def SndOk (f : FoldIn) (cm : Int) (L : List Move) (p : Int) : Prop :=
  Chain (f.vrt p) (sends L p) ∧ Row Move.sidx 0 (sends L p) ∧ tot (sends L p) = f.cnt p ∧ (sends L p).length ≤ cm

/-- A receiver has sent its last vertices. -/
def KeepOk (f : FoldIn) (cm : Int) (L : List Move) (q : Int) : Prop :=
  Chain (f.vrt q + f.cnt q - tot (sends L q)) (sends L q) ∧ Row Move.sidx 0 (sends L q) ∧ (sends L q).length ≤ cm ∧
    (recvs L q = [] ∨ ∃ m, recvs L q = [m] ∧ sends L q = [m] ∧ m.num = 0 ∧ m.ridx = 0)

/-- Invariant of the main loop, save for the current receiver and for the process of rank `x`, which is sending. -/
structure CB (f : FoldIn) (T : Int → Int × Int) (cm a0 x : Int) (c : Ctl) : Prop where
  lo : c.tab.lo = 0
  hi : c.tab.hi = f.procglbnbr
  key : ∀ k, 0 ≤ k → k < f.procglbnbr → (c.tab.get k).2 = (T k).2
  same : ∀ k, 0 ≤ k → k < f.procglbnbr → ¬ (f.procrcvbas ≤ k ∧ k ≤ c.sortrcvnum ∧ k < f.procrcvnnd) → c.tab.get k = T k
  a1 : a0 ≤ c.sortsndbas
  ab : c.sortsndbas ≤ c.sortsndnnd + 1
  b1 : c.sortsndnnd < f.procsndnnd
  i1 : f.procrcvbas ≤ c.sortrcvnum
  j0 : f.procrcvbas ≤ c.sortrcvnnd + 1
  j1 : c.sortrcvnnd < f.procrcvnnd
  gd : 0 ≤ c.vertglbdlt
  mv : ∀ m ∈ c.moves, 0 ≤ m.num ∧ (0 ≤ m.snd ∧ m.snd < f.procglbnbr) ∧ f.Rcv m.rcv ∧ (m.both = true ↔ f.Rcv m.snd)
  s1 : ∀ k, c.sortsndbas ≤ k → k ≤ c.sortsndnnd → sends c.moves (T k).2 = []
  s2 : ∀ k, f.procsndbas ≤ k → k < f.procsndnnd → k ≠ x → (k < c.sortsndbas ∨ c.sortsndnnd < k) → SndOk f cm c.moves (T k).2
  r1 : ∀ k, c.sortrcvnnd < k → k < f.procrcvnnd → k ≠ x → KeepOk f cm c.moves (T k).2 ∧ tot (sends c.moves (T k).2) ≤ (T k).1
  r2 : ∀ k, f.procrcvbas ≤ k → k < c.sortrcvnum → k ≤ c.sortrcvnnd → sends c.moves (T k).2 = [] ∧
    Row Move.ridx 0 (recvs c.moves (T k).2) ∧ (recvs c.moves (T k).2).length ≤ cm ∧
    (f.procglbnbr < cm → 0 ≤ (T k).1 + tot (recvs c.moves (T k).2))
  r4 : ∀ k, c.sortrcvnum < k → k ≤ c.sortrcvnnd → sends c.moves (T k).2 = [] ∧ recvs c.moves (T k).2 = []

/-- What holds for the current receiver; `v` is a lower bound of its excess. -/
def Cur (T : Int → Int × Int) (c : Ctl) (v : Int) : Prop :=
  sends c.moves (T c.sortrcvnum).2 = [] ∧ Row Move.ridx 0 (recvs c.moves (T c.sortrcvnum).2) ∧
    (recvs c.moves (T c.sortrcvnum).2).length = c.commrcvnum ∧ v ≤ (T c.sortrcvnum).1 + tot (recvs c.moves (T c.sortrcvnum).2)

section
variable {f : FoldIn} {T : Int → Int × Int} {cm a0 x : Int} {c : Ctl}

/-- Rank of a process in the sorted table. -/
theorem Srt.ne (hT : Srt f T) {k l : Int} (k0 : 0 ≤ k) (k1 : k < f.procglbnbr) (l0 : 0 ≤ l) (l1 : l < f.procglbnbr) (h : k ≠ l) :
    (T k).2 ≠ (T l).2 := fun e => h (hT.inj k l k0 k1 l0 l1 e)

theorem SndOk.other {L : List Move} {p : Int} {m : Move} (h : SndOk f cm L p) (hm : m.snd ≠ p) : SndOk f cm (L ++ [m]) p := by
  unfold SndOk
  rw [sends_other _ hm]
  exact h

theorem KeepOk.other {L : List Move} {p : Int} {m : Move} (h : KeepOk f cm L p) (hm : m.snd ≠ p) (hr : m.rcv ≠ p) : KeepOk f cm (L ++ [m]) p := by
  unfold KeepOk
  rw [sends_other _ hm, recvs_other _ hr]
  exact h

/-- One more message from the process that is sending, or from the smallest sender, to the current receiver. -/
theorem CB.push (hf : f.Ok) (hT : Srt f T) (h : CB f T cm a0 x c) (ha0 : f.procsndbas ≤ a0) (hij : c.sortrcvnum ≤ c.sortrcvnnd) {ks a' : Int} {m : Move}
    (k0 : 0 ≤ ks) (k1 : ks < f.procglbnbr) (hm : m.snd = (T ks).2) (hr : m.rcv = (T c.sortrcvnum).2) (hn : 0 ≤ m.num)
    (hb : m.both = true ↔ f.Rcv m.snd)
    (hx : ks = x ∧ a' = c.sortsndbas ∧ ¬ (c.sortsndbas ≤ ks ∧ ks ≤ c.sortsndnnd) ∧ ¬ (f.procrcvbas ≤ ks ∧ ks ≤ c.sortrcvnnd) ∨
      ks = c.sortsndbas ∧ a' = c.sortsndbas + 1 ∧ c.sortsndbas ≤ c.sortsndnnd ∧ SndOk f cm (c.moves ++ [m]) (T ks).2) :
    CB f T cm a0 x { c with sortsndbas := a', moves := c.moves ++ [m] } := by
  obtain ⟨q1, q2, q3, q4, q5, q6⟩ := hf.ranges
  have := h.i1
  have := h.j1
  have := h.a1
  have := h.b1
  have := h.j0
  have hnotr : ∀ k, f.procsndbas ≤ k → k < f.procsndnnd → ¬ (f.procrcvbas ≤ k ∧ k < f.procrcvnnd) := q5
  have hsR : ∀ k, 0 ≤ k → k < f.procglbnbr → k ≠ c.sortrcvnum → recvs (c.moves ++ [m]) (T k).2 = recvs c.moves (T k).2 := by
    intro k k2 k3 hk
    refine recvs_other _ ?_
    rw [hr]
    exact hT.ne (by omega) (by omega) k2 k3 (Ne.symm hk)
  have hsS : ∀ k, 0 ≤ k → k < f.procglbnbr → k ≠ ks → sends (c.moves ++ [m]) (T k).2 = sends c.moves (T k).2 := by
    intro k k2 k3 hk
    refine sends_other _ ?_
    rw [hm]
    exact hT.ne k0 k1 k2 k3 (Ne.symm hk)
  refine { lo := h.lo, hi := h.hi, key := h.key, same := h.same, a1 := ?_, ab := ?_, b1 := h.b1, i1 := h.i1, j0 := h.j0, j1 := h.j1, gd := h.gd, mv := ?_, s1 := ?_, s2 := ?_, r1 := ?_, r2 := ?_, r4 := ?_ }
  · dsimp only; rcases hx with hx | hx <;> omega
  · have := h.ab
    dsimp only; rcases hx with hx | hx <;> omega
  · intro m' hm'
    dsimp only at hm'
    rw [List.mem_append, List.mem_singleton] at hm'
    rcases hm' with hm' | rfl
    · exact h.mv m' hm'
    · refine ⟨hn, ?_, ?_, hb⟩
      · rw [hm]; exact hT.rng ks k0 k1
      · rw [hr]
        exact (hT.rcv _ (by omega) (by omega)).2 ⟨by omega, by omega⟩
  · intro k k2 k3
    dsimp only at k2 k3 ⊢
    have : k ≠ ks := by rcases hx with hx | hx <;> omega
    rw [hsS k (by omega) (by omega) this]
    exact h.s1 k (by rcases hx with hx | hx <;> omega) k3
  · intro k k2 k3 k4 k5
    dsimp only at k5 ⊢
    by_cases e : k = ks
    · rcases hx with hx | hx
      · omega
      · rw [e]; exact hx.2.2.2
    · refine (h.s2 k k2 k3 k4 ?_).other ?_
      · rcases hx with hx | hx <;> omega
      · rw [hm]; exact hT.ne k0 k1 (by omega) (by omega) (Ne.symm e)
  · intro k k2 k3 k4
    dsimp only at k2 ⊢
    have e : k ≠ ks := by
      rcases hx with hx | hx
      · omega
      · have := hnotr ks (by omega) (by omega)
        omega
    have := h.r1 k k2 k3 k4
    rw [hsS k (by omega) (by omega) e]
    refine ⟨this.1.other ?_ ?_, this.2⟩
    · rw [hm]; exact hT.ne k0 k1 (by omega) (by omega) (Ne.symm e)
    · rw [hr]; exact hT.ne (by omega) (by omega) (by omega) (by omega) (by omega)
  · intro k k2 k3 k4
    dsimp only at k3 k4 ⊢
    have e : k ≠ ks := by
      rcases hx with hx | hx
      · omega
      · have := hnotr ks (by omega) (by omega)
        omega
    rw [hsS k (by omega) (by omega) e, hsR k (by omega) (by omega) (by omega)]
    exact h.r2 k k2 k3 k4
  · intro k k2 k3
    dsimp only at k2 k3 ⊢
    have e : k ≠ ks := by
      rcases hx with hx | hx
      · omega
      · have := hnotr ks (by omega) (by omega)
        omega
    rw [hsS k (by omega) (by omega) e, hsR k (by omega) (by omega) (by omega)]
    exact h.r4 k k2 k3

theorem CB.com (h : CB f T cm a0 x c) (n : Int) : CB f T cm a0 x { c with commrcvnum := n } :=
  { lo := h.lo, hi := h.hi, key := h.key, same := h.same, a1 := h.a1, ab := h.ab, b1 := h.b1, i1 := h.i1, j0 := h.j0, j1 := h.j1, gd := h.gd, mv := h.mv, s1 := h.s1, s2 := h.s2, r1 := h.r1, r2 := h.r2, r4 := h.r4 }

/-- The current receiver will not receive any more. -/
theorem CB.advance (h : CB f T cm a0 x c) {v : Int} (hc : Cur T c v) (hl : c.commrcvnum ≤ cm) (hv : f.procglbnbr < cm → 0 ≤ v) (n : Int) :
    CB f T cm a0 x { c with sortrcvnum := c.sortrcvnum + 1, commrcvnum := n } := by
  have := h.i1
  have := h.j1
  obtain ⟨c1, c2, c3, c4⟩ := hc
  refine { lo := h.lo, hi := h.hi, key := h.key, same := ?_, a1 := h.a1, ab := h.ab, b1 := h.b1, i1 := ?_, j0 := h.j0, j1 := h.j1, gd := h.gd, mv := h.mv, s1 := h.s1, s2 := h.s2, r1 := h.r1, r2 := ?_, r4 := ?_ }
  · intro k k0 k1 k2
    refine h.same k k0 k1 ?_
    dsimp only at k2
    omega
  · dsimp only; omega
  · intro k k0 k1 k2
    dsimp only at k1 k2 ⊢
    by_cases e : k = c.sortrcvnum
    · subst e
      exact ⟨c1, c2, by omega, fun hh => by have := hv hh; omega⟩
    · exact h.r2 k k0 (by omega) k2
  · intro k k0 k1
    exact h.r4 k (by dsimp only at k0; omega) k1

/-- State of the next receiver. -/
theorem CB.cur (hf : f.Ok) (h : CB f T cm a0 x c) (hij : c.sortrcvnum + 1 ≤ c.sortrcvnnd) :
    Cur T { c with sortrcvnum := c.sortrcvnum + 1, commrcvnum := 0 } (T (c.sortrcvnum + 1)).1 ∧
      c.tab.get (c.sortrcvnum + 1) = T (c.sortrcvnum + 1) := by
  obtain ⟨q1, q2, q3, q4, q5, q6⟩ := hf.ranges
  have := h.i1
  have := h.j1
  obtain ⟨e1, e2⟩ := h.r4 (c.sortrcvnum + 1) (by omega) hij
  refine ⟨?_, h.same _ (by omega) (by omega) (by omega)⟩
  unfold Cur
  dsimp only
  rw [e1, e2]
  exact ⟨rfl, trivial, rfl, by rw [tot_nil]; omega⟩

end

end Scotch.Fold
