import Verif.Dist.FoldPlan

set_option autoImplicit false
set_option linter.unusedSimpArgs false

namespace Scotch.Fold

section
variable {f : FoldIn} {T : Int → Int × Int} {cm a0 x : Int} {both : Bool} {adj0 n0 i0 w : Int}

theorem capacity_holds (hf : f.Ok) {c : Ctl} (h : CB f T cm a0 x c) :
    Holds (capacity cm c) (fun r => r.1 = max 0 (min cm (c.sortrcvnnd + 1 - c.sortrcvnum)) ∧
      r.2 = sumI c.sortrcvnum (c.sortrcvnum + r.1) (cap c)) := by
  obtain ⟨q1, q2, q3, q4, q5, q6⟩ := hf.ranges
  have hi1 := h.i1
  have hj1 := h.j1
  have hlo := h.lo
  have hhi := h.hi
  unfold capacity
  rw [Holds_bind]
  refine Holds_forUp (fun k s => s = sumI c.sortrcvnum (c.sortrcvnum + k) (cap c)) (by omega) (by rw [sumI_empty (by omega)]) ?_ ?_
  · intro k s k0 k1 hs
    rw [Arr.rd_ok _ (by omega) (by omega), ok_bind, Holds_pure]
    rw [show c.sortrcvnum + (k + 1) = c.sortrcvnum + k + 1 by omega, sumI_succ (by omega), hs]
    rfl
  · intro s hs
    rw [Holds_pure]
    exact ⟨rfl, hs⟩

theorem ceil_ge {a n : Int} (hn : 0 < n) : a ≤ n * ((a + (n - 1)) / n) := by
  have e := Int.mul_ediv_add_emod (a + (n - 1)) n
  have := Int.emod_lt_of_pos (a + (n - 1)) hn
  omega

theorem ceil_nonneg {a n : Int} (hn : 0 < n) (ha : 0 ≤ a) : 0 ≤ (a + (n - 1)) / n := Int.ediv_nonneg (by omega) (by omega)

theorem ceil_le {a b n : Int} (hn : 0 < n) (ha : a ≤ n * b) : (a + (n - 1)) / n ≤ b := by
  have : (a + (n - 1)) / n < b + 1 := by
    rw [Int.ediv_lt_iff_lt_mul hn]
    have : (b + 1) * n = n * b + n := by rw [Int.add_mul, Int.one_mul, Int.mul_comm]
    omega
  omega

/-- Effect of the raise of the average. -/
theorem raise_holds {commnbr rnb snb gd : Int} (h0 : 0 ≤ commnbr) (hs : 0 < snb) (hb : both = false → 0 < commnbr)
    (hr : both = true → - (commnbr * snb) ≤ rnb) :
    Holds (raise both commnbr rnb snb gd) (fun r => gd ≤ r.1 ∧ 0 ≤ r.2.1 ∧ r.2.1 ≤ snb ∧ (both = false → r.2.1 = snb) ∧ 0 ≤ r.2.2 ∧
      (0 < r.2.2 → both = true ∧ 0 < r.2.1) ∧ r.2.1 + r.2.2 ≤ rnb + commnbr * (r.1 - gd) ∧
      (commnbr = 0 → rnb = 0 → r = (gd + snb, 0, 0))) := by
  unfold raise
  rw [Holds_ite]
  refine ⟨fun h => ?_, fun h => ?_⟩
  · rw [Holds_ite]
    refine ⟨fun hf => ?_, fun hf => ?_⟩
    · have hc := hb hf
      rw [if_neg (by omega), Holds_pure]
      have e1 := ceil_ge (a := snb - rnb) hc
      have e2 := ceil_nonneg (a := snb - rnb) hc (by omega)
      dsimp only
      refine ⟨by omega, by omega, by omega, fun _ => rfl, Int.le_refl _, fun hh => by omega, ?_, fun hh => by omega⟩
      rw [show gd + (snb - rnb + (commnbr - 1)) / commnbr - gd = (snb - rnb + (commnbr - 1)) / commnbr by omega]
      omega
    · rw [Holds_pure]
      have hb' : both = true := by simpa using hf
      have hr' := hr hb'
      have hc : 0 < commnbr + 1 := by omega
      have e1 := ceil_ge (a := snb - rnb) hc
      have e2 := ceil_nonneg (a := snb - rnb) hc (by omega)
      have e3 := ceil_le (a := snb - rnb) (b := snb) hc (by rw [Int.add_mul, Int.one_mul]; omega)
      rw [show snb - rnb + (commnbr + 1 - 1) = snb - rnb + commnbr by omega] at e1 e2 e3
      generalize hg : (snb - rnb + commnbr) / (commnbr + 1) = g at e1 e2 e3 ⊢
      rw [Int.add_mul, Int.one_mul] at e1
      dsimp only
      refine ⟨by omega, by omega, by omega, fun hh => absurd hh (by simp [hb']), Int.le_refl _, fun hh => by omega, ?_, ?_⟩
      · rw [show gd + g - gd = g by omega]
        omega
      · intro z1 z2
        have : g = snb := by
          rw [z1, Int.zero_mul] at e1
          omega
        rw [this]
        simp
  · rw [Holds_ite]
    have hz : commnbr * (gd - gd) = 0 := by rw [Int.sub_self, Int.mul_zero]
    refine ⟨fun hf => ?_, fun hf => ?_⟩
    · rw [Holds_pure]
      dsimp only
      refine ⟨Int.le_refl _, by omega, Int.le_refl _, fun _ => rfl, Int.le_refl _, fun hh => by omega, by rw [hz]; omega, fun hh => by have := hb hf; omega⟩
    · rw [Holds_pure]
      have hb' : both = true := by simpa using hf
      dsimp only
      refine ⟨Int.le_refl _, by omega, Int.le_refl _, fun hh => absurd hh (by simp [hb']), by omega, fun hh => ⟨hb', hs⟩, by rw [hz]; omega, fun z1 z2 => by omega⟩

theorem CB.raise {c : Ctl} (h : CB f T cm a0 x c) {g : Int} (hg : 0 ≤ g) : CB f T cm a0 x { c with vertglbdlt := g } :=
  { lo := h.lo, hi := h.hi, key := h.key, same := h.same, a1 := h.a1, ab := h.ab, b1 := h.b1, i1 := h.i1, j0 := h.j0, j1 := h.j1, gd := hg, mv := h.mv, s1 := h.s1, s2 := h.s2, r1 := h.r1, r2 := h.r2, r4 := h.r4 }

/-- A receiver that is in excess, when there is no receiver left, sends an empty message to itself. -/
theorem self_holds (hf : f.Ok) (hT : Srt f T) {c : Ctl} (h : CB f T cm a0 x c) (hcm : 4 ≤ cm) (hx0 : f.procrcvbas ≤ x) (hx1 : x < f.procrcvnnd) (hj : c.sortrcvnnd = x - 1)
    (hi : c.sortrcvnum = x) (hcur : Cur T c (T x).1) (ht : c.tab.get x = T x) (h0 : 0 ≤ (T x).1) (hc0 : c.commrcvnum = 0) (ha0 : f.procsndbas ≤ a0)
    (fuel : Nat) :
    Holds (do
      let s ← loopM (giveStep f cm (T x).2 true) (fuel + 1) ⟨{ c with vertglbdlt := (T x).1 }, 0, 0, f.vrt (T x).2 + f.cnt (T x).2, 0, 0, 0⟩
      tail s) (fun c' => CI f T cm a0 c' ∧ Frame { c with vertglbdlt := (T x).1 } c') := by
  obtain ⟨q1, q2, q3, q4, q5, q6⟩ := hf.ranges
  have hlo := h.lo
  have hhi := h.hi
  have ha1 := h.a1
  have hab := h.ab
  have hb1 := h.b1
  obtain ⟨c1, c2, c3, c4⟩ := hcur
  rw [hi] at c1 c2 c3 c4
  have crecv : recvs c.moves (T x).2 = [] := List.eq_nil_of_length_eq_zero (by omega)
  obtain ⟨m, hm⟩ : ∃ m : Move, m = ⟨(T x).2, f.vrt (T x).2 + f.cnt (T x).2, 0, (T x).2, 0, 0, true⟩ := ⟨_, rfl⟩
  have e1 : giveStep f cm (T x).2 true ⟨{ c with vertglbdlt := (T x).1 }, 0, 0, f.vrt (T x).2 + f.cnt (T x).2, 0, 0, 0⟩ =
      .ok (.brk ⟨{ c with vertglbdlt := (T x).1, sortrcvnum := x + 1, commrcvnum := 0, moves := c.moves ++ [m] }, 0, 0, f.vrt (T x).2 + f.cnt (T x).2 + 0, 0 + 1, (T x).2, 0⟩) := by
    unfold giveStep nextRcv
    dsimp only
    rw [hi, Arr.rd_ok _ (by omega) (by omega), ok_bind, pure_bind, ht]
    unfold smallCond bigMove
    dsimp only
    rw [if_neg (by omega), pure_bind, if_neg (by simp), pure_bind]
    rw [Int.sub_self]
    simp only [Int.lt_irrefl, if_false, not_false_eq_true, true_or, decide_true, if_true, Int.sub_self, gt_iff_lt, hc0, hm, hi]
    rfl
  have e2 : loopM (giveStep f cm (T x).2 true) (fuel + 1) ⟨{ c with vertglbdlt := (T x).1 }, 0, 0, f.vrt (T x).2 + f.cnt (T x).2, 0, 0, 0⟩ =
      .ok ⟨{ c with vertglbdlt := (T x).1, sortrcvnum := x + 1, commrcvnum := 0, moves := c.moves ++ [m] }, 0, 0, f.vrt (T x).2 + f.cnt (T x).2 + 0, 0 + 1, (T x).2, 0⟩ := by
    rw [loopM, e1, ok_bind]
  rw [e2, ok_bind]
  unfold tail
  dsimp only
  rw [if_neg (by omega), Holds_pure]
  have m1 : m.snd = (T x).2 := by rw [hm]
  have m2 : m.rcv = (T x).2 := by rw [hm]
  have m3 : m.num = 0 := by rw [hm]
  have hot : ∀ k, 0 ≤ k → k < f.procglbnbr → k ≠ x → sends (c.moves ++ [m]) (T k).2 = sends c.moves (T k).2 ∧ recvs (c.moves ++ [m]) (T k).2 = recvs c.moves (T k).2 := by
    intro k k0 k1 k2
    have := hT.ne (by omega) (by omega) k0 k1 (Ne.symm k2)
    exact ⟨sends_other _ (by rw [m1]; exact this), recvs_other _ (by rw [m2]; exact this)⟩
  refine ⟨{ cb := ?_, ij := by dsimp only; omega, cur := fun hh => by dsimp only at hh; omega, com0 := Int.le_refl _, com1 := by dsimp only; omega, com2 := by unfold used; dsimp only; omega, comn := fun hh => absurd hh (Int.lt_irrefl _) }, ⟨rfl, rfl, rfl, Int.le_refl _, by dsimp only; omega⟩⟩
  refine { lo := hlo, hi := hhi, key := h.key, same := ?_, a1 := h.a1, ab := h.ab, b1 := h.b1, i1 := by dsimp only; omega, j0 := h.j0, j1 := h.j1, gd := h0, mv := ?_, s1 := ?_, s2 := ?_, r1 := ?_, r2 := ?_, r4 := ?_ }
  · intro k k0 k1 k2
    dsimp only at k2 ⊢
    exact h.same k k0 k1 (by omega)
  · intro m' hm'
    dsimp only at hm'
    rw [List.mem_append, List.mem_singleton] at hm'
    rcases hm' with hm' | rfl
    · exact h.mv m' hm'
    · have hr : f.Rcv (T x).2 := (hT.rcv x (by omega) (by omega)).2 ⟨hx0, hx1⟩
      rw [hm]
      exact ⟨Int.le_refl _, hT.rng x (by omega) (by omega), hr, ⟨fun _ => hr, fun _ => rfl⟩⟩
  · intro k k0 k1
    dsimp only at k0 k1 ⊢
    have : k ≠ x := by
      intro e
      exact q5 k (by omega) (by omega) (e ▸ ⟨hx0, hx1⟩)
    rw [(hot k (by omega) (by omega) this).1]
    exact h.s1 k k0 k1
  · intro k k0 k1 _ k2
    have kx : k ≠ x := by
      intro e
      exact q5 k (by omega) (by omega) (e ▸ ⟨hx0, hx1⟩)
    refine (h.s2 k k0 k1 kx k2).other ?_
    rw [m1]
    exact hT.ne (by omega) (by omega) (by omega) (by omega) (Ne.symm kx)
  · intro k k0 k1 _
    dsimp only at k0 ⊢
    by_cases e : k = x
    · subst e
      have es : sends (c.moves ++ [m]) (T k).2 = [m] := by rw [sends_same _ m1, c1, List.nil_append]
      have er : recvs (c.moves ++ [m]) (T k).2 = [m] := by rw [recvs_same _ m2, crecv, List.nil_append]
      unfold KeepOk
      rw [es, er]
      refine ⟨⟨⟨?_, trivial⟩, ⟨by rw [hm], trivial⟩, by simp; omega, Or.inr ⟨m, rfl, rfl, m3, by rw [hm]⟩⟩, ?_⟩
      · rw [tot_cons, tot_nil, m3, hm]; dsimp only; omega
      · rw [tot_cons, tot_nil, m3]; omega
    · have := h.r1 k (by omega) k1 e
      have hne := hT.ne (by omega) (by omega) (by omega : 0 ≤ k) (by omega) (Ne.symm e)
      rw [(hot k (by omega) (by omega) e).1]
      exact ⟨this.1.other (by rw [m1]; exact hne) (by rw [m2]; exact hne), this.2⟩
  · intro k k0 k1 k2
    dsimp only at k1 k2 ⊢
    have := hot k (by omega) (by omega) (by omega)
    rw [this.1, this.2]
    exact h.r2 k k0 (by omega) k2
  · intro k k0 k1
    dsimp only at k0 k1
    omega

end

end Scotch.Fold
