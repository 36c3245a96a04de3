import Verif.Match.Lemmas
import Verif.Sort.LemmasPartial
import Verif.Sort.Props

set_option autoImplicit false
set_option linter.unusedSimpArgs false

namespace Scotch.Match

/-- Invariant of the sequential scan. -/
structure SInv (E : Env) (queue : Arr Int) (dlt e0 : Int) (m0 : Int → Int) (c0 : Int) (s : SState) : Prop where
  cov : Covers E.g s.mate
  part : Part E s.mate.get
  q1 : dlt / 2 ≤ s.qnum
  q2 : s.nnd ≤ e0
  q3 : s.qnum ≤ e0
  ix : Ix dlt s.qnum e0
  ixn : Ix dlt s.qnum s.nnd
  ix0 : Ix dlt s.qnum (dlt / 2)
  mono : ∀ x, 0 ≤ m0 x → s.mate.get x = m0 x
  seen : ∀ i, dlt / 2 ≤ i → i < e0 → Ix dlt s.qnum i → (s.qnum ≤ i ∧ i < s.nnd) ∨ 0 ≤ s.mate.get (queue.get i)
  cnt : s.cnt - cntOf E s.mate.get = c0 - cntOf E m0

theorem seqStep_holds {E : Env} (V : Valid E) {queue : Arr Int} {dlt e0 : Int} {m0 : Int → Int} {c0 : Int} (Q : QOk E.g queue dlt (dlt / 2) e0) (s : SState)
    (I : SInv E queue dlt e0 m0 c0 s) :
    Holds (seqStep E queue dlt s) (Loop.Sat (fun s' => SInv E queue dlt e0 m0 c0 s' ∧ s'.qnum = s.qnum + dlt ∧ s'.qnum ≤ e0) (fun r => SInv E queue dlt e0 m0 c0 r ∧ r.nnd ≤ r.qnum)) := by
  obtain ⟨hcov, P, q1, q2, q3, hix, hixn, hix0, hmono, hseen, hcnt⟩ := I
  have hd := Q.step
  have hlo := Q.lo
  have hhi := Q.hi
  unfold Ix at hix hixn hix0
  unfold seqStep
  by_cases hlt : s.qnum < s.nnd
  · rw [if_pos hlt]
    have hv : E.g.Vertex (queue.get s.qnum) := Q.vert s.qnum q1 (by omega) (by unfold Ix; rcases hd with e | e <;> subst e <;> omega)
    have hb1 : queue.lo ≤ s.qnum ∧ s.qnum < queue.hi := by rcases hd with e | e <;> subst e <;> omega
    rw [Holds_bind, Arr.rd_ok _ hb1.1 hb1.2, Holds_ok]
    generalize hvv : queue.get s.qnum = v at hv
    have hv1 := hv.1
    have hv2 := hv.2
    have hc1 := hcov.1
    have hc2 := hcov.2
    rw [Holds_bind, Arr.rd_ok _ (by omega) (by omega), Holds_ok]
    by_cases hge : s.mate.get v ≥ 0
    · rw [if_pos hge, Holds_pure]
      refine ⟨⟨hcov, P, ?_, q2, ?_, ?_, ?_, ?_, hmono, ?_, hcnt⟩, rfl, ?_⟩
      · dsimp only; rcases hd with e | e <;> subst e <;> omega
      · dsimp only; rcases hd with e | e <;> subst e <;> omega
      · unfold Ix; dsimp only; rcases hd with e | e <;> subst e <;> omega
      · unfold Ix; dsimp only; rcases hd with e | e <;> subst e <;> omega
      · unfold Ix; dsimp only; rcases hd with e | e <;> subst e <;> omega
      · dsimp only
        intro i a b c
        unfold Ix at c
        by_cases hi : i = s.qnum
        · subst hi; rw [hvv]; exact Or.inr hge
        · rcases hseen i a b (by unfold Ix; rcases hd with e | e <;> subst e <;> omega) with h | h
          · left; rcases hd with e | e <;> subst e <;> omega
          · exact Or.inr h
      · dsimp only; rcases hd with e | e <;> subst e <;> omega
    · rw [if_neg hge, Holds_bind]
      have Q' : QOk E.g queue dlt s.qnum s.nnd := ⟨Q.step, hixn, by omega, by omega, fun i a b c => Q.vert i (by omega) (by omega) (by
        unfold Ix at c ⊢; rcases hd with e | e <;> subst e <;> omega)⟩
      refine (findMate_holds V true hcov hcov Q' (by omega) hv).mono ?_
      rintro ⟨b, nnd'⟩ ⟨F, -⟩
      obtain ⟨f1, f2, f3, f4, f5, f6, f7, f8⟩ := F
      dsimp only at f1 f2 f3 f4 f5 f6 f7 f8 ⊢
      have hb1 := f1.1
      have hb2 := f1.2
      rw [Holds_bind, Arr.wr_ok _ _ (by omega) (by omega), Holds_ok, Holds_bind, Arr.wr_ok _ _ (by simp only [Arr.set_lo]; omega) (by simp only [Arr.set_hi]; omega), Holds_ok, Holds_pure]
      have hfun : ((s.mate.set b v).set v b).get = put2 s.mate.get v b := by
        funext x
        simp only [Arr.set_get, put2]
      have hmb : s.mate.get b < 0 := by
        by_cases e : b = v
        · rw [e]; omega
        · exact f3 e
      obtain ⟨P', hc'⟩ := P.put V hv f1 (by omega) hmb f2 f8
      have hmn : ∀ x, 0 ≤ s.mate.get x → put2 s.mate.get v b x = s.mate.get x := by
        intro x hx
        unfold put2
        rw [if_neg (by intro e; subst e; omega), if_neg (by intro e; subst e; omega)]
      have hbase := V.base
      unfold Ix at f6
      refine ⟨⟨⟨by simp only [Arr.set_lo]; omega, by simp only [Arr.set_hi]; omega⟩, by rw [hfun]; exact P', ?_, ?_, ?_, ?_, ?_, ?_, ?_, ?_, ?_⟩, rfl, ?_⟩
      · dsimp only; rcases hd with e | e <;> subst e <;> omega
      · dsimp only; omega
      · dsimp only; rcases hd with e | e <;> subst e <;> omega
      · unfold Ix; dsimp only; rcases hd with e | e <;> subst e <;> omega
      · unfold Ix; dsimp only; rcases hd with e | e <;> subst e <;> omega
      · unfold Ix; dsimp only; rcases hd with e | e <;> subst e <;> omega
      · intro x hx
        have := hmono x hx
        rw [hfun, hmn x (by omega), this]
      · intro i a b' c
        dsimp only at c ⊢
        rw [hfun]
        have hc0 : Ix dlt s.qnum i := by unfold Ix at c ⊢; rcases hd with e | e <;> subst e <;> omega
        rcases hseen i a b' hc0 with h | h
        · by_cases hi : i = s.qnum
          · subst hi; rw [hvv]; right; unfold put2; rw [if_pos rfl]; omega
          · by_cases hin : i < nnd'
            · left
              unfold Ix at hc0
              rcases hd with e | e <;> subst e <;> omega
            · right
              rcases f7 i (by omega) h.2 hc0 with h' | h' | h'
              · rw [hmn _ h']; exact h'
              · rw [hmn _ h']; exact h'
              · rw [h']; unfold put2
                by_cases e : b = v
                · rw [if_pos e]; omega
                · rw [if_neg e, if_pos rfl]; omega
        · right; rw [hmn _ h]; exact h
      · dsimp only
        rw [hfun, hc']; omega
      · dsimp only; rcases hd with e | e <;> subst e <;> omega
  · rw [if_neg hlt, Holds_pure]
    exact ⟨⟨hcov, P, q1, q2, q3, hix, hixn, hix0, hmono, hseen, hcnt⟩, by omega⟩

/-- The sequential scan, from any partial matching. -/
theorem scanSeq_holds {E : Env} (V : Valid E) {mate queue : Arr Int} {dlt n cnt : Int} (hd : dlt = 1 ∨ dlt = 2) (hn : 0 ≤ n) (hcov : Covers E.g mate) (P : Part E mate.get)
    (hlo : queue.lo ≤ dlt / 2) (hhi : dlt / 2 + n * dlt - dlt < queue.hi) (hvert : ∀ k, 0 ≤ k → k < n → E.g.Vertex (queue.get (dlt / 2 + k * dlt))) :
    Holds (scanSeq E mate queue dlt n cnt) (fun r => Covers E.g r.1 ∧ Part E r.1.get ∧ (∀ x, 0 ≤ mate.get x → r.1.get x = mate.get x) ∧
      (∀ k, 0 ≤ k → k < n → 0 ≤ r.1.get (queue.get (dlt / 2 + k * dlt))) ∧ r.2 - cntOf E r.1.get = cnt - cntOf E mate.get) := by
  have hQ : QOk E.g queue dlt (dlt / 2) (dlt / 2 + n * dlt) := by
    refine ⟨hd, ?_, hlo, hhi, ?_⟩
    · unfold Ix; rcases hd with e | e <;> subst e <;> omega
    · intro i a b c
      unfold Ix at c
      rcases hd with e | e
      · subst e
        have := hvert i (by omega) (by omega)
        simpa using this
      · subst e
        have := hvert (i / 2) (by omega) (by omega)
        have e : (2 : Int) / 2 + i / 2 * 2 = i := by omega
        rwa [e] at this
  unfold scanSeq
  rw [Holds_bind]
  refine (Holds_loopM (fun s => SInv E queue dlt (dlt / 2 + n * dlt) mate.get cnt s) (fun s => ((dlt / 2 + n * dlt - s.qnum) / dlt).toNat)
    (Q := fun r => SInv E queue dlt (dlt / 2 + n * dlt) mate.get cnt r ∧ r.nnd ≤ r.qnum) ?_ _ _ ?_ ?_).mono ?_
  · intro s I
    refine (seqStep_holds V hQ s I).mono ?_
    intro l hl
    cases l with
    | brk r => exact hl
    | next s' =>
      obtain ⟨h1, h2, h3⟩ := hl
      refine ⟨h1, ?_⟩
      have hx := I.ix
      unfold Ix at hx
      rw [h2]
      rw [h2] at h3
      rcases hd with e | e <;> subst e <;> omega
  · refine ⟨hcov, P, Int.le_refl _, Int.le_refl _, ?_, hQ.ix, hQ.ix, by unfold Ix; simp, fun x _ => rfl, fun i a b c => Or.inl ⟨a, b⟩, rfl⟩
    rcases hd with e | e <;> subst e <;> dsimp only <;> omega
  · rcases hd with e | e <;> subst e <;> dsimp only <;> omega
  · rintro s ⟨I, hend⟩
    rw [Holds_pure]
    refine ⟨I.cov, I.part, I.mono, ?_, I.cnt⟩
    intro k k1 k2
    have hx := I.ix0
    unfold Ix at hx
    rcases I.seen (dlt / 2 + k * dlt) (by rcases hd with e | e <;> subst e <;> omega) (by rcases hd with e | e <;> subst e <;> omega)
      (by unfold Ix; rcases hd with e | e <;> subst e <;> omega) with h | h
    · omega
    · exact h

/-- A partial matching of all vertices is a matching. -/
theorem Part.mating {E : Env} (V : Valid E) {m : Int → Int} (P : Part E m) (h : ∀ v, E.g.Vertex v → 0 ≤ m v) : Mating E m ∧ coarseCount E m = cntOf E m := by
  refine ⟨⟨fun v hv => (P.val v hv (h v hv)).1, fun v hv => (P.val v hv (h v hv)).2.1, fun v hv => (P.val v hv (h v hv)).2.2, ?_⟩, ?_⟩
  · rintro v w hv ha hc ⟨h1, h2⟩
    exact (P.max v w hv ha hc h1).2 h2
  · unfold coarseCount cntOf
    refine sumI_congr fun x h1 h2 => ?_
    have := h x ⟨h1, h2⟩
    simp only [this, true_and]

theorem part_empty (E : Env) (V : Valid E) (m : Int → Int) (h : ∀ x, E.g.Vertex x → m x = -1) : Part E m ∧ cntOf E m = 0 := by
  refine ⟨⟨fun x hx h0 => ?_, fun x y hx _ _ he => ?_⟩, ?_⟩
  · have := h x hx; omega
  · have := h x hx; have := hx.1; have := V.base; omega
  · unfold cntOf
    rw [sumI_congr (g := fun _ => 0) (fun x h1 h2 => by have := h x ⟨h1, h2⟩; rw [if_neg]; omega)]
    have h1 := V.cons.vertnbr
    have h2 := V.cons.vertnnd
    rw [sumI_const (by omega)]
    omega

/-- The queue holds the vertices of the range. -/
structure QueueOf (bas nnd : Int) (q : Arr Int) : Prop where
  lo : q.lo ≤ 0
  hi : 2 * (nnd - bas) ≤ q.hi
  inside : ∀ k, 0 ≤ k → k < nnd - bas → bas ≤ q.get (1 + k * 2) ∧ q.get (1 + k * 2) < nnd
  all : ∀ v, bas ≤ v → v < nnd → ∃ k, 0 ≤ k ∧ k < nnd - bas ∧ q.get (1 + k * 2) = v

theorem queueSort_holds {E : Env} (V : Valid E) (bits : Nat) (junk : Int → Int × Int) {bas nnd : Int} (h1 : E.g.baseval ≤ bas) (h2 : bas ≤ nnd) (h3 : nnd ≤ E.g.vertnnd)
    (hb : nnd - bas < 2 ^ bits) : Holds (queueSort E.g bits junk bas nnd) (QueueOf bas nnd) := by
  have a1 := V.alloc.vlo
  have a2 := V.alloc.vhi
  unfold queueSort
  rw [Holds_bind]
  refine (Holds_forUp (fun v (a : Arr (Int × Int)) => a.lo = 0 ∧ a.hi = nnd - bas ∧ ∀ i, bas ≤ i → i < v → (a.get (i - bas)).2 = i) h2 ⟨rfl, rfl, fun i x y => by omega⟩ ?_ (fun a h => h)).mono ?_
  · rintro v a x y ⟨b1, b2, b3⟩
    have hv : E.g.Vertex v := ⟨by omega, by omega⟩
    rw [Holds_bind, rdVend_holds V.alloc hv, Holds_ok, Holds_bind, Arr.rd_ok _ (by omega) (by omega), Holds_ok, Arr.wr_ok _ _ (by omega) (by omega), Holds_ok]
    refine ⟨b1, b2, fun i c1 c2 => ?_⟩
    by_cases hi : i = v
    · subst hi; rw [Arr.set_get_same]
    · rw [Arr.set_get_ne _ _ (by omega)]; exact b3 i c1 (by omega)
  · rintro a ⟨b1, b2, b3⟩
    rw [Holds_bind]
    refine (Sorting.psort_holds strictWeak_lt2asc1 a (nnd - bas) bits 3 hb (by omega) (by omega)).mono ?_
    rintro r ⟨⟨hl, hh, f, hf1, hf2⟩, -⟩
    rw [Holds_pure]
    have hin : ∀ i, 0 ≤ i → i < nnd - bas → 0 ≤ f i ∧ f i < nnd - bas := by
      intro i c1 c2
      apply Classical.byContradiction
      intro hn
      have h := hf1 (f i) (by omega)
      have := f.injective h
      omega
    have hget : ∀ k, 0 ≤ k → k < nnd - bas → (r.get k).2 = bas + f k := by
      intro k c1 c2
      have := hin k c1 c2
      rw [hf2 k]
      have := b3 (bas + f k) (by omega) (by omega)
      rwa [show bas + f k - bas = f k by omega] at this
    have e2 : ∀ k : Int, (if (1 + k * 2) % 2 = 0 then (r.get ((1 + k * 2) / 2)).1 else (r.get ((1 + k * 2) / 2)).2) = (r.get k).2 := by
      intro k
      rw [if_neg (by omega), show (1 + k * 2) / 2 = k by omega]
    refine ⟨Int.le_refl _, Int.le_refl _, ?_, ?_⟩
    · intro k c1 c2
      dsimp only
      rw [e2, hget k c1 c2]
      have := hin k c1 c2
      omega
    · intro v c1 c2
      have hs : f (f.symm (v - bas)) = v - bas := f.apply_symm_apply _
      have hk : 0 ≤ f.symm (v - bas) ∧ f.symm (v - bas) < nnd - bas := by
        apply Classical.byContradiction
        intro hn
        have h := hf1 (f.symm (v - bas)) (by omega)
        omega
      refine ⟨f.symm (v - bas), hk.1, hk.2, ?_⟩
      dsimp only
      rw [e2, hget _ hk.1 hk.2]
      omega

theorem matchSeq_holds {E : Env} (V : Valid E) (bits : Nat) (junk : Int → Int × Int) (hb : E.g.vertnbr < 2 ^ bits) :
    Holds (matchSeq E bits junk) (fun r => Covers E.g r.1 ∧ Mating E r.1.get ∧ r.2 = coarseCount E r.1.get) := by
  have h1 := V.cons.vertnbr
  have h2 := V.cons.vertnnd
  unfold matchSeq
  dsimp only
  rw [Holds_bind]
  refine (queueSort_holds V bits junk (Int.le_refl _) (by omega) (Int.le_refl _) (by omega)).mono ?_
  intro queue Q
  obtain ⟨p1, p2⟩ := part_empty E V (Arr.const E.g.baseval E.g.vertnnd (-1)).get (fun x _ => rfl)
  have hvn : E.g.vertnnd - E.g.baseval = E.g.vertnbr := by omega
  have q1 := Q.lo
  have q2 := Q.hi
  refine (scanSeq_holds V (cnt := 0) (Or.inr rfl) h1 ⟨Int.le_refl _, Int.le_refl _⟩ p1 (by omega) (by omega) ?_).mono ?_
  · intro k c1 c2
    exact Q.inside k c1 (by omega)
  · rintro ⟨mate, cnt⟩ ⟨c1, c2, c3, c4, c5⟩
    dsimp only at c1 c2 c3 c4 c5 ⊢
    have hall : ∀ v, E.g.Vertex v → 0 ≤ mate.get v := by
      intro v hv
      obtain ⟨k, k1, k2, k3⟩ := Q.all v hv.1 hv.2
      rw [← k3]
      exact c4 k k1 (by omega)
    obtain ⟨m1, m2⟩ := c2.mating V hall
    exact ⟨c1, m1, by omega⟩

end Scotch.Match
