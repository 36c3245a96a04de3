import Verif.Dist.FoldFin

set_option autoImplicit false
set_option linter.unusedSimpArgs false

namespace Scotch.Fold

section
variable {f : FoldIn} {me cm : Int} {L : List Move}

/-- Invariant of the loop that computes shifts. -/
structure SI (f : FoldIn) (cm : Int) (L : List Move) (t : Tables) (k : Int) (s : Shift) : Prop where
  kk : k = s.fldprocnum * (cm + 1) + s.commnum
  r0 : 0 ≤ s.fldprocnum
  r1 : s.fldprocnum < f.procfldnbr
  c0 : 0 ≤ s.commnum
  c1 : s.commnum ≤ cm + 1
  loc : s.fldvertlocnbr = FoldIn.size ((f.pieces L (f.procrcvbas + s.fldprocnum)).take s.commnum.toNat)
  sum : s.vertadjsum = f.start L (f.procrcvbas + s.fldprocnum) s.commnum.toNat
  plo : s.fldproccnttab.lo = 0
  phi : s.fldproccnttab.hi = f.procfldnbr
  cnt : ∀ r, 0 ≤ r → r < s.fldprocnum → s.fldproccnttab.get r = FoldIn.size (f.pieces L (f.procrcvbas + r))
  dlo : s.vertdlttab.lo = 0
  dhi : s.vertdlttab.hi = (cm + 1) * f.procglbnbr
  don : ∀ q, f.Rcv q → ∀ (o : Nat) pc, (f.pieces L q)[o]? = some pc → (q - f.procrcvbas) * (cm + 1) + o < k →
    s.vertdlttab.get (t.slotsndtax.get (q * (cm + 1) + o)) = f.start L q o - pc.1
  und : ∀ q, f.Rcv q → ∀ (o : Nat) pc, (f.pieces L q)[o]? = some pc → k ≤ (q - f.procrcvbas) * (cm + 1) + o →
    s.vertdlttab.get (t.slotsndtax.get (q * (cm + 1) + o)) = pc.2

theorem size_take_all {l : List (Int × Int)} {n : Nat} (h : l.length ≤ n) : FoldIn.size (l.take n) = FoldIn.size l := by
  rw [List.take_of_length_le h]

theorem shiftStep_holds (hf : f.Ok) (hcm : 0 ≤ cm) {t : Tables} (ht : Tab f cm L t) {k : Int} (k0 : 0 ≤ k) (k1 : k < (cm + 1) * f.procfldnbr) {s : Shift}
    (h : SI f cm L t k s) : Holds (shiftStep t (cm + 1) f.procrcvbas k s) (SI f cm L t (k + 1)) := by
  obtain ⟨q1, q2, q3, q4, q5, q6⟩ := hf.ranges
  unfold shiftStep
  rw [Holds_bind]
  have hn : Holds (if s.commnum = cm + 1 then do
      let cnt ← s.fldproccnttab.wr s.fldprocnum s.fldvertlocnbr
      return { s with fldproccnttab := cnt, fldprocnum := s.fldprocnum + 1, fldvertlocnbr := 0, commnum := 0 }
    else return s) (fun s' => SI f cm L t k s' ∧ s'.commnum < cm + 1) := by
    rw [Holds_ite]
    refine ⟨fun hc => ?_, fun hc => ?_⟩
    · have hp := h.plo
      have hp' := h.phi
      have r0 := h.r0
      have r1 := h.r1
      have kk := h.kk
      rw [Arr.wr_ok _ _ (by omega) (by omega), ok_bind, Holds_pure]
      have e1 : k = (s.fldprocnum + 1) * (cm + 1) := by rw [Int.add_mul, Int.one_mul]; omega
      have e2 : s.fldprocnum + 1 < f.procfldnbr := by
        rw [e1, Int.mul_comm (cm + 1)] at k1
        exact Int.lt_of_mul_lt_mul_right k1 (by omega)
      have hrc : f.Rcv (f.procrcvbas + s.fldprocnum) := ⟨by omega, by omega⟩
      have hl := ht.len _ hrc
      have hloc : s.fldvertlocnbr = FoldIn.size (f.pieces L (f.procrcvbas + s.fldprocnum)) := by
        rw [h.loc, size_take_all (by omega)]
      refine ⟨{ kk := by dsimp only; omega, r0 := by dsimp only; omega, r1 := e2, c0 := Int.le_refl _, c1 := by dsimp only; omega, loc := ?_, sum := ?_, plo := hp, phi := hp', cnt := ?_, dlo := h.dlo, dhi := h.dhi, don := h.don, und := h.und }, by dsimp only; omega⟩
      · rfl
      · dsimp only
        rw [h.sum]
        unfold FoldIn.start
        rw [size_take_all (by omega : (f.pieces L (f.procrcvbas + s.fldprocnum)).length ≤ s.commnum.toNat)]
        rw [show f.procrcvbas + (s.fldprocnum + 1) = f.procrcvbas + s.fldprocnum + 1 by omega, sumI_succ (by omega)]
        simp [size_nil]
        omega
      · intro r a0 a1
        dsimp only at a1 ⊢
        by_cases e : r = s.fldprocnum
        · subst e
          rw [Arr.set_get_same, hloc]
        · rw [Arr.set_get_ne _ _ e]
          exact h.cnt r a0 (by omega)
    · rw [Holds_pure]
      exact ⟨h, by have := h.c1; omega⟩
  refine hn.mono ?_
  rintro s1 ⟨h1, hc⟩
  clear h hn
  have r0 := h1.r0
  have r1 := h1.r1
  have kk := h1.kk
  have c0 := h1.c0
  have hslo := ht.slo
  have hshi := ht.shi
  have hrc : f.Rcv (f.procrcvbas + s1.fldprocnum) := ⟨by omega, by omega⟩
  have es : f.procrcvbas * (cm + 1) + k = (f.procrcvbas + s1.fldprocnum) * (cm + 1) + (s1.commnum.toNat : Int) := by
    rw [Int.add_mul]; omega
  have hu : ∀ q, f.Rcv q → ∀ o : Nat, o < (f.pieces L q).length → (q - f.procrcvbas) * (cm + 1) + o = k → q = f.procrcvbas + s1.fldprocnum ∧ (o : Int) = s1.commnum := by
    intro q hq o ho e
    rw [kk] at e
    have := ht.len q hq
    have := mul_add_inj e (by omega) (by omega) c0 hc
    omega
  rw [Arr.rd_ok _ (by omega) (by omega), ok_bind, es, Holds_ite]
  have nx : (s1.commnum + 1).toNat = s1.commnum.toNat + 1 := by omega
  refine ⟨fun hm => ?_, fun hm => ?_⟩
  · rw [Holds_pure]
    have hl : (f.pieces L (f.procrcvbas + s1.fldprocnum)).length ≤ s1.commnum.toNat := by
      refine Classical.byContradiction fun hlt => ?_
      obtain ⟨pc, hpc⟩ : ∃ pc, (f.pieces L (f.procrcvbas + s1.fldprocnum))[s1.commnum.toNat]? = some pc := ⟨_, List.getElem?_eq_getElem (by omega)⟩
      have := ht.inn _ hrc _ pc hpc
      omega
    refine { kk := by dsimp only; omega, r0 := r0, r1 := r1, c0 := by dsimp only; omega, c1 := by dsimp only; omega, loc := ?_, sum := ?_, plo := h1.plo, phi := h1.phi, cnt := h1.cnt, dlo := h1.dlo, dhi := h1.dhi, don := ?_, und := ?_ }
    · dsimp only
      rw [h1.loc, size_take_all hl, size_take_all (by omega)]
    · dsimp only
      rw [h1.sum]
      unfold FoldIn.start
      rw [size_take_all hl, size_take_all (by omega)]
    · intro q hq o pc hpc hk
      have ho := (List.getElem?_eq_some_iff.1 hpc).1
      refine h1.don q hq o pc hpc ?_
      refine Classical.byContradiction fun hlt => ?_
      obtain ⟨e1, e2⟩ := hu q hq o ho (by omega)
      rw [e1] at ho
      omega
    · exact fun q hq o pc hpc hk => h1.und q hq o pc hpc (by omega)
  · have hl : s1.commnum.toNat < (f.pieces L (f.procrcvbas + s1.fldprocnum)).length := by
      refine Classical.byContradiction fun hlt => hm ?_
      exact ht.out _ hrc _ (by omega) (by omega)
    obtain ⟨pc, hpc⟩ : ∃ pc, (f.pieces L (f.procrcvbas + s1.fldprocnum))[s1.commnum.toNat]? = some pc := ⟨_, List.getElem?_eq_getElem hl⟩
    obtain ⟨i1, i2, i3, i4, i5⟩ := ht.inn _ hrc _ pc hpc
    have d1 := h1.dlo
    have d2 := h1.dhi
    have a1 := ht.alo
    have a2 := ht.ahi
    have hnum := h1.und _ hrc _ pc hpc (by rw [show f.procrcvbas + s1.fldprocnum - f.procrcvbas = s1.fldprocnum by omega]; omega)
    rw [Arr.rd_ok _ (by omega) (by omega), ok_bind, Arr.rd_ok _ (by omega) (by omega), ok_bind, Arr.wr_ok _ _ (by omega) (by omega), ok_bind, Holds_pure, hnum, i3]
    refine { kk := by dsimp only; omega, r0 := r0, r1 := r1, c0 := by dsimp only; omega, c1 := by dsimp only; omega, loc := ?_, sum := ?_, plo := h1.plo, phi := h1.phi, cnt := h1.cnt, dlo := d1, dhi := d2, don := ?_, und := ?_ }
    · dsimp only
      rw [h1.loc, nx, size_take_succ hpc]
    · dsimp only
      rw [h1.sum]
      unfold FoldIn.start
      rw [nx, size_take_succ hpc]
      omega
    · intro q hq o pc' hpc' hk
      have ho := (List.getElem?_eq_some_iff.1 hpc').1
      dsimp only
      by_cases e : (q - f.procrcvbas) * (cm + 1) + o = k
      · obtain ⟨e1, e2⟩ := hu q hq o ho e
        have e3 : o = s1.commnum.toNat := by omega
        subst e1 e3
        rw [Arr.set_get_same, h1.sum]
        rw [hpc] at hpc'
        rw [Option.some.inj hpc']
      · rw [Arr.set_get_ne]
        · exact h1.don q hq o pc' hpc' (by omega)
        · intro hh
          obtain ⟨e1, e2⟩ := ht.inj _ _ _ _ hq hrc ho hl hh
          apply e
          rw [e1, e2, kk, show f.procrcvbas + s1.fldprocnum - f.procrcvbas = s1.fldprocnum by omega]
          omega
    · intro q hq o pc' hpc' hk
      have ho := (List.getElem?_eq_some_iff.1 hpc').1
      dsimp only
      rw [Arr.set_get_ne]
      · exact h1.und q hq o pc' hpc' (by omega)
      · intro hh
        obtain ⟨e1, e2⟩ := ht.inj _ _ _ _ hq hrc ho hl hh
        rw [e1, e2, show f.procrcvbas + s1.fldprocnum - f.procrcvbas = s1.fldprocnum by omega] at hk
        omega

/-- Invariant of the loop that packs the tables. -/
structure PI (A D : Arr Int) (N s0 k : Int) (st : Int × Arr Int × Arr Int) : Prop where
  n0 : 0 ≤ st.1
  nk : st.1 + (if s0 < k then 1 else 0) ≤ k
  alo : st.2.1.lo = 0
  ahi : st.2.1.hi = N
  dlo : st.2.2.lo = 0
  dhi : st.2.2.hi = N
  rest : ∀ s, k ≤ s → st.2.1.get s = A.get s ∧ st.2.2.get s = D.get s
  ex : ∃ g : Int → Int, (∀ i, 0 ≤ i → i < st.1 → 0 ≤ g i ∧ g i < k ∧ A.get (g i) ≠ -1 ∧ st.2.1.get i = A.get (g i) ∧ st.2.2.get i = D.get (g i)) ∧
    (∀ i j, 0 ≤ i → i < j → j < st.1 → g i < g j) ∧ ∀ s, 0 ≤ s → s < k → A.get s ≠ -1 → ∃ i, 0 ≤ i ∧ i < st.1 ∧ g i = s

theorem pack_holds {A D : Arr Int} {N s0 : Int} (hA : A.lo = 0) (hA' : A.hi = N) (hD : D.lo = 0) (hD' : D.hi = N) (h0 : 0 ≤ s0) (h1 : s0 < N) (hs : A.get s0 = -1) :
    Holds (forUp 0 N ((0, A, D) : Int × Arr Int × Arr Int) packStep) (PI A D N s0 N) := by
  refine Holds_forUp (fun k st => PI A D N s0 k st) (by omega) ?_ ?_ (fun _ h => h)
  · refine ⟨Int.le_refl _, by rw [if_neg (by omega)]; simp, hA, hA', hD, hD', fun _ _ => ⟨rfl, rfl⟩, fun i => i, fun i i0 i1 => ?_, fun i j _ _ j1 => ?_, fun s _ _ => by omega⟩
    · dsimp only at i1; omega
    · dsimp only at j1; omega
  · rintro k ⟨n, B, E⟩ k0 k1 h
    have a1 := h.alo
    have a2 := h.ahi
    have d1 := h.dlo
    have d2 := h.dhi
    have n0 := h.n0
    have nk := h.nk
    obtain ⟨g, g1, g2, g3⟩ := h.ex
    dsimp only at a1 a2 d1 d2 n0 nk g1 g2 g3
    obtain ⟨e1, e2⟩ := h.rest k (Int.le_refl _)
    dsimp only at e1 e2
    unfold packStep
    dsimp only
    rw [Arr.rd_ok _ (by omega) (by omega), ok_bind, e1, Holds_ite]
    refine ⟨fun hu => ?_, fun hu => ?_⟩
    · have hne : s0 ≠ k := fun e => hu (e ▸ hs)
      have nk' : n ≤ k := by split at nk <;> omega
      rw [Arr.wr_ok _ _ (by omega) (by omega), ok_bind, Arr.rd_ok _ (by omega) (by omega), ok_bind, Arr.wr_ok _ _ (by omega) (by omega), ok_bind, Holds_pure]
      refine ⟨by dsimp only; omega, ?_, a1, a2, d1, d2, ?_, fun i => if i = n then k else g i, ?_, ?_, ?_⟩
      · dsimp only
        by_cases c : s0 < k
        · rw [if_pos c] at nk; rw [if_pos (by omega)]; omega
        · rw [if_neg c] at nk; rw [if_neg (by omega)]; omega
      · intro s hk
        dsimp only
        rw [Arr.set_get_ne _ _ (by omega), Arr.set_get_ne _ _ (by omega)]
        exact h.rest s (by omega)
      · intro i i0 i1
        dsimp only at i1 ⊢
        by_cases e : i = n
        · subst e
          rw [if_pos rfl, Arr.set_get_same, Arr.set_get_same]
          exact ⟨k0, by omega, hu, rfl, e2⟩
        · rw [if_neg e, Arr.set_get_ne _ _ e, Arr.set_get_ne _ _ e]
          have := g1 i i0 (by omega)
          exact ⟨this.1, by omega, this.2.2⟩
      · intro i j i0 ij j1
        dsimp only at j1 ⊢
        rw [if_neg (by omega : ¬ i = n)]
        by_cases e : j = n
        · rw [if_pos e]
          exact (g1 i i0 (by omega)).2.1
        · rw [if_neg e]
          exact g2 i j i0 ij (by omega)
      · intro s s1 s2 hsu
        dsimp only
        by_cases e : s = k
        · exact ⟨n, n0, by omega, by rw [if_pos rfl]; exact e.symm⟩
        · obtain ⟨i, i0, i1, i2⟩ := g3 s s1 (by omega) hsu
          exact ⟨i, i0, by omega, by rw [if_neg (by omega)]; exact i2⟩
    · rw [Holds_pure]
      refine ⟨n0, ?_, a1, a2, d1, d2, fun s hk => h.rest s (by omega), g, ?_, g2, ?_⟩
      · dsimp only
        by_cases c : s0 < k
        · rw [if_pos c] at nk; rw [if_pos (by omega)]; omega
        · rw [if_neg c] at nk
          split <;> omega
      · intro i i0 i1
        have := g1 i i0 i1
        exact ⟨this.1, by omega, this.2.2⟩
      · intro s s1 s2 hsu
        by_cases e : s = k
        · subst e; exact absurd hsu hu
        · exact g3 s s1 (by omega) hsu

/-- What a receiver knows in the end. -/
structure Fin (f : FoldIn) (L : List Move) (o : FoldOut) : Prop where
  cnt : ∀ q, f.Rcv q → o.fldproccnttab.get (q - f.procrcvbas) = FoldIn.size (f.pieces L q)
  n0 : 0 ≤ o.vertadjnbr
  alo : o.vertadjtab.lo = 0
  ahi : o.vertadjnbr < o.vertadjtab.hi
  dlo : o.vertdlttab.lo = 0
  dhi : o.vertadjnbr ≤ o.vertdlttab.hi
  asc : ∀ i j, 0 ≤ i → i < j → j ≤ o.vertadjnbr → o.vertadjtab.get i ≤ o.vertadjtab.get j
  pcs : ∀ q, f.Rcv q → ∀ (k : Nat) pc, (f.pieces L q)[k]? = some pc → ∃ i, 0 ≤ i ∧ i < o.vertadjnbr ∧
    o.vertadjtab.get i = pc.1 ∧ o.vertdlttab.get i = f.start L q k - pc.1 ∧ pc.1 + pc.2 ≤ o.vertadjtab.get (i + 1)

theorem foldFinish_holds (hf : f.Ok) (hcm : 0 ≤ cm) {t : Tables} (ht : Tab f cm L t) (j3 : Int → Int) :
    Holds (foldFinish f cm t j3) (fun o => o.tables = t ∧ Fin f L o) := by
  obtain ⟨q1, q2, q3, q4, q5, q6⟩ := hf.ranges
  have hv1 := hf.vlo
  have hv2 := hf.vhi
  unfold foldFinish
  dsimp only
  rw [Holds_bind]
  have hF : 0 ≤ (cm + 1) * f.procfldnbr := Int.mul_nonneg (by omega) (by omega)
  refine Holds_forUp (fun k s => SI f cm L t k s) hF ?_ (fun k s k0 k1 h => shiftStep_holds hf hcm ht k0 k1 h) ?_
  · refine { kk := by simp, r0 := Int.le_refl _, r1 := by dsimp only; omega, c0 := Int.le_refl _, c1 := by dsimp only; omega, loc := rfl, sum := ?_, plo := rfl, phi := rfl, cnt := fun r a b => ?_, dlo := ht.dlo, dhi := ht.dhi, don := ?_, und := ?_ }
    · unfold FoldIn.start
      dsimp only
      rw [Int.add_zero, sumI_empty (Int.le_refl _)]
      simp [size_nil]
    · dsimp only at b; omega
    · intro q hq o pc _ hk
      have := Int.mul_nonneg (show 0 ≤ q - f.procrcvbas by unfold FoldIn.Rcv at hq; omega) (show 0 ≤ cm + 1 by omega)
      omega
    · exact fun q hq o pc hpc _ => (ht.inn q hq o pc hpc).2.2.2.1
  · intro s hs
    have r0 := hs.r0
    have r1 := hs.r1
    have c0 := hs.c0
    have c1 := hs.c1
    have kk := hs.kk
    have hp := hs.plo
    have hp' := hs.phi
    have hlast : s.fldprocnum = f.procfldnbr - 1 ∧ s.commnum = cm + 1 := by
      have e : (s.fldprocnum + 1) * (cm + 1) ≤ f.procfldnbr * (cm + 1) := Int.mul_le_mul_of_nonneg_right (by omega) (by omega)
      have e1 : s.fldprocnum + 1 = f.procfldnbr := by
        refine Classical.byContradiction fun hne => ?_
        have h3 : (s.fldprocnum + 1 + 1) * (cm + 1) ≤ f.procfldnbr * (cm + 1) := Int.mul_le_mul_of_nonneg_right (by omega) (by omega)
        rw [Int.add_mul, Int.add_mul, Int.one_mul] at h3
        rw [Int.mul_comm (cm + 1)] at kk
        omega
      refine ⟨by omega, ?_⟩
      rw [← e1, Int.mul_comm, Int.add_mul, Int.one_mul] at kk
      omega
    rw [Arr.wr_ok _ _ (by omega) (by omega), ok_bind, Holds_bind]
    obtain ⟨s0, z0, z1, z2⟩ := ht.free
    refine (pack_holds ht.alo ht.ahi hs.dlo hs.dhi z0 z1 z2).mono ?_
    rintro ⟨n, A, D⟩ hpk
    have n0 := hpk.n0
    have nk := hpk.nk
    have a1 := hpk.alo
    have a2 := hpk.ahi
    have d1 := hpk.dlo
    have d2 := hpk.dhi
    obtain ⟨g, g1, g2, g3⟩ := hpk.ex
    dsimp only at a1 a2 d1 d2 n0 nk g1 g2 g3 ⊢
    rw [if_pos z1] at nk
    rw [Arr.rd_ok _ (by omega) (by omega), ok_bind, Arr.wr_ok _ _ (by omega) (by omega), ok_bind, Holds_pure]
    refine ⟨rfl, { cnt := ?_, n0 := n0, alo := a1, ahi := by dsimp only; rw [Arr.set_hi]; omega, dlo := d1, dhi := by dsimp only; omega, asc := ?_, pcs := ?_ }⟩
    · intro q hq
      dsimp only
      have hq' := hq
      unfold FoldIn.Rcv at hq'
      have hl := ht.len q hq
      by_cases e : q - f.procrcvbas = s.fldprocnum
      · rw [e, Arr.set_get_same, hs.loc, show f.procrcvbas + s.fldprocnum = q by omega, size_take_all (by omega)]
      · rw [Arr.set_get_ne _ _ e, hs.cnt _ (by omega) (by omega), show f.procrcvbas + (q - f.procrcvbas) = q by omega]
    · intro i j i0 ij jn
      dsimp only at jn ⊢
      rw [Arr.set_get_ne _ _ (by omega)]
      have gi := g1 i i0 (by omega)
      by_cases e : j = n
      · subst e
        rw [Arr.set_get_same, gi.2.2.2.1]
        have h3 := ht.last (g i) gi.1 gi.2.1 gi.2.2.1
        unfold FoldIn.vrt at h3
        omega
      · rw [Arr.set_get_ne _ _ e, gi.2.2.2.1]
        have gj := g1 j (by omega) (by omega)
        rw [gj.2.2.2.1]
        have := ht.asc (g i) (g j) gi.1 (g2 i j i0 ij (by omega)) gj.2.1 gi.2.2.1 gj.2.2.1
        omega
    · intro q hq k pc hpc
      obtain ⟨i1, i2, i3, i4, i5⟩ := ht.inn q hq k pc hpc
      have hu : t.vertadjtab.get (t.slotsndtax.get (q * (cm + 1) + k)) ≠ -1 := by omega
      obtain ⟨i, e0, e1, e2⟩ := g3 _ i1 i2 hu
      have gi := g1 i e0 e1
      dsimp only
      refine ⟨i, e0, e1, ?_, ?_, ?_⟩
      · rw [Arr.set_get_ne _ _ (by omega), gi.2.2.2.1, e2, i3]
      · rw [gi.2.2.2.2, e2]
        refine hs.don q hq k pc hpc ?_
        have hl := ht.len q hq
        have ho := (List.getElem?_eq_some_iff.1 hpc).1
        have := rcv_slot (cm := cm) (o := k) hf hq (by omega) (by omega)
        rw [Int.sub_mul]
        omega
      · by_cases e : i + 1 = n
        · rw [e, Arr.set_get_same]
          have := (ht.last _ i1 i2 hu).1
          rw [i3, i4] at this
          exact this
        · rw [Arr.set_get_ne _ _ e]
          have gj := g1 (i + 1) (by omega) (by omega)
          rw [gj.2.2.2.1]
          have hlt := g2 i (i + 1) e0 (by omega) (by omega)
          have := (ht.asc (g i) (g (i + 1)) gi.1 hlt gj.2.1 gi.2.2.1 gj.2.2.1).1
          rw [e2, i3, i4] at this
          exact this

/-- The search gives the new number of a vertex. -/
theorem renum_holds {o : FoldOut} (h : Fin f L o) {q : Int} (hq : f.Rcv q) {k : Nat} {pc : Int × Int} (hpc : (f.pieces L q)[k]? = some pc)
    {v : Int} (v0 : pc.1 ≤ v) (v1 : v < pc.1 + pc.2) : Holds (renum o v) (fun w => w = f.start L q k + (v - pc.1)) := by
  obtain ⟨i, i0, i1, i2, i3, i4⟩ := h.pcs q hq k pc hpc
  have a1 := h.alo
  have a2 := h.ahi
  have d1 := h.dlo
  have d2 := h.dhi
  unfold renum
  rw [Holds_bind]
  have hasc : ∀ i j, 0 ≤ i → i ≤ j → j ≤ o.vertadjnbr → o.vertadjtab.get i ≤ o.vertadjtab.get j := by
    intro i j b0 b1 b2
    by_cases e : i = j
    · subst e; exact Int.le_refl _
    · exact h.asc i j b0 (by omega) b2
  refine (Holds_loopM (fun s : Int × Int => 0 ≤ s.1 ∧ s.1 < s.2 ∧ s.2 ≤ o.vertadjnbr ∧ o.vertadjtab.get s.1 ≤ v ∧ v < o.vertadjtab.get s.2)
    (fun s => (s.2 - s.1).toNat) (Q := fun r => r = i) ?_ _ _ ⟨Int.le_refl _, by dsimp only; omega, Int.le_refl _, ?_, ?_⟩ (by dsimp only; omega)).mono ?_
  · rintro ⟨lo, hi⟩ ⟨b0, b1, b2, b3, b4⟩
    dsimp only at b0 b1 b2 b3 b4 ⊢
    rw [Holds_ite]
    refine ⟨fun hc => ?_, fun hc => ?_⟩
    · rw [Holds_pure]
      show lo = i
      by_cases c1 : lo < i
      · have := hasc hi i (by omega) (by omega) (by omega)
        omega
      · by_cases c2 : i < lo
        · have := hasc (i + 1) lo (by omega) (by omega) (by omega)
          omega
        · omega
    · rw [Arr.rd_ok _ (by omega) (by omega), ok_bind, Holds_ite]
      refine ⟨fun hm => ?_, fun hm => ?_⟩
      · rw [Holds_pure]
        exact ⟨⟨by dsimp only; omega, by dsimp only; omega, b2, hm, b4⟩, by dsimp only; omega⟩
      · rw [Holds_pure]
        exact ⟨⟨b0, by dsimp only; omega, by dsimp only; omega, b3, by dsimp only; omega⟩, by dsimp only; omega⟩
  · dsimp only
    have := hasc 0 i (Int.le_refl _) i0 (by omega)
    omega
  · dsimp only
    have := hasc (i + 1) o.vertadjnbr (by omega) (by omega) (Int.le_refl _)
    omega
  · rintro r rfl
    rw [Arr.rd_ok _ (by omega) (by omega), ok_bind, Holds_pure, i3]
    omega

end

end Scotch.Fold
