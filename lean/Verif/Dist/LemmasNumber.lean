import Verif.Dist.LemmasGhost

/-! # Distributed graphs: ghost data of a process -/

set_option autoImplicit false
set_option linter.unusedSimpArgs false

namespace Scotch.Dist
open Local

theorem ghstOuter_holds {L : Local} (hL : L.Ok) {snd : Arr Int} {r : Arr (Int × Int)} {n : Int} {g0 : Arr Int} {s : Ghst2} {W : List Int} (hr : Sorted L r n)
    (hg : ∀ j, 0 ≤ j → j < n → g0.lo ≤ (r.get j).2 ∧ (r.get j).2 < g0.hi) (hsl : snd.lo = 0 ∧ snd.hi = L.procglbnbr)
    (hsnd : ∀ q, 0 ≤ q → q < L.procglbnbr → snd.get q ≠ 0 → ∃ j, 0 ≤ j ∧ j < n ∧ Own L.procvrttab L.procglbnbr q (r.get j).1)
    (hI : Outer L snd r n g0 s W) :
    Holds (ghstOuter L snd r n s) (Loop.Sat (fun t => (∃ W', Outer L snd r n g0 t W') ∧ s.procngbnum < t.procngbnum)
      (fun t => ∃ W', Last L snd r n g0 t W')) := by
  have hvl := hL.vlo
  have hvh := hL.vhi
  have hrl := hr.lo
  have hrh := hr.hi
  have j1 := hI.j1
  have j2 := hI.j2
  have p1 := hI.p1
  have p2 := hI.p2
  have hgj := hg s.sortlocnum j1 j2
  have hglo := hI.seen.lo
  have hghi := hI.seen.hi
  have hrng := hr.rng s.sortlocnum j1 j2
  have hlt : ∀ w, w ∈ W → w < (r.get s.sortlocnum).1 := fun w hw => by have := hI.past w hw; have := hI.next; omega
  unfold ghstOuter
  simp only [Holds_bind, Holds_rd, Holds_wr]
  refine ⟨by omega, by omega, ?_⟩
  refine (ghstProc_holds hL p1 p2 hI.next hrng.2 (by omega)).mono ?_
  rintro q ⟨hpq, hq⟩
  obtain ⟨⟨q1, q2⟩, hin⟩ := id hq
  have hnb := hI.blk.nb
  have hn0 := hI.blk.n0
  have hnl := hI.blk.nlo
  have hnh := hI.blk.nhi
  refine ⟨by omega, by omega, ?_⟩
  have hnone : part L.procvrttab W q = [] := by
    refine Classical.byContradiction fun h => ?_
    obtain ⟨w, w1, w2, w3⟩ := part_nil_iff.1 h
    have := hI.past w w1
    have := hL.mono (s.procngbnum + 1) q (by omega) (by omega) (by omega)
    omega
  have hsum : sumI 0 (q + 1) snd.get = sumI 0 (s.procngbnum + 1) snd.get + snd.get q := by
    rw [sumI_succ q1, sumI_split (mid := s.procngbnum + 1) (by omega) (by omega)]
    have : sumI (s.procngbnum + 1) q snd.get = 0 := by
      rw [sumI_congr (g := fun _ => 0) ?_, sumI_const (by omega)]
      · omega
      · intro i i1 i2
        refine Classical.byContradiction fun h => ?_
        obtain ⟨j, b1, b2, _, b3, b4⟩ := hsnd i (by omega) (by omega) h
        by_cases hj : j < s.sortlocnum
        · have := hI.past _ ((hI.seen.mem _).2 ⟨j, b1, hj, rfl⟩)
          have := hL.mono (s.procngbnum + 1) i (by omega) (by omega) (by omega)
          omega
        · have hle : (r.get s.sortlocnum).1 ≤ (r.get j).1 := by
            by_cases hjs : j = s.sortlocnum
            · rw [hjs]
            · exact hr.asc _ _ j1 (by omega) b2
          have := hL.mono (i + 1) q (by omega) (by omega) (by omega)
          omega
    omega
  have hpart : ∀ q', 0 ≤ q' → q' < L.procglbnbr → q' ≠ q → part L.procvrttab (W ++ [(r.get s.sortlocnum).1]) q' = part L.procvrttab W q' := by
    intro q' a1 a2 hne
    rw [part_push, if_neg, List.append_nil]
    intro hq'
    exact hne (Own.unique hL ⟨⟨a1, a2⟩, hq'⟩ hq)
  have hnum := hI.num
  -- state at the beginning of the inner loop
  have hstart : Inner L snd r n g0 { s with edgegsttax := s.edgegsttax.set (r.get s.sortlocnum).2 s.vertgstnum, vertgstbas := s.vertgstnum, procngbnum := q, procsndnbr := s.procsndnbr + snd.get q, procngbtab := s.procngbtab.set s.procngbnbr q, procngbnbr := s.procngbnbr + 1 } (W ++ [(r.get s.sortlocnum).1]) := by
    refine ⟨j1, j2, ?_, ?_, hq, ?_, ?_, ?_⟩
    · dsimp only
      rw [hnum]
      exact hI.seen.fresh hr j1 j2 hlt
    · dsimp only
      rw [List.length_append, List.length_singleton]
      omega
    · dsimp only
      rw [part_push, if_pos hin, hnone, List.length_append]
      simp only [List.nil_append, List.length_singleton]
      omega
    · intro q' a1 a2 hne
      dsimp only at hne ⊢
      rw [hpart q' a1 a2 hne]
      exact hI.rcv q' a1 a2
    · obtain ⟨b1, b2, b3, b4, b5, b6, b7, b8, b9, b10⟩ := hI.blk
      refine ⟨b1, b2, b3, b4, by dsimp only; omega, by dsimp only; omega, ?_, ?_, ?_, ?_⟩
      · intro i j i1 i2 i3
        dsimp only at i3 ⊢
        by_cases hj : j = s.procngbnbr
        · subst hj
          rw [Arr.set_get_same, Arr.set_get_ne _ _ (by omega)]
          have := b8 i i1 i2
          omega
        · rw [Arr.set_get_ne _ _ hj, Arr.set_get_ne _ _ (by omega)]
          exact b7 i j i1 i2 (by omega)
      · intro i i1 i2
        dsimp only at i2 ⊢
        by_cases hj : i = s.procngbnbr
        · subst hj
          rw [Arr.set_get_same]
          omega
        · rw [Arr.set_get_ne _ _ hj]
          have := b8 i i1 (by omega)
          omega
      · intro q' a1 a2
        dsimp only
        by_cases hqq : q' = q
        · subst hqq
          refine ⟨fun _ => ⟨s.procngbnbr, b5, by omega, Arr.set_get_same ..⟩, fun _ => ?_⟩
          exact part_nil_iff.2 ⟨_, by simp, hin⟩
        · rw [hpart q' a1 a2 hqq, b9 q' a1 a2]
          constructor
          · rintro ⟨i, i1, i2, i3⟩
            exact ⟨i, i1, by omega, by rw [Arr.set_get_ne _ _ (by omega)]; exact i3⟩
          · rintro ⟨i, i1, i2, i3⟩
            by_cases hj : i = s.procngbnbr
            · subst hj
              rw [Arr.set_get_same] at i3
              exact absurd i3.symm hqq
            · rw [Arr.set_get_ne _ _ hj] at i3
              exact ⟨i, i1, by omega, i3⟩
      · dsimp only
        rw [b10, hsum]
  refine Holds.mono (Q := fun t => t.procngbnum = q ∧ ((∃ W', Outer L snd r n g0 t W') ∨ (t.sortlocnum = n ∧ ∃ W', Last L snd r n g0 t W'))) ?_ ?_
  · refine Holds_loopM (I := fun t => (∃ W', Inner L snd r n g0 t W') ∧ t.procngbnum = q) (μ := fun t => (n - t.sortlocnum).toNat) ?_ _ _ ⟨⟨_, hstart⟩, rfl⟩ (by dsimp only; omega)
    rintro t ⟨⟨W', hW⟩, ht⟩
    refine (ghstInner_holds hL hr hg hW).mono ?_
    intro l hl
    cases l with
    | next u =>
      rw [Loop.Sat_next] at hl ⊢
      have := hW.j2
      exact ⟨⟨hl.1, by rw [hl.2.1, ht]⟩, by rw [hl.2.2]; omega⟩
    | brk u =>
      rw [Loop.Sat_brk] at hl ⊢
      exact ⟨by rw [hl.1, ht], hl.2⟩
  · rintro t ⟨ht, h⟩
    rw [Holds_ite]
    refine ⟨fun hc => ?_, fun hc => ?_⟩
    · rw [Holds_pure, Loop.Sat_next]
      rcases h with h | ⟨h, _⟩
      · exact ⟨h, by omega⟩
      · omega
    · rw [Holds_pure, Loop.Sat_brk]
      rcases h with ⟨W', h⟩ | ⟨_, h⟩
      · exact absurd h.j2 hc
      · exact h

/-- Ghost data of a process: `W` lists the global numbers of its ghost vertices. -/
structure Numbered (L : Local) (G : Ghost) (W : List Int) : Prop where
  asc : W.Pairwise (· < ·)
  mem : ∀ w, w ∈ W ↔ ∃ u e, L.g.Vertex u ∧ L.g.vert u ≤ e ∧ e < L.g.vend u ∧ L.g.dest e = w ∧ L.Remote w
  loc : ∀ u e, L.g.Vertex u → L.g.vert u ≤ e → e < L.g.vend u → ¬ L.Remote (L.g.dest e) →
    G.edgegsttax.get e = L.g.dest e - (L.procvrttab.get L.proclocnum - L.g.baseval)
  rem : ∀ u e, L.g.Vertex u → L.g.vert u ≤ e → e < L.g.vend u → L.Remote (L.g.dest e) →
    ∃ k, ∃ _ : k < W.length, G.edgegsttax.get e = L.g.vertnnd + k ∧ W[k] = L.g.dest e
  nbr : G.vertgstnbr = L.g.vertnbr + W.length
  rlo : G.procrcvtab.lo = 0
  rhi : G.procrcvtab.hi = L.procglbnbr
  rcv : ∀ q, 0 ≤ q → q < L.procglbnbr → G.procrcvtab.get q = (part L.procvrttab W q).length
  nlo : G.procngbtab.lo ≤ 0
  nhi : L.procglbnbr ≤ G.procngbtab.hi
  n0 : 0 ≤ G.procngbnbr
  nb : G.procngbnbr ≤ L.procglbnbr
  nasc : ∀ i j, 0 ≤ i → i < j → j < G.procngbnbr → G.procngbtab.get i < G.procngbtab.get j
  nrng : ∀ i, 0 ≤ i → i < G.procngbnbr → 0 ≤ G.procngbtab.get i ∧ G.procngbtab.get i < L.procglbnbr
  ngb : ∀ q, 0 ≤ q → q < L.procglbnbr → (part L.procvrttab W q ≠ [] ↔ ∃ i, 0 ≤ i ∧ i < G.procngbnbr ∧ G.procngbtab.get i = q)
  dlo : G.procsndtab.lo = 0 ∧ G.procsndtab.hi = L.procglbnbr
  snd : ∀ q, 0 ≤ q → q < L.procglbnbr → G.procsndtab.get q = (L.sends q L.g.vertnnd).length
  sum : G.procsndnbr = sumI 0 L.procglbnbr G.procsndtab.get
  sid : G.procsidtab.lo = 0 ∧ 0 ≤ G.procsidnbr ∧ G.procsidnbr ≤ G.procsidtab.hi ∧
    (∀ c ∈ decode L.g.baseval (seg G.procsidtab.get 0 G.procsidnbr), 0 ≤ c.2 ∧ c.2 < L.procglbnbr) ∧
    ∀ q, 0 ≤ q → q < L.procglbnbr → pick q (decode L.g.baseval (seg G.procsidtab.get 0 G.procsidnbr)) = L.sends q L.g.vertnnd

theorem mem_sends {L : Local} {q v u : Int} : u ∈ L.sends q v ↔ (L.g.baseval ≤ u ∧ u < v) ∧ L.To u (L.g.vend u) q := by
  unfold Local.sends
  rw [List.mem_filter, mem_seg]
  constructor
  · rintro ⟨⟨i, i1, i2, rfl⟩, h⟩
    exact ⟨⟨i1, i2⟩, by simpa using h⟩
  · rintro ⟨⟨i1, i2⟩, h⟩
    exact ⟨⟨u, i1, i2, rfl⟩, by simpa using h⟩

theorem sent_zero {L : Local} {gl gh : Int} {s : Ghst1} (h : Sent L gl gh s) {q : Int} (q1 : 0 ≤ q) (q2 : q < L.procglbnbr) (hq : s.procsndtab.get q ≠ 0) :
    ∃ j, 0 ≤ j ∧ j < s.sortlocnbr ∧ Own L.procvrttab L.procglbnbr q (s.sortloctab.get j).1 := by
  obtain ⟨l, _, _, l3⟩ := h.sid
  have hl := (l3 q q1 q2).2
  have : L.sends q L.g.vertnnd ≠ [] := by
    intro e
    rw [e] at hl
    exact hq (by simpa using hl)
  obtain ⟨u, hu⟩ := List.exists_mem_of_ne_nil _ this
  obtain ⟨hu1, e, e1, e2, e3, e4⟩ := mem_sends.1 hu
  obtain ⟨j, j1, j2, j3⟩ := h.cover u e hu1 e1 e2 e3
  refine ⟨j, j1, j2, ?_⟩
  rw [(h.cell j j1 j2).1, j3]
  exact e4

theorem ghstPhase2_holds {L : Local} (hL : L.Ok) {gst ngb : Arr Int} {s : Ghst1} {k : Nat}
    (hg : ∀ u e, L.g.Vertex u → L.g.vert u ≤ e → e < L.g.vend u → gst.lo ≤ e ∧ e < gst.hi) (hn : ngb.lo ≤ 0 ∧ L.procglbnbr ≤ ngb.hi)
    (hk : L.g.edgenbr < 2 ^ k) (h : Sent L gst.lo gst.hi s) :
    Holds (ghstPhase2 L ngb k s) (fun G => ∃ W, Numbered L G W) := by
  have hpos := hL.pos
  obtain ⟨l, l1, l2, l3⟩ := h.sid
  have hvn := hL.nnd
  have hsn0 := h.sn0
  have hsnb := h.snb
  unfold ghstPhase2
  rw [Holds_ite]
  refine ⟨fun hc => ?_, fun hc => ?_⟩
  · rw [Holds_bind]
    refine (C02_sort Sorting.lt2asc1 strictWeak_lt2asc1 s.sortloctab s.sortlocnbr k h.sn0 (by omega) (by rw [h.slo]) (by rw [h.shi]; omega)).mono ?_
    rintro r ⟨⟨rl, ru, f, hf1, hf2⟩, hs⟩
    have hfr : ∀ j, 0 ≤ j → j < s.sortlocnbr → 0 ≤ f j ∧ f j < s.sortlocnbr := by
      intro j j1 j2
      refine Classical.byContradiction fun hb => ?_
      have h1 := hf1 (f j) (by omega)
      have h2 := f.injective h1
      rw [h2] at hb
      omega
    have hfi : ∀ j, 0 ≤ j → j < s.sortlocnbr → ∃ i, 0 ≤ i ∧ i < s.sortlocnbr ∧ f i = j := by
      intro j j1 j2
      refine ⟨f.symm j, ?_⟩
      have e := f.apply_symm_apply j
      by_cases hb : 0 ≤ f.symm j ∧ f.symm j < s.sortlocnbr
      · exact ⟨hb.1, hb.2, e⟩
      · have := hf1 (f.symm j) (by omega)
        omega
    have hcell : ∀ j, 0 ≤ j → j < s.sortlocnbr → (r.get j).1 = L.g.dest (r.get j).2 ∧ L.Remote (r.get j).1 ∧
        ∃ u, L.g.Vertex u ∧ L.g.vert u ≤ (r.get j).2 ∧ (r.get j).2 < L.g.vend u := by
      intro j j1 j2
      rw [hf2]
      exact h.cell (f j) (hfr j j1 j2).1 (hfr j j1 j2).2
    have hr : Sorted L r s.sortlocnbr := by
      refine ⟨by rw [rl, h.slo], by rw [ru, h.shi]; omega, ?_, fun j j1 j2 => ⟨(hcell j j1 j2).1, (hcell j j1 j2).2.1⟩, ?_⟩
      · intro i j i1 i2 i3
        have := hs i j i1 i2 i3
        simp only [Sorting.lt2asc1, decide_eq_false_iff_not] at this
        omega
      · intro j j1 j2
        obtain ⟨c1, c2, u, c3, c4, c5⟩ := hcell j j1 j2
        rw [c1]
        exact hL.dest u _ c3 c4 c5
    have hg' : ∀ j, 0 ≤ j → j < s.sortlocnbr → s.edgegsttax.lo ≤ (r.get j).2 ∧ (r.get j).2 < s.edgegsttax.hi := by
      intro j j1 j2
      obtain ⟨_, _, u, c3, c4, c5⟩ := hcell j j1 j2
      rw [h.glo, h.ghi]
      exact hg u _ c3 c4 c5
    have hsnd : ∀ q, 0 ≤ q → q < L.procglbnbr → s.procsndtab.get q ≠ 0 → ∃ j, 0 ≤ j ∧ j < s.sortlocnbr ∧ Own L.procvrttab L.procglbnbr q (r.get j).1 := by
      intro q q1 q2 hq
      obtain ⟨j, j1, j2, j3⟩ := sent_zero h q1 q2 hq
      obtain ⟨i, i1, i2, i3⟩ := hfi j j1 j2
      exact ⟨i, i1, i2, by rw [hf2, i3]; exact j3⟩
    have hmem0 : ∀ w, w ∈ ([] : List Int) ↔ ∃ i, 0 ≤ i ∧ i < 0 ∧ (r.get i).1 = w := by
      intro w
      refine ⟨fun h => by simp at h, ?_⟩
      rintro ⟨i, i1, i2, _⟩
      omega
    have hstart : Outer L s.procsndtab r s.sortlocnbr s.edgegsttax ⟨s.edgegsttax, Arr.const 0 L.procglbnbr 0, ngb, 0, 0, L.g.vertnnd, L.g.vertnnd, 0, -1⟩ [] := by
      refine ⟨Int.le_refl _, hc, ⟨rfl, rfl, List.Pairwise.nil, hmem0, fun i i1 i2 => by dsimp only at i2; omega, fun a ha => rfl⟩, by simp, Int.le_refl _, by dsimp only; omega, by simp, ?_, fun q q1 q2 => rfl, ?_⟩
      · exact (hr.rng 0 (Int.le_refl _) hc).1
      · refine ⟨rfl, rfl, hn.1, hn.2, Int.le_refl _, Int.le_refl _, fun i j i1 i2 i3 => by dsimp only at i3; omega, fun i i1 i2 => by dsimp only at i2; omega, fun q q1 q2 => ⟨fun h => absurd rfl h, ?_⟩, ?_⟩
        · rintro ⟨i, i1, i2, _⟩
          dsimp only at i2
          omega
        · dsimp only
          rw [sumI_empty (by omega)]
    rw [Holds_bind]
    refine Holds.mono (Q := fun t => ∃ W, Last L s.procsndtab r s.sortlocnbr s.edgegsttax t W) ?_ ?_
    · refine Holds_loopM (I := fun t => ∃ W, Outer L s.procsndtab r s.sortlocnbr s.edgegsttax t W) (μ := fun t => (L.procglbnbr - 1 - t.procngbnum).toNat) ?_ _ _ ⟨[], hstart⟩ (by dsimp only; omega)
      rintro t ⟨W, ht⟩
      refine (ghstOuter_holds hL hr hg' h.dlo hsnd ht).mono ?_
      intro l hl
      cases l with
      | next u =>
        rw [Loop.Sat_next] at hl ⊢
        obtain ⟨⟨W', hu⟩, hlt⟩ := hl
        have := hu.p2
        exact ⟨⟨W', hu⟩, by omega⟩
      | brk u => exact hl
    · rintro t ⟨W, ht⟩
      simp only [Holds_bind, Holds_wr, Holds_pure, ht.blk.rlo, ht.blk.rhi]
      refine ⟨ht.p, W, ?_⟩
      obtain ⟨p1, p2⟩ := ht.p
      have hnum := ht.num
      obtain ⟨b1, b2, b3, b4, b5, b6, b7, b8, b9, b10⟩ := ht.blk
      refine ⟨ht.seen.asc, ?_, ?_, ?_, by dsimp only; omega, b1, b2, ?_, b3, b4, b5, by dsimp only; omega, b7, fun i i1 i2 => ?_, b9, h.dlo, fun q q1 q2 => (l3 q q1 q2).2, ?_, ?_⟩
      · intro w
        rw [ht.seen.mem]
        constructor
        · rintro ⟨i, i1, i2, i3⟩
          obtain ⟨c1, c2, u, c3, c4, c5⟩ := hcell i i1 i2
          exact ⟨u, (r.get i).2, c3, c4, c5, by rw [← c1]; exact i3, by rw [← i3]; exact c2⟩
        · rintro ⟨u, e, e1, e2, e3, e4, e5⟩
          obtain ⟨j, j1, j2, j3⟩ := h.cover u e e1 e2 e3 (by rw [e4]; exact e5)
          obtain ⟨i, i1, i2, i3⟩ := hfi j j1 j2
          exact ⟨i, i1, i2, by rw [hf2, i3, (h.cell j j1 j2).1, j3, e4]⟩
      · intro u e e1 e2 e3 e4
        dsimp only
        rw [ht.seen.keep e e4]
        exact h.loc u e e1 e2 e3 e4
      · intro u e e1 e2 e3 e4
        obtain ⟨j, j1, j2, j3⟩ := h.cover u e e1 e2 e3 e4
        obtain ⟨i, i1, i2, i3⟩ := hfi j j1 j2
        obtain ⟨c, c1, c2, c3⟩ := ht.seen.idx i i1 i2
        have e5 : (r.get i).2 = e := by rw [hf2, i3, j3]
        rw [e5] at c2
        exact ⟨c, c1, c2, by rw [c3, (hcell i i1 i2).1, e5]⟩
      · intro q q1 q2
        dsimp only
        by_cases hqp : q = t.procngbnum
        · subst hqp
          rw [Arr.set_get_same]
          have := ht.bas
          omega
        · rw [Arr.set_get_ne _ _ hqp]
          exact ht.rcv q q1 q2 hqp
      · have := b8 i i1 i2
        dsimp only
        omega
      · dsimp only
        rw [b10, sumI_split (lo := 0) (mid := t.procngbnum + 1) (hi := L.procglbnbr) (by omega) (by omega)]
        have : sumI (t.procngbnum + 1) L.procglbnbr s.procsndtab.get = 0 := by
          rw [sumI_congr (g := fun _ => 0) ?_, sumI_const (by omega)]
          · omega
          · intro i i1 i2
            refine Classical.byContradiction fun hne => ?_
            obtain ⟨j, c1, c2, _, c3, c4⟩ := hsnd i (by omega) (by omega) hne
            have := ht.top _ ((ht.seen.mem _).2 ⟨j, c1, c2, rfl⟩)
            have := hL.mono (t.procngbnum + 1) i (by omega) (by omega) (by omega)
            omega
        omega
      · dsimp only
        have := l1.size
        have hsz : s.procsidnbr ≤ s.procsidtab.hi := h.sidn
        refine ⟨l1.lo, l1.n0, hsz, ?_, ?_⟩
        · rw [l1.dec]; exact l2
        · intro q q1 q2
          rw [l1.dec]; exact (l3 q q1 q2).1
  · rw [Holds_pure]
    have e0 : s.sortlocnbr = 0 := by omega
    have hno : ∀ u e, L.g.Vertex u → L.g.vert u ≤ e → e < L.g.vend u → ¬ L.Remote (L.g.dest e) := by
      intro u e e1 e2 e3 e4
      obtain ⟨j, j1, j2, _⟩ := h.cover u e e1 e2 e3 e4
      omega
    have hz : ∀ q, 0 ≤ q → q < L.procglbnbr → s.procsndtab.get q = 0 := by
      intro q q1 q2
      refine Classical.byContradiction fun hne => ?_
      obtain ⟨j, j1, j2, _⟩ := sent_zero h q1 q2 hne
      omega
    refine ⟨[], List.Pairwise.nil, ?_, h.loc, fun u e e1 e2 e3 e4 => absurd e4 (hno u e e1 e2 e3), by dsimp only [List.length]; omega, rfl, rfl, fun q q1 q2 => rfl, hn.1, hn.2, Int.le_refl _, by dsimp only; omega,
      fun i j i1 i2 i3 => by dsimp only at i3; omega, fun i i1 i2 => by dsimp only at i2; omega, fun q q1 q2 => ⟨fun h => absurd rfl h, ?_⟩, h.dlo, fun q q1 q2 => (l3 q q1 q2).2, ?_, ?_⟩
    · intro w
      refine ⟨fun h => by simp at h, ?_⟩
      rintro ⟨u, e, e1, e2, e3, e4, e5⟩
      exact absurd (e4 ▸ e5) (hno u e e1 e2 e3)
    · rintro ⟨i, i1, i2, _⟩
      dsimp only at i2
      omega
    · dsimp only
      rw [sumI_congr (g := fun _ => 0) hz, sumI_const (by omega)]
      omega
    · dsimp only
      have hsz : s.procsidnbr ≤ s.procsidtab.hi := h.sidn
      refine ⟨l1.lo, l1.n0, hsz, ?_, ?_⟩
      · rw [l1.dec]; exact l2
      · intro q q1 q2
        rw [l1.dec]; exact (l3 q q1 q2).1

theorem ghst_holds {L : Local} (hL : L.Ok) {gst ngb : Arr Int} (jsort : Int → Int × Int) (jsid : Int → Int) {k : Nat}
    (hg : ∀ u e, L.g.Vertex u → L.g.vert u ≤ e → e < L.g.vend u → gst.lo ≤ e ∧ e < gst.hi) (hn : ngb.lo ≤ 0 ∧ L.procglbnbr ≤ ngb.hi)
    (hk : L.g.edgenbr < 2 ^ k) : Holds (ghst L gst ngb jsort jsid k) (fun G => ∃ W, Numbered L G W) := by
  unfold ghst
  rw [Holds_bind]
  exact (ghstPhase1_holds hL jsort jsid hg).mono fun s hs => ghstPhase2_holds hL hg hn hk hs

end Scotch.Dist
