import Verif.Dist.LemmasSend

/-! # Distributed graphs: loop on local vertices -/

set_option autoImplicit false
set_option linter.unusedSimpArgs false

namespace Scotch.Dist
open Local

theorem sumI_step {L : Local} (hL : L.Ok) {v e : Int} (hv : L.g.Vertex v) (he : e < L.g.vend v) :
    sumI L.g.baseval v (fun u => L.g.vend u - L.g.vert u) + (e - L.g.vert v) < L.g.edgenbr := by
  have h1 := hL.edge
  have h2 := hv.1
  have h3 := hv.2
  rw [sumI_split (mid := v + 1) (by omega) (by omega), sumI_succ (by omega)] at h1
  have : 0 ≤ sumI (v + 1) L.g.vertnnd (fun u => L.g.vend u - L.g.vert u) := sumI_nonneg fun i i1 i2 => by
    have := hL.ord i ⟨by omega, by omega⟩
    omega
  omega

theorem ghstArc_local {L : Local} (hL : L.Ok) {gl gh v e : Int} {s : Ghst1} (hv : L.g.Vertex v) (he1 : L.g.vert v ≤ e) (he2 : e < L.g.vend v)
    (hg : gl ≤ e ∧ e < gh) (hI : Inv1 L gl gh v e s) (hr : ¬ L.Remote (L.g.dest e)) :
    Inv1 L gl gh v (e + 1) { s with edgegsttax := s.edgegsttax.set e (L.g.dest e - (L.procvrttab.get L.proclocnum - L.g.baseval)) } where
  glo := hI.glo
  ghi := hI.ghi
  loc := by
    intro u a hd ha
    dsimp only
    by_cases hae : a = e
    · subst hae; rw [Arr.set_get_same]
    · rw [Arr.set_get_ne _ _ hae]
      rcases done_succ hd with hd | hd
      · exact hI.loc u a hd ha
      · exact absurd hd.2 hae
  slo := hI.slo
  shi := hI.shi
  sn0 := hI.sn0
  snb := by have := hI.snb; dsimp only; omega
  cell := by
    intro j j1 j2
    obtain ⟨c1, c2, u, c3⟩ := hI.cell j j1 j2
    exact ⟨c1, c2, u, c3.up⟩
  cover := by
    intro u a hd ha
    rcases done_succ hd with hd | hd
    · exact hI.cover u a hd ha
    · rw [hd.2] at ha; exact absurd ha hr
  dlo := hI.dlo
  vlo := hI.vlo
  sid := by
    obtain ⟨l, l1, l2, l3, l4⟩ := hI.sid
    refine ⟨l, ⟨l1.lo, l1.hi, l1.n0, l1.dec, l1.fin, l1.base, l1.size⟩, l2, l3, fun q q1 q2 => ?_⟩
    rw [show (L.To v (e + 1) q) = (L.To v e q) from propext (to_succ_local hr)]
    exact l4 q q1 q2
  cur := hI.cur
  mark := by
    intro q q1 q2
    rw [to_succ_local hr]
    exact hI.mark q q1 q2

theorem ghstSend_holds {L : Local} (hL : L.Ok) {gl gh v e q : Int} {s : Ghst1} (hv : L.g.Vertex v) (he1 : L.g.vert v ≤ e) (he2 : e < L.g.vend v)
    (hI : Inv1 L gl gh v e s) (hr : L.Remote (L.g.dest e)) (ho : Own L.procvrttab L.procglbnbr q (L.g.dest e)) :
    Holds (ghstSend L v q { s with sortloctab := s.sortloctab.set s.sortlocnbr (L.g.dest e, e), sortlocnbr := s.sortlocnbr + 1 }) (Inv1 L gl gh v (e + 1)) := by
  have hcap := sumI_step hL hv he2
  have hcell : ∀ j, 0 ≤ j → j < s.sortlocnbr + 1 → ((s.sortloctab.set s.sortlocnbr (L.g.dest e, e)).get j).1 = L.g.dest ((s.sortloctab.set s.sortlocnbr (L.g.dest e, e)).get j).2 ∧
      L.Remote ((s.sortloctab.set s.sortlocnbr (L.g.dest e, e)).get j).1 ∧ ∃ u, Done L v (e + 1) u ((s.sortloctab.set s.sortlocnbr (L.g.dest e, e)).get j).2 := by
    intro j j1 j2
    by_cases hj : j = s.sortlocnbr
    · rw [hj, Arr.set_get_same]
      exact ⟨rfl, hr, v, hv, he1, he2, Or.inr ⟨rfl, by dsimp only; omega⟩⟩
    · rw [Arr.set_get_ne _ _ hj]
      obtain ⟨c1, c2, u, c3⟩ := hI.cell j j1 (by omega)
      exact ⟨c1, c2, u, c3.up⟩
  have hcover : ∀ u a, Done L v (e + 1) u a → L.Remote (L.g.dest a) → ∃ j, 0 ≤ j ∧ j < s.sortlocnbr + 1 ∧ ((s.sortloctab.set s.sortlocnbr (L.g.dest e, e)).get j).2 = a := by
    intro u a hd ha
    have := hI.sn0
    rcases done_succ hd with hd | hd
    · obtain ⟨j, j1, j2, j3⟩ := hI.cover u a hd ha
      exact ⟨j, j1, by omega, by rw [Arr.set_get_ne _ _ (by omega)]; exact j3⟩
    · exact ⟨s.sortlocnbr, by omega, by omega, by rw [Arr.set_get_same]; exact hd.2.symm⟩
  have hloc : ∀ u a, Done L v (e + 1) u a → ¬ L.Remote (L.g.dest a) → s.edgegsttax.get a = L.g.dest a - (L.procvrttab.get L.proclocnum - L.g.baseval) := by
    intro u a hd ha
    rcases done_succ hd with hd | hd
    · exact hI.loc u a hd ha
    · rw [hd.2] at ha; exact absurd hr ha
  have hsn0 := hI.sn0
  have hsnb := hI.snb
  obtain ⟨q1, q2⟩ := ho.1
  unfold ghstSend
  simp only [Holds_bind, Holds_rd, Holds_ite]
  refine ⟨by rw [hI.vlo.1, hI.vlo.2]; exact ho.1, fun hm => ?_, fun hm => ?_⟩
  · simp only [Holds_wr, hI.vlo.1, hI.vlo.2, hI.dlo.1, hI.dlo.2]
    refine ⟨ho.1, ho.1, ho.1, ?_⟩
    obtain ⟨l, l1, l2, l3, l4⟩ := hI.sid
    have hnt : ¬ L.To v e q := fun h => hm ((hI.mark q q1 q2).2.2 h)
    have hv2 := hv.2
    have hv1 := hv.1
    have hn : L.g.vertnnd = L.g.baseval + L.g.vertnbr := hL.nnd
    have hb := l1.base
    have hcur := hI.cur
    refine (ghstJump_holds (l := l) (L := L) ?_ ?_ ?_ ?_ ?_).mono ?_
    · exact ⟨l1.lo, l1.hi, l1.n0, l1.dec, l1.fin, l1.base, l1.size⟩
    · exact hcur
    · omega
    · omega
    · dsimp only; omega
    rintro t ⟨t1, ⟨t2, t3, t4, t5, t6⟩, t7⟩
    refine (ghstLast_holds t1 t7 (by omega) (by omega)).mono ?_
    rintro r ⟨r1, ⟨r2, r3, r4, r5, r6⟩, r7⟩
    have := r1.size
    have := r1.n0
    simp only [Holds_wr, r1.lo, r1.hi, Holds_pure]
    dsimp only at t2 t3 t4 t5 t6
    refine ⟨by omega, ?_⟩
    have r1' := r1.push q1
    have e7 : l ++ [(v, q)] = l ++ [(r.vertsidnum, q)] := by rw [r7]
    refine ⟨by dsimp only; rw [r2, t2]; exact hI.glo, by dsimp only; rw [r2, t2]; exact hI.ghi, ?_, by dsimp only; rw [r3, t3]; exact hI.slo, by dsimp only; rw [r3, t3]; exact hI.shi,
      by dsimp only; rw [r4, t4]; omega, by dsimp only; rw [r4, t4]; omega, ?_, ?_, ?_, ?_, ⟨l ++ [(v, q)], e7 ▸ r1', ?_, ?_, ?_⟩, by dsimp only; omega, ?_⟩
    · dsimp only; rw [r2, t2]; exact hloc
    · dsimp only; rw [r3, t3, r4, t4]; exact hcell
    · dsimp only; rw [r3, t3, r4, t4]; exact hcover
    · dsimp only; rw [r5, t5]; exact hI.dlo
    · dsimp only; rw [r6, t6]; exact hI.vlo
    · dsimp only; rw [r4, t4]; simp only [List.length_append, List.length_cons, List.length_nil]; omega
    · intro c hc
      rw [List.mem_append, List.mem_singleton] at hc
      rcases hc with hc | hc
      · exact l3 c hc
      · rw [hc]; exact ho.1
    · intro q' a1 a2
      obtain ⟨b1, b2⟩ := l4 q' a1 a2
      rw [pick_append]
      dsimp only
      rw [r5, t5, Arr.set_get]
      by_cases hqq : q' = q
      · subst hqq
        rw [if_neg hnt] at b1
        rw [if_pos rfl, if_pos ((to_succ_remote hL he1 hr ho).2 (Or.inr rfl)), if_pos rfl, b1, List.append_nil, List.length_append]
        refine ⟨rfl, ?_⟩
        rw [b2, b1, List.append_nil]
        rfl
      · rw [if_neg (fun h => hqq h.symm), List.append_nil, if_neg hqq]
        have : L.To v (e + 1) q' = L.To v e q' := propext ⟨fun h => ((to_succ_remote hL he1 hr ho).1 h).elim id (fun h => absurd h hqq), fun h => (to_succ_remote hL he1 hr ho).2 (Or.inl h)⟩
        rw [this]
        exact ⟨b1, b2⟩
    · intro q' a1 a2
      dsimp only
      rw [r6, t6, Arr.set_get, to_succ_remote hL he1 hr ho]
      by_cases hqq : q' = q
      · rw [if_pos hqq]
        exact ⟨by omega, fun _ => Or.inr hqq, fun _ => rfl⟩
      · rw [if_neg hqq]
        have := hI.mark q' a1 a2
        exact ⟨this.1, fun h => Or.inl (this.2.1 h), fun h => this.2.2 (h.elim id (fun h => absurd h hqq))⟩
  · rw [Holds_pure]
    have hm : s.vertsidtab.get q = v := Classical.byContradiction fun h => hm h
    have ht : L.To v e q := (hI.mark q q1 q2).2.1 hm
    have hsame : ∀ q', L.To v (e + 1) q' = L.To v e q' := fun q' => propext
      ⟨fun h => ((to_succ_remote hL he1 hr ho).1 h).elim id (fun h => h ▸ ht), fun h => (to_succ_remote hL he1 hr ho).2 (Or.inl h)⟩
    refine ⟨hI.glo, hI.ghi, hloc, hI.slo, hI.shi, by dsimp only; omega, by dsimp only; omega, hcell, hcover, hI.dlo, hI.vlo, ?_, hI.cur, ?_⟩
    · obtain ⟨l, l1, l2, l3, l4⟩ := hI.sid
      refine ⟨l, ⟨l1.lo, l1.hi, l1.n0, l1.dec, l1.fin, l1.base, l1.size⟩, by dsimp only; omega, l3, fun q' a1 a2 => ?_⟩
      rw [hsame]
      exact l4 q' a1 a2
    · intro q' a1 a2
      rw [hsame]
      exact hI.mark q' a1 a2

theorem ghstArc_holds {L : Local} (hL : L.Ok) {gl gh v e : Int} {s : Ghst1} (hv : L.g.Vertex v) (he1 : L.g.vert v ≤ e) (he2 : e < L.g.vend v)
    (hg : gl ≤ e ∧ e < gh) (hI : Inv1 L gl gh v e s) : Holds (ghstArc L v e (L.g.dest e) s) (Inv1 L gl gh v (e + 1)) := by
  obtain ⟨m1, m2⟩ := hL.me
  have := hL.vlo
  have := hL.vhi
  unfold ghstArc
  simp only [Holds_bind, Holds_rd, Holds_ite]
  refine ⟨by omega, by omega, fun h => ?_, fun h => ?_⟩
  · simp only [Holds_wr, hI.glo, hI.ghi, Holds_pure]
    exact ⟨hg, ghstArc_local hL hv he1 he2 hg hI (fun hr => hr h)⟩
  · have hcap := sumI_step hL hv he2
    have := hI.snb
    have := hI.sn0
    simp only [Holds_wr, hI.slo, hI.shi]
    refine ⟨by omega, ?_⟩
    obtain ⟨d1, d2⟩ := hL.dest v e hv he1 he2
    refine (ownerOf_holds hL.pos (by omega) (by omega) d1 d2).mono ?_
    intro q hq
    exact ghstSend_holds hL hv he1 he2 hI h hq

theorem sends_succ (L : Local) {q v : Int} (h : L.g.baseval ≤ v) [Decidable (L.To v (L.g.vend v) q)] :
    L.sends q (v + 1) = L.sends q v ++ if L.To v (L.g.vend v) q then [v] else [] := by
  unfold Local.sends
  rw [seg_succ _ h, List.filter_append]
  congr 1
  by_cases ht : L.To v (L.g.vend v) q
  · simp [ht]
  · simp [ht]

open Classical in
theorem inv1_next {L : Local} (hL : L.Ok) {gl gh v : Int} {s : Ghst1} (hv : L.g.Vertex v) (hI : Inv1 L gl gh v (L.g.vend v) s) :
    Inv1 L gl gh (v + 1) (L.g.vert (v + 1)) s := by
  have hnt : ∀ q, ¬ L.To (v + 1) (L.g.vert (v + 1)) q := by rintro q ⟨a, a1, a2, _⟩; omega
  have hd : ∀ u a, Done L (v + 1) (L.g.vert (v + 1)) u a → Done L v (L.g.vend v) u a := by
    rintro u a ⟨h1, h2, h3, h4⟩
    refine ⟨h1, h2, h3, ?_⟩
    rcases h4 with h4 | ⟨h4, h5⟩
    · by_cases huv : u = v
      · subst huv; exact Or.inr ⟨rfl, h3⟩
      · exact Or.inl (by omega)
    · subst h4; omega
  have hv1 := hv.1
  refine ⟨hI.glo, hI.ghi, fun u a h => hI.loc u a (hd u a h), hI.slo, hI.shi, hI.sn0, ?_, ?_, fun u a h => hI.cover u a (hd u a h), hI.dlo, hI.vlo, ?_, by have := hI.cur; omega, ?_⟩
  · have := hI.snb
    rw [sumI_succ hv1]
    omega
  · intro j j1 j2
    obtain ⟨c1, c2, u, h1, h2, h3, h4⟩ := hI.cell j j1 j2
    exact ⟨c1, c2, u, h1, h2, h3, Or.inl (by omega)⟩
  · obtain ⟨l, l1, l2, l3, l4⟩ := hI.sid
    refine ⟨l, l1, l2, l3, fun q q1 q2 => ?_⟩
    rw [if_neg (hnt q), List.append_nil, sends_succ L hv1]
    exact l4 q q1 q2
  · intro q q1 q2
    have := (hI.mark q q1 q2).1
    exact ⟨by omega, fun h => by omega, fun h => absurd h (hnt q)⟩

/-- State after the loop on local vertices. -/
structure Sent (L : Local) (gl gh : Int) (s : Ghst1) : Prop where
  glo : s.edgegsttax.lo = gl
  ghi : s.edgegsttax.hi = gh
  loc : ∀ u a, L.g.Vertex u → L.g.vert u ≤ a → a < L.g.vend u → ¬ L.Remote (L.g.dest a) →
    s.edgegsttax.get a = L.g.dest a - (L.procvrttab.get L.proclocnum - L.g.baseval)
  slo : s.sortloctab.lo = 0
  shi : s.sortloctab.hi = L.g.edgenbr + 1
  sn0 : 0 ≤ s.sortlocnbr
  snb : s.sortlocnbr ≤ L.g.edgenbr
  cell : ∀ j, 0 ≤ j → j < s.sortlocnbr → (s.sortloctab.get j).1 = L.g.dest (s.sortloctab.get j).2 ∧ L.Remote (s.sortloctab.get j).1 ∧
    ∃ u, L.g.Vertex u ∧ L.g.vert u ≤ (s.sortloctab.get j).2 ∧ (s.sortloctab.get j).2 < L.g.vend u
  cover : ∀ u a, L.g.Vertex u → L.g.vert u ≤ a → a < L.g.vend u → L.Remote (L.g.dest a) → ∃ j, 0 ≤ j ∧ j < s.sortlocnbr ∧ (s.sortloctab.get j).2 = a
  dlo : s.procsndtab.lo = 0 ∧ s.procsndtab.hi = L.procglbnbr
  sidn : s.procsidnbr ≤ s.procsidtab.hi
  sid : ∃ l, Sid L s l ∧ (∀ c ∈ l, 0 ≤ c.2 ∧ c.2 < L.procglbnbr) ∧
    ∀ q, 0 ≤ q → q < L.procglbnbr → pick q l = L.sends q L.g.vertnnd ∧ s.procsndtab.get q = (L.sends q L.g.vertnnd).length

theorem ghstPhase1_holds {L : Local} (hL : L.Ok) {gst : Arr Int} (jsort : Int → Int × Int) (jsid : Int → Int)
    (hg : ∀ u e, L.g.Vertex u → L.g.vert u ≤ e → e < L.g.vend u → gst.lo ≤ e ∧ e < gst.hi) :
    Holds (ghstPhase1 L gst jsort jsid) (Sent L gst.lo gst.hi) := by
  unfold ghstPhase1
  have hn : L.g.vertnnd = L.g.baseval + L.g.vertnbr := hL.nnd
  have := hL.nbr0
  have := hL.base0
  refine Holds_forUp (I := fun v s => Inv1 L gst.lo gst.hi v (L.g.vert v) s) (by omega) ?_ ?_ ?_
  · have hnt : ∀ q, ¬ L.To L.g.baseval (L.g.vert L.g.baseval) q := by rintro q ⟨a, a1, a2, _⟩; omega
    have hnd : ∀ u a, ¬ Done L L.g.baseval (L.g.vert L.g.baseval) u a := by
      rintro u a ⟨h1, h2, h3, h4⟩
      have := h1.1
      rcases h4 with h4 | ⟨h4, h5⟩
      · omega
      · subst h4; omega
    refine ⟨rfl, rfl, fun u a h => absurd h (hnd u a), rfl, rfl, by dsimp only; omega, ?_, fun j j1 j2 => by dsimp only at j2; omega, fun u a h => absurd h (hnd u a), ⟨rfl, rfl⟩, ⟨rfl, rfl⟩, ?_, by dsimp only; omega, ?_⟩
    · dsimp only
      rw [sumI_empty (by omega)]
      omega
    · refine ⟨[], ⟨rfl, rfl, by dsimp only; omega, ?_, ?_, by dsimp only; omega, by dsimp only [List.length]; omega⟩, by simp, by simp, fun q q1 q2 => ?_⟩
      · dsimp only; rw [seg_empty _ (by omega)]; rfl
      · dsimp only; rw [seg_empty _ (by omega)]; rfl
      · rw [if_neg (hnt q)]
        unfold Local.sends
        rw [seg_empty _ (by omega)]
        exact ⟨rfl, rfl⟩
    · intro q q1 q2
      refine ⟨?_, fun h => ?_, fun h => absurd h (hnt q)⟩
      · show (-1 : Int) ≤ _; omega
      · exfalso
        have : (-1 : Int) = L.g.baseval := h
        omega
  · intro v s v1 v2 hI
    have hv : L.g.Vertex v := ⟨v1, v2⟩
    exact L.g.Holds_forArcs hL.alloc hv (hL.ord v hv) (I := fun e s => Inv1 L gst.lo gst.hi v e s) hI
      (fun e s e1 e2 hI => ghstArc_holds hL hv e1 e2 (hg v e hv e1 e2) hI) (fun s hI => inv1_next hL hv hI)
  · intro s hI
    have hd : ∀ u a, L.g.Vertex u → L.g.vert u ≤ a → a < L.g.vend u → Done L L.g.vertnnd (L.g.vert L.g.vertnnd) u a :=
      fun u a h1 h2 h3 => ⟨h1, h2, h3, Or.inl h1.2⟩
    have hnt : ∀ q, ¬ L.To L.g.vertnnd (L.g.vert L.g.vertnnd) q := by rintro q ⟨a, a1, a2, _⟩; omega
    refine ⟨hI.glo, hI.ghi, fun u a h1 h2 h3 => hI.loc u a (hd u a h1 h2 h3), hI.slo, hI.shi, hI.sn0, ?_, ?_, fun u a h1 h2 h3 => hI.cover u a (hd u a h1 h2 h3), hI.dlo, ?_, ?_⟩
    · have := hI.snb
      have := hL.edge
      omega
    · intro j j1 j2
      obtain ⟨c1, c2, u, h1, h2, h3, h4⟩ := hI.cell j j1 j2
      exact ⟨c1, c2, u, h1, h2, h3⟩
    · obtain ⟨l, l1, l2, _⟩ := hI.sid
      have := l1.size
      have := hI.cur
      have := hI.snb
      have := hL.edge
      rw [l1.hi]
      omega
    · obtain ⟨l, l1, l2, l3, l4⟩ := hI.sid
      refine ⟨l, l1, l3, fun q q1 q2 => ?_⟩
      have := l4 q q1 q2
      rw [if_neg (hnt q), List.append_nil] at this
      exact ⟨this.1, by rw [← this.1]; exact this.2⟩

end Scotch.Dist
