import Verif.Bipart.LemmasBd3

/-! # Bipartition of band graphs: anchor vertices -/

set_option autoImplicit false
set_option linter.unusedSimpArgs false

namespace Scotch.Bipart
open Graph

variable {b : Bgraph} {s : BdSt} {vlvl : Int} {a0 a1 : Int} {queu : Arr Int}

theorem BdCtx.part (C : BdCtx b vlvl s) {u : Int} (u1 : b.s.baseval ≤ u) (u2 : u < bN b s) : b.part (bq b s u) = 0 ∨ b.part (bq b s u) = 1 := C.valid.parts _ (C.bq_mem u1 u2).1

theorem bFrom_empty (k i : Int) : bFrom b s k i i = [] := by
  unfold bFrom; rw [seg_empty _ (Int.le_refl _)]; rfl

theorem bFrom_succ (k : Int) {lo i : Int} (h : lo ≤ i) : bFrom b s k lo (i + 1) = bFrom b s k lo i ++ (if 0 < ancL b s i ∧ b.part (bq b s i) = k then [(i, ancL b s i)] else []) := by
  unfold bFrom
  rw [seg_succ _ h, List.filter_append, List.map_append]
  congr 1
  by_cases hh : 0 < ancL b s i ∧ b.part (bq b s i) = k
  · rw [if_pos hh]; simp [hh.1, hh.2]
  · rw [if_neg hh]
    rw [List.filter_cons]
    rw [if_neg (by rw [Bool.and_eq_true, decide_eq_true_eq, decide_eq_true_eq]; exact hh)]
    rfl

theorem mem_bFrom (k lo hi u l : Int) : (u, l) ∈ bFrom b s k lo hi ↔ lo ≤ u ∧ u < hi ∧ 0 < ancL b s u ∧ b.part (bq b s u) = k ∧ l = ancL b s u := by
  unfold bFrom
  rw [List.mem_map]
  constructor
  · rintro ⟨w, h, e⟩
    rw [Prod.mk.injEq] at e
    obtain ⟨rfl, rfl⟩ := e
    rw [List.mem_filter, mem_seg, Bool.and_eq_true, decide_eq_true_eq, decide_eq_true_eq] at h
    obtain ⟨⟨i, i1, i2, rfl⟩, h3, h4⟩ := h
    exact ⟨i1, i2, h3, h4, rfl⟩
  · rintro ⟨h1, h2, h3, h4, rfl⟩
    refine ⟨u, ?_, rfl⟩
    rw [List.mem_filter, mem_seg, Bool.and_eq_true, decide_eq_true_eq, decide_eq_true_eq]
    exact ⟨⟨u, h1, h2, rfl⟩, h3, h4⟩

/-- Each anchored vertex is linked to one of the two anchor vertices. -/
theorem BdCtx.from_len (C : BdCtx b vlvl s) {i : Int} (i1 : b.s.baseval ≤ i) (i2 : i ≤ bN b s) :
    ((bFrom b s 0 b.s.baseval i).length : Int) + (bFrom b s 1 b.s.baseval i).length = bAncs b s i ∧
    ((bFrom b s 0 b.s.baseval i).map Prod.snd).sum + ((bFrom b s 1 b.s.baseval i).map Prod.snd).sum = sumI b.s.baseval i (ancL b s) := by
  obtain ⟨n, rfl⟩ : ∃ n : Nat, i = b.s.baseval + n := ⟨(i - b.s.baseval).toNat, by omega⟩
  induction n with
  | zero =>
    rw [show b.s.baseval + ((0 : Nat) : Int) = b.s.baseval by omega, bFrom_empty, bFrom_empty]
    unfold bAncs
    rw [sumI_empty (Int.le_refl _), sumI_empty (Int.le_refl _)]; exact ⟨rfl, rfl⟩
  | succ n ih =>
    have ih := ih (by omega) (by omega)
    rw [show b.s.baseval + ((n + 1 : Nat) : Int) = b.s.baseval + n + 1 by omega, bFrom_succ _ (by omega), bFrom_succ _ (by omega), bAncs_succ (by omega), List.length_append, List.length_append, sumI_succ (by omega), List.map_append, List.map_append, List.sum_append, List.sum_append]
    have h0 := C.ancL_nonneg (u := b.s.baseval + n) (by omega) (by omega)
    by_cases ha : 0 < ancL b s (b.s.baseval + n)
    · rcases C.part (u := b.s.baseval + n) (by omega) (by omega) with k | k
      · rw [if_pos ⟨ha, k⟩, if_neg (fun h => by have := h.2; omega), if_pos ha]; simp; omega
      · rw [if_neg (fun h => by have := h.2; omega), if_pos ⟨ha, k⟩, if_pos ha]; simp; omega
    · rw [if_neg (fun h => ha h.1), if_neg (fun h => ha h.1), if_neg ha]; simp; omega

theorem BdCtx.from_low (C : BdCtx b vlvl s) (k : Int) : bFrom b s k b.s.baseval (b.s.baseval + vlvl) = [] := by
  rw [List.eq_nil_iff_forall_not_mem]
  rintro ⟨u, l⟩ hu
  obtain ⟨u1, u2, u3, -⟩ := (mem_bFrom _ _ _ _ _).1 hu
  rw [C.no_anc u1 u2] at u3
  omega

theorem BdCtx.mem_bIn (C : BdCtx b vlvl s) {u x l : Int} (u1 : b.s.baseval ≤ u) (u2 : u < bN b s) :
    (x, l) ∈ bIn b s u ↔ b.s.baseval ≤ x ∧ x < bN b s ∧ b.s.Adj (bq b s u) (bq b s x) ∧ l = b.s.wgt (bq b s u) (bq b s x) := by
  obtain ⟨m1, -⟩ := C.bq_mem u1 u2
  unfold bIn
  rw [List.mem_filter, mem_seg, decide_eq_true_eq]
  constructor
  · rintro ⟨⟨e, e1, e2, e3⟩, hx⟩
    rw [Prod.mk.injEq] at e3
    obtain ⟨e3, e4⟩ := e3
    have hw : b.s.Adj (bq b s u) (b.s.dest e) := ⟨e, e1, e2, rfl⟩
    have hvw := (C.cons.adj_vertex m1 hw).1
    obtain ⟨k1, k2, k3⟩ := C.idx_in hvw (by rw [e3]; exact hx)
    rw [e3] at k1 k2 k3
    rw [k3]
    exact ⟨k1, k2, hw, by rw [← e4, wgt_arc C.cons m1 e1 e2]⟩
  · rintro ⟨x1, x2, ⟨e, e1, e2, e3⟩, hl⟩
    have h1 := (C.bq_mem x1 x2).2
    have := C.base
    exact ⟨⟨e, e1, e2, by rw [e3, h1, hl, ← e3, wgt_arc C.cons m1 e1 e2]⟩, by dsimp only; omega⟩

/-- Arcs from anchor vertices. -/
structure BdBackI (b : Bgraph) (s : BdSt) (ed0 el0 : Arr Int) (num0 anc u : Int) (r : Arr Int × Arr Int × Int × Int) : Prop where
  bnd : r.1.lo = ed0.lo ∧ r.1.hi = ed0.hi
  bnd2 : r.2.1.lo = el0.lo ∧ r.2.1.hi = el0.hi
  old : ∀ x, x < num0 → r.1.get x = ed0.get x ∧ r.2.1.get x = el0.get x
  num : r.2.2.1 = num0 + (bFrom b s 0 b.s.baseval u).length
  tmp : r.2.2.2 = num0 + anc - (bFrom b s 1 b.s.baseval u).length
  seg0 : seg (fun e => (r.1.get e, r.2.1.get e)) num0 r.2.2.1 = bFrom b s 0 b.s.baseval u
  seg1 : seg (fun e => (r.1.get e, r.2.1.get e)) r.2.2.2 (num0 + anc) = (bFrom b s 1 b.s.baseval u).reverse

theorem BdCtx.back (C : BdCtx b vlvl s) {t : BdGr} (I : BdGrI b s a0 a1 (bN b s) t) {vert : Arr Int} (hvb : vert.lo = b.s.baseval ∧ vert.hi = b.s.baseval + (s.head + 3))
    (hvv : ∀ u, b.s.baseval ≤ u → u ≤ bN b s → vert.get u = b.s.baseval + sumI b.s.baseval u (fun u => ((bAdj b s u).length : Int))) {u : Int} (u1 : b.s.baseval ≤ u) (u2 : u < bN b s)
    {r : Arr Int × Arr Int × Int × Int} (J : BdBackI b s t.edge t.edlo t.num t.anc u r) : Holds (bdBack vert (bN b s) u r) (BdBackI b s t.edge t.edlo t.num t.anc (u + 1)) := by
  obtain ⟨h1, h2, h3, h4, h5, h6⟩ := C.head_le
  have hroom := C.room_all
  have hnum := I.lists.next
  have hanc := I.anc
  have hbe := I.bedge
  have hbl := I.bedlo
  have hlo := hvv u u1 (by omega)
  have hhi := hvv (u + 1) (by omega) (by omega)
  rw [sumI_succ u1] at hhi
  have hn0 := len_nonneg (base := b.s.baseval) (adj := bAdj b s) u
  have hmono := len_mono (adj := bAdj b s) u1 u2
  have hlen := C.bAdj_len u1 u2
  have hfl := (C.from_len u1 (by omega)).1
  have hfm := bAncs_mono (b := b) (s := s) (i := u + 1) (j := bN b s) (by omega) (by omega)
  rw [bAncs_succ u1] at hfm
  have hst : seg (fun e => (t.edge.get e, t.edlo.get e)) (vert.get u) (vert.get u + (bAdj b s u).length) = bAdj b s u := by
    rw [hlo, ← I.lists.start u u1 u2]; exact I.lists.lists u u1 u2
  obtain ⟨ed, el, num, tmp⟩ := r
  obtain ⟨jb, jb2, jo, jn, jt, j0, j1⟩ := J
  dsimp only at jb jb2 jo jn jt j0 j1
  unfold bdBack
  rw [Arr.rd_ok _ (by omega) (by omega), ok_bind, Arr.rd_ok _ (by omega) (by omega), ok_bind]
  have hkeep : ¬ 0 < ancL b s u → BdBackI b s t.edge t.edlo t.num t.anc (u + 1) (ed, el, num, tmp) := by
    intro hna
    have e0 : ∀ k, bFrom b s k b.s.baseval (u + 1) = bFrom b s k b.s.baseval u := by
      intro k; rw [bFrom_succ _ u1, if_neg (fun h => hna h.1), List.append_nil]
    refine ⟨jb, jb2, jo, ?_, ?_, ?_, ?_⟩
    · rw [e0]; exact jn
    · rw [e0]; exact jt
    · rw [e0]; exact j0
    · rw [e0]; exact j1
  by_cases hpos : vert.get (u + 1) > vert.get u
  · rw [if_pos hpos]
    dsimp only
    rw [Arr.rd_ok _ (by omega) (by omega), ok_bind, (jo _ (by omega)).1]
    have hsplit : bAdj b s u = seg (fun e => (t.edge.get e, t.edlo.get e)) (vert.get u) (vert.get (u + 1) - 1) ++ [(t.edge.get (vert.get (u + 1) - 1), t.edlo.get (vert.get (u + 1) - 1))] := by
      rw [← seg_succ (fun e => (t.edge.get e, t.edlo.get e)) (by omega), show vert.get (u + 1) - 1 + 1 = vert.get u + (bAdj b s u).length by omega, hst]
    by_cases ha : 0 < ancL b s u
    · have hlast : t.edge.get (vert.get (u + 1) - 1) = bN b s + b.part (bq b s u) ∧ t.edlo.get (vert.get (u + 1) - 1) = ancL b s u := by
        have h2 : bAdj b s u = bIn b s u ++ [(bN b s + b.part (bq b s u), ancL b s u)] := by unfold bAdj; rw [if_pos u2, if_pos ha]
        have h3 := hsplit.symm.trans h2
        have h4 := congrArg List.getLast? h3
        rw [List.getLast?_concat, List.getLast?_concat] at h4
        have := Option.some.inj h4
        rw [Prod.mk.injEq] at this
        exact this
      rw [if_pos ha] at hfm
      rcases C.part u1 u2 with hp | hp
      · rw [hlast.1, hp, if_pos (by omega), Arr.rd_ok _ (by omega) (by omega), ok_bind, (jo _ (by omega)).2, hlast.2, if_pos (by omega), Arr.wr_ok _ _ (by omega) (by omega), ok_bind, Arr.wr_ok _ _ (by omega) (by omega), ok_bind, Holds_pure]
        have e0 : bFrom b s 0 b.s.baseval (u + 1) = bFrom b s 0 b.s.baseval u ++ [(u, ancL b s u)] := by rw [bFrom_succ _ u1, if_pos ⟨ha, hp⟩]
        have e1 : bFrom b s 1 b.s.baseval (u + 1) = bFrom b s 1 b.s.baseval u := by rw [bFrom_succ _ u1, if_neg (fun h => by have := h.2; omega), List.append_nil]
        refine ⟨jb, jb2, ?_, ?_, ?_, ?_, ?_⟩
        · intro x hx; dsimp only; rw [Arr.set_get_ne _ _ (by omega), Arr.set_get_ne _ _ (by omega)]; exact jo x hx
        · dsimp only; rw [e0, List.length_append, List.length_singleton]; omega
        · dsimp only; rw [e1]; exact jt
        · dsimp only
          rw [e0, seg_succ _ (by omega), Arr.set_get_same, Arr.set_get_same, ← j0]
          congr 1
          exact seg_congr fun y y1 y2 => by rw [Arr.set_get_ne _ _ (by omega), Arr.set_get_ne _ _ (by omega)]
        · dsimp only
          rw [e1, ← j1]
          exact seg_congr fun y y1 y2 => by rw [Arr.set_get_ne _ _ (by omega), Arr.set_get_ne _ _ (by omega)]
      · rw [hlast.1, hp, if_pos (by omega), Arr.rd_ok _ (by omega) (by omega), ok_bind, (jo _ (by omega)).2, hlast.2, if_neg (by omega), Arr.wr_ok _ _ (by omega) (by omega), ok_bind, Arr.wr_ok _ _ (by omega) (by omega), ok_bind, Holds_pure]
        have e0 : bFrom b s 1 b.s.baseval (u + 1) = bFrom b s 1 b.s.baseval u ++ [(u, ancL b s u)] := by rw [bFrom_succ _ u1, if_pos ⟨ha, hp⟩]
        have e1 : bFrom b s 0 b.s.baseval (u + 1) = bFrom b s 0 b.s.baseval u := by rw [bFrom_succ _ u1, if_neg (fun h => by have := h.2; omega), List.append_nil]
        refine ⟨jb, jb2, ?_, ?_, ?_, ?_, ?_⟩
        · intro x hx; dsimp only; rw [Arr.set_get_ne _ _ (by omega), Arr.set_get_ne _ _ (by omega)]; exact jo x hx
        · dsimp only; rw [e1]; exact jn
        · dsimp only; rw [e0, List.length_append, List.length_singleton]; omega
        · dsimp only
          rw [e1, ← j0]
          exact seg_congr fun y y1 y2 => by rw [Arr.set_get_ne _ _ (by omega), Arr.set_get_ne _ _ (by omega)]
        · dsimp only
          rw [e0, List.reverse_append, List.reverse_singleton, seg_cons _ (by omega), Arr.set_get_same, Arr.set_get_same, ← j1, show tmp - 1 + 1 = tmp by omega]
          rw [List.singleton_append]
          congr 1
          exact seg_congr fun y y1 y2 => by rw [Arr.set_get_ne _ _ (by omega), Arr.set_get_ne _ _ (by omega)]
    · have hin : (t.edge.get (vert.get (u + 1) - 1), t.edlo.get (vert.get (u + 1) - 1)) ∈ bIn b s u := by
        have h2 : bAdj b s u = bIn b s u := by unfold bAdj; rw [if_pos u2, if_neg ha, List.append_nil]
        rw [← h2, hsplit]
        exact List.mem_append_right _ (List.mem_singleton_self _)
      have := (C.mem_bIn u1 u2).1 hin
      rw [if_neg (by omega), Holds_pure]
      exact hkeep ha
  · rw [if_neg hpos, Holds_pure]
    refine hkeep fun ha => ?_
    have := hlen.1
    rw [if_pos ha] at this
    omega

theorem lists_congr {base v num : Int} {adj : Int → List (Int × Int)} {vert vert' : Int → Int} {edge : Int → Int × Int} (L : Lists base v adj vert edge num) (h : ∀ u, base ≤ u → u < v → vert' u = vert u) : Lists base v adj vert' edge num :=
  ⟨L.next, fun u u1 u2 => by rw [h u u1 u2]; exact L.start u u1 u2, fun u u1 u2 => by rw [h u u1 u2]; exact L.lists u u1 u2⟩

/-- Band graph, and its parts. -/
structure BdBand (b : Bgraph) (s : BdSt) (a0 a1 : Int) (r : BdBnd) : Prop where
  shape : r.graf.baseval = b.s.baseval ∧ r.graf.vertnbr = s.head + 2 ∧ r.graf.vertnnd = bN b s + 2 ∧ r.graf.velosum = b.s.velosum
  lists : ∃ lo, IsListsW r.graf lo (bAdj b s)
  alloc : r.graf.Allocated
  velo : ∀ w, b.s.baseval ≤ w → w < bN b s → r.graf.velo w = b.s.velo (bq b s w)
  anch : r.graf.velo (bN b s) = a0 ∧ r.graf.velo (bN b s + 1) = a1
  bnd : r.part.lo = b.s.baseval ∧ r.part.hi = b.s.baseval + (s.head + 2)
  part : ∀ w, b.s.baseval ≤ w → w < bN b s → r.part.get w = b.part (bq b s w)
  panc : r.part.get (bN b s) = 0 ∧ r.part.get (bN b s + 1) = 1
  link : (r.num1 = r.num0 ↔ bFrom b s 0 b.s.baseval (bN b s) = []) ∧ (r.num1 = r.num2 ↔ bFrom b s 1 b.s.baseval (bN b s) = [])

theorem BdCtx.close (C : BdCtx b vlvl s) (Q : BdQueu b s queu) (hh2 : s.head + 2 ≤ b.s.vertnbr) {t : BdGr} (I : BdGrI b s a0 a1 (bN b s) t) : Holds (bdClose b vlvl s queu t) (BdBand b s a0 a1) := by
  obtain ⟨h1, h2, h3, h4, h5, h6⟩ := C.head_le
  have hb1 := I.bvert
  have hb2 := I.bvelo
  have hb3 := I.bedge
  have hb5 := I.bedlo
  have hb4 := I.bpart
  have hnum := I.lists.next
  have hroom := C.room_all
  have hanc := I.anc
  obtain ⟨hfl, hfs⟩ := C.from_len (i := bN b s) (by omega) (by omega)
  unfold bdClose
  dsimp only
  rw [← h6, Arr.wr_ok _ _ (by omega) (by omega), ok_bind, Arr.wr_ok _ _ (by dsimp only [Arr.set]; omega) (by dsimp only [Arr.set]; omega), ok_bind, Arr.wr_ok _ _ (by omega) (by omega), ok_bind,
    Arr.wr_ok _ _ (by dsimp only [Arr.set]; omega) (by dsimp only [Arr.set]; omega), ok_bind, Holds_bind]
  have hvv : ∀ u, b.s.baseval ≤ u → u ≤ bN b s → ((t.vert.set (bN b s) t.num).set (bN b s + 2) (t.num + t.anc)).get u = b.s.baseval + sumI b.s.baseval u (fun u => ((bAdj b s u).length : Int)) := by
    intro u u1 u2
    rw [Arr.set_get_ne _ _ (by omega)]
    by_cases e : u = bN b s
    · rw [e, Arr.set_get_same, hnum]
    · rw [Arr.set_get_ne _ _ e]; exact I.lists.start u u1 (by omega)
  refine Holds_forUp (BdBackI b s t.edge t.edlo t.num t.anc) (by omega) ?_ ?_ ?_
  · refine ⟨⟨rfl, rfl⟩, ⟨rfl, rfl⟩, fun _ _ => ⟨rfl, rfl⟩, ?_, ?_, ?_, ?_⟩
    · rw [C.from_low]; simp
    · rw [C.from_low]; simp
    · rw [C.from_low, seg_empty _ (Int.le_refl _)]
    · rw [C.from_low, seg_empty _ (Int.le_refl _)]; rfl
  · intro u r u1 u2 J
    refine C.back I ?_ hvv (by omega) u2 J
    exact hb1
  · rintro ⟨ed, el, num, tmp⟩ ⟨jb, jb2, jo, jn, jt, j0, j1⟩
    dsimp only at jb jb2 jo jn jt j0 j1 ⊢
    rw [Arr.wr_ok _ _ (by dsimp only [Arr.set]; omega) (by dsimp only [Arr.set]; omega), ok_bind, Holds_pure]
    have htn : tmp = num := by omega
    subst htn
    have eadj0 : bAdj b s (bN b s) = bFrom b s 0 b.s.baseval (bN b s) := by unfold bAdj; rw [if_neg (by omega), if_pos rfl]
    have eadj1 : bAdj b s (bN b s + 1) = (bFrom b s 1 b.s.baseval (bN b s)).reverse := by unfold bAdj; rw [if_neg (by omega), if_neg (by omega)]
    have L1 := I.lists.step (by omega) (vert' := (t.vert.set (bN b s) t.num).get) (edge' := fun e => (ed.get e, el.get e)) (num' := tmp) (fun u hu => Arr.set_get_ne _ _ hu) (Arr.set_get_same _ _ _)
      (fun x hx => by rw [(jo x hx).1, (jo x hx).2]) (by omega) (by rw [eadj0]; exact j0)
    have L2 := L1.step (by omega) (vert' := ((t.vert.set (bN b s) t.num).set (bN b s + 1) tmp).get) (edge' := fun e => (ed.get e, el.get e)) (num' := t.num + t.anc) (fun u hu => Arr.set_get_ne _ _ hu) (Arr.set_get_same _ _ _) (fun _ _ => rfl) (by omega) (by rw [eadj1]; exact j1)
    have hnn1 := len_nonneg (base := b.s.baseval) (adj := bAdj b s) (bN b s)
    have L : IsListsW (⟨b.s.baseval, s.head + 2, bN b s + 2, (((t.vert.set (bN b s) t.num).set (bN b s + 2) (t.num + t.anc)).set (bN b s + 1) tmp), none, some t.velo, b.s.velosum,
        some (queu.shift b.s.baseval), none, t.num + t.anc - b.s.baseval, ⟨b.s.baseval, b.s.baseval + (t.num + t.anc - b.s.baseval), ed.get⟩, some ⟨b.s.baseval, b.s.baseval + (t.num + t.anc - b.s.baseval), el.get⟩, t.losum,
        bdDegr (bdDegr t.degr (tmp - t.num)) (t.num + t.anc - tmp)⟩ : Graph) el.get (bAdj b s) := by
      refine ⟨?_, ?_, rfl, ⟨_, rfl, rfl⟩, ?_, ?_, ?_, ?_⟩
      · dsimp only; omega
      · dsimp only; omega
      · dsimp only
        rw [show b.s.baseval + (t.num + t.anc - b.s.baseval) = t.num + t.anc by omega, show bN b s + 2 = bN b s + 1 + 1 by omega]
        refine lists_congr L2 ?_
        intro u u1 u2
        by_cases e : u = bN b s + 1
        · rw [e, Arr.set_get_same, Arr.set_get_same]
        · rw [Arr.set_get_ne _ _ e, Arr.set_get_ne _ _ (by omega), Arr.set_get_ne _ _ e]
      · dsimp only
        rw [Arr.set_get_ne _ _ (by omega), Arr.set_get_same]; omega
      · dsimp only
        rw [show bN b s + 2 = bN b s + 1 + 1 by omega, sumI_succ (by omega), sumI_succ (by omega), eadj0, eadj1, List.map_reverse, List.sum_reverse, Int.add_assoc, hfs, I.losum, sumI_add_dist]
        congr 1
        refine sumI_congr fun u u1 u2 => ?_
        rw [← bIn_sum u (C.cons.range _ (C.bq_mem u1 u2).1).2]
        have h0 := C.ancL_nonneg u1 u2
        unfold bAdj
        rw [if_pos u2]
        by_cases ha : 0 < ancL b s u
        · rw [if_pos ha, List.map_append, List.sum_append]; simp
        · rw [if_neg ha, List.append_nil]; omega
      · dsimp only
        have hd : ∀ x y, x ≤ bdDegr x y ∧ y ≤ bdDegr x y := by intro x y; unfold bdDegr; split <;> omega
        have d1 := hd t.degr (tmp - t.num)
        have d2 := hd (bdDegr t.degr (tmp - t.num)) (t.num + t.anc - tmp)
        have d0 := I.degr.1
        refine ⟨by omega, ?_⟩
        intro v hv
        have v1 := hv.1
        have v2 := hv.2
        dsimp only at v1 v2
        by_cases e0 : v < bN b s
        · have := I.degr.2 v v1 e0; omega
        · by_cases e1 : v = bN b s
          · rw [e1, eadj0]; omega
          · rw [show v = bN b s + 1 by omega, eadj1, List.length_reverse]; omega
    refine ⟨⟨rfl, rfl, rfl, rfl⟩, ⟨_, L⟩, ?_, ?_, ?_, hb4, ?_, ?_, ?_⟩
    · have hq := Q.bnd
      have hin : ∀ v, b.s.baseval ≤ v → v < bN b s + 2 → _ := fun v v1 v2 => L.next ⟨v1, v2⟩
      have b3 := L.lists.next
      dsimp only at b3
      refine ⟨?_, ?_, ?_, ?_, ?_, ?_, ?_, ?_, ?_⟩
      · dsimp only [Arr.set]; omega
      · dsimp only [Arr.set]; omega
      · intro _; dsimp only [Arr.set]; omega
      · intro a h; cases h
      · intro a h; cases h; dsimp only; omega
      · intro a h; cases h; dsimp only [Arr.shift]; omega
      · intro a h; cases h
      · intro v hv _
        obtain ⟨e1, e2⟩ := L.next hv
        have b1 := len_nonneg (base := b.s.baseval) (adj := bAdj b s) v
        have b2 := len_mono (base := b.s.baseval) (adj := bAdj b s) hv.1 hv.2
        dsimp only at e1 e2 b2 ⊢
        omega
      · intro a h v hv _
        cases h
        obtain ⟨e1, e2⟩ := L.next hv
        have b1 := len_nonneg (base := b.s.baseval) (adj := bAdj b s) v
        have b2 := len_mono (base := b.s.baseval) (adj := bAdj b s) hv.1 hv.2
        dsimp only at e1 e2 b2 ⊢
        omega
    · intro w w1 w2; exact I.velo w w1 w2
    · exact I.anch
    · intro w w1 w2
      dsimp only
      rw [Arr.set_get_ne _ _ (by omega), Arr.set_get_ne _ _ (by omega)]; exact I.part w w1 w2
    · dsimp only
      rw [Arr.set_get_ne _ _ (by omega), Arr.set_get_same, Arr.set_get_same]; exact ⟨rfl, rfl⟩
    · dsimp only
      rw [← List.length_eq_zero_iff, ← List.length_eq_zero_iff]
      constructor <;> constructor <;> intro _ <;> omega

end Scotch.Bipart
