import Verif.Separ.LemmasBd3

/-! # Separation of band graphs: anchor vertices -/

set_option autoImplicit false
set_option linter.unusedSimpArgs false

namespace Scotch.Separ
open Graph
open Bipart (over)

variable {b : Vgraph} {s : BdSt} {D distmax vlvl : Int} {idx : Arr Int} {a0 a1 : Int}

/-- Vertices of the separator are not linked to anchor vertices. -/
theorem BdCtx.anc_part (C : BdCtx b D distmax s vlvl idx) {u : Int} (u1 : b.s.baseval ≤ u) (u2 : u < s.head + b.s.baseval) (h : bAnc b s idx.get u = true) : b.part (bq b s u) = 0 ∨ b.part (bq b s u) = 1 := by
  obtain ⟨m1, -⟩ := C.found.bq_mem u1 u2
  have hl := C.anc_last u1 u2 h
  have := C.pos
  rcases C.valid.parts _ m1 with k | k | k
  · exact Or.inl k
  · exact Or.inr k
  · obtain ⟨i, i1, i2, i3⟩ := (C.valid.fron.2.2 _).1 ⟨m1, k⟩
    have := (C.found.fron.2 i i1 i2).2
    rw [i3] at this
    omega

theorem bFrom_empty (idx : Int → Int) (k i : Int) : bFrom b s idx k i i = [] := by
  unfold bFrom; rw [seg_empty _ (Int.le_refl _)]; rfl

theorem bFrom_succ (idx : Int → Int) (k : Int) {lo i : Int} (h : lo ≤ i) : bFrom b s idx k lo (i + 1) = bFrom b s idx k lo i ++ (if bAnc b s idx i = true ∧ b.part (bq b s i) = k then [i] else []) := by
  unfold bFrom
  rw [seg_succ _ h, List.filter_append]
  congr 1
  by_cases hh : bAnc b s idx i = true ∧ b.part (bq b s i) = k
  · rw [if_pos hh]; simp [hh.1, hh.2]
  · rw [if_neg hh]
    rw [List.filter_cons]
    rw [if_neg (by rw [Bool.and_eq_true, decide_eq_true_eq]; exact hh)]
    rfl

theorem mem_bFrom (idx : Int → Int) (k lo hi u : Int) : u ∈ bFrom b s idx k lo hi ↔ lo ≤ u ∧ u < hi ∧ bAnc b s idx u = true ∧ b.part (bq b s u) = k := by
  unfold bFrom
  rw [List.mem_filter, mem_seg, Bool.and_eq_true, decide_eq_true_eq]
  constructor
  · rintro ⟨⟨i, i1, i2, rfl⟩, h⟩; exact ⟨i1, i2, h⟩
  · rintro ⟨h1, h2, h⟩; exact ⟨⟨u, h1, h2, rfl⟩, h⟩

/-- Each anchored vertex is linked to one of the two anchor vertices. -/
theorem BdCtx.from_len (C : BdCtx b D distmax s vlvl idx) {i : Int} (i1 : b.s.baseval ≤ i) (i2 : i ≤ s.head + b.s.baseval) :
    ((bFrom b s idx.get 0 b.s.baseval i).length : Int) + (bFrom b s idx.get 1 b.s.baseval i).length = bAncs b s idx.get i := by
  obtain ⟨n, rfl⟩ : ∃ n : Nat, i = b.s.baseval + n := ⟨(i - b.s.baseval).toNat, by omega⟩
  induction n with
  | zero =>
    rw [show b.s.baseval + ((0 : Nat) : Int) = b.s.baseval by omega, bFrom_empty, bFrom_empty]
    unfold bAncs
    rw [sumI_empty (Int.le_refl _)]; rfl
  | succ n ih =>
    have ih := ih (by omega) (by omega)
    rw [show b.s.baseval + ((n + 1 : Nat) : Int) = b.s.baseval + n + 1 by omega, bFrom_succ _ _ (by omega), bFrom_succ _ _ (by omega), bAncs_succ _ (by omega), List.length_append, List.length_append]
    by_cases ha : bAnc b s idx.get (b.s.baseval + n) = true
    · rcases C.anc_part (u := b.s.baseval + n) (by omega) (by omega) ha with k | k
      · rw [if_pos ⟨ha, k⟩, if_neg (fun h => by have := h.2; omega), if_pos ha]; simp; omega
      · rw [if_neg (fun h => by have := h.2; omega), if_pos ⟨ha, k⟩, if_pos ha]; simp; omega
    · rw [if_neg (fun h => ha h.1), if_neg (fun h => ha h.1), if_neg ha]; simp; omega

theorem bAncs_mono (idx : Int → Int) {i j : Int} (h1 : b.s.baseval ≤ i) (h2 : i ≤ j) : bAncs b s idx i ≤ bAncs b s idx j := by
  unfold bAncs
  rw [sumI_split h1 h2]
  have : 0 ≤ sumI i j (fun w => if bAnc b s idx w = true then (1 : Int) else 0) := sumI_nonneg fun w _ _ => by split <;> omega
  omega

theorem BdCtx.no_anc (C : BdCtx b D distmax s vlvl idx) {u : Int} (u1 : b.s.baseval ≤ u) (u2 : u < vlvl) : bAnc b s idx.get u = false := by
  have hlv := C.num.lvl
  rw [Bool.eq_false_iff]
  intro h
  have := C.anc_last u1 (by omega) h
  have := C.num.low u u1 u2
  have := C.max
  omega

theorem BdCtx.from_low (C : BdCtx b D distmax s vlvl idx) (k : Int) : bFrom b s idx.get k b.s.baseval vlvl = [] := by
  rw [List.eq_nil_iff_forall_not_mem]
  intro u hu
  obtain ⟨u1, u2, u3, -⟩ := (mem_bFrom _ _ _ _ _).1 hu
  rw [C.no_anc u1 u2] at u3
  cases u3

theorem BdCtx.mem_bIn (C : BdCtx b D distmax s vlvl idx) {u x : Int} (u1 : b.s.baseval ≤ u) (u2 : u < s.head + b.s.baseval) :
    x ∈ bIn b s idx.get u ↔ b.s.baseval ≤ x ∧ x < s.head + b.s.baseval ∧ b.s.Adj (bq b s u) (bq b s x) := by
  obtain ⟨m1, -⟩ := C.found.bq_mem u1 u2
  unfold bIn
  rw [List.mem_filter, mem_seg, decide_eq_true_eq]
  constructor
  · rintro ⟨⟨e, e1, e2, e3⟩, hx⟩
    have hw : b.s.Adj (bq b s u) (b.s.dest e) := ⟨e, e1, e2, rfl⟩
    have hvw := (C.cons.adj_vertex m1 hw).1
    obtain ⟨k1, k2, k3⟩ := (C.idx_in hvw).2 (by rw [e3]; exact hx)
    rw [e3] at k1 k2 k3
    rw [k3]
    exact ⟨k1, k2, hw⟩
  · rintro ⟨x1, x2, ⟨e, e1, e2, e3⟩⟩
    have := C.num.num x x1 x2
    have := C.base
    exact ⟨⟨e, e1, e2, by rw [e3]; exact C.num.num x x1 x2⟩, by omega⟩

/-- Arcs from anchor vertices. -/
structure BdBackI (b : Vgraph) (s : BdSt) (idx : Arr Int) (ed0 : Arr Int) (num0 anc u : Int) (r : Arr Int × Int × Int) : Prop where
  bnd : r.1.lo = ed0.lo ∧ r.1.hi = ed0.hi
  old : ∀ x, x < num0 → r.1.get x = ed0.get x
  num : r.2.1 = num0 + (bFrom b s idx.get 0 b.s.baseval u).length
  tmp : r.2.2 = num0 + anc - (bFrom b s idx.get 1 b.s.baseval u).length
  seg0 : seg r.1.get num0 r.2.1 = bFrom b s idx.get 0 b.s.baseval u
  seg1 : seg r.1.get r.2.2 (num0 + anc) = (bFrom b s idx.get 1 b.s.baseval u).reverse

theorem BdCtx.back (C : BdCtx b D distmax s vlvl idx) {t : BdGr} (I : BdGrI b s idx a0 a1 (s.head + b.s.baseval) t) {vert : Arr Int} (hvb : vert.lo = b.s.baseval ∧ vert.hi = b.s.baseval + (s.head + 3))
    (hvv : ∀ u, b.s.baseval ≤ u → u ≤ s.head + b.s.baseval → vert.get u = b.s.baseval + sumI b.s.baseval u (fun u => ((bAdj b s idx.get u).length : Int))) {u : Int} (u1 : b.s.baseval ≤ u) (u2 : u < s.head + b.s.baseval)
    {r : Arr Int × Int × Int} (J : BdBackI b s idx t.edge t.num t.anc u r) : Holds (bdBack vert (s.head + b.s.baseval) u r) (BdBackI b s idx t.edge t.num t.anc (u + 1)) := by
  have hroom := C.room_all
  have hnum := I.lists.next
  have hanc := I.anc
  have hbe := I.bedge
  have hlo := hvv u u1 (by omega)
  have hhi := hvv (u + 1) (by omega) (by omega)
  rw [sumI_succ u1] at hhi
  have hn0 := len_nonneg (base := b.s.baseval) (adj := bAdj b s idx.get) u
  have hmono := len_mono (adj := bAdj b s idx.get) u1 u2
  have hlen := bAdj_len C.cons C.found idx.get u1 u2
  have hfl := C.from_len u1 (by omega)
  have hfm := bAncs_mono (b := b) (s := s) idx.get (i := u + 1) (j := s.head + b.s.baseval) (by omega) (by omega)
  rw [bAncs_succ _ u1] at hfm
  have hst : seg t.edge.get (vert.get u) (vert.get u + (bAdj b s idx.get u).length) = bAdj b s idx.get u := by
    rw [hlo, ← I.lists.start u u1 u2]; exact I.lists.lists u u1 u2
  obtain ⟨ed, num, tmp⟩ := r
  obtain ⟨jb, jo, jn, jt, j0, j1⟩ := J
  dsimp only at jb jo jn jt j0 j1
  unfold bdBack
  rw [Arr.rd_ok _ (by omega) (by omega), ok_bind, Arr.rd_ok _ (by omega) (by omega), ok_bind]
  have hkeep : bAnc b s idx.get u ≠ true → BdBackI b s idx t.edge t.num t.anc (u + 1) (ed, num, tmp) := by
    intro hna
    have e0 : ∀ k, bFrom b s idx.get k b.s.baseval (u + 1) = bFrom b s idx.get k b.s.baseval u := by
      intro k; rw [bFrom_succ _ _ u1, if_neg (fun h => hna h.1), List.append_nil]
    refine ⟨jb, jo, ?_, ?_, ?_, ?_⟩
    · rw [e0]; exact jn
    · rw [e0]; exact jt
    · rw [e0]; exact j0
    · rw [e0]; exact j1
  by_cases hpos : vert.get (u + 1) > vert.get u
  · rw [if_pos hpos]
    dsimp only
    rw [Arr.rd_ok _ (by omega) (by omega), ok_bind, jo _ (by omega)]
    have hsplit : bAdj b s idx.get u = seg t.edge.get (vert.get u) (vert.get (u + 1) - 1) ++ [t.edge.get (vert.get (u + 1) - 1)] := by
      rw [← seg_succ _ (by omega), show vert.get (u + 1) - 1 + 1 = vert.get u + (bAdj b s idx.get u).length by omega, hst]
    by_cases ha : bAnc b s idx.get u = true
    · have hlast : t.edge.get (vert.get (u + 1) - 1) = s.head + b.s.baseval + b.part (bq b s u) := by
        have h2 : bAdj b s idx.get u = bIn b s idx.get u ++ [s.head + b.s.baseval + b.part (bq b s u)] := by unfold bAdj; rw [if_pos u2, if_pos ha]
        have h3 := hsplit.symm.trans h2
        have h4 := congrArg List.getLast? h3
        rw [List.getLast?_concat, List.getLast?_concat] at h4
        exact Option.some.inj h4
      rw [if_pos ha] at hfm
      rcases C.anc_part u1 u2 ha with hp | hp
      · rw [hlast, hp, if_pos (by omega), if_pos (by omega), Arr.wr_ok _ _ (by omega) (by omega), ok_bind, Holds_pure]
        have e0 : bFrom b s idx.get 0 b.s.baseval (u + 1) = bFrom b s idx.get 0 b.s.baseval u ++ [u] := by rw [bFrom_succ _ _ u1, if_pos ⟨ha, hp⟩]
        have e1 : bFrom b s idx.get 1 b.s.baseval (u + 1) = bFrom b s idx.get 1 b.s.baseval u := by rw [bFrom_succ _ _ u1, if_neg (fun h => by have := h.2; omega), List.append_nil]
        refine ⟨jb, ?_, ?_, ?_, ?_, ?_⟩
        · intro x hx; dsimp only; rw [Arr.set_get_ne _ _ (by omega)]; exact jo x hx
        · dsimp only; rw [e0, List.length_append, List.length_singleton]; omega
        · dsimp only; rw [e1]; exact jt
        · dsimp only
          rw [e0, seg_succ _ (by omega), Arr.set_get_same, ← j0]
          congr 1
          exact seg_congr fun y y1 y2 => Arr.set_get_ne _ _ (by omega)
        · dsimp only
          rw [e1, ← j1]
          exact seg_congr fun y y1 y2 => Arr.set_get_ne _ _ (by omega)
      · rw [hlast, hp, if_pos (by omega), if_neg (by omega), Arr.wr_ok _ _ (by omega) (by omega), ok_bind, Holds_pure]
        have e0 : bFrom b s idx.get 1 b.s.baseval (u + 1) = bFrom b s idx.get 1 b.s.baseval u ++ [u] := by rw [bFrom_succ _ _ u1, if_pos ⟨ha, hp⟩]
        have e1 : bFrom b s idx.get 0 b.s.baseval (u + 1) = bFrom b s idx.get 0 b.s.baseval u := by rw [bFrom_succ _ _ u1, if_neg (fun h => by have := h.2; omega), List.append_nil]
        refine ⟨jb, ?_, ?_, ?_, ?_, ?_⟩
        · intro x hx; dsimp only; rw [Arr.set_get_ne _ _ (by omega)]; exact jo x hx
        · dsimp only; rw [e1]; exact jn
        · dsimp only; rw [e0, List.length_append, List.length_singleton]; omega
        · dsimp only
          rw [e1, ← j0]
          exact seg_congr fun y y1 y2 => Arr.set_get_ne _ _ (by omega)
        · dsimp only
          rw [e0, List.reverse_append, List.reverse_singleton, seg_cons _ (by omega), Arr.set_get_same, ← j1, show tmp - 1 + 1 = tmp by omega]
          rw [List.singleton_append]
          congr 1
          exact seg_congr fun y y1 y2 => Arr.set_get_ne _ _ (by omega)
    · have hin : t.edge.get (vert.get (u + 1) - 1) ∈ bIn b s idx.get u := by
        have h2 : bAdj b s idx.get u = bIn b s idx.get u := by unfold bAdj; rw [if_pos u2, if_neg ha, List.append_nil]
        rw [← h2, hsplit]
        exact List.mem_append_right _ (List.mem_singleton_self _)
      have := (C.mem_bIn u1 u2).1 hin
      rw [if_neg (by omega), Holds_pure]
      exact hkeep ha
  · rw [if_neg hpos, Holds_pure]
    refine hkeep fun ha => ?_
    have := hlen.1
    rw [if_pos ha] at this
    omega

theorem Lists.congr {base v num : Int} {adj : Int → List Int} {vert edge vert' : Int → Int} (L : Lists base v adj vert edge num) (h : ∀ u, base ≤ u → u < v → vert' u = vert u) : Lists base v adj vert' edge num :=
  ⟨L.next, fun u u1 u2 => by rw [h u u1 u2]; exact L.start u u1 u2, fun u u1 u2 => by rw [h u u1 u2]; exact L.lists u u1 u2⟩

/-- Band graph, and its parts. -/
structure BdBand (b : Vgraph) (s : BdSt) (idx : Arr Int) (a0 a1 : Int) (r : Graph × Arr Int) : Prop where
  shape : r.1.baseval = b.s.baseval ∧ r.1.vertnbr = s.head + 2 ∧ r.1.vertnnd = s.head + b.s.baseval + 2 ∧ r.1.velosum = b.s.velosum
  lists : IsLists r.1 (bAdj b s idx.get)
  alloc : r.1.Allocated
  velo : ∀ w, b.s.baseval ≤ w → w < s.head + b.s.baseval → r.1.velo w = b.s.velo (bq b s w)
  anch : r.1.velo (s.head + b.s.baseval) = a0 ∧ r.1.velo (s.head + b.s.baseval + 1) = a1
  bnd : r.2.lo = b.s.baseval ∧ r.2.hi = b.s.baseval + (s.head + 2)
  part : ∀ w, b.s.baseval ≤ w → w < s.head + b.s.baseval → r.2.get w = b.part (bq b s w)
  panc : r.2.get (s.head + b.s.baseval) = 0 ∧ r.2.get (s.head + b.s.baseval + 1) = 1

theorem BdCtx.close (C : BdCtx b D distmax s vlvl idx) (h2 : s.head + 2 ≤ b.s.vertnbr) {t : BdGr} (I : BdGrI b s idx a0 a1 (s.head + b.s.baseval) t) : Holds (bdClose b s vlvl t) (BdBand b s idx a0 a1) := by
  have hlv := C.num.lvl
  obtain ⟨hh0, hh1⟩ := C.found.head_le C.cons
  have hb1 := I.bvert
  have hb2 := I.bvelo
  have hb3 := I.bedge
  have hb4 := I.bpart
  have hnum := I.lists.next
  have hroom := C.room_all
  have hanc := I.anc
  have hfl := C.from_len (i := s.head + b.s.baseval) (by omega) (by omega)
  unfold bdClose
  dsimp only
  rw [Arr.wr_ok _ _ (by omega) (by omega), ok_bind, Arr.wr_ok _ _ (by dsimp only [Arr.set]; omega) (by dsimp only [Arr.set]; omega), ok_bind, Arr.wr_ok _ _ (by omega) (by omega), ok_bind,
    Arr.wr_ok _ _ (by dsimp only [Arr.set]; omega) (by dsimp only [Arr.set]; omega), ok_bind, Holds_bind]
  have hvv : ∀ u, b.s.baseval ≤ u → u ≤ s.head + b.s.baseval → ((t.vert.set (s.head + b.s.baseval) t.num).set (s.head + b.s.baseval + 2) (t.num + t.anc)).get u = b.s.baseval + sumI b.s.baseval u (fun u => ((bAdj b s idx.get u).length : Int)) := by
    intro u u1 u2
    rw [Arr.set_get_ne _ _ (by omega)]
    by_cases e : u = s.head + b.s.baseval
    · rw [e, Arr.set_get_same, hnum]
    · rw [Arr.set_get_ne _ _ e]; exact I.lists.start u u1 (by omega)
  refine Holds_forUp (BdBackI b s idx t.edge t.num t.anc) hlv.2 ?_ ?_ ?_
  · refine ⟨⟨rfl, rfl⟩, fun _ _ => rfl, ?_, ?_, ?_, ?_⟩
    · rw [C.from_low]; simp
    · rw [C.from_low]; simp
    · rw [C.from_low, seg_empty _ (Int.le_refl _)]
    · rw [C.from_low, seg_empty _ (Int.le_refl _)]; rfl
  · intro u r u1 u2 J
    refine C.back I ?_ hvv (by omega) u2 J
    exact hb1
  · rintro ⟨ed, num, tmp⟩ ⟨jb, jo, jn, jt, j0, j1⟩
    dsimp only at jb jo jn jt j0 j1 ⊢
    rw [Arr.wr_ok _ _ (by dsimp only [Arr.set]; omega) (by dsimp only [Arr.set]; omega), ok_bind, Holds_pure]
    have htn : tmp = num := by omega
    subst htn
    have eadj0 : bAdj b s idx.get (s.head + b.s.baseval) = bFrom b s idx.get 0 b.s.baseval (s.head + b.s.baseval) := by unfold bAdj; rw [if_neg (by omega), if_pos rfl]
    have eadj1 : bAdj b s idx.get (s.head + b.s.baseval + 1) = (bFrom b s idx.get 1 b.s.baseval (s.head + b.s.baseval)).reverse := by unfold bAdj; rw [if_neg (by omega), if_neg (by omega)]
    have L1 := I.lists.step (by omega) (vert' := (t.vert.set (s.head + b.s.baseval) t.num).get) (edge' := ed.get) (num' := tmp) (fun u hu => Arr.set_get_ne _ _ hu) (Arr.set_get_same _ _ _) jo (by omega) (by rw [eadj0]; exact j0)
    have L2 := L1.step (by omega) (vert' := ((t.vert.set (s.head + b.s.baseval) t.num).set (s.head + b.s.baseval + 1) tmp).get) (edge' := ed.get) (num' := t.num + t.anc) (fun u hu => Arr.set_get_ne _ _ hu) (Arr.set_get_same _ _ _) (fun _ _ => rfl) (by omega) (by rw [eadj1]; exact j1)
    have hnn1 := len_nonneg (base := b.s.baseval) (adj := bAdj b s idx.get) (s.head + b.s.baseval)
    have L : IsLists (⟨b.s.baseval, s.head + 2, s.head + b.s.baseval + 2, (((t.vert.set (s.head + b.s.baseval) t.num).set (s.head + b.s.baseval + 2) (t.num + t.anc)).set (s.head + b.s.baseval + 1) tmp), none, some t.velo, b.s.velosum,
        some (s.queu.shift b.s.baseval), none, t.num + t.anc - b.s.baseval, ⟨b.s.baseval, b.s.baseval + (t.num + t.anc - b.s.baseval), ed.get⟩, none, t.num + t.anc - b.s.baseval, bdDegr (bdDegr t.degr (tmp - t.num)) (t.num + t.anc - tmp)⟩ : Graph) (bAdj b s idx.get) := by
      refine ⟨?_, ?_, rfl, rfl, ?_, ?_, rfl, ?_⟩
      · dsimp only; omega
      · dsimp only; omega
      · dsimp only
        rw [show b.s.baseval + (t.num + t.anc - b.s.baseval) = t.num + t.anc by omega, show s.head + b.s.baseval + 2 = s.head + b.s.baseval + 1 + 1 by omega]
        refine Lists.congr L2 ?_
        intro u u1 u2
        by_cases e : u = s.head + b.s.baseval + 1
        · rw [e, Arr.set_get_same, Arr.set_get_same]
        · rw [Arr.set_get_ne _ _ e, Arr.set_get_ne _ _ (by omega), Arr.set_get_ne _ _ e]
      · dsimp only
        rw [Arr.set_get_ne _ _ (by omega), Arr.set_get_same]; omega
      · dsimp only
        have hd : ∀ x y, x ≤ bdDegr x y ∧ y ≤ bdDegr x y := by intro x y; unfold bdDegr; split <;> omega
        have d1 := hd t.degr (tmp - t.num)
        have d2 := hd (bdDegr t.degr (tmp - t.num)) (t.num + t.anc - tmp)
        have d0 := I.degr.1
        refine ⟨by omega, ?_⟩
        intro v hv
        have v1 := hv.1
        have v2 := hv.2
        dsimp only at v1 v2
        by_cases e0 : v < s.head + b.s.baseval
        · have := I.degr.2 v v1 e0; omega
        · by_cases e1 : v = s.head + b.s.baseval
          · rw [e1, eadj0]; omega
          · rw [show v = s.head + b.s.baseval + 1 by omega, eadj1, List.length_reverse]; omega
    refine ⟨⟨rfl, rfl, rfl, rfl⟩, L, ?_, ?_, ?_, hb4, ?_, ?_⟩
    · have hq := C.found.bnd
      refine ⟨?_, ?_, ?_, ?_, ?_, ?_, ?_, ?_, ?_⟩
      · dsimp only [Arr.set]; omega
      · dsimp only [Arr.set]; omega
      · intro _; dsimp only [Arr.set]; omega
      · intro a h; cases h
      · intro a h; cases h; dsimp only; omega
      · intro a h; cases h; dsimp only [Arr.shift]; omega
      · intro a h; cases h
      · intro v hv _
        obtain ⟨e1, e2⟩ := L.next hv
        have b1 := len_nonneg (base := b.s.baseval) (adj := bAdj b s idx.get) v
        have b2 := len_mono (base := b.s.baseval) (adj := bAdj b s idx.get) hv.1 hv.2
        have b3 := L.lists.next
        dsimp only at e1 e2 b3 b2 ⊢
        omega
      · intro a h; cases h
    · intro w w1 w2; exact I.velo w w1 w2
    · exact I.anch
    · intro w w1 w2
      dsimp only
      rw [Arr.set_get_ne _ _ (by omega), Arr.set_get_ne _ _ (by omega)]; exact I.part w w1 w2
    · dsimp only
      rw [Arr.set_get_ne _ _ (by omega), Arr.set_get_same, Arr.set_get_same]; exact ⟨rfl, rfl⟩

end Scotch.Separ
