import Verif.HOrder.LemmasHx2

/-! # Merging of column blocks: lemmas -/

set_option autoImplicit false
set_option linter.unusedSimpArgs false
set_option linter.unusedVariables false

namespace Scotch.HOrder

variable {b N n i j : Int} {rk : Int → Int} {nv sz fa fr ne se fa' fr' ne' se' : Int → Int} {k root w : Int} {S Q : Int → List Int} {own : Int → Int} {A B : List Int}

/-- Merging of `i` with its father. -/
theorem HxT.merge (T : HxT b N (b + N) rk nv sz fa fr ne se k root S Q own) (hb : 0 ≤ b) (i1 : b ≤ i) (i2 : i < b + N) (hi : 0 < nv i) (hij : fa i = j) (j1 : b ≤ j) (j2 : j < b + N) (hj : 0 < nv j) (hr : rk i < rk j)
    (hS : S j = A ++ i :: B) (hw : 0 < w)
    (hlink : ∀ l, b ≤ l → l < b + N → 0 < upd (upd nv i 0) j w l → Link ne' (fr' l) (upd S j (A ++ S i ++ B) l) (-1))
    (hsecn : ∀ l, b ≤ l → l < b + N → 0 < upd (upd nv i 0) j w l → Link se' (se' l) (upd Q j (i :: (Q i ++ Q j)) l) (-1))
    (hfa : ∀ x, fa' x = if x ∈ S i then j else fa x) :
    HxT b N (b + N) rk (upd (upd nv i 0) j w) (upd sz j (sz j + sz i)) fa' fr' ne' se' (k - 1) root (upd S j (A ++ S i ++ B)) (upd Q j (i :: (Q i ++ Q j))) (fun x => if x = i ∨ x ∈ Q i then j else own x) := by
  have hne : i ≠ j := fun he => by rw [he] at hr; omega
  have hp : ∀ x, 0 < upd (upd nv i 0) j w x ↔ 0 < nv x ∧ x ≠ i := fun x => by
    by_cases hx : x = j
    · rw [hx, upd_same]; exact ⟨fun _ => ⟨hj, hne.symm⟩, fun _ => hw⟩
    · rw [upd_ne hx]
      by_cases hy : x = i
      · rw [hy, upd_same]; exact ⟨fun h => by omega, fun h => absurd rfl h.2⟩
      · rw [upd_ne hy]; exact ⟨fun h => ⟨h, hy⟩, fun h => h.1⟩
  obtain ⟨si1, si2⟩ := T.sons i i1 i2 hi
  obtain ⟨sj1, sj2⟩ := T.sons j j1 j2 hj
  obtain ⟨qi1, qi2⟩ := T.secs i i1 i2 hi
  obtain ⟨qj1, qj2⟩ := T.secs j j1 j2 hj
  have hii : i ∉ S i := fun hx => by have := (si2 i).1 hx; omega
  have hji : j ∉ S i := fun hx => by
    have h := (si2 j).1 hx
    have := (T.up j j1 j2 hj (by omega)).2.2.2
    rw [h.2.2.2] at this; omega
  have hmem : ∀ x, x ∈ A ++ i :: B ↔ x ∈ A ∨ x = i ∨ x ∈ B := fun x => by rw [List.mem_append, List.mem_cons]
  rw [hS] at sj1 sj2
  have nd := List.nodup_append.1 sj1
  have nd2 := List.nodup_cons.1 nd.2.1
  have hdis : ∀ x, x ∈ A ∨ x ∈ B → x ∉ S i ∧ x ≠ i := fun x hx => by
    have h := (sj2 x).1 ((hmem x).2 (by tauto))
    refine ⟨fun hy => ?_, fun hy => ?_⟩
    · have := (si2 x).1 hy; omega
    · subst hy
      rcases hx with hx | hx
      · exact nd.2.2 x hx x (List.mem_cons_self ..) rfl
      · exact nd2.1 hx
  refine ⟨?_, hlink, ?_, ?_, ?_, hsecn, ?_, ?_, ?_, ?_, ?_, ?_, T.rank⟩
  · intro v v1 v2
    by_cases hv : v = j
    · rw [hv, upd_same]; omega
    · rw [upd_ne hv]
      by_cases hy : v = i
      · rw [hy, upd_same]
      · rw [upd_ne hy]; exact T.nonneg v v1 v2
  · intro l l1 l2 l3
    obtain ⟨l3, l4⟩ := (hp l).1 l3
    by_cases hl : l = j
    · subst hl
      rw [upd_same]
      refine ⟨?_, fun x => ?_⟩
      · rw [List.append_assoc, List.nodup_append, List.nodup_append]
        refine ⟨nd.1, ⟨si1, nd2.2, ?_⟩, ?_⟩
        · rintro x hx y hy rfl
          exact (hdis x (Or.inr hy)).1 hx
        · rintro x hx y hy rfl
          rw [List.mem_append] at hy
          rcases hy with hy | hy
          · exact (hdis x (Or.inl hx)).1 hy
          · exact nd.2.2 x hx x (List.mem_cons_of_mem _ hy) rfl
      · rw [List.mem_append, List.mem_append, hp, hfa]
        constructor
        · rintro ((hx | hx) | hx)
          · have h := (sj2 x).1 ((hmem x).2 (Or.inl hx))
            obtain ⟨d1, d2⟩ := hdis x (Or.inl hx)
            rw [if_neg d1]
            exact ⟨h.1, h.2.1, ⟨h.2.2.1, d2⟩, h.2.2.2⟩
          · have h := (si2 x).1 hx
            rw [if_pos hx]
            exact ⟨h.1, h.2.1, ⟨h.2.2.1, fun he => hii (he ▸ hx)⟩, rfl⟩
          · have h := (sj2 x).1 ((hmem x).2 (Or.inr (Or.inr hx)))
            obtain ⟨d1, d2⟩ := hdis x (Or.inr hx)
            rw [if_neg d1]
            exact ⟨h.1, h.2.1, ⟨h.2.2.1, d2⟩, h.2.2.2⟩
        · rintro ⟨x1, x2, ⟨x3, x4⟩, x5⟩
          by_cases hx : x ∈ S i
          · exact Or.inl (Or.inr hx)
          · rw [if_neg hx] at x5
            have := (hmem x).1 ((sj2 x).2 ⟨x1, x2, x3, x5⟩)
            tauto
    · rw [upd_ne hl]
      obtain ⟨s1, s2⟩ := T.sons l l1 l2 l3
      refine ⟨s1, fun x => ?_⟩
      rw [s2, hp, hfa]
      constructor
      · rintro ⟨x1, x2, x3, x4⟩
        have hx : x ∉ S i := fun hx => by have := (si2 x).1 hx; omega
        rw [if_neg hx]
        exact ⟨x1, x2, ⟨x3, fun he => by rw [he] at x4; omega⟩, x4⟩
      · rintro ⟨x1, x2, ⟨x3, x4⟩, x5⟩
        by_cases hx : x ∈ S i
        · rw [if_pos hx] at x5; exact absurd x5.symm hl
        · rw [if_neg hx] at x5; exact ⟨x1, x2, x3, x5⟩
  · intro x x1 x2 x3 x4
    obtain ⟨x3, x5⟩ := (hp x).1 x3
    rw [hfa] at x4 ⊢
    by_cases hx : x ∈ S i
    · rw [if_pos hx]
      have h := (si2 x).1 hx
      have h2 := (T.up x x1 x2 x3 (by omega)).2.2.2
      rw [h.2.2.2] at h2
      exact ⟨j1, j2, (hp j).2 ⟨hj, hne.symm⟩, by omega⟩
    · rw [if_neg hx] at x4 ⊢
      obtain ⟨u1, u2, u3, u4⟩ := T.up x x1 x2 x3 x4
      refine ⟨u1, u2, (hp _).2 ⟨u3, fun he => hx ((si2 x).2 ⟨x1, x2, x3, he⟩)⟩, u4⟩
  · intro x x1 x2 x3
    rw [hfa]
    by_cases hx : x ∈ S i
    · rw [if_pos hx]; omega
    · rw [if_neg hx]
      by_cases hy : x = i
      · rw [hy]; omega
      · exact T.low x x1 x2 (fun h => x3 ((hp x).2 ⟨h, hy⟩))
  · intro l l1 l2 l3
    obtain ⟨l3, l4⟩ := (hp l).1 l3
    by_cases hl : l = j
    · subst hl
      rw [upd_same]
      refine ⟨?_, fun x => ?_⟩
      · rw [List.nodup_cons, List.nodup_append, List.mem_append]
        refine ⟨?_, qi1, qj1, ?_⟩
        · rintro (hx | hx)
          · exact ((qi2 i).1 hx).2.2.1 hi
          · exact ((qj2 i).1 hx).2.2.1 hi
        · rintro x hx y hy rfl
          have h1 := (qi2 x).1 hx
          have h2 := (qj2 x).1 hy
          omega
      · rw [List.mem_cons, List.mem_append, hp]
        constructor
        · rintro (hx | hx | hx)
          · rw [if_pos (Or.inl hx), hx]
            exact ⟨i1, i2, fun h => h.2 rfl, rfl⟩
          · have h := (qi2 x).1 hx
            rw [if_pos (Or.inr hx)]
            exact ⟨h.1, h.2.1, fun hh => h.2.2.1 hh.1, rfl⟩
          · have h := (qj2 x).1 hx
            refine ⟨h.1, h.2.1, fun hh => h.2.2.1 hh.1, ?_⟩
            split
            · rfl
            · exact h.2.2.2
        · rintro ⟨x1, x2, x3, x4⟩
          by_cases hy : x = i
          · exact Or.inl hy
          · by_cases hz : x ∈ Q i
            · exact Or.inr (Or.inl hz)
            · rw [if_neg (by tauto)] at x4
              exact Or.inr (Or.inr ((qj2 x).2 ⟨x1, x2, fun h => x3 ⟨h, hy⟩, x4⟩))
    · rw [upd_ne hl]
      obtain ⟨s1, s2⟩ := T.secs l l1 l2 l3
      refine ⟨s1, fun x => ?_⟩
      rw [s2, hp]
      constructor
      · rintro ⟨x1, x2, x3, x4⟩
        rw [if_neg]
        · exact ⟨x1, x2, fun h => x3 h.1, x4⟩
        · rintro (hy | hy)
          · rw [hy] at x3; exact x3 hi
          · have := (qi2 x).1 hy; omega
      · rintro ⟨x1, x2, x3, x4⟩
        by_cases hy : x = i ∨ x ∈ Q i
        · rw [if_pos hy] at x4; exact absurd x4.symm hl
        · rw [if_neg hy] at x4
          exact ⟨x1, x2, fun h => x3 ⟨h, fun he => hy (Or.inl he)⟩, x4⟩
  · intro x x1 x2 x3
    by_cases hy : x = i ∨ x ∈ Q i
    · rw [if_pos hy]
      exact ⟨j1, j2, (hp j).2 ⟨hj, hne.symm⟩⟩
    · rw [if_neg hy]
      have h := T.own x x1 x2 (fun h => x3 ((hp x).2 ⟨h, fun he => hy (Or.inl he)⟩))
      refine ⟨h.1, h.2.1, (hp _).2 ⟨h.2.2, fun he => hy (Or.inr ((qi2 x).2 ⟨x1, x2, fun h => x3 ((hp x).2 ⟨h, fun he => hy (Or.inl he)⟩), he⟩))⟩⟩
  · have e1 := sumI_upd (lo := b) (hi := b + N) (i := i) i1 i2 (f := fun v => if 0 < nv v then sz v else 0) (g := fun v => if 0 < upd nv i 0 v then sz v else 0)
      (fun v _ _ hv => by rw [upd_ne hv])
    have e2 := sumI_upd (lo := b) (hi := b + N) (i := j) j1 j2 (f := fun v => if 0 < upd nv i 0 v then sz v else 0) (g := fun v => if 0 < upd (upd nv i 0) j w v then upd sz j (sz j + sz i) v else 0)
      (fun v _ _ hv => by rw [upd_ne hv, upd_ne hv])
    have t := T.sum
    rw [e2, e1, t]
    rw [upd_same, if_pos hi, if_neg (by omega), if_pos ((hp j).2 ⟨hj, hne.symm⟩), upd_same, upd_ne hne.symm, if_pos hj]
    omega
  · intro v v1 v2 v3
    obtain ⟨v3, v4⟩ := (hp v).1 v3
    have := T.size v v1 v2 v3
    by_cases hv : v = j
    · subst hv
      rw [upd_same]
      have := T.size i i1 i2 hi
      omega
    · rw [upd_ne hv]; omega
  · have e1 := sumI_upd (lo := b) (hi := b + N) (i := i) i1 i2 (f := fun v => if 0 < nv v then 1 else 0) (g := fun v => if 0 < upd (upd nv i 0) j w v then 1 else 0)
      (fun v _ _ hv => by
        by_cases hx : 0 < nv v
        · rw [if_pos hx, if_pos ((hp v).2 ⟨hx, hv⟩)]
        · rw [if_neg hx, if_neg (fun h => hx ((hp v).1 h).1)])
    rw [e1, ← T.cnt]
    rw [if_pos hi, if_neg (fun h => ((hp i).1 h).2 rfl)]
    omega
  · have hro : ∀ x, fa' x = -1 ↔ fa x = -1 := fun x => by
      rw [hfa]
      by_cases hx : x ∈ S i
      · rw [if_pos hx]
        have := (si2 x).1 hx
        omega
      · rw [if_neg hx]
    rcases T.root with ⟨r1, r2⟩ | ⟨r1, r2, r3, r4, r5⟩
    · exact Or.inl ⟨r1, fun x x1 x2 x3 x4 => r2 x x1 x2 ((hp x).1 x3).1 ((hro x).1 x4)⟩
    · refine Or.inr ⟨r1, r2, (hp root).2 ⟨r3, fun he => by rw [he] at r4; omega⟩, (hro _).2 r4, fun x x1 x2 x3 x4 => r5 x x1 x2 ((hp x).1 x3).1 ((hro x).1 x4)⟩

/-! ## Chains -/

variable {next fath frst secn : Arr Int} {C D : List Int} {m a e : Int} {fuel : Nat}

theorem hxPrev_holds : ∀ (C : List Int) (m a e : Int) (fuel : Nat), Link next.get a (C ++ [m]) e → (∀ x ∈ C ++ [m], next.lo ≤ x ∧ x < next.hi ∧ x ≠ e) → C.length < fuel → Holds (loopM (hxPrev next e) fuel a) (fun r => r = m)
  | [], m, a, e, 0, _, _, h => by omega
  | [], m, a, e, fuel + 1, hl, hm, _ => by
    obtain ⟨rfl, hl⟩ := hl
    replace hl : next.get a = e := hl
    have := hm a (by simp)
    simp only [loopM, Holds_bind]
    unfold hxPrev
    rw [Arr.rd_ok _ this.1 this.2.1, ok_bind, if_pos hl, Holds_pure]
    rfl
  | c :: C, m, a, e, 0, _, _, h => by omega
  | c :: C, m, a, e, fuel + 1, hl, hm, hf => by
    rw [List.cons_append] at hl hm
    obtain ⟨rfl, hl⟩ := hl
    have h1 := hm a (List.mem_cons_self ..)
    rw [List.length_cons] at hf
    have h2 : next.get a ≠ e := by
      cases C with
      | nil =>
        obtain ⟨h, _⟩ := hl
        rw [h]
        exact (hm m (by simp)).2.2
      | cons d C =>
        obtain ⟨h, _⟩ := hl
        rw [h]
        exact (hm d (by simp)).2.2
    simp only [loopM, Holds_bind]
    unfold hxPrev
    rw [Arr.rd_ok _ h1.1 h1.2.1, ok_bind, if_neg h2, Holds_pure]
    exact hxPrev_holds C m _ e fuel hl (fun x hx => hm x (List.mem_cons_of_mem _ hx)) (by omega)

theorem hxAdopt_holds : ∀ (C : List Int) (m a : Int) (fuel : Nat) (fath : Arr Int), Link next.get a (C ++ [m]) (-1) → (∀ x ∈ C ++ [m], next.lo ≤ x ∧ x < next.hi ∧ fath.lo ≤ x ∧ x < fath.hi ∧ 0 ≤ x) → C.length < fuel →
    Holds (loopM (hxAdopt next j) fuel (fath, a)) (fun r => r.2 = m ∧ r.1.lo = fath.lo ∧ r.1.hi = fath.hi ∧ ∀ x, r.1.get x = if x ∈ C ++ [m] then j else fath.get x)
  | [], m, a, 0, fath, _, _, h => by omega
  | [], m, a, fuel + 1, fath, hl, hm, _ => by
    obtain ⟨rfl, hl⟩ := hl
    replace hl : next.get a = -1 := hl
    have := hm a (by simp)
    simp only [loopM, Holds_bind]
    unfold hxAdopt
    dsimp only
    rw [Arr.rd_ok _ this.1 this.2.1, ok_bind, Arr.wr_ok _ _ this.2.2.1 this.2.2.2.1, ok_bind, if_pos hl, Holds_pure]
    refine ⟨rfl, rfl, rfl, fun x => ?_⟩
    rw [List.nil_append]
    show upd fath.get a j x = _
    by_cases hx : x = a
    · rw [hx, upd_same, if_pos (by simp)]
    · rw [upd_ne hx, if_neg (by simpa using hx)]
  | c :: C, m, a, 0, fath, _, _, h => by omega
  | c :: C, m, a, fuel + 1, fath, hl, hm, hf => by
    rw [List.cons_append] at hl hm
    obtain ⟨rfl, hl⟩ := hl
    have h1 := hm a (List.mem_cons_self ..)
    rw [List.length_cons] at hf
    have h2 : next.get a ≠ -1 := by
      cases C with
      | nil =>
        obtain ⟨h, _⟩ := hl
        rw [h]
        have := (hm m (by simp)).2.2.2.2
        omega
      | cons d C =>
        obtain ⟨h, _⟩ := hl
        rw [h]
        have := (hm d (by simp)).2.2.2.2
        omega
    simp only [loopM, Holds_bind]
    unfold hxAdopt
    dsimp only
    rw [Arr.rd_ok _ h1.1 h1.2.1, ok_bind, Arr.wr_ok _ _ h1.2.2.1 h1.2.2.2.1, ok_bind, if_neg h2, Holds_pure]
    refine (hxAdopt_holds C m _ fuel (fath.set a j) hl (fun x hx => hm x (List.mem_cons_of_mem _ hx)) (by omega)).mono ?_
    rintro ⟨r1, r2⟩ ⟨q1, q2, q3, q4⟩
    refine ⟨q1, q2, q3, fun x => ?_⟩
    rw [q4, set_upd, List.cons_append]
    by_cases hx : x ∈ C ++ [m]
    · rw [if_pos hx, if_pos (List.mem_cons_of_mem _ hx)]
    · rw [if_neg hx]
      by_cases hy : x = a
      · rw [hy, upd_same, if_pos (List.mem_cons_self ..)]
      · rw [upd_ne hy, if_neg]
        intro h
        rcases List.mem_cons.1 h with h | h
        · exact hy h
        · exact hx h

/-- Chain of secondary vertices. -/
theorem hxMergeSecn_holds (h1 : secn.lo ≤ b ∧ b + n ≤ secn.hi) (hb : 0 ≤ b) (i1 : b ≤ i) (i2 : i < b + n) (j1 : b ≤ j) (j2 : j < b + n) (hij : i ≠ j) (hC : Link secn.get (secn.get i) C (-1)) (hD : Link secn.get (secn.get j) D (-1))
    (hm : ∀ x, x ∈ C ∨ x ∈ D → b ≤ x ∧ x < b + n ∧ x ≠ i ∧ x ≠ j) (hd : C.Nodup) (hd2 : ∀ x ∈ C, x ∉ D) (hf : C.length ≤ fuel) :
    Holds (hxMergeSecn fuel i j secn) (fun r => (r.lo = secn.lo ∧ r.hi = secn.hi) ∧ Link r.get (r.get j) (i :: (C ++ D)) (-1) ∧ ∀ x, x ≠ i → x ≠ j → x ∉ C → r.get x = secn.get x) := by
  unfold hxMergeSecn
  rw [Arr.rd_ok _ (by omega) (by omega), ok_bind, Arr.rd_ok _ (by omega) (by omega), ok_bind]
  rcases List.eq_nil_or_concat' C with hCn | ⟨C', m, rfl⟩
  · subst hCn
    replace hC : secn.get i = -1 := hC
    rw [if_pos hC, Arr.wr_ok _ _ (by omega) (by omega), ok_bind]
    dsimp only
    rw [Arr.wr_ok _ _ (by show secn.lo ≤ j; omega) (by show j < secn.hi; omega), Holds_ok]
    refine ⟨⟨rfl, rfl⟩, ?_, fun x hx hy _ => ?_⟩
    · rw [set_upd, set_upd, upd_same, List.nil_append]
      refine ⟨rfl, ?_⟩
      rw [upd_ne hij, upd_same]
      refine link_congr (fun x hx => ?_) hD
      have := hm x (Or.inr hx)
      rw [upd_ne this.2.2.2, upd_ne this.2.2.1]
    · rw [set_upd, set_upd, upd_ne hy, upd_ne hx]
  · have hne : secn.get i ≠ -1 := by
      cases C' with
      | nil =>
        obtain ⟨h, _⟩ := hC
        rw [h]
        have := hm m (by simp)
        omega
      | cons c C' =>
        obtain ⟨h, _⟩ := hC
        rw [h]
        have := hm c (by simp)
        omega
    rw [if_neg hne]
    have hmm := hm m (by simp)
    have hCs := link_snoc.1 hC
    have hmC : m ∉ C' := fun hx => (List.nodup_append.1 hd).2.2 m hx m (by simp) rfl
    -- the last vertex is linked to the ones of `j`
    have key : ∀ q : Arr Int, q.lo = secn.lo → q.hi = secn.hi → q.get = upd secn.get m (secn.get j) →
        Holds (q.wr j i) (fun r => (r.lo = secn.lo ∧ r.hi = secn.hi) ∧ Link r.get (r.get j) (i :: (C' ++ [m] ++ D)) (-1) ∧ ∀ x, x ≠ i → x ≠ j → x ∉ C' ++ [m] → r.get x = secn.get x) := by
      intro q q1 q2 q3
      rw [Arr.wr_ok _ _ (by omega) (by omega), Holds_ok]
      refine ⟨⟨q1, q2⟩, ?_, fun x hx hy hz => ?_⟩
      · rw [set_upd, upd_same]
        refine ⟨rfl, ?_⟩
        rw [upd_ne hij, q3, upd_ne (fun he => hmm.2.2.1 he.symm), link_append]
        refine ⟨secn.get j, ?_, ?_⟩
        · rw [link_snoc]
          refine ⟨?_, ?_⟩
          · refine link_congr (fun x hx => ?_) hCs.1
            have := hm x (Or.inl (List.mem_append_left _ hx))
            rw [upd_ne this.2.2.2, upd_ne (fun he : x = m => hmC (he ▸ hx))]
          · rw [upd_ne hmm.2.2.2, upd_same]
        · refine link_congr (fun x hx => ?_) hD
          have := hm x (Or.inr hx)
          rw [upd_ne this.2.2.2, upd_ne (fun he : x = m => hd2 m (by simp) (he ▸ hx))]
      · rw [set_upd, upd_ne hy, q3, upd_ne (fun he => hz (by simp [he]))]
    by_cases hs : secn.get j ≠ -1
    · rw [if_pos hs, Holds_bind]
      have := hxPrev_holds (next := secn) C' m (secn.get i) (-1) fuel hC (fun x hx => by have := hm x (Or.inl hx); omega) (by rw [List.length_append, List.length_singleton] at hf; omega)
      refine Holds.mono (show Holds (loopM (hxLast secn) fuel (secn.get i)) _ from this) ?_
      rintro r rfl
      rw [Arr.wr_ok _ _ (by omega) (by omega), ok_bind]
      exact key _ rfl rfl rfl
    · rw [if_neg hs]
      show Holds (pure secn >>= fun q => q.wr j i) _
      rw [Holds_bind, Holds_pure]
      refine key secn rfl rfl ?_
      funext x
      by_cases hx : x = m
      · rw [hx, upd_same, hCs.2]; omega
      · rw [upd_ne hx]

/-- Sons of `i` are put before the ones that follow it. -/
theorem hxGraft_holds {q : Arr Int} (hb : 0 ≤ b) (q1 : q.lo ≤ b ∧ b + n ≤ q.hi) (q2 : fath.lo ≤ b ∧ b + n ≤ fath.hi) (i1 : b ≤ i) (i2 : i < b + n) {fi : Int} (hC : Link q.get fi (C ++ [m]) (-1)) (hm : ∀ x ∈ C ++ [m], b ≤ x ∧ x < b + n)
    (hf : C.length < fuel) :
    Holds (hxGraft fuel i j fi fath q) (fun r => r.1.lo = fath.lo ∧ r.1.hi = fath.hi ∧ (∀ x, r.1.get x = if x ∈ C ++ [m] then j else fath.get x) ∧ r.2 = q.set m (q.get i)) := by
  unfold hxGraft
  rw [Holds_bind]
  refine (hxAdopt_holds (j := j) C m fi fuel fath hC (fun x hx => by have := hm x hx; omega) hf).mono ?_
  rintro ⟨fath', k'⟩ ⟨rfl, f2, f3, f4⟩
  have := hm k' (by simp)
  dsimp only at f2 f3 f4 ⊢
  rw [Arr.rd_ok _ (by omega) (by omega), ok_bind, Arr.wr_ok _ _ (by omega) (by omega), ok_bind, Holds_pure]
  exact ⟨f2, f3, f4, rfl⟩

theorem link_first {f : Int → Int} {a x : Int} {l : List Int} {c : Int} (h : Link f a (x :: l) c) : a = x := h.1

theorem link_head {f : Int → Int} {a m c : Int} : ∀ {C : List Int}, Link f a (C ++ [m]) c → ∃ x, x ∈ C ++ [m] ∧ a = x
  | [], h => ⟨m, by simp, h.1⟩
  | y :: C, h => ⟨y, by simp, h.1⟩

/-- Chain of sons. -/
theorem hxMergeSons_holds (hb : 0 ≤ b) (B3 : fath.lo ≤ b ∧ b + n ≤ fath.hi) (B4 : frst.lo ≤ b ∧ b + n ≤ frst.hi) (B5 : next.lo ≤ b ∧ b + n ≤ next.hi) (i1 : b ≤ i) (i2 : i < b + n) (j1 : b ≤ j) (j2 : j < b + n)
    (hj : Link next.get (frst.get j) (A ++ i :: B) (-1)) (hi : Link next.get (frst.get i) C (-1)) (hm : ∀ x, x ∈ A ∨ x ∈ B ∨ x ∈ C → b ≤ x ∧ x < b + n ∧ x ≠ i ∧ x ≠ j)
    (hA : A.Nodup) (hC : C.Nodup) (hAB : ∀ x ∈ A, x ∉ B ∧ x ∉ C) (hCB : ∀ x ∈ C, x ∉ B) (hij : i ≠ j) (hf : A.length ≤ fuel) (hf2 : C.length ≤ fuel) :
    Holds (hxMergeSons fuel i j fath frst next) (fun r => (r.1.lo = fath.lo ∧ r.1.hi = fath.hi) ∧ (r.2.1.lo = frst.lo ∧ r.2.1.hi = frst.hi) ∧ (r.2.2.lo = next.lo ∧ r.2.2.hi = next.hi) ∧
      (∀ x, r.1.get x = if x ∈ C then j else fath.get x) ∧ (∀ x, x ≠ j → r.2.1.get x = frst.get x) ∧ (∀ x, x ∉ A → x ∉ C → r.2.2.get x = next.get x) ∧
      Link r.2.2.get (r.2.1.get j) (A ++ C ++ B) (-1)) := by
  obtain ⟨c0, hjA, hjB⟩ := link_append.1 hj
  obtain ⟨rfl, hjB⟩ := hjB
  unfold hxMergeSons
  rw [Arr.rd_ok _ (by omega) (by omega), ok_bind, Arr.rd_ok _ (by omega) (by omega), ok_bind]
  rcases List.eq_nil_or_concat' A with rfl | ⟨A', p, rfl⟩
  · replace hjA : frst.get j = c0 := hjA
    rw [if_pos hjA]
    rcases List.eq_nil_or_concat' C with rfl | ⟨C', m, rfl⟩
    · replace hi : frst.get c0 = -1 := hi
      rw [if_pos hi, Arr.rd_ok _ (by omega) (by omega), ok_bind, Arr.wr_ok _ _ (by omega) (by omega), ok_bind, Holds_pure]
      refine ⟨⟨rfl, rfl⟩, ⟨rfl, rfl⟩, ⟨rfl, rfl⟩, fun x => by rw [if_neg (by simp)], fun x hx => ?_, fun x _ _ => rfl, ?_⟩
      · dsimp only; rw [set_upd, upd_ne hx]
      · dsimp only; rw [set_upd, upd_same]; exact hjB
    · obtain ⟨x, hx, he⟩ := link_head hi
      have hxx := hm x (Or.inr (Or.inr hx))
      rw [if_neg (by omega), Arr.wr_ok _ _ (by omega) (by omega), ok_bind, Holds_bind]
      refine (hxGraft_holds (j := j) hb B5 B3 i1 i2 hi (fun x hx => by have := hm x (Or.inr (Or.inr hx)); omega) (by rw [List.length_append, List.length_singleton] at hf2; omega)).mono ?_
      rintro ⟨f', q⟩ ⟨f1, f2, f3, rfl⟩
      dsimp only at f1 f2 f3 ⊢
      rw [Holds_pure]
      refine ⟨⟨f1, f2⟩, ⟨rfl, rfl⟩, ⟨rfl, rfl⟩, f3, fun x hx => ?_, fun x _ hx => ?_, ?_⟩
      · dsimp only; rw [set_upd, upd_ne hx]
      · dsimp only; rw [set_upd, upd_ne (fun he => hx (by simp [he]))]
      · dsimp only
        rw [set_upd, set_upd, upd_same, List.nil_append, link_append]
        refine ⟨next.get c0, ?_, ?_⟩
        · have hs := link_snoc.1 hi
          rw [link_snoc]
          refine ⟨link_congr (fun x hx => ?_) hs.1, upd_same⟩
          rw [upd_ne (fun he => (List.nodup_append.1 hC).2.2 x hx m (by simp) he)]
        · refine link_congr (fun x hx => ?_) hjB
          rw [upd_ne (fun he : x = m => hCB m (by simp) (he ▸ hx))]
  · obtain ⟨x, hx, he⟩ := link_head hjA
    have hxx := hm x (Or.inl hx)
    have hpp := hm p (Or.inl (by simp))
    rw [if_neg (by omega), ok_bind, Holds_bind]
    refine (hxPrev_holds A' p (frst.get j) c0 fuel hjA (fun x hx => by have := hm x (Or.inl hx); omega) (by rw [List.length_append, List.length_singleton] at hf; omega)).mono ?_
    rintro k' rfl
    have hsA := link_snoc.1 hjA
    have hkA : k' ∉ A' := fun hx => (List.nodup_append.1 hA).2.2 k' hx k' (by simp) rfl
    have hkB := (hAB k' (by simp)).1
    have hkC := (hAB k' (by simp)).2
    rcases List.eq_nil_or_concat' C with rfl | ⟨C', m, rfl⟩
    · replace hi : frst.get c0 = -1 := hi
      rw [if_pos hi, Arr.rd_ok _ (by omega) (by omega), ok_bind, Arr.wr_ok _ _ (by omega) (by omega), ok_bind, Holds_pure]
      refine ⟨⟨rfl, rfl⟩, ⟨rfl, rfl⟩, ⟨rfl, rfl⟩, fun x => by rw [if_neg (by simp)], fun x hx => rfl, fun x hx _ => ?_, ?_⟩
      · dsimp only; rw [set_upd, upd_ne (fun he => hx (by simp [he]))]
      · dsimp only
        rw [set_upd, List.append_nil, link_append]
        refine ⟨next.get c0, ?_, ?_⟩
        · rw [link_snoc]
          refine ⟨link_congr (fun x hx => ?_) hsA.1, upd_same⟩
          rw [upd_ne (fun he : x = k' => hkA (he ▸ hx))]
        · refine link_congr (fun x hx => ?_) hjB
          rw [upd_ne (fun he : x = k' => hkB (he ▸ hx))]
    · obtain ⟨y, hy, he2⟩ := link_head hi
      have hyy := hm y (Or.inr (Or.inr hy))
      have hmm := hm m (Or.inr (Or.inr (by simp)))
      have hmk : m ≠ k' := fun he => hkC (by simp [he])
      rw [if_neg (by omega), Arr.wr_ok _ _ (by omega) (by omega), ok_bind, Holds_bind]
      have hi2 : Link (next.set k' (frst.get c0)).get (frst.get c0) (C' ++ [m]) (-1) := by
        rw [set_upd]
        refine link_congr (fun x hx => ?_) hi
        rw [upd_ne (fun he : x = k' => hkC (he ▸ hx))]
      refine (hxGraft_holds (j := j) hb (show (next.set k' (frst.get c0)).lo ≤ b ∧ b + n ≤ (next.set k' (frst.get c0)).hi from B5) B3 i1 i2 hi2 (fun x hx => by have := hm x (Or.inr (Or.inr hx)); omega)
        (by rw [List.length_append, List.length_singleton] at hf2; omega)).mono ?_
      rintro ⟨f', q⟩ ⟨f1, f2, f3, rfl⟩
      dsimp only at f1 f2 f3 ⊢
      rw [Holds_pure]
      refine ⟨⟨f1, f2⟩, ⟨rfl, rfl⟩, ⟨rfl, rfl⟩, f3, fun x hx => rfl, fun x hx hz => ?_, ?_⟩
      · dsimp only; rw [set_upd, set_upd, upd_ne (fun he => hz (by simp [he])), upd_ne (fun he => hx (by simp [he]))]
      · dsimp only
        rw [set_upd, set_upd, upd_ne (fun he => hpp.2.2.1 he.symm)]
        have hmA : ∀ x ∈ A', x ≠ m := fun x hx he => (hAB x (by simp [hx])).2 (by simp [he])
        rw [link_append]
        refine ⟨next.get c0, ?_, ?_⟩
        · rw [link_append]
          refine ⟨frst.get c0, ?_, ?_⟩
          · rw [link_snoc]
            refine ⟨link_congr (fun x hx => ?_) hsA.1, ?_⟩
            · rw [upd_ne (hmA x hx), upd_ne (fun he : x = k' => hkA (he ▸ hx))]
            · rw [upd_ne hmk.symm, upd_same]
          · have hs := link_snoc.1 hi
            rw [link_snoc]
            refine ⟨link_congr (fun x hx => ?_) hs.1, upd_same⟩
            rw [upd_ne (fun he => (List.nodup_append.1 hC).2.2 x hx m (by simp) he), upd_ne (fun he => hkC (by simp [← he, hx]))]
        · refine link_congr (fun x hx => ?_) hjB
          rw [upd_ne (fun he : x = m => hCB m (by simp) (he ▸ hx)), upd_ne (fun he : x = k' => hkB (he ▸ hx))]

end Scotch.HOrder
