import Verif.Fax.LemmasMerge

/-! # Merging of blocks in a chain: invariant -/

set_option autoImplicit false
set_option linter.unusedSimpArgs false

namespace Scotch.Fax

variable {R : Int → Int} {base k top : Int}

/-- The chain begins with the diagonal block, and has a trailing block. -/
structure Shape (R : Int → Int) (k top : Int) (L : List Node) : Prop where
  canon : Canon R k top (blks L)
  head : L.head? = some (0, ⟨R k, R (k + 1) - 1, k⟩)
  trail : ∃ n ∈ L, n.2.cblk = top

/-- State of merging: the chain is made of the blocks before the current one, in reverse order, and of the others. -/
structure Zip (R : Int → Int) (k top : Int) (m : Merge) (Pr Q : List Node) (F : List Int) : Prop where
  mem : Mem m.tlok m.frm (Pr.reverse ++ Q) F
  fre : m.fre = F.headD (-1)
  lst : m.lst = hd Pr 0
  num : m.num = hd Q 0
  shape : Shape R k top (Pr.reverse ++ Q)
  frm : 0 ≤ m.frm

theorem BOk.widen {b : Blok} (hb : BOk R k (top - 1) b) : BOk R k top b := ⟨hb.ge, by have := hb.le; omega, hb.frow, hb.rows, hb.lrow⟩

theorem lower_holds {m : Merge} {b : Blok} {P Q : List Node} {q : Node} {F : List Int} (M : Mem m.tlok m.frm (P ++ q :: Q) F) (hnum : m.num = q.1) (h1 : b.lrow ≥ q.2.frow - 1) :
    Holds (lower b m) (fun m' => ∃ f, Mem m'.tlok m.frm (P ++ (q.1, ⟨f, q.2.lrow, q.2.cblk⟩) :: Q) F ∧ m'.fre = m.fre ∧ m'.frm = m.frm ∧ m'.lst = m.lst ∧ m'.num = m.num ∧ m'.tlok.hi = m.tlok.hi ∧
      f ≤ b.frow ∧ f ≤ q.2.frow ∧ (f = b.frow ∨ f = q.2.frow)) := by
  obtain ⟨g1, g2, g3⟩ := M.node
  unfold lower
  rw [hnum, Arr.rd_ok _ g2 g3, ok_bind, g1]
  dsimp only
  by_cases h : b.frow < q.2.frow
  · rw [if_pos ⟨h1, h⟩, Arr.wr_ok _ _ g2 g3, ok_bind, Holds_pure]
    refine ⟨b.frow, ?_, rfl, rfl, rfl, rfl, rfl, Int.le_refl _, by omega, .inl rfl⟩
    exact M.update (i := q.1) (b := q.2) ⟨b.frow, q.2.lrow, q.2.cblk⟩
  · rw [if_neg (fun h' => h h'.2), Holds_pure]
    exact ⟨q.2.frow, M, rfl, rfl, rfl, hnum, rfl, by omega, Int.le_refl _, .inr rfl⟩

theorem upper_holds {m : Merge} {b : Blok} {P Q : List Node} {i : Int} {c : Blok} {F : List Int} (M : Mem m.tlok m.frm (P ++ (i, c) :: Q) F) (h0 : 0 ≤ m.frm) (hnum : m.num = i) (hfre : m.fre = F.headD (-1)) (h1 : b.frow ≤ c.lrow + 1) (hc : BOk R k top c)
    (hbl : b.lrow < R (c.cblk + 1)) (hQ : ∀ x ∈ Q, BOk R k top x.2 ∧ c.cblk ≤ x.2.cblk ∧ c.frow ≤ x.2.frow) (hex : ∃ x ∈ Q, c.cblk < x.2.cblk) (hs : (blks Q).Pairwise Before) (hcQ : ∀ x ∈ Q, Before c x.2) (hbf : c.frow ≤ b.frow) :
    Holds (upper b m) (fun m' => ∃ c' Q' F', Mem m'.tlok m.frm (P ++ (i, c') :: Q') F' ∧ m'.fre = F'.headD (-1) ∧ m'.frm = m.frm ∧ m'.lst = m.lst ∧ m'.num = m.num ∧ m'.tlok.hi = m.tlok.hi ∧
      c'.frow = c.frow ∧ c'.cblk = c.cblk ∧ (b.lrow ≤ c.lrow → c' = c) ∧ BOk R k top c' ∧ List.IsSuffix Q' Q ∧ (∀ x ∈ Q', Before c' x.2) ∧ ∀ x, cov (c' :: blks Q') x ↔ cov (c :: blks Q) x ∨ (b.frow ≤ x ∧ x ≤ b.lrow)) := by
  obtain ⟨g1, g2, g3⟩ := M.node
  have hrows := hc.rows
  unfold upper
  rw [hnum, Arr.rd_ok _ g2 g3, ok_bind, g1]
  dsimp only
  by_cases h : b.lrow > c.lrow
  · rw [if_pos ⟨h1, h⟩, Arr.wr_ok _ _ g2 g3, ok_bind, Holds_bind]
    have M' := M.update ⟨c.frow, b.lrow, c.cblk⟩
    unfold absorb
    have hlen := M.length h0
    have hhi := M.hi
    rw [List.length_append, List.length_cons] at hlen
    push_cast at hlen
    rw [hfre]
    refine Holds.mono (absorb_loop (R := R) (k := k) (top := top) Q _ ⟨c.frow, b.lrow, c.cblk⟩ F _ M' ⟨hc.ge, hc.le, hc.frow, by dsimp only; omega, hbl⟩ hQ hex (by dsimp only; rw [Arr.set_hi]; omega)) ?_
    rintro r ⟨c', u, Q', F', k1, k2, k3, k4, k5, k6, k7, k8, k9, k10⟩
    rw [Holds_pure]
    refine ⟨c', u :: Q', F', k1, k2, rfl, rfl, rfl, k3, k4, k5, (fun h' => by omega), k7, k8, ?_, ?_⟩
    · intro x hx
      rcases List.mem_cons.1 hx with hx | hx
      · rw [hx]; exact k9
      · have hsub := k8.sublist
        have hs' : (blks (u :: Q')).Pairwise Before := hs.sublist (List.Sublist.map _ hsub)
        rw [blks_cons, List.pairwise_cons] at hs'
        have hu := (hQ u (hsub.subset List.mem_cons_self)).1
        exact Before.trans hu.rows k9 (hs'.1 x.2 (mem_blks.2 ⟨x, hx, rfl⟩))
    · intro x
      rw [k10, cov_cons, cov_cons]
      dsimp only
      constructor
      · rintro (h' | h')
        · by_cases hx : x ≤ c.lrow
          · exact .inl (.inl ⟨h'.1, hx⟩)
          · exact .inr ⟨by omega, h'.2⟩
        · exact .inl (.inr h')
      · rintro ((h' | h') | h')
        · exact .inl ⟨h'.1, by omega⟩
        · exact .inr h'
        · exact .inl ⟨by omega, h'.2⟩
  · rw [if_neg (fun h' => h h'.2), Holds_pure]
    refine ⟨c, Q, F, M, hfre, rfl, rfl, hnum, rfl, rfl, rfl, fun _ => rfl, hc, List.suffix_rfl, hcQ, ?_⟩
    intro x
    rw [cov_cons]
    constructor
    · exact .inl
    · rintro (h' | h')
      · exact h'
      · exact .inl ⟨by omega, by omega⟩

theorem mergeBlok_may {p : Prop} (hR : Rng R base top) (hk : base ≤ k) (hkt : k < top) {m : Merge} {Pr Q : List Node} {F : List Int} (Z : Zip R k top m Pr Q F) {b : Blok} (hb : BOk R k (top - 1) b) (hp : ∀ n ∈ Pr, Before n.2 b)
    (hcap : ¬ p → m.frm < m.tlok.hi) :
    May p (mergeBlok b m) (fun m' => ∃ Pr' Q' F', Zip R k top m' Pr' Q' F' ∧ (∀ n ∈ Pr', Before n.2 b) ∧
      (∀ x, cov (blks (Pr'.reverse ++ Q')) x ↔ cov (blks (Pr.reverse ++ Q)) x ∨ (b.frow ≤ x ∧ x ≤ b.lrow)) ∧ m'.frm ≤ m.frm + 1 ∧ m'.tlok.hi = m.tlok.hi) := by
  have hbw := hb.widen
  have hbt := hb.le
  unfold mergeBlok
  rw [Z.lst, Z.num, May_bind]
  refine May.mono (skip_holds hR hk Z.mem Z.frm Z.shape.canon.ok hbw (by omega) hp Z.shape.trail).may ?_
  rintro s ⟨Pr', q, Q', hL, hs, hp', hq⟩
  rw [hs]
  dsimp only
  have M := Z.mem
  rw [← hL] at M
  have Sh := Z.shape
  rw [← hL] at Sh
  obtain ⟨g1, g2, g3⟩ := M.node
  have hqok : BOk R k top q.2 := Sh.canon.ok _ (by simp [blks_append, blks_cons])
  have hsorted := Sh.canon.sorted
  rw [blks_append, blks_cons, List.pairwise_append, List.pairwise_cons] at hsorted
  obtain ⟨s1, ⟨s2, s3⟩, s4⟩ := hsorted
  have hQok : ∀ x ∈ Q', BOk R k top x.2 := by
    intro x hx
    refine Sh.canon.ok _ ?_
    rw [blks_append, blks_cons]
    exact List.mem_append.2 (.inr (List.mem_cons_of_mem _ (mem_blks.2 ⟨x, hx, rfl⟩)))
  have hPok : ∀ x ∈ Pr', BOk R k top x.2 := by
    intro x hx
    refine Sh.canon.ok _ ?_
    rw [blks_append]
    exact List.mem_append.2 (.inl (mem_blks.2 ⟨x, List.mem_reverse.2 hx, rfl⟩))
  have hskip := mt (skip_iff hR hk hqok hbw).1 hq
  rw [not_or] at hskip
  rw [Arr.rd_ok _ g2 g3, ok_bind, g1]
  dsimp only
  by_cases hc : b.cblk < q.2.cblk ∨ b.lrow < q.2.frow - 1
  · rw [if_pos hc]
    have hbq : Before b q.2 := (skip_iff hR hk hbw hqok).1 hc
    have hne : ∃ p0 P0, Pr' = p0 :: P0 := by
      cases Pr' with
      | cons a l => exact ⟨a, l, rfl⟩
      | nil =>
        exfalso
        have h1 := Sh.head
        rw [List.reverse_nil, List.nil_append, List.head?_cons, Option.some.injEq] at h1
        rw [h1] at hskip hc
        dsimp only at hskip hc
        have := hb.ge
        have := hb.frow
        have := hb.rows
        have e : b.cblk = k := by omega
        have hf := hb.frow
        rw [e] at hf
        omega
    obtain ⟨p0, P0, rfl⟩ := hne
    refine May.mono (insert_may (p := p) (m := ⟨m.tlok, m.fre, m.frm, hd (p0 :: P0) 0, q.1⟩) (b := b) (q := p0) (Pr := P0) (Q := q :: Q') M Z.fre Z.frm hcap rfl rfl) ?_
    rintro m' ⟨f, F', k1, k2, k3, k4, k5, k6, k7⟩
    dsimp only at k5 k6 k7
    refine ⟨p0 :: P0, (f, b) :: q :: Q', F', ⟨k1, k2, k3, k4, ⟨⟨?_, ?_⟩, ?_, ?_⟩, ?_⟩, hp', ?_, k5, k7⟩
    · intro x hx
      rw [blks_append, blks_cons, List.mem_append, List.mem_cons] at hx
      rcases hx with hx | hx | hx
      · exact Sh.canon.ok x (by rw [blks_append]; exact List.mem_append.2 (.inl hx))
      · rw [hx]; exact hbw
      · exact Sh.canon.ok x (by rw [blks_append]; exact List.mem_append.2 (.inr hx))
    · rw [blks_append, blks_cons, blks_cons, List.pairwise_append, List.pairwise_cons, List.pairwise_cons]
      refine ⟨s1, ⟨?_, s2, s3⟩, ?_⟩
      · intro x hx
        rcases List.mem_cons.1 hx with hx | hx
        · rw [hx]; exact hbq
        · exact Before.trans hqok.rows hbq (s2 x hx)
      · intro a ha x hx
        rcases List.mem_cons.1 hx with hx | hx
        · obtain ⟨n, hn, hn'⟩ := mem_blks.1 ha
          rw [hx, ← hn']
          exact hp' n (List.mem_reverse.1 hn)
        · exact s4 a ha x hx
    · have h1 := Sh.head
      rw [List.head?_append] at h1 ⊢
      have : (p0 :: P0).reverse.head?.isSome := by
        rw [List.isSome_head?]
        simp
      obtain ⟨z, hz⟩ := Option.isSome_iff_exists.1 this
      rw [hz] at h1 ⊢
      exact h1
    · obtain ⟨n, hn, hn'⟩ := Sh.trail
      refine ⟨n, ?_, hn'⟩
      rcases List.mem_append.1 hn with h | h
      · exact List.mem_append.2 (.inl h)
      · exact List.mem_append.2 (.inr (List.mem_cons_of_mem _ h))
    · have := Z.frm
      omega
    · intro x
      rw [← hL, blks_append, blks_append, blks_cons, cov_append, cov_append, cov_cons]
      constructor
      · rintro (h | h | h)
        · exact .inl (.inl h)
        · exact .inr h
        · exact .inl (.inr h)
      · rintro ((h | h) | h)
        · exact .inl h
        · exact .inr (.inr h)
        · exact .inr (.inl h)
  · rw [if_neg hc]
    rw [not_or] at hc
    have ecb : q.2.cblk = b.cblk := by omega
    have hbr := hb.rows
    rw [May_bind]
    refine May.mono (lower_holds (m := ⟨m.tlok, m.fre, m.frm, hd Pr' 0, q.1⟩) (b := b) M rfl (by omega)).may ?_
    rintro m1 ⟨f, M1, e1, e2, e3, e4, e5, f1, f2, f3⟩
    dsimp only at M1 e1 e2 e3 e4 e5
    have hqr := hqok.rows
    have hqf := hqok.frow
    have hql := hqok.lrow
    have hbf := hb.frow
    have hbl := hb.lrow
    have hfok : BOk R k top ⟨f, q.2.lrow, q.2.cblk⟩ := by
      refine ⟨hqok.ge, hqok.le, ?_, by dsimp only; omega, hqok.lrow⟩
      dsimp only
      rcases f3 with h | h
      · rw [h, ecb]; exact hbf
      · rw [h]; exact hqf
    have hQ1 : ∀ x ∈ Q', BOk R k top x.2 ∧ q.2.cblk ≤ x.2.cblk ∧ f ≤ x.2.frow := by
      intro x hx
      have h1 := s2 x.2 (mem_blks.2 ⟨x, hx, rfl⟩)
      have h2 := Before.rows hR hk hqok (hQok x hx) h1
      refine ⟨hQok x hx, ?_, by omega⟩
      unfold Before at h1
      omega
    have hex : ∃ x ∈ Q', q.2.cblk < x.2.cblk := by
      obtain ⟨n, hn, hn'⟩ := Sh.trail
      rcases List.mem_append.1 hn with h | h
      · have h1 := hp' n (List.mem_reverse.1 h)
        unfold Before at h1
        omega
      · rcases List.mem_cons.1 h with h | h
        · rw [h] at hn'; omega
        · exact ⟨n, h, by omega⟩
    have hcQ : ∀ x ∈ Q', Before ⟨f, q.2.lrow, q.2.cblk⟩ x.2 := fun x hx => s2 x.2 (mem_blks.2 ⟨x, hx, rfl⟩)
    rw [← e2] at M1
    have hfrm : 0 ≤ m1.frm := by rw [e2]; exact Z.frm
    refine May.mono (upper_holds (R := R) (k := k) (top := top) (m := m1) (b := b) M1 hfrm e4 (by rw [e1]; exact Z.fre) (by dsimp only; omega) hfok (by dsimp only; rw [ecb]; exact hbl) hQ1 hex s3 hcQ f1).may ?_
    rintro m2 ⟨c', Q2, F2, M2, x1, x2, x3, x4, x5, x6, x7, x8, x9, x10, x11, x12⟩
    dsimp only at x6 x7 x8
    have hsuf : ∀ x ∈ Q2, x ∈ Q' := fun x hx => x10.subset hx
    refine ⟨Pr', (q.1, c') :: Q2, F2, ⟨?_, x1, ?_, ?_, ⟨⟨?_, ?_⟩, ?_, ?_⟩, ?_⟩, hp', ?_, by omega, by rw [x5, e5]⟩
    · rw [x2]; exact M2
    · rw [x3, e3]
    · rw [x4, e4]; rfl
    · intro x hx
      rw [blks_append, blks_cons, List.mem_append, List.mem_cons] at hx
      rcases hx with hx | hx | hx
      · exact Sh.canon.ok x (by rw [blks_append]; exact List.mem_append.2 (.inl hx))
      · rw [hx]; exact x9
      · obtain ⟨n, hn, hn'⟩ := mem_blks.1 hx
        rw [← hn']
        exact hQok n (hsuf n hn)
    · rw [blks_append, blks_cons, List.pairwise_append, List.pairwise_cons]
      refine ⟨s1, ⟨?_, s3.sublist (List.Sublist.map _ x10.sublist)⟩, ?_⟩
      · intro x hx
        obtain ⟨n, hn, hn'⟩ := mem_blks.1 hx
        rw [← hn']
        exact x11 n hn
      · intro a ha x hx
        rcases List.mem_cons.1 hx with hx | hx
        · obtain ⟨n, hn, hn'⟩ := mem_blks.1 ha
          have h1 := hp' n (List.mem_reverse.1 hn)
          have h2 := s4 a ha q.2 List.mem_cons_self
          rw [hn'] at h1
          rw [hx]
          unfold Before at h1 h2 ⊢
          rw [x6, x7]
          rcases f3 with h | h <;> omega
        · obtain ⟨n, hn, hn'⟩ := mem_blks.1 hx
          rw [← hn']
          exact s4 a ha n.2 (List.mem_cons_of_mem _ (mem_blks.2 ⟨n, hsuf n hn, rfl⟩))
    · have h1 := Sh.head
      cases Pr' with
      | nil =>
        rw [List.reverse_nil, List.nil_append, List.head?_cons, Option.some.injEq] at h1 ⊢
        rw [h1] at ecb f2 f3 x8
        dsimp only at ecb f2 f3 x8
        rw [← ecb] at hbf hbl
        have e : f = R k := by rcases f3 with h | h <;> omega
        rw [x8 (by omega), h1, e]
      | cons a l =>
        rw [List.head?_append] at h1 ⊢
        have : (a :: l).reverse.head?.isSome := by
          rw [List.isSome_head?]
          simp
        obtain ⟨z, hz⟩ := Option.isSome_iff_exists.1 this
        rw [hz] at h1 ⊢
        exact h1
    · obtain ⟨n, hn, hn'⟩ := hex
      -- the trailing block is still there since the last block is
      obtain ⟨n', hn1, hn2⟩ := Sh.trail
      have hn1' : n' ∈ Q' := by
        rcases List.mem_append.1 hn1 with h | h
        · have h1 := hp' n' (List.mem_reverse.1 h)
          unfold Before at h1
          omega
        · rcases List.mem_cons.1 h with h | h
          · rw [h] at hn2; omega
          · exact h
      refine ⟨n', List.mem_append.2 (.inr (List.mem_cons_of_mem _ ?_)), hn2⟩
      -- its row is still covered
      have hno := hQok n' hn1'
      have hcv : cov (c' :: blks Q2) n'.2.frow := by
        rw [x12]
        left
        rw [cov_cons]
        exact .inr ⟨n'.2, mem_blks.2 ⟨n', hn1', rfl⟩, Int.le_refl _, hno.rows⟩
      rw [cov_cons] at hcv
      have hlow : c'.lrow < n'.2.frow := BOk.lt_rows hR hk x9 hno (by rw [x7]; omega)
      rcases hcv with h | ⟨y, hy, hy1, hy2⟩
      · omega
      · obtain ⟨n2, hn2', hn3⟩ := mem_blks.1 hy
        by_cases e : n2 = n'
        · rw [← e]; exact hn2'
        · exfalso
          have hin : n2 ∈ Q' := hsuf n2 hn2'
          have hpw := List.pairwise_map.1 s3
          have hor : Before n2.2 n'.2 ∨ Before n'.2 n2.2 := by
            obtain ⟨i, hi, hi'⟩ := List.getElem_of_mem hin
            obtain ⟨j, hj, hj'⟩ := List.getElem_of_mem hn1'
            rw [List.pairwise_iff_getElem] at hpw
            rcases Nat.lt_trichotomy i j with h | h | h
            · left; rw [← hi', ← hj']; exact hpw i j hi hj h
            · subst h; exact absurd (hi'.symm.trans hj') e
            · right; rw [← hi', ← hj']; exact hpw j i hj hi h
          rw [← hn3] at hy1 hy2
          rcases hor with h | h
          · have := Before.rows hR hk (hQok n2 hin) hno h
            omega
          · have := Before.rows hR hk hno (hQok n2 hin) h
            have := hno.rows
            omega
    · rw [x2]; exact hfrm
    · intro x
      have h1 := x12 x
      rw [cov_cons, cov_cons] at h1
      rw [← hL, blks_append, blks_append, blks_cons, blks_cons, cov_append, cov_append, cov_cons, cov_cons, h1]
      dsimp only
      constructor
      · rintro (h | (h | h) | h)
        · exact .inl (.inl h)
        · rcases f3 with e | e
          · by_cases hx : q.2.frow ≤ x
            · exact .inl (.inr (.inl ⟨hx, h.2⟩))
            · exact .inr ⟨by omega, by omega⟩
          · exact .inl (.inr (.inl ⟨by omega, h.2⟩))
        · exact .inl (.inr (.inr h))
        · exact .inr h
      · rintro ((h | h | h) | h)
        · exact .inl h
        · exact .inr (.inl (.inl ⟨by omega, h.2⟩))
        · exact .inr (.inl (.inr h))
        · exact .inr (.inr h)

end Scotch.Fax
