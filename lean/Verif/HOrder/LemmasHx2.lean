import Verif.HOrder.LemmasHx

/-! # Building of elimination trees: lemmas -/

set_option autoImplicit false
set_option linter.unusedSimpArgs false
set_option linter.unusedVariables false

namespace Scotch.HOrder

/-- Sizes of arrays. -/
structure HxB (b n : Int) (s : HxS) : Prop where
  nvar : s.nvar.lo ≤ b ∧ b + n ≤ s.nvar.hi
  size : s.size.lo ≤ b ∧ b + n ≤ s.size.hi
  fath : s.fath.lo ≤ b ∧ b + n ≤ s.fath.hi
  frst : s.frst.lo ≤ b ∧ b + n ≤ s.frst.hi
  next : s.next.lo ≤ b ∧ b + n ≤ s.next.hi
  secn : s.secn.lo ≤ b ∧ b + n ≤ s.secn.hi
  desc : s.desc.lo ≤ b ∧ b + n ≤ s.desc.hi
  cwgt : ∀ a, s.cwgt = some a → a.lo ≤ b ∧ b + n ≤ a.hi

/-- The forest of a state. -/
abbrev HxS.Tree (b N i : Int) (rk : Int → Int) (s : HxS) (S Q : Int → List Int) (own : Int → Int) : Prop :=
  HxT b N i rk s.nvar.get s.size.get s.fath.get s.frst.get s.next.get s.secn.get s.cblknbr s.root S Q own

/-- Loads of vertices are positive. -/
def HxS.Pos (b N : Int) (s : HxS) : Prop := ∀ a, s.cwgt = some a → ∀ v, b ≤ v → v < b + N → 0 < a.get v

/-- What is given by the kernel, for vertices numbered from `b` on. -/
structure HxIni (b N n : Int) (rk nv pe : Int → Int) : Prop where
  load : ∀ v, b ≤ v → v < b + N → 0 ≤ nv v
  sec : ∀ v, b ≤ v → v < b + N → nv v = 0 → b ≤ b - (pe v + 1) ∧ b - (pe v + 1) < b + n ∧ (b - (pe v + 1) < b + N → nv (b - (pe v + 1)) ≠ 0)
  prin : ∀ v, b ≤ v → v < b + N → nv v ≠ 0 → pe v < 0 → pe v > -(N + 1) → nv (b - (pe v + 1)) ≠ 0 ∧ rk v < rk (b - (pe v + 1))
  rank : ∀ v, b ≤ v → v < b + N → 0 ≤ rk v ∧ rk v < N

/-- Invariant of the loop on vertices. -/
structure HxP (b N n i : Int) (rk nv0 pe0 : Int → Int) (s : HxS) (S Q : Int → List Int) (own : Int → Int) : Prop where
  bnd : HxB b n s
  tree : s.Tree b N i rk S Q own
  raw : ∀ v, i ≤ v → v < b + N → s.fath.get v = pe0 v ∧ (nv0 v = 0 → s.nvar.get v = 0 ∧ s.frst.get v = -1 ∧ s.secn.get v = -1 ∧ s.desc.get v = 0)
  keep : ∀ v, b ≤ v → v < b + N → nv0 v ≠ 0 → 0 < s.nvar.get v
  halo : ∀ f, b + N ≤ f → f < b + n → s.frst.get f = -1 ∨ (b ≤ s.frst.get f ∧ s.frst.get f < i ∧ 0 < s.nvar.get (s.frst.get f))
  desc : ∀ j, b ≤ j → j < b + N → 0 < s.nvar.get j → s.desc.get j = (S j).length
  pos : s.Pos b N

variable {b N n i : Int} {rk nv0 pe0 : Int → Int} {s : HxS} {S Q : Int → List Int} {own : Int → Int}

theorem cwgtOne_holds (hb : HxB b n s) (hp : s.Pos b N) (hn : N ≤ n) (h1 : b ≤ i) (h2 : i < b + N) : Holds (cwgtOne s.cwgt i) (fun w => 0 < w) := by
  unfold cwgtOne
  cases hc : s.cwgt with
  | none => dsimp only; rw [Holds_pure]; decide
  | some a =>
    have := hb.cwgt a hc
    dsimp only
    rw [Arr.rd_ok _ (by omega) (by omega), Holds_ok]
    exact hp a hc i h1 h2

theorem cwgtAdd_holds (hb : HxB b n s) (hp : s.Pos b N) (hn : N ≤ n) {f w : Int} (h1 : b ≤ f) (h2 : f < b + N) (hw : 0 < w) :
    Holds (cwgtAdd s.cwgt f w) (fun c => (∀ a, c = some a → a.lo ≤ b ∧ b + n ≤ a.hi) ∧ ∀ a, c = some a → ∀ v, b ≤ v → v < b + N → 0 < a.get v) := by
  unfold cwgtAdd
  cases hc : s.cwgt with
  | none =>
    dsimp only; rw [Holds_pure]
    exact ⟨(fun a h => by cases h), (fun a h => by cases h)⟩
  | some a =>
    have hba := hb.cwgt a hc
    dsimp only
    rw [Arr.rd_ok _ (by omega) (by omega), ok_bind, Arr.wr_ok _ _ (by omega) (by omega), ok_bind, Holds_pure]
    refine ⟨?_, ?_⟩
    · intro a' h; cases h; exact hba
    · intro a' h v v1 v2
      cases h
      rw [set_upd]
      have := hp a hc
      by_cases hv : v = f
      · rw [hv, upd_same]; have := this f h1 h2; omega
      · rw [upd_ne hv]; exact this v v1 v2

theorem hxPrin_holds (hi0 : HxIni b N n rk nv0 pe0) (P : HxP b N n i rk nv0 pe0 s S Q own) (hb0 : 0 ≤ b) (hn : N ≤ n) (h1 : b ≤ i) (h2 : i < b + N) (hi : 0 < s.nvar.get i) (hnv : nv0 i ≠ 0) :
    Holds (hxPrin b N i s) (fun s' => ∃ S Q own, HxP b N n (i + 1) rk nv0 pe0 s' S Q own) := by
  obtain ⟨B1, B2, B3, B4, B5, B6, B7, B8⟩ := P.bnd
  have hf := (P.raw i (Int.le_refl _) h2).1
  unfold hxPrin
  rw [Arr.rd_ok _ (by omega) (by omega), ok_bind, Arr.wr_ok _ _ (by omega) (by omega), ok_bind, Arr.rd_ok _ (by omega) (by omega), ok_bind, hf]
  by_cases hc : pe0 i < 0 ∧ pe0 i > -(N + 1)
  · rw [if_pos hc]
    obtain ⟨f3, f4⟩ := hi0.prin i h1 h2 hnv hc.1 hc.2
    have f1 : b ≤ b - (pe0 i + 1) := by omega
    have f2 : b - (pe0 i + 1) < b + N := by omega
    dsimp only
    generalize b - (pe0 i + 1) = f at f1 f2 f3 f4 ⊢
    have hfi : f ≠ i := fun he => by rw [he] at f4; omega
    have hfp := P.keep f f1 f2 f3
    rw [Arr.wr_ok _ _ (by omega) (by omega), ok_bind, Arr.rd_ok _ (by omega) (by omega), ok_bind, Arr.wr_ok _ _ (by omega) (by omega), ok_bind, Arr.wr_ok _ _ (by omega) (by omega), ok_bind,
      Arr.rd_ok _ (by omega) (by omega), ok_bind, Arr.wr_ok _ _ (by omega) (by omega), ok_bind, Holds_pure]
    refine ⟨_, _, _, ⟨⟨B1, B2, B3, B4, B5, B6, B7, B8⟩, P.tree.son hb0 h1 h2 hi f1 f2 hfp f4, ?_, P.keep, ?_, ?_, P.pos⟩⟩
    · intro v v1 v2
      obtain ⟨r1, r2⟩ := P.raw v (by omega) v2
      rw [set_upd, set_upd, set_upd, upd_ne (by omega)]
      refine ⟨r1, fun hz => ?_⟩
      have hvf : v ≠ f := fun he => f3 (he ▸ hz)
      rw [upd_ne hvf, upd_ne hvf]
      exact r2 hz
    · intro x x1 x2
      rw [set_upd, upd_ne (by omega)]
      rcases P.halo x x1 x2 with hx | hx
      · exact Or.inl hx
      · exact Or.inr ⟨hx.1, by omega, hx.2.2⟩
    · intro j j1 j2 j3
      rw [set_upd]
      have hd := P.desc
      by_cases hj : j = f
      · subst hj
        rw [upd_same, upd_same, hd j j1 j2 j3, List.length_cons]; omega
      · rw [upd_ne hj, upd_ne hj]; exact hd j j1 j2 j3
  · rw [if_neg hc, Arr.wr_ok _ _ (by omega) (by omega), ok_bind, Holds_pure]
    have hT := P.tree.top (w := s.nvar.get i) (z := s.size.get i + 1) hb0 h1 h2 hi (Or.inl ⟨hi, rfl, rfl⟩)
    have hid : upd s.nvar.get i (s.nvar.get i) = s.nvar.get := by
      funext x
      by_cases hx : x = i
      · rw [hx, upd_same]
      · rw [upd_ne hx]
    rw [hid, if_pos hi, if_pos hi] at hT
    refine ⟨_, _, _, ⟨⟨B1, B2, B3, B4, B5, B6, B7, B8⟩, hT, ?_, P.keep, ?_, P.desc, P.pos⟩⟩
    · intro v v1 v2
      rw [set_upd, upd_ne (by omega)]
      exact P.raw v (by omega) v2
    · intro x x1 x2
      exact (P.halo x x1 x2).imp id (fun hx => ⟨hx.1, Int.lt_trans hx.2.1 (Int.lt_succ i), hx.2.2⟩)

theorem hxVert_holds (hi0 : HxIni b N n rk nv0 pe0) (P : HxP b N n i rk nv0 pe0 s S Q own) (hb0 : 0 ≤ b) (hn : N ≤ n) (h1 : b ≤ i) (h2 : i < b + N) :
    Holds (hxVert b N i s) (fun s' => ∃ S Q own, HxP b N n (i + 1) rk nv0 pe0 s' S Q own) := by
  obtain ⟨B1, B2, B3, B4, B5, B6, B7, B8⟩ := P.bnd
  obtain ⟨hf, hz⟩ := P.raw i (Int.le_refl _) h2
  have hnn := P.tree.nonneg i h1 h2
  unfold hxVert
  rw [Arr.rd_ok _ (by omega) (by omega), ok_bind]
  by_cases hc : s.nvar.get i ≠ 0
  · rw [if_pos hc]
    exact hxPrin_holds hi0 P hb0 hn h1 h2 (by omega) (fun h => hc (hz h).1)
  rw [if_neg hc]
  have hc : s.nvar.get i = 0 := by omega
  have hnv : nv0 i = 0 := by
    by_cases h : nv0 i = 0
    · exact h
    · have := P.keep i h1 h2 h; omega
  obtain ⟨_, hz2, hz3, hz4⟩ := hz hnv
  obtain ⟨f1, f2, f3⟩ := hi0.sec i h1 h2 hnv
  rw [Holds_bind]
  refine (cwgtOne_holds P.bnd P.pos hn h1 h2).mono ?_
  intro w hw
  rw [Arr.rd_ok _ (by omega) (by omega), ok_bind, hf]
  dsimp only
  generalize b - (pe0 i + 1) = f at f1 f2 f3 ⊢
  rw [Arr.wr_ok _ _ (by omega) (by omega), ok_bind]
  -- a secondary vertex
  have key : ∀ (f' g w' : Int) (nvar : Arr Int), b ≤ g → g < b + N → 0 < s.nvar.get g → 0 < w' → nvar.lo = s.nvar.lo → nvar.hi = s.nvar.hi → nvar.get = upd s.nvar.get g w' → f' ≠ -1 → ∀ fath : Arr Int, fath.lo = s.fath.lo → fath.hi = s.fath.hi →
      fath.get = upd s.fath.get i f' →
      Holds (hxSecn i g w { s with fath := fath, nvar := nvar }) (fun s' => ∃ S Q own, HxP b N n (i + 1) rk nv0 pe0 s' S Q own) := by
    intro f' g w' nvar g1 g2 g3 hw' e1 e2 e3 e4 fath e5 e6 e7
    have hgi : g ≠ i := fun he => by rw [he] at g3; omega
    unfold hxSecn
    dsimp only
    rw [Arr.rd_ok _ (by omega) (by omega), ok_bind, Arr.wr_ok _ _ (by omega) (by omega), ok_bind, Holds_bind]
    refine (cwgtAdd_holds P.bnd P.pos hn g1 g2 hw).mono ?_
    rintro c ⟨c1, c2⟩
    rw [Arr.rd_ok _ (by omega) (by omega), ok_bind, Arr.wr_ok _ _ (by omega) (by omega), ok_bind, Arr.wr_ok _ _ (by show s.secn.lo ≤ g; omega) (by show g < s.secn.hi; omega), ok_bind, Holds_pure]
    have hT := P.tree.sec hb0 h1 h2 hc g1 g2 g3 hw' e4
    rw [← e3, ← e7] at hT
    refine ⟨_, _, _, ⟨⟨?_, B2, ?_, B4, B5, B6, B7, c1⟩, hT, ?_, ?_, ?_, ?_, c2⟩⟩
    · show nvar.lo ≤ b ∧ b + n ≤ nvar.hi
      omega
    · show fath.lo ≤ b ∧ b + n ≤ fath.hi
      omega
    · intro v v1 v2
      obtain ⟨r1, r2⟩ := P.raw v (by omega) v2
      dsimp only
      rw [e7, e3, upd_ne (by omega)]
      refine ⟨r1, fun hz => ?_⟩
      obtain ⟨q1, q2, q3, q4⟩ := r2 hz
      have hvg : v ≠ g := fun he => by rw [he] at q1; omega
      rw [upd_ne hvg, set_upd, upd_ne hvg, set_upd, upd_ne (by omega)]
      exact ⟨q1, q2, q3, q4⟩
    · intro v v1 v2 v3
      dsimp only
      rw [e3]
      by_cases hv : v = g
      · rw [hv, upd_same]; exact hw'
      · rw [upd_ne hv]; exact P.keep v v1 v2 v3
    · intro x x1 x2
      dsimp only
      rw [e3]
      rcases P.halo x x1 x2 with hx | ⟨q1, q2, q3⟩
      · exact Or.inl hx
      · refine Or.inr ⟨q1, by omega, ?_⟩
        by_cases hv : s.frst.get x = g
        · rw [hv, upd_same]; exact hw'
        · rw [upd_ne hv]; exact q3
    · intro j j1 j2 j3
      dsimp only at j3 ⊢
      rw [e3] at j3
      refine P.desc j j1 j2 ?_
      by_cases hv : j = g
      · rw [hv]; exact g3
      · rw [upd_ne hv] at j3; exact j3
  by_cases hh : b + N ≤ f
  · rw [if_pos hh, Arr.rd_ok _ (by omega) (by omega), ok_bind]
    by_cases hr : s.frst.get f = -1
    · rw [if_pos hr]
      unfold hxRep
      dsimp only
      rw [Arr.wr_ok _ _ (by omega) (by omega), ok_bind, Arr.wr_ok _ _ (by omega) (by omega), ok_bind, Arr.wr_ok _ _ (by omega) (by omega), ok_bind,
        Arr.wr_ok _ _ (by show s.fath.lo ≤ i; omega) (by show i < s.fath.hi; omega), ok_bind, Holds_pure]
      have hT := P.tree.top (w := w) (z := 1) hb0 h1 h2 hw (Or.inr ⟨hc, rfl, hz2, hz3⟩)
      rw [if_neg (by omega), if_neg (by omega)] at hT
      have hT2 : HxT b N (i + 1) rk (upd s.nvar.get i w) (upd s.size.get i 1) (upd (upd s.fath.get i f) i (-1)) (upd s.frst.get f i) s.next.get s.secn.get (s.cblknbr + 1) i (upd S i []) (upd Q i []) own := by
        have e : upd (upd s.fath.get i f) i (-1) = upd s.fath.get i (-1) := by
          funext x
          by_cases hx : x = i
          · rw [hx, upd_same, upd_same]
          · rw [upd_ne hx, upd_ne hx, upd_ne hx]
        rw [e]
        refine { hT with link := ?_ }
        intro j j1 j2 j3
        rw [upd_ne (by omega)]
        exact hT.link j j1 j2 j3
      refine ⟨_, _, _, ⟨⟨B1, B2, B3, B4, B5, B6, B7, B8⟩, hT2, ?_, ?_, ?_, ?_, P.pos⟩⟩
      · intro v v1 v2
        obtain ⟨r1, r2⟩ := P.raw v (by omega) v2
        dsimp only
        rw [set_upd, set_upd, upd_ne (by omega), upd_ne (by omega), set_upd, set_upd, upd_ne (by omega), upd_ne (by omega)]
        exact ⟨r1, r2⟩
      · intro v v1 v2 v3
        dsimp only
        rw [set_upd]
        by_cases hv : v = i
        · rw [hv, upd_same]; exact hw
        · rw [upd_ne hv]; exact P.keep v v1 v2 v3
      · intro x x1 x2
        dsimp only
        rw [set_upd, set_upd]
        by_cases hx : x = f
        · rw [hx, upd_same, upd_same]
          exact Or.inr ⟨h1, by omega, hw⟩
        · rw [upd_ne hx]
          rcases P.halo x x1 x2 with hy | ⟨q1, q2, q3⟩
          · exact Or.inl hy
          · rw [upd_ne (by omega)]
            exact Or.inr ⟨q1, by omega, q3⟩
      · intro j j1 j2 j3
        dsimp only at j3 ⊢
        rw [set_upd] at j3
        by_cases hj : j = i
        · rw [hj, upd_same, hz4]; rfl
        · rw [upd_ne hj]
          rw [upd_ne hj] at j3
          exact P.desc j j1 j2 j3
    · rw [if_neg hr]
      rcases P.halo f hh f2 with hy | ⟨q1, q2, q3⟩
      · exact absurd hy hr
      rw [Arr.wr_ok _ _ (by show s.fath.lo ≤ i; omega) (by show i < s.fath.hi; omega), ok_bind, Arr.rd_ok _ (by omega) (by omega), ok_bind, Arr.wr_ok _ _ (by omega) (by omega), ok_bind]
      refine key (s.frst.get f) (s.frst.get f) (s.nvar.get (s.frst.get f) + w) (s.nvar.set (s.frst.get f) (s.nvar.get (s.frst.get f) + w)) q1 (by omega) q3 (by omega) rfl rfl rfl (by omega) _ rfl rfl ?_
      rw [set_upd, set_upd]
      funext x
      by_cases hx : x = i
      · rw [hx, upd_same, upd_same]
      · rw [upd_ne hx, upd_ne hx, upd_ne hx]
  · rw [if_neg hh]
    have hfp := P.keep f f1 (by omega) (f3 (by omega))
    refine key f f (s.nvar.get f) s.nvar f1 (by omega) hfp hfp rfl rfl ?_ (by omega) _ rfl rfl rfl
    funext x
    by_cases hx : x = f
    · rw [hx, upd_same]
    · rw [upd_ne hx]

/-- The forest, after the loop on vertices. -/
theorem hxVerts_holds (hi0 : HxIni b N n rk nv0 pe0) (hb0 : 0 ≤ b) (hn : N ≤ n) (hN : 0 ≤ N) (hb : HxB b n s) (hp : s.Pos b N) (h1 : ∀ v, b ≤ v → v < b + N → s.nvar.get v = nv0 v) (h2 : ∀ v, b ≤ v → v < b + N → s.fath.get v = pe0 v)
    (h3 : ∀ v, b ≤ v → v < b + n → s.size.get v = 0 ∧ s.frst.get v = -1 ∧ s.secn.get v = -1 ∧ s.desc.get v = 0) (h4 : s.cblknbr = 0) (h5 : s.root = -1) :
    Holds (forUp b (b + N) s (hxVert b N)) (fun s' => ∃ S Q own, HxP b N n (b + N) rk nv0 pe0 s' S Q own) := by
  refine Holds_forUp (fun i s => ∃ S Q own, HxP b N n i rk nv0 pe0 s S Q own) (by omega) ?_ ?_ (fun s hs => hs)
  · refine ⟨fun _ => [], fun _ => [], fun _ => 0, hb, ?_, ?_, ?_, ?_, ?_, hp⟩
    · refine ⟨?_, ?_, ?_, ?_, ?_, ?_, ?_, ?_, ?_, ?_, ?_, ?_, hi0.rank⟩
      · intro v v1 v2; rw [h1 v v1 v2]; exact hi0.load v v1 v2
      · intro j j1 j2 _; exact (h3 j j1 (by omega)).2.1
      · intro j j1 j2 _; exact ⟨List.nodup_nil, fun x => ⟨(fun h => by cases h), fun h => by omega⟩⟩
      · intro x x1 x2; omega
      · intro x x1 x2; omega
      · intro j j1 j2 _; exact (h3 j j1 (by omega)).2.2.1
      · intro j j1 j2 _; exact ⟨List.nodup_nil, fun x => ⟨(fun h => by cases h), fun h => by omega⟩⟩
      · intro x x1 x2; omega
      · rw [sumI_congr (g := fun _ => 0)]
        · rw [sumI_const (by omega)]; omega
        · intro v v1 v2
          rw [(h3 v v1 (by omega)).1]
          split <;> rfl
      · intro v v1 v2 _
        rw [(h3 v v1 (by omega)).1]
        omega
      · rw [h4, sumI_empty (Int.le_refl b)]
      · exact Or.inl ⟨h5, fun x x1 x2 => by omega⟩
    · intro v v1 v2
      refine ⟨h2 v v1 v2, fun hz => ?_⟩
      obtain ⟨q1, q2, q3, q4⟩ := h3 v v1 (by omega)
      exact ⟨(h1 v v1 v2).trans hz, q2, q3, q4⟩
    · intro v v1 v2 v3
      rw [h1 v v1 v2]
      have := hi0.load v v1 v2; omega
    · intro f f1 f2
      exact Or.inl (h3 f (by omega) f2).2.1
    · intro j j1 j2 _
      exact (h3 j j1 (by omega)).2.2.2
  · rintro i s i1 i2 ⟨S, Q, own, P⟩
    exact hxVert_holds hi0 P hb0 hn i1 i2

end Scotch.HOrder
