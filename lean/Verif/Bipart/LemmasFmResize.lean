import Verif.Bipart.LemmasFmInv

/-! # Fiduccia-Mattheyses refinement: change of size of the table -/

set_option autoImplicit false
set_option linter.unusedSimpArgs false

namespace Scotch.Bipart
open Graph
open Coarsen (IsMask land land_mask)
open Hash (Tab Path probe probe_in probe_succ probe_surj)

variable {b : Bgraph} {keys : List Int} {p pb : Int → Int} {r : Int → Int → Int} {s : Fm} {h : Int}

/-- Two lists of places of the same slots have the same size. -/
theorem lock_length {t t' : Arr FmSlot} {n n' : Int} {l l' : List Int} (hn : l.Nodup) (hn' : l'.Nodup) (hl : ∀ h, h ∈ l ↔ (0 ≤ h ∧ h < n) ∧ FmOwn t h ∧ (t.get h).st = .used)
    (hl' : ∀ h, h ∈ l' ↔ (0 ≤ h ∧ h < n') ∧ FmOwn t' h ∧ (t'.get h).st = .used) (hi : ∀ x y, 0 ≤ x → x < n → 0 ≤ y → y < n → FmOwn t x → FmKey t x = FmKey t y → x = y)
    (hi' : ∀ x y, 0 ≤ x → x < n' → 0 ≤ y → y < n' → FmOwn t' x → FmKey t' x = FmKey t' y → x = y)
    (hc : ∀ x : FmSlot, x.vertnum ≠ -1 → ((∃ y, 0 ≤ y ∧ y < n' ∧ t'.get y = x) ↔ ∃ y, 0 ≤ y ∧ y < n ∧ t.get y = x)) : l'.length = l.length := by
  have e : (l'.map (FmKey t')).Perm (l.map (FmKey t)) := by
    refine (List.perm_ext_iff_of_nodup ?_ ?_).2 ?_
    · refine List.Nodup.map_on ?_ hn'
      intro x hx y hy hxy
      rw [hl'] at hx hy
      exact hi' x y hx.1.1 hx.1.2 hy.1.1 hy.1.2 hx.2.1 hxy
    · refine List.Nodup.map_on ?_ hn
      intro x hx y hy hxy
      rw [hl] at hx hy
      exact hi x y hx.1.1 hx.1.2 hy.1.1 hy.1.2 hx.2.1 hxy
    · intro k
      rw [List.mem_map, List.mem_map]
      constructor
      · rintro ⟨y, hy, e⟩
        rw [hl'] at hy
        obtain ⟨z, z1, z2, z3⟩ := (hc (t'.get y) hy.2.1).1 ⟨y, hy.1.1, hy.1.2, rfl⟩
        refine ⟨z, (hl z).2 ⟨⟨z1, z2⟩, ?_, ?_⟩, ?_⟩
        · unfold FmOwn; rw [z3]; exact hy.2.1
        · rw [z3]; exact hy.2.2
        · unfold FmKey at e ⊢; rw [z3]; exact e
      · rintro ⟨y, hy, e⟩
        rw [hl] at hy
        obtain ⟨z, z1, z2, z3⟩ := (hc (t.get y) hy.2.1).2 ⟨y, hy.1.1, hy.1.2, rfl⟩
        refine ⟨z, (hl' z).2 ⟨⟨z1, z2⟩, ?_, ?_⟩, ?_⟩
        · unfold FmOwn; rw [z3]; exact hy.2.1
        · rw [z3]; exact hy.2.2
        · unfold FmKey at e ⊢; rw [z3]; exact e
  have := e.length_eq
  rwa [List.length_map, List.length_map] at this

/-- The slots and the saved values after the change of size, at other places. -/
structure FmResized (keys : List Int) (s s' : Fm) : Prop where
  eq : s' = { s with hash := s'.hash, msk := s'.msk, max := s'.max, save := s'.save, lock := s'.lock }
  msk : s'.msk = 2 * s.msk + 1
  max : s'.max * 4 = s'.msk + 1
  hlo : s'.hash.lo = 0
  hhi : s'.hash.hi = s'.msk + 1
  slo : s'.save.lo = 0
  shi : s'.save.hi = s'.msk + 1
  tab : FmTab s'.hash s'.msk keys
  back : ∀ y, 0 ≤ y → y < s'.msk + 1 → FmOwn s'.hash y → ∃ z, 0 ≤ z ∧ z < s.msk + 1 ∧ s.hash.get z = s'.hash.get y ∧ FmOwn s.hash z ∧ FmKey s.hash z = FmKey s'.hash y
  mswp : ∀ y, 0 ≤ y → y < s'.msk + 1 → ¬ FmOwn s'.hash y → (s'.hash.get y).mswp = -1
  nodup : s'.lock.Nodup
  lock : ∀ h, h ∈ s'.lock ↔ (0 ≤ h ∧ h < s'.msk + 1) ∧ FmOwn s'.hash h ∧ (s'.hash.get h).st = .used
  len : s'.lock.length = s.lock.length
  sv : ∀ i, 0 ≤ i → i < s.savenbr → (0 ≤ (s'.save.get i).hashnum ∧ (s'.save.get i).hashnum < s'.msk + 1) ∧ FmOwn s'.hash (s'.save.get i).hashnum ∧
    FmKey s'.hash (s'.save.get i).hashnum = FmKey s.hash (s.save.get i).hashnum ∧ (s'.save.get i).v = (s.save.get i).v

theorem fmResize_gen (junk : Int → FmSave) (mask : IsMask s.msk) (hmax : s.max * 4 = s.msk + 1) (hlo : s.hash.lo = 0) (hhi : s.hash.hi = s.msk + 1) (slo : s.save.lo = 0) (shi : s.save.hi = s.msk + 1)
    (htab : FmTab s.hash s.msk keys) (hkv : ∀ k ∈ keys, 0 ≤ k) (hmw : ∀ y, 0 ≤ y → y < s.msk + 1 → ¬ FmOwn s.hash y → (s.hash.get y).mswp = -1) (hnd : s.lock.Nodup)
    (hlk : ∀ h, h ∈ s.lock ↔ (0 ≤ h ∧ h < s.msk + 1) ∧ FmOwn s.hash h ∧ (s.hash.get h).st = .used) (hnn : 0 ≤ s.savenbr)
    (hsv : ∀ i, 0 ≤ i → i < s.savenbr → (0 ≤ (s.save.get i).hashnum ∧ (s.save.get i).hashnum < s.msk + 1) ∧ FmOwn s.hash (s.save.get i).hashnum)
    (hij : ∀ i j, 0 ≤ i → i < s.savenbr → 0 ≤ j → j < s.savenbr → (s.save.get i).hashnum = (s.save.get j).hashnum → i = j) (hroom : (keys.length : Int) < s.msk + 1) :
    Holds (fmResize junk s) (FmResized keys s) := by
  have hpos := htab.pos
  have hle : s.savenbr ≤ s.msk + 1 := by
    have : (Finset.Ico (0 : Int) s.savenbr).card ≤ (Finset.Ico (0 : Int) (s.msk + 1)).card := by
      refine Finset.card_le_card_of_injOn (fun i => (s.save.get i).hashnum) ?_ ?_
      · intro x hx
        rw [Finset.mem_coe, Finset.mem_Ico] at hx ⊢
        exact (hsv x hx.1 hx.2).1
      · intro x hx y hy hxy
        rw [Finset.mem_coe, Finset.mem_Ico] at hx hy
        exact hij x y hx.1 hx.2 hy.1 hy.2 hxy
    rw [Int.card_Ico, Int.card_Ico] at this
    omega
  have hN : s.max * 4 = s.msk + 1 := hmax
  have hN2 : s.max * 8 = 2 * (s.msk + 1) := by omega
  unfold fmResize
  dsimp only
  rw [hN, hN2]
  generalize hNd : s.msk + 1 = N at *
  rw [Holds_bind]
  refine Holds_forUp (fun i a => a.lo = 0 ∧ a.hi = 2 * N ∧ ∀ n, s.savenbr - i ≤ n → n < s.savenbr → a.get n = ⟨FmKey s.hash (s.save.get n).hashnum, (s.save.get n).v⟩) hnn
    ⟨rfl, rfl, fun n n1 n2 => by omega⟩ ?_ ?_
  · rintro i a i1 i2 ⟨a1, a2, a3⟩
    obtain ⟨c1, c2⟩ := hsv (s.savenbr - 1 - i) (by omega) (by omega)
    rw [Arr.rd_ok _ (by omega) (by omega), ok_bind, Arr.rd_ok _ (by omega) (by omega), ok_bind, Arr.wr_ok _ _ (by omega) (by omega), Holds_ok]
    refine ⟨a1, a2, ?_⟩
    intro n n1 n2
    by_cases e : n = s.savenbr - 1 - i
    · rw [e, Arr.set_get_same]; rfl
    · rw [Arr.set_get_ne _ _ e]
      exact a3 n (by omega) n2
  intro sv1 hsv1
  obtain ⟨v1, v2, v3⟩ := hsv1
  have hT : Tab fmPrime N (FmOwn s.hash) (FmKey s.hash) keys := by
    have := htab
    unfold FmTab at this
    rwa [hNd] at this
  have hmask : IsMask (2 * N - 1) := by
    have := IsMask.half mask
    rwa [show 2 * s.msk + 1 = 2 * N - 1 by omega] at this
  have hR := rehash_holds (t := s.hash) (keys := keys) hT.pos hmask (T0 := ⟨0, 2 * N, fun i => if i < N then s.hash.get i else FmSlot.empty⟩) rfl rfl
    (fun x hx => if_pos hx) (fun x hx => if_neg (by omega)) hT hroom hkv hmw
  rw [Holds_bind] at hR ⊢
  refine hR.mono ?_
  intro sta hsta
  rw [Holds_bind] at hsta ⊢
  refine hsta.mono ?_
  intro r1 hr1
  rw [Holds_bind]
  refine hr1.mono ?_
  rintro ⟨t', lk'⟩ ⟨t1, t2, t3, t4, t5, t6, t7⟩
  dsimp only at t1 t2 t3 t4 t5 t6 t7 ⊢
  have e21 : 2 * N - 1 + 1 = 2 * N := by omega
  have hT' : FmTab t' (2 * N - 1) keys := by unfold FmTab; rw [e21]; exact t3
  have hcont := t4.cont
  have hinj := t4.inj
  rw [e21] at hcont hinj
  have back : ∀ y, 0 ≤ y → y < 2 * N → FmOwn t' y → ∃ z, 0 ≤ z ∧ z < N ∧ s.hash.get z = t'.get y ∧ FmOwn s.hash z ∧ FmKey s.hash z = FmKey t' y := by
    intro y y1 y2 y3
    obtain ⟨z, z1, z2, z3⟩ := (hcont (t'.get y) y3).1 ⟨y, y1, y2, rfl⟩
    exact ⟨z, z1, z2, z3, by unfold FmOwn; rw [z3]; exact y3, by unfold FmKey; rw [z3]⟩
  have forth : ∀ z, 0 ≤ z → z < N → FmOwn s.hash z → ∃ y, 0 ≤ y ∧ y < 2 * N ∧ t'.get y = s.hash.get z ∧ FmOwn t' y ∧ FmKey t' y = FmKey s.hash z := by
    intro z z1 z2 z3
    obtain ⟨y, y1, y2, y3⟩ := (hcont (s.hash.get z) z3).2 ⟨z, z1, z2, rfl⟩
    exact ⟨y, y1, y2, y3, by unfold FmOwn; rw [y3]; exact z3, by unfold FmKey; rw [y3]⟩
  rw [Holds_bind]
  refine Holds_forUp (fun i a => a.lo = 0 ∧ a.hi = 2 * N ∧ (∀ n, 0 ≤ n → n < i → (0 ≤ (a.get n).hashnum ∧ (a.get n).hashnum < 2 * N) ∧ FmOwn t' (a.get n).hashnum ∧ FmKey t' (a.get n).hashnum = FmKey s.hash (s.save.get n).hashnum ∧
      (a.get n).v = (s.save.get n).v) ∧ ∀ n, i ≤ n → n < s.savenbr → a.get n = sv1.get n) hnn ⟨v1, v2, fun n n1 n2 => by omega, fun _ _ _ => rfl⟩ ?_ ?_
  · rintro i a i1 i2 ⟨a1, a2, a3, a4⟩
    rw [Arr.rd_ok _ (by omega) (by omega), ok_bind, a4 i (Int.le_refl _) i2, v3 i (by omega) i2]
    obtain ⟨c1, c2⟩ := hsv i (by omega) i2
    have hmem : FmKey s.hash (s.save.get i).hashnum ∈ keys := (hT.mem _).2 ⟨_, c1.1, by omega, c2, rfl⟩
    rw [Holds_bind]
    refine (fmLocate_eq hT' hmask t1 (by omega) (hkv _ hmem) hmem).mono ?_
    rintro j ⟨j1, j2, j3⟩
    dsimp only
    rw [Arr.wr_ok _ _ (by omega) (by omega), Holds_ok]
    refine ⟨a1, a2, ?_, ?_⟩
    · intro n n1 n2
      by_cases e : n = i
      · rw [e, Arr.set_get_same]
        dsimp only
        refine ⟨⟨j1, by omega⟩, ?_, j3, rfl⟩
        unfold FmOwn
        unfold FmKey at j3 hmem
        rw [j3]
        have := hkv _ hmem
        omega
      · rw [Arr.set_get_ne _ _ e]
        exact a3 n n1 (by omega)
    · intro n n1 n2
      rw [Arr.set_get_ne _ _ (by omega)]
      exact a4 n (by omega) n2
  intro sv2 hsv2
  obtain ⟨w1, w2, w3, _⟩ := hsv2
  rw [Holds_pure]
  have hlen : lk'.length = s.lock.length := by
    refine lock_length (t := s.hash) (n := N) hnd t6 (fun h => ?_) t7 ?_ hinj hcont
    · exact hlk h
    · intro x y x1 x2 y1 y2 hx hxy
      have hy : FmOwn s.hash y := by unfold FmOwn at hx ⊢; unfold FmKey at hxy; rw [← hxy]; exact hx
      exact hT.uniq x1 x2 y1 y2 hx hy hxy
  refine ⟨rfl, by dsimp only; omega, by dsimp only; omega, t1, by dsimp only; omega, w1, by dsimp only; omega, hT', ?_, ?_, t6, ?_, hlen, ?_⟩
  · intro y y1 y2 hy
    dsimp only at y2 hy ⊢
    rw [hNd]
    exact back y y1 (by omega) hy
  · intro y y1 y2
    dsimp only at y2 ⊢
    exact t5 y y1 (by omega)
  · intro y
    dsimp only
    rw [t7, e21]
  · intro i i1 i2
    dsimp only
    rw [e21]
    exact w3 i i1 i2

theorem fmResize_holds (hb : 0 ≤ b.s.baseval) (junk : Int → FmSave) (G : FmGeo b keys s) (S : FmSv b keys pb s) (V : FmVl b keys r s) (hroom : (keys.length : Int) < s.msk + 1) :
    Holds (fmResize junk s) (fun s' => FmGeo b keys s' ∧ FmSv b keys pb s' ∧ FmVl b keys r s' ∧ FmKeep s s' ∧ (keys.length : Int) + 1 < s'.msk + 1 ∧ s'.nbr = s.nbr) := by
  have hkv : ∀ k ∈ keys, 0 ≤ k := by
    intro k hk
    have := (G.vert k hk).1
    omega
  refine (fmResize_gen junk G.mask G.max G.hlo G.hhi G.slo G.shi G.tab hkv (fun y y1 y2 => (G.mswp y y1 y2).2) G.nodup G.lock S.nonneg (fun i i1 i2 => ⟨(S.sv i i1 i2).1, (S.sv i i1 i2).2.1⟩) S.inj hroom).mono ?_
  intro s' R
  have hpos := G.tab.pos
  have hms := R.msk
  have back := R.back
  have w3 := R.sv
  have hT := G.tab
  have hT' := R.tab
  have e : s' = { s with hash := s'.hash, msk := s'.msk, max := s'.max, save := s'.save, lock := s'.lock } := R.eq
  have e1 : s'.mswp = s.mswp := by rw [e]
  have e2 : s'.savenbr = s.savenbr := by rw [e]
  have e3 : s'.cur = s.cur := by rw [e]
  have e4 : s'.bst = s.bst := by rw [e]
  have e5 : s'.nbr = s.nbr := by rw [e]
  have hnn := S.nonneg
  have hmask := IsMask.half G.mask
  rw [← hms] at hmask
  refine ⟨⟨hmask, R.max, R.hlo, R.hhi, R.slo, R.shi, R.tab, G.vert, Or.inl (by omega), by rw [e5]; exact G.nbr, ?_, R.nodup, R.lock⟩, ⟨by rw [e4]; exact S.cur, by rw [e4]; exact S.out, ?_, by rw [e2]; exact hnn, ?_, ?_, ?_⟩, ⟨?_, by rw [e3]; exact V.out⟩,
    ⟨e1, e3, e4, by rw [e], by rw [e], by rw [e], by rw [e], by rw [e], R.len⟩, by omega, e5⟩
  · intro y y1 y2
    refine ⟨?_, R.mswp y y1 y2⟩
    intro hy
    obtain ⟨z, z1, z2, z3, z4, _⟩ := back y y1 y2 hy
    rw [← z3, e1]
    exact (G.mswp z z1 z2).1 z4
  · intro y y1 y2 hy
    obtain ⟨z, z1, z2, z3, z4, z5⟩ := back y y1 y2 hy
    rw [← z3, ← z5, e1]
    exact S.vals z z1 z2 z4
  · intro i i1 i2
    rw [e2] at i2
    obtain ⟨a1, a2, a3, a4⟩ := w3 i i1 i2
    obtain ⟨c1, c2, c3, c4⟩ := S.sv i i1 i2
    obtain ⟨z, z1, z2, z3, z4, z5⟩ := back _ a1.1 a1.2 a2
    refine ⟨a1, a2, ?_, ?_⟩
    · have : z = (s.save.get i).hashnum := hT.uniq z1 z2 c1.1 c1.2 z4 c2 (by rw [z5, a3])
      rw [← z3, this, e1]
      exact c3
    · rw [a4, a3]; exact c4
  · intro i j i1 i2 j1 j2 hij
    rw [e2] at i2 j2
    obtain ⟨_, _, a3, _⟩ := w3 i i1 i2
    obtain ⟨_, _, a3', _⟩ := w3 j j1 j2
    obtain ⟨c1, c2, c3, c4⟩ := S.sv i i1 i2
    obtain ⟨c1', c2', c3', c4'⟩ := S.sv j j1 j2
    refine S.inj i j i1 i2 j1 j2 (hT.uniq c1.1 c1.2 c1'.1 c1'.2 c2 c2' ?_)
    rw [← a3, ← a3', hij]
  · intro y y1 y2 hy hm
    obtain ⟨z, z1, z2, z3, z4, z5⟩ := back y y1 y2 hy
    rw [← z3, e1] at hm
    obtain ⟨i, i1, i2, i3⟩ := S.all z z1 z2 z4 hm
    refine ⟨i, i1, by rw [e2]; exact i2, ?_⟩
    obtain ⟨a1, a2, a3, a4⟩ := w3 i i1 i2
    exact hT'.uniq a1.1 a1.2 y1 y2 a2 hy (by rw [a3, i3, z5])
  · intro y y1 y2 hy
    obtain ⟨z, z1, z2, z3, z4, z5⟩ := back y y1 y2 hy
    rw [← z3, ← z5]
    exact V.vals z z1 z2 z4

end Scotch.Bipart
