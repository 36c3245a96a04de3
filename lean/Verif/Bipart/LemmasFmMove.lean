import Verif.Bipart.LemmasFmResize

/-! # Fiduccia-Mattheyses refinement: moves -/

set_option autoImplicit false
set_option linter.unusedSimpArgs false

namespace Scotch.Bipart
open Graph
open Coarsen (IsMask land land_mask)
open Hash (Tab Path probe probe_in probe_succ probe_surj)

variable {b : Bgraph} {keys : List Int} {p pb : Int → Int} {r r' : Int → Int → Int} {s : Fm} {h u w e : Int}

open Classical in
/-- Partition seen by a vertex while the arcs of `u` are scanned, from arc `e`. -/
noncomputable def mix (g : Graph) (p : Int → Int) (u e w : Int) : Int → Int := if ∃ e', e ≤ e' ∧ e' < g.vend u ∧ g.dest e' = w then p else flip p u

theorem mix_here {g : Graph} (h2 : e < g.vend u) : mix g p u e (g.dest e) = p := if_pos ⟨e, Int.le_refl _, h2, rfl⟩

theorem mix_next {g : Graph} (hc : ConsE g) (hu : g.Vertex u) (h1 : g.vert u ≤ e) (h2 : e < g.vend u) : mix g p u (e + 1) (g.dest e) = flip p u := by
  refine if_neg ?_
  rintro ⟨e', a1, a2, a3⟩
  have := hc.simple u hu e' e (by omega) a2 h1 h2 a3
  omega

theorem mix_other {g : Graph} (h : w ≠ g.dest e) : mix g p u (e + 1) w = mix g p u e w := by
  unfold mix
  by_cases hh : ∃ e', e ≤ e' ∧ e' < g.vend u ∧ g.dest e' = w
  · rw [if_pos hh, if_pos]
    obtain ⟨e', a1, a2, a3⟩ := hh
    refine ⟨e', ?_, a2, a3⟩
    have : e' ≠ e := by intro c; rw [c] at a3; exact h a3.symm
    omega
  · rw [if_neg hh, if_neg]
    rintro ⟨e', a1, a2, a3⟩
    exact hh ⟨e', by omega, a2, a3⟩

theorem mix_end {g : Graph} : mix g p u (g.vend u) w = flip p u := by
  refine if_neg ?_
  rintro ⟨e', a1, a2, _⟩
  omega

theorem mix_start {g : Graph} (hc : ConsE g) (hu : g.Vertex u) : (g.Adj u w → mix g p u (g.vert u) w = p) ∧ (¬ g.Adj u w → mix g p u (g.vert u) w = flip p u) := by
  constructor
  · rintro ⟨e', a1, a2, a3⟩
    exact if_pos ⟨e', a1, a2, a3⟩
  · intro ha
    refine if_neg ?_
    rintro ⟨e', a1, a2, a3⟩
    exact ha ⟨e', a1, a2, a3⟩

theorem fmRelink_spec (x : FmSlot) : (fmRelink x).vertnum = x.vertnum ∧ (fmRelink x).v = x.v ∧ (fmRelink x).mswp = x.mswp ∧ ((fmRelink x).st = .used ↔ x.st = .used) := by
  unfold fmRelink
  by_cases h : x.st = .used
  · rw [if_pos h]
    exact ⟨rfl, rfl, rfl, Iff.rfl⟩
  · rw [if_neg h]
    by_cases hl : x.st = .link <;> by_cases hk : x.v.cut > 0 <;> simp [hl, hk, h]

theorem fmMeetOld_holds (hc : ConsE b.s) (hp : Parts b.s p) (hu : b.s.Vertex u) (e1 : b.s.vert u ≤ e) (e2 : e < b.s.vend u) (G : FmGeo b keys s) (S : FmSv b keys pb s) (V : FmVl b keys r s) (h1 : 0 ≤ h) (h2 : h < s.msk + 1)
    (ho : FmOwn s.hash h) (hk : FmKey s.hash h = b.s.dest e) (hr : r (b.s.dest e) = p) (hr' : r' (b.s.dest e) = flip p u) (hro : ∀ w, w ≠ b.s.dest e → r' w = r w) :
    Holds (fmMeetOld b (p u) (b.s.edlo e) h s) (fun s' => FmGeo b keys s' ∧ FmSv b keys pb s' ∧ FmVl b keys r' s' ∧ FmKeep s s') := by
  unfold fmMeetOld
  rw [Holds_bind]
  refine (fmSaveOnce_holds G S V h1 h2 ho).mono ?_
  rintro s1 ⟨⟨sv, n, rfl⟩, G1, S1, V1⟩
  have hlo := G.hlo
  have hhi := G.hhi
  rw [Arr.rd_ok _ (by show (s.hash.set h _).lo ≤ h; rw [Arr.set_lo]; omega) (by show h < (s.hash.set h _).hi; rw [Arr.set_hi]; omega), ok_bind]
  dsimp only
  rw [Arr.set_get_same, Arr.wr_ok _ _ (by rw [Arr.set_lo]; omega) (by rw [Arr.set_hi]; omega), ok_bind, Holds_pure]
  dsimp only
  generalize hx : ({ vertnum := (s.hash.get h).vertnum, v := { (s.hash.get h).v with comm := (s.hash.get h).v.comm + b.domndist * 2 * b.s.edlo e * (2 * xorP (p u) (s.hash.get h).v.part - 1), cut := (s.hash.get h).v.cut - (2 * xorP (p u) (s.hash.get h).v.part - 1) }, mswp := s.mswp, st := (s.hash.get h).st } : FmSlot) = x
  obtain ⟨f1, f2, f3, f4⟩ := fmRelink_spec x
  have gx : ∀ t : Arr FmSlot, ∀ y, (t.set h y).get h = y := fun t y => Arr.set_get_same _ _ _
  have hm0 := (G.mswp h h1 h2).1 ho
  have o : FmOwn (s.hash.set h { s.hash.get h with mswp := s.mswp }) = FmOwn s.hash := FmOwn_set rfl
  have k : FmKey (s.hash.set h { s.hash.get h with mswp := s.mswp }) = FmKey s.hash := FmKey_set rfl
  refine ⟨G1.upd (h := h) (x := fmRelink x) ?_ ?_ ?_ ?_, S1.upd (h := h) (x := fmRelink x) ?_ ?_ ?_, V1.upd (h := h) (x := fmRelink x) ?_ ?_ ?_ ?_, ⟨rfl, rfl, rfl, rfl, rfl, rfl, rfl, rfl, rfl⟩⟩
  · dsimp only; rw [gx, f1, ← hx]
  · intro _; dsimp only; rw [f3, ← hx]; dsimp only; omega
  · dsimp only; rw [o]; exact ho
  · dsimp only; rw [gx, f4, ← hx]
  · dsimp only; rw [gx, f1, ← hx]
  · dsimp only; rw [f3, ← hx]
  · dsimp only; rw [gx]
  · dsimp only; rw [gx, f1, ← hx]
  · intro _
    dsimp only
    rw [k, hk, hr', f2, ← hx]
    dsimp only
    have hv := V.vals h h1 h2 ho
    rw [hk, hr] at hv
    rw [fmVals_flip_adj hc hp hu e1 e2, ← hv]
    rw [show p (b.s.dest e) = (s.hash.get h).v.part by rw [hv]; rfl]
  · intro j j1 j2 hj hne
    dsimp only at j2 hj ⊢
    rw [o] at hj
    rw [k, hro]
    intro c
    exact hne (G.tab.uniq j1 j2 h1 h2 hj ho (by rw [c, hk]))
  · intro v hv hn
    rw [hro]
    · exact ⟨rfl, id⟩
    intro c
    apply hn
    exact (G.tab.mem v).2 ⟨h, h1, h2, ho, by rw [hk, c]⟩

theorem fmArcSum_eq (hc : ConsE b.s) (ha : Allocated b.s) (hw : b.s.Vertex w) : fmArcSum b.s w = .ok (sumI (b.s.vert w) (b.s.vend w) b.s.edlo) := by
  have hr := (hc.range w hw).2
  unfold fmArcSum
  rw [rdVert_eq ha hw, ok_bind, rdVend_eq ha hw, ok_bind]
  cases he : b.s.edlotax with
  | none =>
    dsimp only
    have : sumI (b.s.vert w) (b.s.vend w) b.s.edlo = b.s.vend w - b.s.vert w := by
      rw [sumI_congr (g := fun _ => 1), sumI_const hr, Int.mul_one]
      intro e _ _
      unfold Graph.edlo
      rw [he]
    rw [this]
    rfl
  | some a =>
    dsimp only
    have := Holds_forUp (s := (0 : Int)) (body := fun e t => do return t + (← a.rd e)) (Q := fun t => t = sumI (b.s.vert w) (b.s.vend w) b.s.edlo) (fun e t => t = sumI (b.s.vert w) e b.s.edlo) hr (sumI_empty (Int.le_refl _) _).symm ?_ ?_
    · obtain ⟨t, t1, t2⟩ := Holds_iff_exists.1 this
      rw [t1, t2]
    · intro e t e1 e2 ht
      have hb := ha.edlo a he w hw (by omega)
      rw [Arr.rd_ok _ (by omega) (by omega), ok_bind, Holds_pure, ht, sumI_succ e1]
      congr 1
      unfold Graph.edlo
      rw [he]
    · intro t ht
      exact ht

theorem fmRoom_holds (hb : 0 ≤ b.s.baseval) (junk : Int → FmSave) (hw : b.s.Vertex w) (G : FmGeo b keys s) (S : FmSv b keys pb s) (V : FmVl b keys r s) (hn : w ∉ keys) {d : Nat}
    (hd : Path fmPrime (s.msk + 1) (FmOwn s.hash) (FmKey s.hash) w d) (hf : ¬ FmOwn s.hash (probe fmPrime (s.msk + 1) w d)) :
    Holds (fmRoom junk w (probe fmPrime (s.msk + 1) w d) s) (fun x => FmGeo b keys x.1 ∧ FmSv b keys pb x.1 ∧ FmVl b keys r x.1 ∧ FmKeep s x.1 ∧ (keys.length : Int) + 1 < x.1.msk + 1 ∧ x.1.nbr = keys.length ∧
      ∃ d, x.2 = probe fmPrime (x.1.msk + 1) w d ∧ Path fmPrime (x.1.msk + 1) (FmOwn x.1.hash) (FmKey x.1.hash) w d ∧ ¬ FmOwn x.1.hash (probe fmPrime (x.1.msk + 1) w d)) := by
  have hnbr : s.nbr = keys.length := by
    rcases G.nbr with h | h
    · exact h
    · exact absurd (h w hw) hn
  have hroom : (keys.length : Int) < s.msk + 1 := by
    rcases G.room with h | h
    · exact h
    · exact absurd (h w hw) hn
  have hmax := G.max
  have := G.tab.pos
  have hw0 : 0 ≤ w := by have := hw.1; omega
  unfold fmRoom
  by_cases hx : s.nbr ≥ s.max
  · rw [if_pos hx, Holds_bind]
    refine (fmResize_holds hb junk G S V hroom).mono ?_
    rintro s' ⟨G', S', V', K', l', n'⟩
    obtain ⟨d', p1, p2, p3⟩ := fmFree_eq G'.tab G'.mask G'.hlo G'.hhi hw0 (by omega) hn
    rw [p3, ok_bind, Holds_pure]
    exact ⟨G', S', V', K', l', by rw [n', hnbr], d', rfl, p1, p2⟩
  · rw [if_neg hx, Holds_pure]
    exact ⟨G, S, V, FmKeep.refl s, by dsimp only; omega, hnbr, d, rfl, hd, hf⟩

theorem fmMeetNew_holds (hc : ConsE b.s) (ha : Alloc b) (hb : 0 ≤ b.s.baseval) (hpart : Parts b.s b.part) (junk : Int → FmSave) (hp : Parts b.s p) (hu : b.s.Vertex u) (e1 : b.s.vert u ≤ e) (e2 : e < b.s.vend u)
    (G : FmGeo b keys s) (S : FmSv b keys pb s) (V : FmVl b keys r s) (hn : b.s.dest e ∉ keys) {d : Nat} (hd : Path fmPrime (s.msk + 1) (FmOwn s.hash) (FmKey s.hash) (b.s.dest e) d)
    (hf : ¬ FmOwn s.hash (probe fmPrime (s.msk + 1) (b.s.dest e) d)) (hsw : s.cur.swap = 0 ∨ s.cur.swap = 1) (hm : 0 ≤ s.mswp)
    (hr : r (b.s.dest e) = p) (hr' : r' (b.s.dest e) = flip p u) (hro : ∀ w, w ≠ b.s.dest e → r' w = r w) :
    Holds (fmMeetNew junk b (p u) (b.s.edlo e) (b.s.dest e) (probe fmPrime (s.msk + 1) (b.s.dest e) d) s) (fun s' => ∃ keys', FmGeo b keys' s' ∧ FmSv b keys' pb s' ∧ FmVl b keys' r' s' ∧ FmKeep s s') := by
  obtain ⟨hw, hne⟩ := hc.inside u e hu e1 e2
  have hadj := fmVals_flip_adj hc hp hu e1 e2
  obtain ⟨e', a1, a2, a3, a4⟩ := hc.symm u e hu e1 e2
  generalize b.s.dest e = w at *
  unfold fmMeetNew
  rw [Holds_bind]
  refine (fmRoom_holds hb junk hw G S V hn hd hf).mono ?_
  rintro ⟨s1, h⟩ ⟨G1, S1, V1, K1, l1, n1, d1, hd1, P1, F1⟩
  dsimp only at G1 S1 V1 K1 l1 n1 hd1 P1 F1 ⊢
  have hin := probe_in (prime := fmPrime) G1.tab.pos w d1
  have hT := G1.tab
  rw [← hd1] at F1 hin
  have hlo := G1.hlo
  have hhi := G1.hhi
  have slo := G1.slo
  have shi := G1.shi
  have hnn := S1.nonneg
  have hroom := S1.room hin.1 hin.2 (fun c => absurd c F1)
  rw [fmArcSum_eq hc ha.graph hw, ok_bind, rdVelo_eq ha.graph hw, ok_bind, rdVeex_eq ha hw, ok_bind, Arr.wr_ok _ _ (by omega) (by omega), ok_bind, Arr.wr_ok _ _ (by omega) (by omega), ok_bind, Holds_pure]
  have hm1 := K1.mswp
  have hcu := K1.cur
  -- the part of the vertex
  obtain ⟨o1, o2⟩ := V1.out w hw hn
  rw [hr, hcu] at o1
  rw [hr] at o2
  have hpu : p u = p w := by
    have := o2 e' a1 a2
    rwa [a3] at this
  obtain ⟨q1, q2⟩ := S1.out w hw hn
  have hpo : xorP (xorP (p u) s1.cur.swap) s1.bst.swap = pb w := by
    rw [q1, hpu, o1, hcu]
    congr 1
    rcases hpart w hw with a | a <;> rcases hsw with c | c <;> rw [a, c] <;> rfl
  rw [hpo]
  have hsave : ({ part := pb w, comp := (2 * pb w - 1) * b.s.velo w, comm := sumI (b.s.vert w) (b.s.vend w) b.s.edlo * b.domndist - (2 * pb w - 1) * b.veex w, cut := 0 } : FmVals) = fmVals b pb w := by
    unfold fmVals
    rw [arcGain_inner q2, cutCnt_inner q2]
  have hnew : ({ part := p u, comp := (2 * p u - 1) * b.s.velo w, comm := (sumI (b.s.vert w) (b.s.vend w) b.s.edlo - 2 * b.s.edlo e) * b.domndist - (2 * p u - 1) * b.veex w, cut := 1 } : FmVals) = fmVals b (flip p u) w := by
    rw [hadj, hpu, xorP_eq (hp w hw) (hp w hw), if_pos rfl]
    unfold fmVals
    dsimp only
    rw [arcGain_inner o2, cutCnt_inner o2]
    congr 1
    rw [Int.sub_mul]
    have : b.domndist * 2 * b.s.edlo e * (2 * 0 - 1) = - (2 * b.s.edlo e * b.domndist) := by
      rw [show (2 * 0 - 1 : Int) = -1 by decide, Int.mul_neg_one]
      congr 1
      rw [Int.mul_comm _ b.domndist, Int.mul_assoc]
    omega
  rw [hsave, hnew]
  generalize hx : ({ vertnum := w, v := fmVals b (flip p u) w, mswp := s1.mswp, st := .link } : FmSlot) = x
  have xv : x.vertnum = w := by rw [← hx]
  have xm : x.mswp = s1.mswp := by rw [← hx]
  have hw0 : 0 ≤ w := by have := hw.1; omega
  have ho : ∀ y, FmOwn (s1.hash.set h x) y ↔ FmOwn s1.hash y ∨ y = h := by
    intro y
    unfold FmOwn
    by_cases c : y = h
    · rw [c, Arr.set_get_same, xv]
      exact ⟨fun _ => Or.inr rfl, fun _ => by omega⟩
    · rw [Arr.set_get_ne _ _ c]
      exact ⟨Or.inl, fun z => z.resolve_right c⟩
  have hkk : ∀ y, y ≠ h → FmKey (s1.hash.set h x) y = FmKey s1.hash y := by
    intro y c
    unfold FmKey
    rw [Arr.set_get_ne _ _ c]
  have hkh : FmKey (s1.hash.set h x) h = w := by
    unfold FmKey
    rw [Arr.set_get_same, xv]
  have hge : ∀ y, y ≠ h → (s1.hash.set h x).get y = s1.hash.get y := fun y c => Arr.set_get_ne _ _ c
  have hgh : (s1.hash.set h x).get h = x := Arr.set_get_same _ _ _
  have hoy : ∀ y, FmOwn s1.hash y → y ≠ h := by
    intro y c1 c2
    rw [c2] at c1
    exact F1 c1
  refine ⟨keys ++ [w], ⟨G1.mask, G1.max, hlo, hhi, slo, shi, ?_, ?_, Or.inl ?_, Or.inl ?_, ?_, G1.nodup, ?_⟩, ⟨S1.cur, ?_, ?_, by dsimp only; omega, ?_, ?_, ?_⟩, ⟨?_, ?_⟩,
    ⟨K1.mswp, K1.cur, K1.bst, K1.dltmin, K1.dltmax, K1.moveflag, K1.movenbr, K1.clock, K1.lock⟩⟩
  · refine hT.insert P1 (by rw [← hd1]; exact F1) ?_ ?_ ?_ <;> rw [← hd1]
    · exact ho
    · exact hkk
    · exact hkh
  · intro k hk
    rw [List.mem_append] at hk
    rcases hk with hk | hk
    · exact G1.vert k hk
    · rw [List.mem_singleton] at hk; rw [hk]; exact hw
  · rw [List.length_append]
    exact_mod_cast l1
  · rw [List.length_append]
    dsimp only
    rw [n1]
    rfl
  · intro y y1 y2
    dsimp only at y2 ⊢
    by_cases c : y = h
    · rw [c, hgh, xm]
      exact ⟨fun _ => by omega, fun z => absurd ((ho h).2 (Or.inr rfl)) z⟩
    · rw [hge y c]
      have := G1.mswp y y1 y2
      exact ⟨fun z => this.1 (((ho y).1 z).resolve_right c), fun z => this.2 (fun z' => z ((ho y).2 (Or.inl z')))⟩
  · intro y
    dsimp only
    rw [G1.lock]
    by_cases c : y = h
    · rw [c, hgh]
      constructor
      · rintro ⟨_, z, _⟩; exact absurd z F1
      · rintro ⟨_, _, z⟩; rw [← hx] at z; exact absurd (show FmSt.link = FmSt.used from z) (by decide)
    · rw [hge y c, ho y]
      constructor
      · rintro ⟨z1, z2, z3⟩; exact ⟨z1, Or.inl z2, z3⟩
      · rintro ⟨z1, z2, z3⟩; exact ⟨z1, z2.resolve_right c, z3⟩
  · intro v hv hvn
    exact S1.out v hv (fun z => hvn (List.mem_append_left _ z))
  · intro y y1 y2 hy hmy
    dsimp only at y2 hy hmy ⊢
    have c : y ≠ h := by
      intro c
      rw [c, hgh, xm] at hmy
      exact hmy rfl
    rw [hge y c] at hmy ⊢
    rw [hkk y c]
    exact S1.vals y y1 y2 (((ho y).1 hy).resolve_right c) hmy
  · intro i i1 i2
    dsimp only at i2 ⊢
    by_cases c : i = s1.savenbr
    · rw [c, Arr.set_get_same]
      dsimp only
      rw [hgh, hkh, xm]
      exact ⟨hin, (ho h).2 (Or.inr rfl), rfl, rfl⟩
    · rw [Arr.set_get_ne _ _ c]
      obtain ⟨b1, b2, b3, b4⟩ := S1.sv i i1 (by omega)
      have := hoy _ b2
      rw [hge _ this, hkk _ this]
      exact ⟨b1, (ho _).2 (Or.inl b2), b3, b4⟩
  · intro i j i1 i2 j1 j2 hij
    dsimp only at i2 j2 hij
    by_cases ci : i = s1.savenbr
    · by_cases cj : j = s1.savenbr
      · omega
      · rw [ci, Arr.set_get_same, Arr.set_get_ne _ _ cj] at hij
        exact absurd hij.symm (hoy _ (S1.sv j j1 (by omega)).2.1)
    · by_cases cj : j = s1.savenbr
      · rw [cj, Arr.set_get_same, Arr.set_get_ne _ _ ci] at hij
        exact absurd hij (hoy _ (S1.sv i i1 (by omega)).2.1)
      · rw [Arr.set_get_ne _ _ ci, Arr.set_get_ne _ _ cj] at hij
        exact S1.inj i j i1 (by omega) j1 (by omega) hij
  · intro y y1 y2 hy hmy
    dsimp only at y2 hy hmy ⊢
    by_cases c : y = h
    · exact ⟨s1.savenbr, hnn, by omega, by rw [Arr.set_get_same, c]⟩
    · rw [hge y c] at hmy
      obtain ⟨i, i1, i2, i3⟩ := S1.all y y1 y2 (((ho y).1 hy).resolve_right c) hmy
      exact ⟨i, i1, by omega, by rw [Arr.set_get_ne _ _ (by omega)]; exact i3⟩
  · intro y y1 y2 hy
    dsimp only at y2 hy ⊢
    by_cases c : y = h
    · rw [c, hgh, hkh, hr', ← hx]
    · have hy' := ((ho y).1 hy).resolve_right c
      rw [hge y c, hkk y c, hro]
      · exact V1.vals y y1 y2 hy'
      · intro z
        apply hn
        exact (hT.mem w).2 ⟨y, y1, y2, hy', z⟩
  · intro v hv hvn
    dsimp only
    rw [hro]
    · exact V1.out v hv (fun z => hvn (List.mem_append_left _ z))
    · intro z
      apply hvn
      rw [z]
      exact List.mem_append_right _ (List.mem_singleton.2 rfl)

theorem fmArc_holds (hc : ConsE b.s) (ha : Alloc b) (hb : 0 ≤ b.s.baseval) (hpart : Parts b.s b.part) (junk : Int → FmSave) (hp : Parts b.s p) (hu : b.s.Vertex u) (e1 : b.s.vert u ≤ e) (e2 : e < b.s.vend u)
    (G : FmGeo b keys s) (S : FmSv b keys pb s) (V : FmVl b keys (mix b.s p u e) s) (hsw : s.cur.swap = 0 ∨ s.cur.swap = 1) (hm : 0 ≤ s.mswp) :
    Holds (fmArc junk b (p u) e (b.s.dest e) s) (fun s' => ∃ keys', FmGeo b keys' s' ∧ FmSv b keys' pb s' ∧ FmVl b keys' (mix b.s p u (e + 1)) s' ∧ FmKeep s s') := by
  obtain ⟨hw, hne⟩ := hc.inside u e hu e1 e2
  have hw0 : 0 ≤ b.s.dest e := by have := hw.1; omega
  unfold fmArc
  rw [rdEdlo_eq ha.graph hu e1 e2, ok_bind]
  have hroom : (keys.length : Int) < s.msk + 1 ∨ b.s.dest e ∈ keys := G.room.imp id (fun h => h _ hw)
  obtain ⟨d, hd, ⟨f1, f2⟩ | ⟨f1, f2⟩⟩ := fmSearch_eq G.tab G.mask G.hlo G.hhi hw0 hroom
  · rw [f2, ok_bind]
    rw [if_pos rfl]
    exact fmMeetNew_holds hc ha hb hpart junk hp hu e1 e2 G S V (G.tab.not_mem hd f1) hd f1 hsw hm (mix_here e2) (mix_next hc hu e1 e2) (fun w hw => mix_other hw)
  · rw [f2, ok_bind, if_neg Bool.false_ne_true]
    have hin := probe_in (prime := fmPrime) G.tab.pos (b.s.dest e) d
    have ho : FmOwn s.hash (probe fmPrime (s.msk + 1) (b.s.dest e) d) := by
      unfold FmOwn
      unfold FmKey at f1
      rw [f1]
      omega
    refine (fmMeetOld_holds hc hp hu e1 e2 G S V hin.1 hin.2 ho f1 (mix_here e2) (mix_next hc hu e1 e2) (fun w hw => mix_other hw)).mono ?_
    intro s' h'
    exact ⟨keys, h'⟩

/-- Invariant of the loop on moves. -/
structure FmInv (b : Bgraph) (keys : List Int) (p pb : Int → Int) (s : Fm) : Prop where
  geo : FmGeo b keys s
  sv : FmSv b keys pb s
  vl : FmVl b keys (fun _ => p) s
  cur : CurOk b p s.cur
  mswp : 0 ≤ s.mswp

/-- What a move changes. -/
structure FmMoved (s s' : Fm) : Prop where
  mswp : s'.mswp = s.mswp
  bst : s'.bst = s.bst
  dltmin : s'.dltmin = s.dltmin
  dltmax : s'.dltmax = s.dltmax
  moveflag : s'.moveflag = s.moveflag
  movenbr : s'.movenbr = s.movenbr + 1
  clock : s'.clock = s.clock
  lock : s'.lock.length = s.lock.length + 1

theorem fmMove_holds (hc : ConsE b.s) (ha : Alloc b) (hb : 0 ≤ b.s.baseval) (hpart : Parts b.s b.part) (junk : Int → FmSave) (I : FmInv b keys p pb s) (h1 : 0 ≤ h) (h2 : h < s.msk + 1) (ho : FmOwn s.hash h)
    (hst : (s.hash.get h).st = .link) :
    Holds (fmMove junk b h s) (fun s' => ∃ keys', FmInv b keys' (flip p (FmKey s.hash h)) pb s' ∧ FmMoved s s' ∧ s'.cur.dlt = s.cur.dlt + (s.hash.get h).v.comp) := by
  obtain ⟨G, S, V, C, M⟩ := I
  have hlo := G.hlo
  have hhi := G.hhi
  have hp := C.parts
  have huk : FmKey s.hash h ∈ keys := (G.tab.mem _).2 ⟨h, h1, h2, ho, rfl⟩
  have hu := G.vert _ huk
  have hval := V.vals h h1 h2 ho
  have hvert : (s.hash.get h).vertnum = FmKey s.hash h := rfl
  generalize hud : FmKey s.hash h = u at *
  unfold fmMove
  rw [Arr.rd_ok _ (by omega) (by omega), ok_bind, Arr.wr_ok _ _ (by omega) (by omega), ok_bind]
  dsimp only
  -- the slot is locked
  have o : FmOwn (s.hash.set h { s.hash.get h with st := .used }) = FmOwn s.hash := FmOwn_set rfl
  have k : FmKey (s.hash.set h { s.hash.get h with st := .used }) = FmKey s.hash := FmKey_set rfl
  have hnl : h ∉ s.lock := by
    intro hl
    have := ((G.lock h).1 hl).2.2
    rw [hst] at this
    exact absurd this (by decide)
  have mw : ∀ y, ((s.hash.set h { s.hash.get h with st := .used }).get y).mswp = (s.hash.get y).mswp := by
    intro y
    by_cases c : y = h
    · rw [c, Arr.set_get_same]
    · rw [Arr.set_get_ne _ _ c]
  have vv : ∀ y, ((s.hash.set h { s.hash.get h with st := .used }).get y).v = (s.hash.get y).v := by
    intro y
    by_cases c : y = h
    · rw [c, Arr.set_get_same]
    · rw [Arr.set_get_ne _ _ c]
  have G1 : FmGeo b keys { s with hash := s.hash.set h { s.hash.get h with st := .used }, lock := h :: s.lock } := by
    refine ⟨G.mask, G.max, hlo, hhi, G.slo, G.shi, ?_, G.vert, G.room, G.nbr, ?_, List.nodup_cons.2 ⟨hnl, G.nodup⟩, ?_⟩
    · have := G.tab
      unfold FmTab at *
      dsimp only
      rw [o, k]
      exact this
    · intro y y1 y2
      dsimp only
      rw [o, mw]
      exact G.mswp y y1 y2
    · intro y
      dsimp only
      rw [List.mem_cons, G.lock, o]
      by_cases c : y = h
      · rw [c, Arr.set_get_same]
        exact ⟨fun _ => ⟨⟨h1, h2⟩, ho, rfl⟩, fun _ => Or.inl rfl⟩
      · rw [Arr.set_get_ne _ _ c]
        exact ⟨fun z => z.resolve_left c, Or.inr⟩
  have S1 : FmSv b keys pb { s with hash := s.hash.set h { s.hash.get h with st := .used }, lock := h :: s.lock } := by
    refine ⟨S.cur, S.out, ?_, S.nonneg, ?_, S.inj, ?_⟩
    · intro y y1 y2
      dsimp only
      rw [o, k, mw, vv]
      exact S.vals y y1 y2
    · intro i i1 i2
      dsimp only
      rw [o, k, mw]
      exact S.sv i i1 i2
    · intro y y1 y2
      dsimp only
      rw [o, mw]
      exact S.all y y1 y2
  have V1 : FmVl b keys (fun _ => p) { s with hash := s.hash.set h { s.hash.get h with st := .used }, lock := h :: s.lock } := by
    refine ⟨?_, V.out⟩
    intro y y1 y2
    dsimp only
    rw [o, k, vv]
    exact V.vals y y1 y2
  rw [Holds_bind]
  refine (fmSaveOnce_holds G1 S1 V1 h1 h2 (by dsimp only; rw [o]; exact ho)).mono ?_
  rintro s2 ⟨⟨sv, n, e2⟩, G2, S2, V2⟩
  have hh2 : s2.hash.get h = { s.hash.get h with st := .used, mswp := s.mswp } := by
    rw [e2]
    dsimp only
    rw [Arr.set_get_same, Arr.set_get_same]
  have msk2 : s2.msk = s.msk := by rw [e2]
  have ho2 : FmOwn s2.hash h := by unfold FmOwn at ho ⊢; rw [hh2]; exact ho
  have hk2 : FmKey s2.hash h = u := by unfold FmKey; rw [hh2]; exact hvert
  have hlo2 := G2.hlo
  have hhi2 := G2.hhi
  have c2 : s2.cur = s.cur := by rw [e2]
  have mswp2 : s2.mswp = s.mswp := by rw [e2]
  rw [Arr.rd_ok _ (by omega) (by omega), ok_bind, hh2]
  dsimp only
  rw [hvert, rdVeex_eq ha hu, ok_bind, rdVert_eq ha.graph hu, ok_bind, rdVend_eq ha.graph hu, ok_bind, Arr.wr_ok _ _ (by omega) (by omega), ok_bind, hval]
  have G3 := G2.upd (h := h) (x := { vertnum := u, v := ⟨xorP (fmVals b p u).part 1, - (fmVals b p u).comp, - (fmVals b p u).comm, b.s.vend u - b.s.vert u - (fmVals b p u).cut⟩, mswp := s.mswp, st := .used }) hk2.symm
    (fun _ => by dsimp only; omega) ho2 (by rw [hh2])
  have S3 := S2.upd (h := h) (x := { vertnum := u, v := ⟨xorP (fmVals b p u).part 1, - (fmVals b p u).comp, - (fmVals b p u).comm, b.s.vend u - b.s.vert u - (fmVals b p u).cut⟩, mswp := s.mswp, st := .used }) hk2.symm
    mswp2.symm (by rw [hh2, mswp2])
  have hA : FmOwn s2.hash h → (⟨xorP (fmVals b p u).part 1, - (fmVals b p u).comp, - (fmVals b p u).comm, b.s.vend u - b.s.vert u - (fmVals b p u).cut⟩ : FmVals) = fmVals b (mix b.s p u (b.s.vert u) (FmKey s2.hash h)) (FmKey s2.hash h) := by
    intro _
    have hna : ¬ b.s.Adj u u := by
      rintro ⟨e, a1, a2, a3⟩
      exact (hc.inside u e hu a1 a2).2 a3
    rw [hk2, (mix_start hc hu).2 hna, fmVals_flip_self hc hp hu]
    rfl
  have hB : ∀ j, 0 ≤ j → j < s2.msk + 1 → FmOwn s2.hash j → j ≠ h → fmVals b (mix b.s p u (b.s.vert u) (FmKey s2.hash j)) (FmKey s2.hash j) = fmVals b p (FmKey s2.hash j) := by
    intro j j1 j2 hj hne
    have hjk : FmKey s2.hash j ∈ keys := (G2.tab.mem _).2 ⟨j, j1, j2, hj, rfl⟩
    have hju : FmKey s2.hash j ≠ u := by
      intro z
      exact hne (G2.tab.uniq j1 j2 h1 (by omega) hj ho2 (by rw [z, hk2]))
    by_cases hadj : b.s.Adj u (FmKey s2.hash j)
    · rw [(mix_start hc hu).1 hadj]
    · rw [(mix_start hc hu).2 hadj, fmVals_flip_other hc (G2.vert _ hjk) hju hu hadj]
  have hC : ∀ v, b.s.Vertex v → v ∉ keys → mix b.s p u (b.s.vert u) v v = p v ∧ (Inner b.s p v → Inner b.s (mix b.s p u (b.s.vert u) v) v) := by
    intro v hv hn
    have hne : v ≠ u := by
      intro z
      rw [z] at hn
      exact hn huk
    by_cases hadj : b.s.Adj u v
    · rw [(mix_start hc hu).1 hadj]
      exact ⟨rfl, id⟩
    · rw [(mix_start hc hu).2 hadj]
      exact ⟨flip_ne hne, (Inner_flip_other hc hv hne hadj).2⟩
  have V3 := V2.upd (h := h) (r' := mix b.s p u (b.s.vert u)) (x := { vertnum := u, v := ⟨xorP (fmVals b p u).part 1, - (fmVals b p u).comp, - (fmVals b p u).comm, b.s.vend u - b.s.vert u - (fmVals b p u).cut⟩, mswp := s.mswp, st := .used }) hk2.symm hA hB hC
  have C3 := C.flip hc hu
  refine Holds_forArcs ha.graph hu (hc.range u hu).2 (fun e s' => ∃ keys', FmGeo b keys' s' ∧ FmSv b keys' pb s' ∧ FmVl b keys' (mix b.s p u e) s' ∧ FmKeep { s with movenbr := s.movenbr + 1, lock := h :: s.lock, cur := { s.cur with dlt := s.cur.dlt + (fmVals b p u).comp, comm := s.cur.comm + (fmVals b p u).comm, extn := s.cur.extn + 2 * (2 * (fmVals b p u).part - 1) * b.veex u } } s') ?_ ?_ ?_
  · refine ⟨keys, ⟨G3.mask, G3.max, G3.hlo, G3.hhi, G3.slo, G3.shi, G3.tab, G3.vert, G3.room, G3.nbr, G3.mswp, G3.nodup, G3.lock⟩, ⟨S3.cur, S3.out, S3.vals, S3.nonneg, S3.sv, S3.inj, S3.all⟩, ⟨V3.vals, V3.out⟩, ?_⟩
    rw [e2]
    exact ⟨rfl, rfl, rfl, rfl, rfl, rfl, rfl, rfl, rfl⟩
  · rintro e s' h1' h2' ⟨keys', G', S', V', K'⟩
    refine (fmArc_holds hc ha hb hpart junk hp hu h1' h2' G' S' V' (by rw [K'.cur]; exact C.swap) (by rw [K'.mswp]; exact M)).mono ?_
    rintro s'' ⟨keys'', G'', S'', V'', K''⟩
    exact ⟨keys'', G'', S'', V'', K'.trans K''⟩
  · rintro s' ⟨keys', G', S', V', K'⟩
    have e : mix b.s p u (b.s.vend u) = fun _ => flip p u := by
      funext w
      exact mix_end
    rw [e] at V'
    refine ⟨keys', ⟨G', S', V', ?_, by rw [K'.mswp]; exact M⟩, ⟨K'.mswp, K'.bst, K'.dltmin, K'.dltmax, K'.moveflag, K'.movenbr, K'.clock, K'.lock⟩, ?_⟩
    · rw [K'.cur]; exact C3
    · rw [K'.cur]

end Scotch.Bipart
