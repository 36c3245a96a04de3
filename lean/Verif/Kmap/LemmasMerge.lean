import Verif.Kmap.LemmasFix

/-! # Static mapping: domains of the fixed vertices -/

set_option autoImplicit false
set_option linter.unusedSimpArgs false

namespace Scotch.Kmap

open Coarsen (IsMask land land_mask)

variable {D : Type} {o : ArchOps D} {n : Int} {w : Int → Int} {Valid : D → Prop} {Has : D → Int → Prop}

/-- Domain number `j` consists of the `j`-th key only, and the table gives the number of the domain of each key. -/
structure KInv (Valid : D → Prop) (Has : D → Int → Prop) (siz : Int) (t : Int → D) (N : Int) (keys : List Int) (term dnum : Arr Int) : Prop where
  tab : HTab term siz keys
  dlo : dnum.lo = 0
  dhi : dnum.hi = siz
  len : (keys.length : Int) = N
  kd : ∀ (j : Nat) (hj : j < keys.length), Valid (t j) ∧ ∀ k, Has (t j) k ↔ k = keys[j]
  dn : ∀ h, 0 ≤ h → h < siz → term.get h ≠ -1 → ∃ (j : Nat) (hj : j < keys.length), dnum.get h = j ∧ keys[j] = term.get h

theorem KInv.add {siz : Int} {t t' : Int → D} {N : Int} {keys : List Int} {term dnum : Arr Int} (K : KInv Valid Has siz t N keys term dnum) {r k : Int}
    (hT : HTab (term.set r k) siz (keys ++ [k])) (ht : ∀ i, 0 ≤ i → i < N → t' i = t i) (hv : Valid (t' N)) (hs : ∀ j, Has (t' N) j ↔ j = k) :
    KInv Valid Has siz t' (N + 1) (keys ++ [k]) (term.set r k) (dnum.set r N) := by
  have hlen := K.len
  refine ⟨hT, K.dlo, K.dhi, by rw [List.length_append]; push_cast; simp; omega, ?_, ?_⟩
  · intro j hj
    rw [List.length_append] at hj
    simp only [List.length_cons, List.length_nil] at hj
    by_cases e : j < keys.length
    · rw [ht j (by omega) (by omega), List.getElem_append_left e]
      exact K.kd j e
    · have ej : (j : Int) = N := by omega
      rw [ej, List.getElem_append_right (by omega)]
      simp only [List.getElem_singleton]
      exact ⟨hv, hs⟩
  · intro h h1 h2 h3
    by_cases e : h = r
    · subst e
      refine ⟨keys.length, by simp, ?_, ?_⟩
      · rw [Arr.set_get_same]; omega
      · rw [Arr.set_get_same, List.getElem_append_right (Nat.le_refl _)]; simp
    · rw [Arr.set_get_ne _ _ e] at h3
      obtain ⟨j, hj, j1, j2⟩ := K.dn h h1 h2 h3
      refine ⟨j, by simp; omega, ?_, ?_⟩
      · rw [Arr.set_get_ne _ _ e]; exact j1
      · rw [List.getElem_append_left hj, Arr.set_get_ne _ _ e]; exact j2

theorem KInv.congr {siz : Int} {t t' : Int → D} {N : Int} {keys : List Int} {term dnum : Arr Int} (K : KInv Valid Has siz t N keys term dnum) (ht : ∀ i, 0 ≤ i → i < N → t' i = t i) :
    KInv Valid Has siz t' N keys term dnum := by
  have := K.len
  exact ⟨K.tab, K.dlo, K.dhi, K.len, fun j hj => by rw [ht j (by omega) (by omega)]; exact K.kd j hj, K.dn⟩

/-- What remains of mapping `m0`, and what has been added to it. -/
structure Merged (Valid : D → Prop) (Has : D → Int → Prop) (g : Graph) (pfix : Int → Int) (m0 m : Mapping D) : Prop where
  plo : m.parttax.lo = m0.parttax.lo
  phi : m.parttax.hi = m0.parttax.hi
  dlo : m.domntab.lo = 0
  dhi : m.domntab.hi = m.domnmax
  nbr : m0.domnnbr ≤ m.domnnbr ∧ m.domnnbr ≤ m.domnmax
  keep : ∀ i, 0 ≤ i → i < m0.domnnbr → m.domntab.get i = m0.domntab.get i
  dom : ∀ i, 0 ≤ i → i < m.domnnbr → Valid (m.domntab.get i) ∧ ∃ k, ∀ j, Has (m.domntab.get i) j ↔ j = k
  disj : ∀ i j, 0 ≤ i → i < m.domnnbr → 0 ≤ j → j < m.domnnbr → i ≠ j → ∀ k, ¬ (Has (m.domntab.get i) k ∧ Has (m.domntab.get j) k)
  free : ∀ v, ¬ (g.Vertex v ∧ 0 ≤ pfix v) → m.parttax.get v = m0.parttax.get v
  fixed : ∀ v, g.Vertex v → 0 ≤ pfix v → 0 ≤ m.parttax.get v ∧ m.parttax.get v < m.domnnbr ∧ ∀ k, Has (m.domntab.get (m.parttax.get v)) k ↔ k = pfix v

/-- Invariant of the loop on vertices. -/
structure MInv (Valid : D → Prop) (Has : D → Int → Prop) (g : Graph) (pfix : Int → Int) (siz : Int) (m0 : Mapping D) (F : List Int) (i : Int) (keys : List Int) (s : MergeSt D) : Prop where
  kinv : KInv Valid Has siz s.m.domntab.get s.domnnum keys s.term s.dnum
  sub : ∀ k ∈ keys, k ∈ F
  plo : s.m.parttax.lo = m0.parttax.lo
  phi : s.m.parttax.hi = m0.parttax.hi
  dlo : s.m.domntab.lo = 0
  dhi : s.m.domntab.hi = s.m.domnmax
  nbr : m0.domnnbr ≤ s.domnnum ∧ s.domnnum ≤ s.m.domnmax
  keep : ∀ i, 0 ≤ i → i < m0.domnnbr → s.m.domntab.get i = m0.domntab.get i
  free : ∀ v, ¬ (g.baseval ≤ v ∧ v < i ∧ 0 ≤ pfix v) → s.m.parttax.get v = m0.parttax.get v
  fixed : ∀ v, g.baseval ≤ v → v < i → 0 ≤ pfix v → 0 ≤ s.m.parttax.get v ∧ s.m.parttax.get v < s.domnnum ∧ ∀ k, Has (s.m.domntab.get (s.m.parttax.get v)) k ↔ k = pfix v

theorem mergeNew_holds (hA : ArchLaws o n w Valid Has) (junk : Int → D) {g : Graph} {pfix : Int → Int} {siz : Int} {m0 : Mapping D} (h0 : 0 ≤ m0.domnnbr) {F : List Int} {i : Int} {keys : List Int} {s : MergeSt D}
    (h : MInv Valid Has g pfix siz m0 F i keys s) {r k : Int} (r1 : 0 ≤ r) (r2 : r < siz) (hT : HTab (s.term.set r k) siz (keys ++ [k])) (hk0 : 0 ≤ k) (hkn : k < n) (hkF : k ∈ F) :
    Holds (mergeNew o junk r k s) fun s' => MInv Valid Has g pfix siz m0 F i (keys ++ [k]) s' ∧ s'.term.get r = k := by
  have hn := h.nbr
  unfold mergeNew
  dsimp only
  generalize hm : (if s.domnnum ≥ s.m.domnmax then mapResize junk s.m (s.m.domnmax + s.m.domnmax / 4 + 8) else s.m) = m
  have hm' : m.domntab.lo = 0 ∧ m.domntab.hi = m.domnmax ∧ s.domnnum < m.domnmax ∧ m.parttax = s.m.parttax ∧ ∀ i, i < s.domnnum → m.domntab.get i = s.m.domntab.get i := by
    subst hm
    have hh := h.dhi
    by_cases c : s.domnnum ≥ s.m.domnmax
    · rw [if_pos c]
      unfold mapResize
      refine ⟨h.dlo, rfl, ?_, rfl, fun i hi => grow_get _ _ _ _ (by omega)⟩
      show s.domnnum < s.m.domnmax + s.m.domnmax / 4 + 8
      have : 0 ≤ s.m.domnmax / 4 := Int.ediv_nonneg (by omega) (by omega)
      omega
    · rw [if_neg c]
      exact ⟨h.dlo, h.dhi, by omega, rfl, fun i _ => rfl⟩
  clear hm
  obtain ⟨m1, m2, m3, m4, m5⟩ := hm'
  rw [m.domntab.rd_ok (by omega) (by omega), ok_bind, Holds_bind]
  refine (hA.term k hk0 hkn).mono ?_
  rintro _ ⟨d, rfl, d1, d2, -⟩
  rw [Option.getD_some, m.domntab.wr_ok d (by omega) (by omega), ok_bind, s.term.wr_ok _ (by rw [h.kinv.tab.lo]; exact r1) (by rw [h.kinv.tab.hi]; exact r2), ok_bind,
    s.dnum.wr_ok _ (by rw [h.kinv.dlo]; exact r1) (by rw [h.kinv.dhi]; exact r2), ok_bind, Holds_pure]
  have hget : ∀ i, 0 ≤ i → i < s.domnnum → (m.domntab.set s.domnnum d).get i = s.m.domntab.get i := fun i i1 i2 => by rw [Arr.set_get_ne _ _ (by omega)]; exact m5 i i2
  refine ⟨⟨h.kinv.add hT hget (by rw [Arr.set_get_same]; exact d1) (by rw [Arr.set_get_same]; exact d2), ?_, by show m.parttax.lo = _; rw [m4]; exact h.plo, by show m.parttax.hi = _; rw [m4]; exact h.phi, m1, m2,
    ⟨by show m0.domnnbr ≤ s.domnnum + 1; omega, by show s.domnnum + 1 ≤ m.domnmax; omega⟩, ?_, ?_, ?_⟩, Arr.set_get_same _ _ _⟩
  · intro k' hk'
    rcases List.mem_append.1 hk' with hk' | hk'
    · exact h.sub k' hk'
    · rw [List.mem_singleton.1 hk']; exact hkF
  · intro i i1 i2
    show (m.domntab.set s.domnnum d).get i = _
    rw [hget i i1 (by omega)]; exact h.keep i i1 i2
  · intro v hv
    show m.parttax.get v = _
    rw [m4]; exact h.free v hv
  · intro v v1 v2 v3
    obtain ⟨f1, f2, f3⟩ := h.fixed v v1 v2 v3
    show 0 ≤ m.parttax.get v ∧ m.parttax.get v < s.domnnum + 1 ∧ ∀ k', Has ((m.domntab.set s.domnnum d).get (m.parttax.get v)) k' ↔ k' = pfix v
    rw [m4, hget _ f1 f2]
    exact ⟨f1, by omega, f3⟩

theorem mergeVert_holds (hA : ArchLaws o n w Valid Has) (junk : Int → D) {g : Graph} {pfix : Arr Int} {siz : Int} (hm : IsMask (siz - 1)) {m0 : Mapping D} (h0 : 0 ≤ m0.domnnbr) {F : List Int} {i : Int} {keys : List Int} {s : MergeSt D}
    (h : MInv Valid Has g pfix.get siz m0 F i keys s) (hi : g.Vertex i) (p1 : pfix.lo ≤ g.baseval) (p2 : g.vertnnd ≤ pfix.hi) (q1 : m0.parttax.lo ≤ g.baseval) (q2 : g.vertnnd ≤ m0.parttax.hi) (hp : pfix.get i < n)
    (hF : 0 ≤ pfix.get i → pfix.get i ∈ F) (hlen : (F.length : Int) < siz) :
    Holds (mergeVert o junk siz pfix i s) fun s' => ∃ keys', MInv Valid Has g pfix.get siz m0 F (i + 1) keys' s' := by
  have hi1 := hi.1
  have hi2 := hi.2
  unfold mergeVert
  rw [pfix.rd_ok (by omega) (by omega), ok_bind]
  by_cases c : pfix.get i < 0
  · rw [if_pos c, Holds_pure]
    refine ⟨keys, h.kinv, h.sub, h.plo, h.phi, h.dlo, h.dhi, h.nbr, h.keep, ?_, ?_⟩
    · intro v hv
      exact h.free v (fun hx => hv ⟨hx.1, by omega, hx.2.2⟩)
    · intro v v1 v2 v3
      have : v ≠ i := fun e => by rw [e] at v3; omega
      exact h.fixed v v1 (by omega) v3
  · rw [if_neg c]
    have hkl : (keys.length : Int) < siz := by
      have : keys.length ≤ F.length := by
        have : keys.toFinset.card ≤ F.toFinset.card := Finset.card_le_card (fun k hk => by rw [List.mem_toFinset] at hk ⊢; exact h.sub k hk)
        rw [List.toFinset_card_of_nodup h.kinv.tab.tab.nodup] at this
        have := List.toFinset_card_le F
        omega
      omega
    rw [Holds_bind]
    refine (hashFind_holds h.kinv.tab hm hkl (by omega : 0 ≤ pfix.get i)).mono ?_
    rintro ⟨r, b⟩ ⟨r1, r2, r3, r4⟩
    dsimp only at r1 r2 r3 r4 ⊢
    -- once the key is in the table
    have hin : ∀ keys' (s' : MergeSt D), MInv Valid Has g pfix.get siz m0 F i keys' s' ∧ s'.term.get r = pfix.get i → Holds (do
        let parttax ← s'.m.parttax.wr i (← s'.dnum.rd r)
        return { s' with m := { s'.m with parttax := parttax } }) fun s' => ∃ keys', MInv Valid Has g pfix.get siz m0 F (i + 1) keys' s' := by
      rintro keys' s' ⟨h', ht⟩
      have a1 := h'.plo
      have a2 := h'.phi
      rw [s'.dnum.rd_ok (by rw [h'.kinv.dlo]; exact r1) (by rw [h'.kinv.dhi]; exact r2), ok_bind, s'.m.parttax.wr_ok _ (by omega) (by omega), ok_bind, Holds_pure]
      obtain ⟨j, hj, j1, j2⟩ := h'.kinv.dn r r1 r2 (by rw [ht]; omega)
      have hl := h'.kinv.len
      refine ⟨keys', h'.kinv, h'.sub, a1, a2, h'.dlo, h'.dhi, h'.nbr, h'.keep, ?_, ?_⟩
      · intro v hv
        show (s'.m.parttax.set i _).get v = _
        have : v ≠ i := fun e => hv ⟨by omega, by omega, by rw [e]; omega⟩
        rw [Arr.set_get_ne _ _ this]
        exact h'.free v (fun hx => hv ⟨hx.1, by omega, hx.2.2⟩)
      · intro v v1 v2 v3
        show 0 ≤ (s'.m.parttax.set i (s'.dnum.get r)).get v ∧ (s'.m.parttax.set i (s'.dnum.get r)).get v < s'.domnnum ∧ ∀ k', Has (s'.m.domntab.get ((s'.m.parttax.set i (s'.dnum.get r)).get v)) k' ↔ k' = pfix.get v
        by_cases e : v = i
        · rw [e, Arr.set_get_same, j1]
          refine ⟨by omega, by omega, fun k' => ?_⟩
          rw [(h'.kinv.kd j hj).2 k', j2, ht]
        · rw [Arr.set_get_ne _ _ e]
          exact h'.fixed v v1 (by omega) v3
    cases b with
    | false =>
      rw [if_neg (by decide), pure_bind]
      exact hin keys s ⟨h, (r3 rfl).2⟩
    | true =>
      rw [if_pos rfl, Holds_bind]
      obtain ⟨-, -, q3⟩ := r4 rfl
      refine (mergeNew_holds hA junk h0 h r1 r2 q3 (by omega) hp (hF (by omega))).mono ?_
      intro s' hs'
      exact hin _ s' hs'

/-- `kgraphMapRbVfloMerge`. `F` holds the terminals of the fixed vertices. -/
theorem vfloMerge_holds (hA : ArchLaws o n w Valid Has) (junk : Int → D) {g : Graph} (hc : g.Consistent) {pfix : Arr Int} (p1 : pfix.lo ≤ g.baseval) (p2 : g.vertnnd ≤ pfix.hi) {m : Mapping D} {lo hi : Int} {free : Int → Prop}
    {domnorg : D} {log : List (Cut D)} (hm : Done Valid Has lo hi free domnorg log m) (q1 : lo ≤ g.baseval) (q2 : g.vertnnd ≤ hi) (hp : ∀ v, g.Vertex v → pfix.get v < n) {F : List Int}
    (hF : ∀ v, g.Vertex v → 0 ≤ pfix.get v → pfix.get v ∈ F) {vflonbr : Int} (hv : vflonbr = F.length) (hsz : m.domnnbr + vflonbr < 2 ^ 28) :
    Holds (vfloMerge o junk g m pfix vflonbr) fun m' => Merged Valid Has g pfix.get m m' := by
  have hnn := hc.vertnnd
  have hnb := hc.vertnbr
  have hn := hm.nbr
  have hdl := hm.dlo
  have hdh := hm.dhi
  unfold vfloMerge
  rw [Holds_bind]
  refine (hashSize_holds (by omega) hsz).mono ?_
  rintro siz ⟨s1, s2⟩
  have hspos : 0 < siz := by have := s1.nonneg; omega
  dsimp only
  rw [Holds_bind]
  -- domains of the mapping
  refine Holds_forUp (fun i s => ∃ keys, KInv Valid Has siz m.domntab.get i keys s.term s.dnum ∧ s.domnnum = m.domnnbr ∧ s.m = m) hn.1 ⟨[], ⟨HTab.empty hspos, rfl, rfl, rfl, ?_, ?_⟩, rfl, rfl⟩ ?_ ?_
  · intro j hj
    simp at hj
  · intro h h1 h2 h3
    exact absurd rfl h3
  · rintro i s i1 i2 ⟨keys, K, e1, e2⟩
    have hlen := K.len
    unfold mergeDom
    rw [e2, m.domntab.rd_ok (by omega) (by omega), ok_bind, Holds_bind]
    obtain ⟨dv, k, dk⟩ := hm.dom i i1 i2
    refine (hA.num _ dv).mono ?_
    intro t ht
    obtain rfl : t = k := (dk t).1 ht
    have ht0 := (hA.within _ _ dv ht).1
    rw [Holds_bind]
    refine (hashFind_holds K.tab s1 (by omega) ht0).mono ?_
    rintro ⟨r, b⟩ ⟨r1, r2, r3, r4⟩
    dsimp only at r1 r2 r3 r4 ⊢
    cases b with
    | false =>
      exfalso
      obtain ⟨x, -⟩ := r3 rfl
      obtain ⟨j, hj, e⟩ := List.mem_iff_getElem.1 x
      have := (K.kd j hj).2 t
      rw [e] at this
      exact hm.disj i j i1 i2 (by omega) (by omega) (by omega) t ⟨ht, this.2 rfl⟩
    | true =>
      obtain ⟨-, -, q3⟩ := r4 rfl
      rw [if_pos rfl, s.term.wr_ok _ (by rw [K.tab.lo]; exact r1) (by rw [K.tab.hi]; exact r2), ok_bind, s.dnum.wr_ok _ (by rw [K.dlo]; exact r1) (by rw [K.dhi]; exact r2), ok_bind, Holds_pure]
      exact ⟨keys ++ [t], K.add q3 (fun _ _ _ => rfl) dv dk, e1, rfl⟩
  · rintro s ⟨keys0, K, e1, e2⟩
    -- fixed vertices
    rw [Holds_bind]
    have hstart : MInv Valid Has g pfix.get siz m (keys0 ++ F) g.baseval keys0 s := by
      refine ⟨by rw [e2, e1]; exact K, fun k hk => List.mem_append.2 (Or.inl hk), by rw [e2], by rw [e2], by rw [e2]; exact hdl, by rw [e2]; exact hdh, by rw [e1, e2]; omega, fun i _ _ => by rw [e2], fun v _ => by rw [e2], fun v v1 v2 => by omega⟩
    have hlk := K.len
    refine Holds_forUp (fun i s => ∃ keys, MInv Valid Has g pfix.get siz m (keys0 ++ F) i keys s) (by omega) ⟨keys0, hstart⟩ ?_ ?_
    · rintro i s' i1 i2 ⟨keys, hI⟩
      exact mergeVert_holds hA junk s1 hn.1 hI ⟨i1, i2⟩ p1 p2 (by rw [hm.plo]; exact q1) (by rw [hm.phi]; exact q2) (hp i ⟨i1, i2⟩) (fun h => List.mem_append.2 (Or.inr (hF i ⟨i1, i2⟩ h))) (by rw [List.length_append]; push_cast; omega)
    · rintro s' ⟨keys, hI⟩
      have hl := hI.kinv.len
      have hgd : ∀ i, 0 ≤ i → i < s'.domnnum → ∃ (j : Nat) (hj : j < keys.length), i = j ∧ Valid (s'.m.domntab.get i) ∧ ∀ k, Has (s'.m.domntab.get i) k ↔ k = keys[j] := by
        intro i i1 i2
        obtain ⟨j, rfl⟩ : ∃ j : Nat, i = j := ⟨i.toNat, by omega⟩
        have hj : j < keys.length := by omega
        exact ⟨j, hj, rfl, hI.kinv.kd j hj⟩
      refine ⟨hI.plo, hI.phi, hI.dlo, hI.dhi, hI.nbr, hI.keep, ?_, ?_, ?_, ?_⟩
      · intro i i1 i2
        obtain ⟨j, hj, -, hv, hk⟩ := hgd i i1 i2
        exact ⟨hv, _, hk⟩
      · rintro i j i1 i2 j1 j2 hij k ⟨hi, hj⟩
        obtain ⟨a, ha, rfl, -, hka⟩ := hgd i i1 i2
        obtain ⟨b, hb, rfl, -, hkb⟩ := hgd j j1 j2
        have e : keys[a] = keys[b] := ((hka k).1 hi).symm.trans ((hkb k).1 hj)
        rw [hI.kinv.tab.tab.nodup.getElem_inj_iff] at e
        exact hij (by rw [e])
      · intro v hv
        exact hI.free v (fun hx => hv ⟨⟨hx.1, hx.2.1⟩, hx.2.2⟩)
      · intro v v1 v2
        exact hI.fixed v v1.1 v1.2 v2

end Scotch.Kmap
