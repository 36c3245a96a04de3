import Verif.Separ.ModelFm
import Verif.Separ.LemmasGg
import Verif.Bipart.LemmasFmResize

/-! # Fiduccia-Mattheyses refinement of separators: table -/

set_option autoImplicit false
set_option linter.unusedSimpArgs false

namespace Scotch.Separ
open Graph
open Bipart (FmVals FmSlot FmSave FmSt FmCur Fm FmOwn FmKey FmTab fmFree fmSearch fmPrime FmOwn_set FmKey_set inj_room)
open Coarsen (IsMask land land_mask)
open Hash (Tab probe probe_in probe_succ probe_surj)

/-- A slot that is locked. -/
def Locked (st : FmSt) : Prop := st = .used ∨ st = .such

/-- The hash table holds the vertices of a list, and the list of locked slots is right. There is room for `c` more vertices. -/
structure SGeo (g : Graph) (c : Int) (keys : List Int) (s : Fm) : Prop where
  mask : IsMask s.msk
  max : s.max * 4 = s.msk + 1
  hlo : s.hash.lo = 0
  hhi : s.hash.hi = s.msk + 1
  slo : s.save.lo = 0
  shi : s.save.hi = s.msk + 1
  tab : FmTab s.hash s.msk keys
  vert : ∀ k ∈ keys, g.Vertex k
  fit : g.vertnbr < s.msk + 1 ∨ (keys.length : Int) + c < s.msk + 1
  cpos : 0 ≤ c
  nbr : s.nbr = keys.length
  mswp : ∀ h, 0 ≤ h → h < s.msk + 1 → (s.hash.get h).mswp ≤ s.mswp ∧ (¬ FmOwn s.hash h → (s.hash.get h).mswp = -1)
  mpos : 0 ≤ s.mswp
  nodup : s.lock.Nodup
  lock : ∀ h, h ∈ s.lock ↔ (0 ≤ h ∧ h < s.msk + 1) ∧ FmOwn s.hash h ∧ Locked (s.hash.get h).st

/-- Saved values, and values of the slots that are not saved, have a property. -/
structure SSv (R : Int → FmVals → Prop) (s : Fm) : Prop where
  vals : ∀ h, 0 ≤ h → h < s.msk + 1 → FmOwn s.hash h → (s.hash.get h).mswp ≠ s.mswp → R (FmKey s.hash h) (s.hash.get h).v
  nonneg : 0 ≤ s.savenbr
  sv : ∀ i, 0 ≤ i → i < s.savenbr → (0 ≤ (s.save.get i).hashnum ∧ (s.save.get i).hashnum < s.msk + 1) ∧ FmOwn s.hash (s.save.get i).hashnum ∧
    (s.hash.get (s.save.get i).hashnum).mswp = s.mswp ∧ R (FmKey s.hash (s.save.get i).hashnum) (s.save.get i).v
  inj : ∀ i j, 0 ≤ i → i < s.savenbr → 0 ≤ j → j < s.savenbr → (s.save.get i).hashnum = (s.save.get j).hashnum → i = j
  all : ∀ h, 0 ≤ h → h < s.msk + 1 → FmOwn s.hash h → (s.hash.get h).mswp = s.mswp → ∃ i, 0 ≤ i ∧ i < s.savenbr ∧ (s.save.get i).hashnum = h

/-- All slots have a property. -/
def SVl (Q : Int → FmSlot → Prop) (s : Fm) : Prop := ∀ h, 0 ≤ h → h < s.msk + 1 → FmOwn s.hash h → Q (FmKey s.hash h) (s.hash.get h)

variable {g : Graph} {c : Int} {keys : List Int} {s : Fm} {h : Int} {R : Int → FmVals → Prop} {Q Q' : Int → FmSlot → Prop}

theorem keys_le (hc : ConsE g) (hn : keys.Nodup) (hv : ∀ k ∈ keys, g.Vertex k) : (keys.length : Int) ≤ g.vertnbr := by
  have h := List.toFinset_card_of_nodup hn
  have hs : keys.toFinset ⊆ Finset.Ico g.baseval g.vertnnd := by
    intro k hk
    rw [List.mem_toFinset] at hk
    rw [Finset.mem_Ico]
    exact hv k hk
  have := Finset.card_le_card hs
  rw [h, Int.card_Ico] at this
  have h1 := hc.vertnnd
  have h2 := hc.vertnbr
  omega

theorem SGeo.room (G : SGeo g c keys s) (hc : ConsE g) : (keys.length : Int) < s.msk + 1 := by
  have h1 := keys_le hc G.tab.nodup G.vert
  rcases G.fit with h | h
  · omega
  · have := G.cpos; omega

theorem SGeo.range (G : SGeo g c keys s) {w : Int} (hw : w ∈ keys) : ∃ h, (0 ≤ h ∧ h < s.msk + 1) ∧ FmOwn s.hash h ∧ FmKey s.hash h = w := by
  obtain ⟨h, h1, h2, h3, h4⟩ := (G.tab.mem w).1 hw
  exact ⟨h, ⟨h1, h2⟩, h3, h4⟩

theorem SGeo.key (G : SGeo g c keys s) (h1 : 0 ≤ h) (h2 : h < s.msk + 1) (ho : FmOwn s.hash h) : FmKey s.hash h ∈ keys := (G.tab.mem _).2 ⟨h, h1, h2, ho, rfl⟩

theorem SGeo.same (G : SGeo g c keys s) {j : Int} (h1 : 0 ≤ h) (h2 : h < s.msk + 1) (ho : FmOwn s.hash h) (j1 : 0 ≤ j) (j2 : j < s.msk + 1) (jo : FmOwn s.hash j) (e : FmKey s.hash h = FmKey s.hash j) : h = j :=
  G.tab.uniq h1 h2 j1 j2 ho jo e

theorem SGeo.fewer (G : SGeo g c keys s) {c' : Int} (h0 : 0 ≤ c') (h : c' ≤ c) : SGeo g c' keys s :=
  ⟨G.mask, G.max, G.hlo, G.hhi, G.slo, G.shi, G.tab, G.vert, G.fit.imp id (fun h => by omega), h0, G.nbr, G.mswp, G.mpos, G.nodup, G.lock⟩

theorem SSv.room (V : SSv R s) (h1 : 0 ≤ h) (h2 : h < s.msk + 1) (hn : FmOwn s.hash h → (s.hash.get h).mswp ≠ s.mswp) : s.savenbr < s.msk + 1 := by
  refine inj_room V.nonneg h1 h2 (fun i i1 i2 => ?_) V.inj
  obtain ⟨a, c, d, _⟩ := V.sv i i1 i2
  refine ⟨a, ?_⟩
  intro e
  rw [e] at c d
  exact hn c d

/-- Change of a slot that keeps its vertex. -/
theorem SGeo.upd (G : SGeo g c keys s) {x : FmSlot} (hx : x.vertnum = (s.hash.get h).vertnum) (hm : x.mswp ≤ s.mswp) (hn : FmOwn s.hash h) (hs : Locked x.st ↔ Locked (s.hash.get h).st) :
    SGeo g c keys { s with hash := s.hash.set h x } := by
  have o := FmOwn_set hx
  have k := FmKey_set hx
  refine ⟨G.mask, G.max, G.hlo, G.hhi, G.slo, G.shi, ?_, G.vert, G.fit, G.cpos, G.nbr, ?_, G.mpos, G.nodup, ?_⟩
  · have := G.tab
    unfold FmTab at *
    dsimp only
    rw [o, k]
    exact this
  · intro j j1 j2
    dsimp only
    rw [o]
    by_cases e : j = h
    · subst e
      rw [Arr.set_get_same]
      exact ⟨hm, fun hc => absurd hn hc⟩
    · rw [Arr.set_get_ne _ _ e]
      exact G.mswp j j1 j2
  · intro j
    dsimp only
    rw [G.lock, o]
    by_cases e : j = h
    · rw [e, Arr.set_get_same, hs]
    · rw [Arr.set_get_ne _ _ e]

/-- Change of a slot whose values are saved, or do not change. -/
theorem SSv.upd (V : SSv R s) {x : FmSlot} (hx : x.vertnum = (s.hash.get h).vertnum) (hm : x.mswp = (s.hash.get h).mswp) (hv : (s.hash.get h).mswp = s.mswp ∨ x.v = (s.hash.get h).v) : SSv R { s with hash := s.hash.set h x } := by
  have o := FmOwn_set hx
  have k := FmKey_set hx
  have mm : ∀ j, ((s.hash.set h x).get j).mswp = (s.hash.get j).mswp := by
    intro j
    by_cases e : j = h
    · rw [e, Arr.set_get_same, hm]
    · rw [Arr.set_get_ne _ _ e]
  refine ⟨?_, V.nonneg, ?_, V.inj, ?_⟩
  · intro j j1 j2
    dsimp only
    rw [o, k, mm]
    intro hj hne
    by_cases e : j = h
    · rcases hv with hv | hv
      · rw [e, hv] at hne; exact absurd rfl hne
      · have := V.vals j j1 j2 hj hne
        rw [e] at this ⊢
        rw [Arr.set_get_same, hv]
        exact this
    · rw [Arr.set_get_ne _ _ e]
      exact V.vals j j1 j2 hj hne
  · intro i i1 i2
    dsimp only
    rw [o, k, mm]
    exact V.sv i i1 i2
  · intro j j1 j2
    dsimp only
    rw [o, mm]
    exact V.all j j1 j2

/-- Change of a slot. -/
theorem SVl.upd (V : SVl Q s) {x : FmSlot} (hx : x.vertnum = (s.hash.get h).vertnum) (hv : FmOwn s.hash h → Q' (FmKey s.hash h) x)
    (hr : ∀ j, 0 ≤ j → j < s.msk + 1 → FmOwn s.hash j → j ≠ h → Q (FmKey s.hash j) (s.hash.get j) → Q' (FmKey s.hash j) (s.hash.get j)) : SVl Q' { s with hash := s.hash.set h x } := by
  have o := FmOwn_set hx
  have k := FmKey_set hx
  intro j j1 j2
  dsimp only
  rw [o, k]
  intro hj
  by_cases e : j = h
  · subst e
    rw [Arr.set_get_same]
    exact hv hj
  · rw [Arr.set_get_ne _ _ e]
    exact hr j j1 j2 hj e (V j j1 j2 hj)

theorem SVl.imp (V : SVl Q s) (hr : ∀ j, 0 ≤ j → j < s.msk + 1 → FmOwn s.hash j → Q (FmKey s.hash j) (s.hash.get j) → Q' (FmKey s.hash j) (s.hash.get j)) : SVl Q' s :=
  fun j j1 j2 hj => hr j j1 j2 hj (V j j1 j2 hj)

/-- Slots are saved at most once. -/
theorem sfSave_holds {f : FmVals → FmVals} (G : SGeo g c keys s) (S : SSv R s) (h1 : 0 ≤ h) (h2 : h < s.msk + 1) (ho : FmOwn s.hash h) (hf : R (FmKey s.hash h) (s.hash.get h).v → R (FmKey s.hash h) (f (s.hash.get h).v)) :
    Holds (sfSave f s h) (fun s' => (∃ sv n, s' = { s with save := sv, savenbr := n, hash := s.hash.set h { s.hash.get h with mswp := s.mswp } }) ∧ SGeo g c keys s' ∧ SSv R s') := by
  have hlo := G.hlo
  have hhi := G.hhi
  unfold sfSave
  rw [Arr.rd_ok _ (by omega) (by omega), ok_bind]
  by_cases hm : (s.hash.get h).mswp ≠ s.mswp
  · rw [if_pos hm]
    have hroom := S.room h1 h2 (fun _ => hm)
    have hnn := S.nonneg
    have slo := G.slo
    have shi := G.shi
    rw [Arr.wr_ok _ _ (by omega) (by omega), ok_bind, Arr.wr_ok _ _ (by omega) (by omega), ok_bind, Holds_pure]
    have G' := G.upd (h := h) (x := { s.hash.get h with mswp := s.mswp }) rfl (Int.le_refl _) ho Iff.rfl
    have o : FmOwn (s.hash.set h { s.hash.get h with mswp := s.mswp }) = FmOwn s.hash := FmOwn_set rfl
    have k : FmKey (s.hash.set h { s.hash.get h with mswp := s.mswp }) = FmKey s.hash := FmKey_set rfl
    refine ⟨⟨_, _, rfl⟩, ?_, ?_⟩
    · exact ⟨G'.mask, G'.max, G'.hlo, G'.hhi, slo, shi, G'.tab, G'.vert, G'.fit, G'.cpos, G'.nbr, G'.mswp, G'.mpos, G'.nodup, G'.lock⟩
    · refine ⟨?_, by dsimp only; omega, ?_, ?_, ?_⟩
      · intro j j1 j2
        dsimp only
        rw [o, k]
        intro hj hne
        have e : j ≠ h := by intro e; rw [e, Arr.set_get_same] at hne; exact hne rfl
        rw [Arr.set_get_ne _ _ e] at hne ⊢
        exact S.vals j j1 j2 hj hne
      · intro i i1 i2
        dsimp only at i2 ⊢
        rw [o, k]
        by_cases e : i = s.savenbr
        · subst e
          rw [Arr.set_get_same]
          dsimp only
          rw [Arr.set_get_same]
          exact ⟨⟨h1, h2⟩, ho, rfl, hf (S.vals h h1 h2 ho hm)⟩
        · rw [Arr.set_get_ne _ _ e]
          obtain ⟨a, c, d, f⟩ := S.sv i i1 (by omega)
          refine ⟨a, c, ?_, f⟩
          by_cases e' : (s.save.get i).hashnum = h
          · rw [e', Arr.set_get_same]
          · rw [Arr.set_get_ne _ _ e']; exact d
      · intro i j i1 i2 j1 j2 hij
        dsimp only at i2 j2 hij
        have hne : ∀ i, 0 ≤ i → i < s.savenbr → (s.save.get i).hashnum ≠ h := by
          intro i i1 i2 e
          have := (S.sv i i1 i2).2.2.1
          rw [e] at this
          exact hm this
        by_cases ei : i = s.savenbr
        · by_cases ej : j = s.savenbr
          · omega
          · rw [ei, Arr.set_get_same, Arr.set_get_ne _ _ ej] at hij
            exact absurd hij.symm (hne j j1 (by omega))
        · by_cases ej : j = s.savenbr
          · rw [ej, Arr.set_get_same, Arr.set_get_ne _ _ ei] at hij
            exact absurd hij (hne i i1 (by omega))
          · rw [Arr.set_get_ne _ _ ei, Arr.set_get_ne _ _ ej] at hij
            exact S.inj i j i1 (by omega) j1 (by omega) hij
      · intro j j1 j2
        dsimp only
        rw [o]
        intro hj hmj
        by_cases e : j = h
        · exact ⟨s.savenbr, hnn, by omega, by rw [Arr.set_get_same, e]⟩
        · rw [Arr.set_get_ne _ _ e] at hmj
          obtain ⟨i, i1, i2, i3⟩ := S.all j j1 j2 hj hmj
          exact ⟨i, i1, by omega, by rw [Arr.set_get_ne _ _ (by omega)]; exact i3⟩
  · rw [if_neg hm, Holds_pure]
    have hm' : (s.hash.get h).mswp = s.mswp := by omega
    have e : s.hash.set h { s.hash.get h with mswp := s.mswp } = s.hash := by
      rw [← hm']
      exact Bipart.Arr.set_self _ _
    exact ⟨⟨s.save, s.savenbr, by rw [e]⟩, G, S⟩

/-- A new slot. -/
theorem SGeo.insert (hc : ConsE g) (hb : 0 ≤ g.baseval) (G : SGeo g c keys s) {w : Int} (hw : g.Vertex w) (hcp : 0 < c) {d : Nat} (hd : Hash.Path fmPrime (s.msk + 1) (FmOwn s.hash) (FmKey s.hash) w d) (hh : h = probe fmPrime (s.msk + 1) w d) (hf : ¬ FmOwn s.hash h) {x : FmSlot} (xv : x.vertnum = w) (xm : x.mswp = (s.hash.get h).mswp)
    (xs : ¬ Locked x.st) : SGeo g (c - 1) (keys ++ [w]) { s with hash := s.hash.set h x, nbr := s.nbr + 1 } := by
  have hw0 : 0 ≤ w := by have := hw.1; omega
  have ho : ∀ y, FmOwn (s.hash.set h x) y ↔ FmOwn s.hash y ∨ y = h := by
    intro y
    unfold FmOwn
    by_cases c : y = h
    · rw [c, Arr.set_get_same, xv]
      exact ⟨fun _ => Or.inr rfl, fun _ => by omega⟩
    · rw [Arr.set_get_ne _ _ c]
      exact ⟨Or.inl, fun z => z.resolve_right c⟩
  have hkk : ∀ y, y ≠ h → FmKey (s.hash.set h x) y = FmKey s.hash y := by
    intro y c
    unfold FmKey
    rw [Arr.set_get_ne _ _ c]
  have hkh : FmKey (s.hash.set h x) h = w := by
    unfold FmKey
    rw [Arr.set_get_same, xv]
  have htab : FmTab (s.hash.set h x) s.msk (keys ++ [w]) := by
    refine G.tab.insert hd (by rw [← hh]; exact hf) ?_ ?_ ?_ <;> rw [← hh]
    · exact ho
    · exact hkk
    · exact hkh
  refine ⟨G.mask, G.max, G.hlo, G.hhi, G.slo, G.shi, htab, ?_, ?_, by omega, ?_, ?_, G.mpos, G.nodup, ?_⟩
  · intro k hk
    rw [List.mem_append] at hk
    rcases hk with hk | hk
    · exact G.vert k hk
    · rw [List.mem_singleton] at hk; rw [hk]; exact hw
  · refine G.fit.imp id (fun h => ?_)
    dsimp only
    rw [List.length_append]
    push_cast
    simp
    omega
  · dsimp only
    rw [G.nbr, List.length_append]
    simp
  · intro y y1 y2
    dsimp only at y2 ⊢
    have := G.mswp y y1 y2
    by_cases c : y = h
    · rw [c, Arr.set_get_same, xm]
      rw [c] at this
      exact ⟨this.1, fun z => absurd ((ho h).2 (Or.inr rfl)) z⟩
    · rw [Arr.set_get_ne _ _ c]
      exact ⟨this.1, fun z => this.2 (fun z' => z ((ho y).2 (Or.inl z')))⟩
  · intro y
    dsimp only
    rw [G.lock]
    by_cases c : y = h
    · rw [c, Arr.set_get_same]
      constructor
      · rintro ⟨_, z, _⟩; exact absurd z hf
      · rintro ⟨_, _, z⟩; exact absurd z xs
    · rw [Arr.set_get_ne _ _ c, ho y]
      constructor
      · rintro ⟨z1, z2, z3⟩; exact ⟨z1, Or.inl z2, z3⟩
      · rintro ⟨z1, z2, z3⟩; exact ⟨z1, z2.resolve_right c, z3⟩

theorem SSv.insert (S : SSv R s) (hf : ¬ FmOwn s.hash h) {x : FmSlot} {w : Int} (xv : x.vertnum = w) (hw0 : 0 ≤ w) (xm : x.mswp ≠ s.mswp) (hx : R w x.v) : SSv R { s with hash := s.hash.set h x, nbr := s.nbr + 1 } := by
  have ho : ∀ y, FmOwn (s.hash.set h x) y ↔ FmOwn s.hash y ∨ y = h := by
    intro y
    unfold FmOwn
    by_cases c : y = h
    · rw [c, Arr.set_get_same, xv]
      exact ⟨fun _ => Or.inr rfl, fun _ => by omega⟩
    · rw [Arr.set_get_ne _ _ c]
      exact ⟨Or.inl, fun z => z.resolve_right c⟩
  have hge : ∀ y, y ≠ h → (s.hash.set h x).get y = s.hash.get y := fun y c => Arr.set_get_ne _ _ c
  have hgh : (s.hash.set h x).get h = x := Arr.set_get_same _ _ _
  have hkk : ∀ y, y ≠ h → FmKey (s.hash.set h x) y = FmKey s.hash y := by
    intro y c
    unfold FmKey
    rw [Arr.set_get_ne _ _ c]
  have hkh : FmKey (s.hash.set h x) h = w := by
    unfold FmKey
    rw [Arr.set_get_same, xv]
  have hoy : ∀ y, FmOwn s.hash y → y ≠ h := by
    intro y c1 c2
    rw [c2] at c1
    exact hf c1
  refine ⟨?_, S.nonneg, ?_, S.inj, ?_⟩
  · intro y y1 y2 hy hmy
    dsimp only at y2 hy hmy ⊢
    by_cases c : y = h
    · rw [c, hkh, hgh]; exact hx
    · rw [hge y c] at hmy ⊢
      rw [hkk y c]
      exact S.vals y y1 y2 (((ho y).1 hy).resolve_right c) hmy
  · intro i i1 i2
    dsimp only at i2 ⊢
    obtain ⟨b1, b2, b3, b4⟩ := S.sv i i1 i2
    have := hoy _ b2
    rw [hge _ this, hkk _ this]
    exact ⟨b1, (ho _).2 (Or.inl b2), b3, b4⟩
  · intro y y1 y2 hy hmy
    dsimp only at y2 hy hmy ⊢
    have c : y ≠ h := by
      intro c
      rw [c, hgh] at hmy
      exact xm hmy
    rw [hge y c] at hmy
    exact S.all y y1 y2 (((ho y).1 hy).resolve_right c) hmy

theorem SVl.insert (V : SVl Q s) {x : FmSlot} {w : Int} (xv : x.vertnum = w) (hx : Q w x) : SVl Q { s with hash := s.hash.set h x, nbr := s.nbr + 1 } := by
  intro y y1 y2 hy
  dsimp only at y2 hy ⊢
  by_cases c : y = h
  · unfold FmKey
    rw [c, Arr.set_get_same, xv]; exact hx
  · unfold FmKey
    unfold FmOwn at hy
    rw [Arr.set_get_ne _ _ c] at hy ⊢
    exact V y y1 y2 hy

end Scotch.Separ
