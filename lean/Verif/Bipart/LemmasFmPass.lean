import Verif.Bipart.LemmasFmMove

/-! # Fiduccia-Mattheyses refinement: passes -/

set_option autoImplicit false
set_option linter.unusedSimpArgs false

namespace Scotch.Bipart
open Graph
open Coarsen (IsMask land land_mask)
open Hash (Tab Path probe probe_in probe_succ probe_surj)

variable {b : Bgraph} {keys : List Int} {p pb : Int → Int} {r r' : Int → Int → Int} {s s' s0 : Fm} {h u w e mit mat : Int}

/-! ## New best partition -/

theorem fmEqual_inv (I : FmInv b keys p pb s) : FmInv b keys p p (fmEqual s) := by
  obtain ⟨G, S, V, C, M⟩ := I
  refine ⟨⟨G.mask, G.max, G.hlo, G.hhi, G.slo, G.shi, G.tab, G.vert, G.room, G.nbr, ?_, G.nodup, G.lock⟩, ⟨C, V.out, ?_, Int.le_refl _, ?_, ?_, ?_⟩, ⟨V.vals, V.out⟩, C, ?_⟩
  · intro y y1 y2
    refine ⟨fun z => ?_, (G.mswp y y1 y2).2⟩
    have := (G.mswp y y1 y2).1 z
    unfold fmEqual
    dsimp only
    omega
  · intro y y1 y2 hy _
    exact V.vals y y1 y2 hy
  · intro i i1 i2
    exact absurd i2 (by unfold fmEqual; dsimp only; omega)
  · intro i j i1 i2
    exact absurd i2 (by unfold fmEqual; dsimp only; omega)
  · intro y y1 y2 hy hm
    have := (G.mswp y y1 y2).1 hy
    unfold fmEqual at hm
    dsimp only at hm
    omega
  · unfold fmEqual
    dsimp only
    omega

theorem fmBetter_inv (I : FmInv b keys p pb s) : FmInv b keys p p (fmBetter s) := by
  obtain ⟨G, S, V, C, M⟩ := fmEqual_inv I
  exact ⟨⟨G.mask, G.max, G.hlo, G.hhi, G.slo, G.shi, G.tab, G.vert, G.room, G.nbr, G.mswp, G.nodup, G.lock⟩, ⟨S.cur, S.out, S.vals, S.nonneg, S.sv, S.inj, S.all⟩, ⟨V.vals, V.out⟩, C, M⟩

theorem FmInv.range (I : FmInv b keys p pb s) (a c : Int) : FmInv b keys p pb { s with dltmin := a, dltmax := c } := by
  obtain ⟨G, S, V, C, M⟩ := I
  exact ⟨⟨G.mask, G.max, G.hlo, G.hhi, G.slo, G.shi, G.tab, G.vert, G.room, G.nbr, G.mswp, G.nodup, G.lock⟩, ⟨S.cur, S.out, S.vals, S.nonneg, S.sv, S.inj, S.all⟩, ⟨V.vals, V.out⟩, C, M⟩

/-! ## Progress -/

/-- Strict progress: a smaller range of imbalances, or a better partition in the same range. -/
def FmLt (s' s : Fm) : Prop :=
  s'.dltmax - s'.dltmin < s.dltmax - s.dltmin ∨
  (s'.dltmin = s.dltmin ∧ s'.dltmax = s.dltmax ∧ (s'.bst.comm < s.bst.comm ∨ (s'.bst.comm = s.bst.comm ∧ |s'.bst.dlt| < |s.bst.dlt|)))

/-- No strict progress. -/
def FmSame (s' s : Fm) : Prop := s'.dltmin = s.dltmin ∧ s'.dltmax = s.dltmax ∧ s'.bst.comm = s.bst.comm ∧ |s'.bst.dlt| = |s.bst.dlt|

/-- Progress since a state. -/
structure FmTrk (b : Bgraph) (mit mat : Int) (s0 s : Fm) : Prop where
  rng : s0.dltmin ≤ s.dltmin ∧ s.dltmin ≤ mit ∧ mat ≤ s.dltmax ∧ s.dltmax ≤ s0.dltmax
  le : FmLt s s0 ∨ FmSame s s0
  flag : s.moveflag = true → FmLt s s0
  bal : b.veextax = none → (s.dltmin ≤ s.cur.dlt ∧ s.cur.dlt ≤ s.dltmax) ∧ s.dltmin ≤ s.bst.dlt ∧ s.bst.dlt ≤ s.dltmax

/-- What is left to choose when the best partition changes. -/
theorem FmTrk.better (T : FmTrk b mit mat s0 s) (h : s.cur.comm < s.bst.comm ∨ (s.cur.comm = s.bst.comm ∧ |s.cur.dlt| < |s.bst.dlt|)) : FmTrk b mit mat s0 (fmBetter s) := by
  have hlt : FmLt (fmBetter s) s0 := by
    have := T.le
    have := T.rng
    unfold FmLt FmSame at *
    unfold fmBetter fmEqual
    dsimp only
    omega
  exact ⟨T.rng, Or.inl hlt, fun _ => hlt, fun hx => ⟨(T.bal hx).1, (T.bal hx).1⟩⟩

theorem FmTrk.compare (T : FmTrk b mit mat s0 s) : FmTrk b mit mat s0 (fmCompare s) := by
  unfold fmCompare
  by_cases h1 : s.cur.comm < s.bst.comm
  · rw [if_pos h1]
    exact T.better (Or.inl h1)
  · rw [if_neg h1]
    by_cases h2 : s.cur.comm = s.bst.comm
    · rw [if_pos h2]
      by_cases h3 : |s.cur.dlt| < |s.bst.dlt|
      · rw [if_pos h3]
        exact T.better (Or.inr ⟨h2, h3⟩)
      · rw [if_neg h3]
        by_cases h4 : |s.cur.dlt| = |s.bst.dlt|
        · rw [if_pos h4]
          refine ⟨T.rng, ?_, ?_, fun hx => ⟨(T.bal hx).1, (T.bal hx).1⟩⟩
          · have := T.le
            unfold FmLt FmSame at *
            unfold fmEqual
            dsimp only
            rw [h2, h4]
            exact this
          · intro hf
            have := T.flag hf
            unfold FmLt at *
            unfold fmEqual
            dsimp only
            rw [h2, h4]
            exact this
        · rw [if_neg h4]
          exact T
    · rw [if_neg h2]
      exact T

theorem fmCompare_inv (I : FmInv b keys p pb s) : ∃ pb', FmInv b keys p pb' (fmCompare s) := by
  unfold fmCompare
  by_cases h1 : s.cur.comm < s.bst.comm
  · rw [if_pos h1]; exact ⟨_, fmBetter_inv I⟩
  · rw [if_neg h1]
    by_cases h2 : s.cur.comm = s.bst.comm
    · rw [if_pos h2]
      by_cases h3 : |s.cur.dlt| < |s.bst.dlt|
      · rw [if_pos h3]; exact ⟨_, fmBetter_inv I⟩
      · rw [if_neg h3]
        by_cases h4 : |s.cur.dlt| = |s.bst.dlt|
        · rw [if_pos h4]; exact ⟨_, fmEqual_inv I⟩
        · rw [if_neg h4]; exact ⟨_, I⟩
    · rw [if_neg h2]; exact ⟨_, I⟩

theorem fmCompare_lock : (fmCompare s).lock = s.lock ∧ (fmCompare s).cur = s.cur := by
  unfold fmCompare fmBetter fmEqual
  split
  · exact ⟨rfl, rfl⟩
  · split
    · split
      · exact ⟨rfl, rfl⟩
      · split <;> exact ⟨rfl, rfl⟩
    · exact ⟨rfl, rfl⟩

theorem FmTrk.tighten (T : FmTrk b mit mat s0 s) : FmTrk b mit mat s0 (fmTighten mit mat s) := by
  unfold fmTighten
  by_cases h : (s.dltmin < mit ∧ s.cur.dlt > s.dltmin ∧ s.cur.dlt ≤ s.dltmax) ∨ (s.dltmax > mat ∧ s.cur.dlt < s.dltmax ∧ s.cur.dlt ≥ s.dltmin)
  · rw [if_pos h]
    have hr := T.rng
    have hlt : FmLt (fmBetter { s with dltmin := min mit s.cur.dlt, dltmax := Max.max mat s.cur.dlt }) s0 := by
      have := T.le
      unfold FmLt FmSame at *
      unfold fmBetter fmEqual
      dsimp only
      omega
    refine ⟨?_, Or.inl hlt, fun _ => hlt, fun _ => ?_⟩
    · unfold fmBetter fmEqual
      dsimp only
      omega
    · unfold fmBetter fmEqual
      dsimp only
      omega
  · rw [if_neg h]
    exact T

theorem fmTighten_inv (I : FmInv b keys p pb s) : ∃ pb', FmInv b keys p pb' (fmTighten mit mat s) := by
  unfold fmTighten
  split
  · exact ⟨_, fmBetter_inv (I.range _ _)⟩
  · exact ⟨_, I⟩

theorem fmTighten_lock : (fmTighten mit mat s).lock = s.lock := by
  unfold fmTighten
  split <;> rfl

/-! ## All vertices change parts -/

open Classical in
/-- Partition seen by a vertex when all vertices change parts, from slot `h`. -/
noncomputable def swapMix (own : Int → Prop) (key : Int → Int) (n : Int) (p : Int → Int) (h w : Int) : Int → Int := if ∃ y, h ≤ y ∧ y < n ∧ own y ∧ key y = w then p else fun v => 1 - p v

theorem fmSwapSlot_holds (hc : ConsE b.s) (ha : Alloc b) {a : Arr Int} (hx : b.veextax = some a) (hp : Parts b.s p) (h1 : 0 ≤ h) (h2 : h < s.msk + 1) (G : FmGeo b keys s) (S : FmSv b keys pb s)
    (V : FmVl b keys (swapMix (FmOwn s.hash) (FmKey s.hash) (s.msk + 1) p h) s) :
    Holds (fmSwapSlot b h s) (fun s' => FmGeo b keys s' ∧ FmSv b keys pb s' ∧ FmVl b keys (swapMix (FmOwn s.hash) (FmKey s.hash) (s.msk + 1) p (h + 1)) s' ∧ FmKeep s s' ∧ s'.msk = s.msk ∧ FmOwn s'.hash = FmOwn s.hash ∧ FmKey s'.hash = FmKey s.hash) := by
  have hlo := G.hlo
  have hhi := G.hhi
  unfold fmSwapSlot
  rw [Arr.rd_ok _ (by omega) (by omega), ok_bind]
  by_cases ho : FmOwn s.hash h
  · have hm0 := (G.mswp h h1 h2).1 ho
    rw [if_neg (by omega), Holds_bind]
    refine (fmSaveOnce_holds G S V h1 h2 ho).mono ?_
    rintro s1 ⟨⟨sv, n, e1⟩, G1, S1, V1⟩
    have hh1 : s1.hash.get h = { s.hash.get h with mswp := s.mswp } := by
      rw [e1]
      dsimp only
      rw [Arr.set_get_same]
    have msk1 : s1.msk = s.msk := by rw [e1]
    have mswp1 : s1.mswp = s.mswp := by rw [e1]
    have o1 : FmOwn s1.hash = FmOwn s.hash := by rw [e1]; exact FmOwn_set rfl
    have k1 : FmKey s1.hash = FmKey s.hash := by rw [e1]; exact FmKey_set rfl
    have hlo1 := G1.hlo
    have hhi1 := G1.hhi
    have hk : FmKey s.hash h ∈ keys := (G.tab.mem _).2 ⟨h, h1, h2, ho, rfl⟩
    have hv := G.vert _ hk
    have hvert : (s.hash.get h).vertnum = FmKey s.hash h := rfl
    have hval : (s.hash.get h).v = fmVals b p (FmKey s.hash h) := by
      have := V.vals h h1 h2 ho
      rwa [show swapMix (FmOwn s.hash) (FmKey s.hash) (s.msk + 1) p h (FmKey s.hash h) = p from if_pos ⟨h, Int.le_refl _, h2, ho, rfl⟩] at this
    have hrd : rdVeex' b.veextax (FmKey s.hash h) = .ok (b.veex (FmKey s.hash h)) := by
      have := rdVeex_eq ha hv
      unfold rdVeex' 
      unfold rdVeex at this
      rw [hx] at this ⊢
      exact this
    rw [Arr.rd_ok _ (by omega) (by omega), ok_bind, hh1]
    dsimp only
    rw [hvert, hrd, ok_bind, Arr.wr_ok _ _ (by omega) (by omega), ok_bind, Holds_pure, hval]
    have hcomm : (if b.veex (FmKey s.hash h) ≠ 0 then (fmVals b p (FmKey s.hash h)).comm + 2 * (1 - 2 * xorP (fmVals b p (FmKey s.hash h)).part 1) * b.veex (FmKey s.hash h) else (fmVals b p (FmKey s.hash h)).comm) =
        (fmVals b p (FmKey s.hash h)).comm + 2 * (1 - 2 * xorP (fmVals b p (FmKey s.hash h)).part 1) * b.veex (FmKey s.hash h) := by
      by_cases hz : b.veex (FmKey s.hash h) ≠ 0
      · rw [if_pos hz]
      · rw [if_neg hz, show b.veex (FmKey s.hash h) = 0 by omega, Int.mul_zero, Int.add_zero]
    rw [hcomm]
    generalize hX : ({ vertnum := FmKey s.hash h, v := { part := xorP (fmVals b p (FmKey s.hash h)).part 1, comp := - (fmVals b p (FmKey s.hash h)).comp, comm := (fmVals b p (FmKey s.hash h)).comm + 2 * (1 - 2 * xorP (fmVals b p (FmKey s.hash h)).part 1) * b.veex (FmKey s.hash h), cut := (fmVals b p (FmKey s.hash h)).cut }, mswp := s.mswp, st := (s.hash.get h).st } : FmSlot) = x
    have xv : x.vertnum = (s1.hash.get h).vertnum := by rw [← hX, hh1]; rfl
    have xm : x.mswp = s.mswp := by rw [← hX]
    have xs : x.st = (s.hash.get h).st := by rw [← hX]
    have xvv : x.v = fmVals b (fun v => 1 - p v) (FmKey s.hash h) := by
      rw [fmVals_flipAll hc hp hv, ← hX]
      rfl
    have hbefore : swapMix (FmOwn s.hash) (FmKey s.hash) (s.msk + 1) p (h + 1) (FmKey s.hash h) = fun v => 1 - p v := by
      refine if_neg ?_
      rintro ⟨y, y1, y2, y3, y4⟩
      have := G.tab.uniq (by omega) y2 h1 h2 y3 ho y4
      omega
    have hother : ∀ w, w ≠ FmKey s.hash h → swapMix (FmOwn s.hash) (FmKey s.hash) (s.msk + 1) p (h + 1) w = swapMix (FmOwn s.hash) (FmKey s.hash) (s.msk + 1) p h w := by
      intro w hw
      unfold swapMix
      by_cases hq : ∃ y, h ≤ y ∧ y < s.msk + 1 ∧ FmOwn s.hash y ∧ FmKey s.hash y = w
      · rw [if_pos hq, if_pos]
        obtain ⟨y, y1, y2, y3, y4⟩ := hq
        have : y ≠ h := by intro c; rw [c] at y4; exact hw y4.symm
        exact ⟨y, by omega, y2, y3, y4⟩
      · rw [if_neg hq, if_neg]
        rintro ⟨y, y1, y2, y3, y4⟩
        exact hq ⟨y, by omega, y2, y3, y4⟩
    refine ⟨G1.upd (h := h) xv ?_ ?_ ?_, S1.upd (h := h) xv ?_ ?_, V1.upd (h := h) xv ?_ ?_ ?_, ?_, msk1, ?_, ?_⟩
    · intro _; rw [xm]; omega
    · rw [o1]; exact ho
    · rw [xs, hh1]
    · rw [xm, mswp1]
    · rw [hh1, mswp1]
    · intro _
      rw [k1, hbefore, xvv]
    · intro j j1 j2 hj hne
      rw [k1, hother]
      intro c
      rw [o1] at hj
      exact hne (G.tab.uniq j1 (by omega) h1 h2 hj ho c)
    · intro v hv' hn
      rw [hother]
      · exact ⟨rfl, id⟩
      · intro c
        rw [c] at hn
        exact hn hk
    · rw [e1]
      exact ⟨rfl, rfl, rfl, rfl, rfl, rfl, rfl, rfl, rfl⟩
    · dsimp only
      rw [FmOwn_set xv, o1]
    · dsimp only
      rw [FmKey_set xv, k1]
  · rw [if_pos ((G.mswp h h1 h2).2 ho), Holds_pure]
    have e : swapMix (FmOwn s.hash) (FmKey s.hash) (s.msk + 1) p (h + 1) = swapMix (FmOwn s.hash) (FmKey s.hash) (s.msk + 1) p h := by
      funext w
      unfold swapMix
      by_cases hq : ∃ y, h ≤ y ∧ y < s.msk + 1 ∧ FmOwn s.hash y ∧ FmKey s.hash y = w
      · rw [if_pos hq, if_pos]
        obtain ⟨y, y1, y2, y3, y4⟩ := hq
        have : y ≠ h := by intro c; rw [c] at y3; exact ho y3
        exact ⟨y, by omega, y2, y3, y4⟩
      · rw [if_neg hq, if_neg]
        rintro ⟨y, y1, y2, y3, y4⟩
        exact hq ⟨y, by omega, y2, y3, y4⟩
    rw [e]
    exact ⟨G, S, V, FmKeep.refl s, rfl, rfl, rfl⟩

theorem fmSwap_holds (hc : ConsE b.s) (ha : Alloc b) (hpart : Parts b.s b.part) (I : FmInv b keys p pb s) (T : FmTrk b mit mat s0 s) :
    Holds (fmSwap b s) (fun s' => ∃ p' pb', FmInv b keys p' pb' s' ∧ FmTrk b mit mat s0 s' ∧ s'.lock.length = s.lock.length ∧ s'.clock = s.clock) := by
  unfold fmSwap
  dsimp only
  by_cases hif : s.cur.extn < 0 ∧ |b.s.velosum - s.cur.dlt - 2 * b.compload0avg| ≤ s.dltmax
  · rw [if_pos hif]
    obtain ⟨G, S, V, C, M⟩ := I
    have hp := C.parts
    have hxn : b.veextax ≠ none := by
      intro hx
      have h0 : ∀ k, over b.s p k b.veex = 0 := by
        intro k
        unfold over
        apply sumI_eq_zero
        intro v _ _
        unfold Bgraph.veex
        rw [hx]
        dsimp only
        rw [ite_self]
      have := C.extn
      rw [h0, h0] at this
      omega
    cases hx : b.veextax with
    | none => exact absurd hx hxn
    | some a =>
      rw [Holds_bind]
      have C' := C.flipAll hc
      have hstart : FmVl b keys (swapMix (FmOwn s.hash) (FmKey s.hash) (s.msk + 1) p 0) { s with cur := ⟨b.s.velosum - s.cur.dlt - 2 * b.compload0avg, s.cur.comm + s.cur.extn, - s.cur.extn, xorP s.cur.swap 1⟩ } := by
        refine ⟨?_, ?_⟩
        · intro y y1 y2 hy
          dsimp only at y2 hy ⊢
          rw [show swapMix (FmOwn s.hash) (FmKey s.hash) (s.msk + 1) p 0 (FmKey s.hash y) = p from if_pos ⟨y, y1, y2, hy, rfl⟩]
          exact V.vals y y1 y2 hy
        · intro v hv hn
          have hmv : swapMix (FmOwn s.hash) (FmKey s.hash) (s.msk + 1) p 0 v = fun v => 1 - p v := by
            refine if_neg ?_
            rintro ⟨y, y1, y2, y3, y4⟩
            exact hn ((G.tab.mem v).2 ⟨y, y1, y2, y3, y4⟩)
          rw [hmv]
          obtain ⟨o1, o2⟩ := V.out v hv hn
          refine ⟨?_, Inner_flipAll o2⟩
          dsimp only at o1 ⊢
          rw [o1]
          rcases hpart v hv with c | c <;> rcases C.swap with d | d <;> rw [c, d] <;> decide
      refine Holds_forUp (fun i s1 => FmGeo b keys s1 ∧ FmSv b keys pb s1 ∧ FmVl b keys (swapMix (FmOwn s.hash) (FmKey s.hash) (s.msk + 1) p i) s1 ∧
        FmKeep { s with cur := ⟨b.s.velosum - s.cur.dlt - 2 * b.compload0avg, s.cur.comm + s.cur.extn, - s.cur.extn, xorP s.cur.swap 1⟩ } s1 ∧ s1.msk = s.msk ∧ FmOwn s1.hash = FmOwn s.hash ∧ FmKey s1.hash = FmKey s.hash)
        (by have := G.tab.pos; omega) ⟨⟨G.mask, G.max, G.hlo, G.hhi, G.slo, G.shi, G.tab, G.vert, G.room, G.nbr, G.mswp, G.nodup, G.lock⟩, ⟨S.cur, S.out, S.vals, S.nonneg, S.sv, S.inj, S.all⟩, hstart, FmKeep.refl _, rfl, rfl, rfl⟩ ?_ ?_
      · rintro i s1 i1 i2 ⟨G1, S1, V1, K1, m1, o1, k1⟩
        rw [← o1, ← k1, ← m1] at V1
        refine (fmSwapSlot_holds hc ha hx hp i1 (by omega) G1 S1 V1).mono ?_
        rintro s2 ⟨G2, S2, V2, K2, m2, o2, k2⟩
        rw [o1, k1, m1] at V2
        exact ⟨G2, S2, V2, K1.trans K2, m2.trans m1, o2.trans o1, k2.trans k1⟩
      · rintro s1 ⟨G1, S1, V1, K1, m1, o1, k1⟩
        have he : swapMix (FmOwn s.hash) (FmKey s.hash) (s.msk + 1) p (s.msk + 1) = fun _ v => 1 - p v := by
          funext w
          refine if_neg ?_
          rintro ⟨y, y1, y2, _⟩
          omega
        rw [he] at V1
        have I1 : FmInv b keys (fun v => 1 - p v) pb s1 := ⟨G1, S1, V1, by rw [K1.cur]; exact C', by rw [K1.mswp]; exact M⟩
        have T1 : FmTrk b mit mat s0 s1 := by
          refine ⟨?_, ?_, ?_, fun hx' => absurd hx' hxn⟩
          · rw [K1.dltmin, K1.dltmax]; exact T.rng
          · have := T.le
            unfold FmLt FmSame at *
            rw [K1.dltmin, K1.dltmax, K1.bst]
            exact this
          · intro hf
            rw [K1.moveflag] at hf
            have := T.flag hf
            unfold FmLt at *
            rw [K1.dltmin, K1.dltmax, K1.bst]
            exact this
        by_cases hb : s1.cur.comm < s1.bst.comm ∨ (s1.cur.comm = s1.bst.comm ∧ |s1.cur.dlt| < |s1.bst.dlt|)
        · rw [if_pos hb, Holds_pure]
          exact ⟨_, _, fmBetter_inv I1, T1.better hb, K1.lock, K1.clock⟩
        · rw [if_neg hb, Holds_pure]
          exact ⟨_, _, I1, T1, K1.lock, K1.clock⟩
  · rw [if_neg hif, Holds_pure]
    exact ⟨p, pb, I, T, rfl, rfl⟩

end Scotch.Bipart
