import Verif.Dist.FoldPlan4

set_option autoImplicit false
set_option linter.unusedSimpArgs false

namespace Scotch.Fold

/-- The table as filled in before sorting. -/
def filled (tab : Arr (Int × Int)) (bas nnd : Int) (val : Int → Int) : Arr (Int × Int) :=
  ⟨tab.lo, tab.hi, fun k => if bas ≤ k ∧ k < nnd then (val k, k) else tab.get k⟩

theorem fill_eq {P bas nnd : Int} (val : Int → Int) (h0 : 0 ≤ bas) (h1 : bas ≤ nnd) (h2 : nnd ≤ P)
    {tab : Arr (Int × Int)} (hlo : tab.lo = 0) (hhi : tab.hi = P) (body : Int → Arr (Int × Int) → M (Arr (Int × Int)))
    (hbody : ∀ p t, bas ≤ p → p < nnd → body p t = t.wr p (val p, p)) :
    forUp bas nnd tab body = .ok (filled tab bas nnd val) := by
  have : Holds (forUp bas nnd tab body) (fun r => r = filled tab bas nnd val) := by
    refine Holds_forUp (fun i t => t = filled tab bas i val) h1 ?_ ?_ (fun _ h => h)
    · unfold filled
      cases tab with
      | mk lo hi get =>
        congr 1
        funext k
        dsimp only
        rw [if_neg (by omega)]
    · rintro i t i1 i2 rfl
      rw [hbody i _ i1 i2, Arr.wr_ok _ _ (by unfold filled; dsimp only; omega) (by unfold filled; dsimp only; omega), Holds_ok]
      unfold filled Arr.set
      dsimp only
      congr 1
      funext k
      by_cases e : k = i
      · subst e
        rw [if_pos rfl, if_pos (by omega)]
      · rw [if_neg e]
        by_cases c : bas ≤ k ∧ k < i
        · rw [if_pos c, if_pos (by omega)]
        · rw [if_neg c, if_neg (by omega)]
  obtain ⟨r, e, rfl⟩ := Holds_iff_exists.1 this
  exact e

section
variable {f : FoldIn}

theorem part_filled {t t' : Arr (Int × Int)} {bas nnd : Int} (val : Int → Int) :
    part (filled t bas nnd val) bas (nnd - bas) = part (filled t' bas nnd val) bas (nnd - bas) := by
  unfold part filled
  congr 1
  funext k
  dsimp only
  by_cases c : 0 ≤ k ∧ k < nnd - bas
  · rw [if_pos c, if_pos c, if_pos (by omega), if_pos (by omega)]
  · rw [if_neg c, if_neg c]

/-- The order of receivers does not depend on the former contents of the cells. -/
theorem sortRcv_same (hf : f.Ok) {t t' : Arr (Int × Int)} (h1 : t.lo = 0) (h2 : t.hi = f.procglbnbr) (h1' : t'.lo = 0) (h2' : t'.hi = f.procglbnbr)
    (h : ∀ k, ¬ (f.procrcvbas ≤ k ∧ k < f.procrcvnnd) → t.get k = t'.get k) : sortRcv f t = sortRcv f t' := by
  obtain ⟨r1, r2, r3, r4, r5, r6⟩ := hf.ranges
  have hc := hf.clo
  have hc' := hf.chi
  unfold sortRcv
  have e : ∀ u : Arr (Int × Int), u.lo = 0 → u.hi = f.procglbnbr → forUp f.procrcvbas f.procrcvnnd u (fun p tab => do
      tab.wr p ((← f.proccnttab.rd p) - dataSize f.vertglbnbr f.procfldnbr (p - f.procrcvbas), p)) =
      .ok (filled u f.procrcvbas f.procrcvnnd (fun p => f.cnt p - dataSize f.vertglbnbr f.procfldnbr (p - f.procrcvbas))) := by
    intro u u1 u2
    refine fill_eq _ r1.1 (by omega) r1.2.2 u1 u2 _ ?_
    intro p w p1 p2
    rw [Arr.rd_ok _ (by omega) (by omega), ok_bind]
    rfl
  rw [e t h1 h2, e t' h1' h2', ok_bind, ok_bind]
  congr 1
  unfold filled
  congr 1
  · omega
  · omega
  · funext k
    by_cases c : f.procrcvbas ≤ k ∧ k < f.procrcvnnd
    · rw [if_pos c, if_pos c]
    · rw [if_neg c, if_neg c, h k c]

/-- The order of senders does not depend on the former contents of the cells. -/
theorem sortSnd_same (hf : f.Ok) (junk junk' : Int → Int × Int) :
    ∃ t t', sortSnd f (part ⟨0, f.procglbnbr, junk⟩ 0 f.procglbnbr) = .ok t ∧ sortSnd f (part ⟨0, f.procglbnbr, junk'⟩ 0 f.procglbnbr) = .ok t' ∧
      t.lo = 0 ∧ t.hi = f.procglbnbr ∧ t'.lo = 0 ∧ t'.hi = f.procglbnbr ∧
      ∀ k, ¬ (f.procrcvbas ≤ k ∧ k < f.procrcvnnd) → t.get k = t'.get k := by
  obtain ⟨r1, r2, r3, r4, r5, r6⟩ := hf.ranges
  have hc := hf.clo
  have hc' := hf.chi
  have e : ∀ u : Arr (Int × Int), u.lo = 0 → u.hi = f.procglbnbr → forUp f.procsndbas f.procsndnnd u (fun p tab => do tab.wr p ((← f.proccnttab.rd p), p)) =
      .ok (filled u f.procsndbas f.procsndnnd f.cnt) := by
    intro u u1 u2
    refine fill_eq _ r2.1 (by omega) r2.2.2 u1 u2 _ ?_
    intro p w p1 p2
    rw [Arr.rd_ok _ (by omega) (by omega), ok_bind]
    rfl
  obtain ⟨t, ht, b1, b2, _⟩ := Holds_iff_exists.1 (sortSnd_holds hf (tab := part ⟨0, f.procglbnbr, junk⟩ 0 f.procglbnbr) rfl rfl)
  obtain ⟨t', ht', b1', b2', _⟩ := Holds_iff_exists.1 (sortSnd_holds hf (tab := part ⟨0, f.procglbnbr, junk'⟩ 0 f.procglbnbr) rfl rfl)
  refine ⟨t, t', ht, ht', b1, b2, b1', b2', ?_⟩
  unfold sortSnd at ht ht'
  rw [e _ rfl rfl, ok_bind] at ht ht'
  unfold sortAt at ht ht'
  rw [part_filled (t' := part ⟨0, f.procglbnbr, junk'⟩ 0 f.procglbnbr)] at ht
  cases hs : Sorting.sort Sorting.lt2asc1 32 (part (filled (part ⟨0, f.procglbnbr, junk'⟩ 0 f.procglbnbr) f.procsndbas f.procsndnnd f.cnt) f.procsndbas (f.procsndnnd - f.procsndbas)) (f.procsndnnd - f.procsndbas) with
  | error x =>
    rw [hs] at ht
    cases ht
  | ok a =>
    rw [hs, ok_bind] at ht ht'
    obtain rfl := Except.ok.inj ht
    obtain rfl := Except.ok.inj ht'
    intro k hk
    dsimp only
    have en : f.procsndbas + (f.procsndnnd - f.procsndbas) = f.procsndnnd := by omega
    rw [en]
    by_cases c : f.procsndbas ≤ k ∧ k < f.procsndnnd
    · rw [if_pos c, if_pos c]
    · rw [if_neg c, if_neg c]
      unfold filled part
      dsimp only
      have : ¬ (0 ≤ k ∧ k < f.procglbnbr) := by
        rintro ⟨k0, k1⟩
        exact c ((r4 k k0 k1).1 hk)
      rw [if_neg c, if_neg c, if_neg this, if_neg this]

theorem foldPlan_same (hf : f.Ok) (junk junk' : Int → Int × Int) : foldPlan f junk = foldPlan f junk' := by
  obtain ⟨t, t', h1, h2, b1, b2, b3, b4, b5⟩ := sortSnd_same hf junk junk'
  unfold foldPlan
  rw [h1, h2, ok_bind, ok_bind]
  have e : foldTry f (4, t) = foldTry f (4, t') := by
    unfold foldTry
    dsimp only
    rw [sortRcv_same hf b1 b2 b3 b4 b5]
  rw [loopM, loopM, e]

end

end Scotch.Fold
