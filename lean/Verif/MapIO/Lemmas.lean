import Verif.MapIO.Spec
import Verif.Sort.Props

/-!
# Input and output of mappings: lemmas
-/

set_option autoImplicit false
set_option linter.unusedSimpArgs false

namespace Scotch
variable {α : Type}

theorem PermOn.surj {a b : Arr α} {lo hi : Int} (h : PermOn a b lo hi) {j : Int} (h1 : lo ≤ j) (h2 : j < hi) : ∃ i, lo ≤ i ∧ i < hi ∧ b.get i = a.get j := by
  obtain ⟨_, _, f, hf, gf⟩ := h
  refine ⟨f.symm j, ?_⟩
  by_cases hj : lo ≤ f.symm j ∧ f.symm j < hi
  · exact ⟨hj.1, hj.2, by rw [gf, Equiv.apply_symm_apply]⟩
  · have := hf _ hj
    rw [Equiv.apply_symm_apply] at this
    omega

namespace MapIO
open Text

/-- The cells `[lo, hi)` are in ascending order of labels. -/
def Asc (a : Arr VertSort) (lo hi : Int) : Prop := ∀ i j, lo ≤ i → i < j → j < hi → (a.get i).1 ≤ (a.get j).1

theorem sortIf_holds {k : Nat} {flag : Bool} {tab : Arr VertSort} {d n : Int} (h0 : 0 ≤ n) (hn : n ≤ numMax k) (hlo : tab.lo ≤ d) (hhi : d + n ≤ tab.hi) (hf : flag = true → Asc tab d (d + n)) :
    Holds (sortIf k flag tab d n) (fun r => PermOn tab r d (d + n) ∧ Asc r d (d + n)) := by
  unfold sortIf
  by_cases hfl : flag = true
  · rw [if_pos hfl, Holds_pure]
    exact ⟨PermOn.refl _ _ _, hf hfl⟩
  · rw [if_neg hfl, Holds_bind]
    refine (C02_sort Sorting.lt2asc1 strictWeak_lt2asc1 (view tab d) n k h0 (by unfold numMax at hn; omega) (by unfold view; dsimp only; omega) (by unfold view; dsimp only; omega)).mono ?_
    rintro a ⟨⟨l1, u1, f, hf1, hf2⟩, hs⟩
    rw [Holds_pure]
    unfold view at l1 u1 hf2 ⊢
    dsimp only at l1 u1 hf2
    refine ⟨⟨by dsimp only; omega, by dsimp only; omega, ⟨fun i => f (i - d) + d, fun i => f.symm (i - d) + d, fun i => ?_, fun i => ?_⟩, fun i hi => ?_, fun i => ?_⟩, fun i j i1 i2 i3 => ?_⟩
    · dsimp only
      rw [Int.add_sub_cancel, Equiv.symm_apply_apply, Int.sub_add_cancel]
    · dsimp only
      rw [Int.add_sub_cancel, Equiv.apply_symm_apply, Int.sub_add_cancel]
    · show f (i - d) + d = i
      rw [hf1 (i - d) (by omega)]
      omega
    · show a.get (i + -d) = tab.get (f (i - d) + d)
      rw [hf2, Int.sub_eq_add_neg]
    · have := hs (i - d) (j - d) (by omega) (by omega) (by omega)
      simp only [Sorting.lt2asc1, decide_eq_false_iff_not] at this
      dsimp only
      rw [← Int.sub_eq_add_neg, ← Int.sub_eq_add_neg]
      omega

/-- Entries read up to index `i`, from index `d`. -/
structure TabInv (t : Tab) (lo hi d i : Int) : Prop where
  lo : t.tab.lo = lo
  hi : t.tab.hi = hi
  asc : t.flag = true → Asc t.tab d i
  last : t.flag = true → ∀ a, d ≤ a → a < i → (t.tab.get a).1 ≤ t.labl

theorem put_holds {t : Tab} {lo hi d i : Int} (h : TabInv t lo hi d i) (hi1 : lo ≤ i) (hi2 : i < hi) (l n : Int) :
    Holds (t.put i l n) (fun r => TabInv r lo hi d (i + 1) ∧ r.tab.get i = (l, n) ∧ ∀ j, j ≠ i → r.tab.get j = t.tab.get j) := by
  have a1 := h.lo
  have a2 := h.hi
  unfold Tab.put
  rw [Arr.wr_ok t.tab _ (by omega) (by omega), ok_bind, Holds_pure]
  have hget : (t.tab.set i (l, n)).get i = (l, n) := Arr.set_get_same _ _ _
  refine ⟨⟨h.lo, h.hi, ?_, ?_⟩, hget, fun j hj => Arr.set_get_ne _ _ hj⟩
  · intro hfl a b b1 b2 b3
    dsimp only at hfl ⊢
    split at hfl
    · cases hfl
    · rename_i hl
      have q1 : (t.tab.set i (l, n)).get a = t.tab.get a := Arr.set_get_ne _ _ (by omega)
      by_cases hb : b = i
      · subst hb
        rw [hget, q1]
        have := h.last hfl a b1 (by omega)
        exact Int.le_trans this (by omega)
      · have q2 : (t.tab.set i (l, n)).get b = t.tab.get b := Arr.set_get_ne _ _ hb
        rw [q1, q2]
        exact h.asc hfl a b b1 b2 (by omega)
  · intro hfl a b1 b2
    dsimp only at hfl ⊢
    split at hfl
    · cases hfl
    · rename_i hl
      by_cases hb : a = i
      · subst hb
        rw [hget]
      · have q2 : (t.tab.set i (l, n)).get a = t.tab.get a := Arr.set_get_ne _ _ hb
        rw [q2]
        have := h.last hfl a b1 (by omega)
        omega

theorem numMax_nonneg (k : Nat) : 0 ≤ numMax k := by
  unfold numMax
  have : (1 : Int) ≤ 2 ^ k := by
    have : 1 ≤ 2 ^ k := Nat.one_le_two_pow
    exact_mod_cast this
  omega

theorem TabInv.start {a : Arr VertSort} {flag : Bool} {l : Int} (d : Int) : TabInv ⟨a, flag, l⟩ a.lo a.hi d d :=
  ⟨rfl, rfl, fun _ i j h1 h2 h3 => by omega, fun _ i h1 h2 => by omega⟩

/-- Strictly ascending labels. -/
def Strict (a : Arr VertSort) (lo hi : Int) : Prop := ∀ i j, lo ≤ i → i < j → j < hi → (a.get i).1 < (a.get j).1

theorem Distinct.of_perm {a b : Arr VertSort} {N : Int} (h : PermOn a b 0 N) : Distinct b.get N ↔ Distinct a.get N := by
  have key : ∀ (f : Int → VertSort) (N : Int), Distinct f N ↔ ∀ i j, 0 ≤ i → i < N → 0 ≤ j → j < N → i ≠ j → (f i).1 ≠ (f j).1 := by
    intro f N
    constructor
    · intro h i j i1 i2 j1 j2 hij
      rcases Int.lt_or_gt_of_ne hij with q | q
      · exact h i j i1 q j2
      · exact fun e => h j i j1 q i2 e.symm
    · intro h i j i1 i2 i3
      exact h i j i1 (by omega) (by omega) i3 (by omega)
  rw [key, key]
  obtain ⟨_, _, f, hf, gf⟩ := h
  have hin : ∀ i, 0 ≤ i → i < N → 0 ≤ f i ∧ f i < N := by
    intro i i1 i2
    by_cases hj : 0 ≤ f i ∧ f i < N
    · exact hj
    · have := f.injective (hf (f i) hj)
      omega
  have hin' : ∀ i, 0 ≤ i → i < N → 0 ≤ f.symm i ∧ f.symm i < N := by
    intro i i1 i2
    by_cases hj : 0 ≤ f.symm i ∧ f.symm i < N
    · exact hj
    · have := hf _ hj
      rw [Equiv.apply_symm_apply] at this
      omega
  constructor
  · intro h i j i1 i2 j1 j2 hij
    have := h (f.symm i) (f.symm j) (hin' i i1 i2).1 (hin' i i1 i2).2 (hin' j j1 j2).1 (hin' j j1 j2).2 (fun e => hij (f.symm.injective e))
    rw [gf, gf, Equiv.apply_symm_apply, Equiv.apply_symm_apply] at this
    exact this
  · intro h i j i1 i2 j1 j2 hij
    rw [gf, gf]
    exact h (f i) (f j) (hin i i1 i2).1 (hin i i1 i2).2 (hin j j1 j2).1 (hin j j1 j2).2 (fun e => hij (f.injective e))

theorem PartOf.of_perm {a b : Arr VertSort} {N l p : Int} (h : PermOn a b 0 N) (hp : PartOf b.get N l p) : PartOf a.get N l p := by
  rcases hp with ⟨i, i1, i2, i3, i4⟩ | ⟨h1, h2⟩
  · obtain ⟨j, j1, j2, j3⟩ := h.inside i1 i2
    exact Or.inl ⟨j, j1, j2, by rw [← j3]; exact i3, by rw [← j3]; exact i4⟩
  · refine Or.inr ⟨fun i i1 i2 => ?_, h2⟩
    obtain ⟨j, j1, j2, j3⟩ := h.surj i1 i2
    rw [← j3]
    exact h1 j j1 j2

theorem PartOf.congr {f g : Int → Int × Int} {N l p : Int} (h : ∀ i, 0 ≤ i → i < N → f i = g i) (hp : PartOf f N l p) : PartOf g N l p := by
  rcases hp with ⟨i, i1, i2, i3, i4⟩ | ⟨h1, h2⟩
  · exact Or.inl ⟨i, i1, i2, by rw [← h i i1 i2]; exact i3, by rw [← h i i1 i2]; exact i4⟩
  · refine Or.inr ⟨fun i i1 i2 => ?_, h2⟩
    rw [← h i i1 i2]
    exact h1 i i1 i2

theorem strict_of_dup {a : Arr VertSort} {N : Int} (h : Asc a 0 N) (hd : ∀ j, 1 ≤ j → j < N → (a.get j).1 ≠ (a.get (j - 1)).1) : Strict a 0 N := by
  intro i j i1 i2 i3
  have h1 := h i (j - 1)
  have h2 := h (j - 1) j (by omega) (by omega) i3
  have h3 := hd j (by omega) i3
  by_cases e : i = j - 1
  · subst e
    omega
  · have := h1 i1 (by omega) (by omega)
    omega

theorem Strict.distinct {a : Arr VertSort} {N : Int} (h : Strict a 0 N) : Distinct a.get N := by
  intro i j i1 i2 i3
  have := h i j i1 i2 i3
  omega

/-- The loop without labels. -/
theorem direct_holds {g : Graph} {N : Int} {tab : Arr VertSort} {part : Arr Int} (hN : 0 ≤ N) (hs : Distinct tab.get N) (h1 : tab.lo ≤ 0) (h2 : N ≤ tab.hi) (hp1 : part.lo ≤ 0) (hp2 : g.vertnbr ≤ part.hi)
    (hpart : ∀ v, 0 ≤ v → v < g.vertnbr → part.get v = -1) :
    Holds (forUp 0 N part (directBody g tab)) (fun r => ∀ v, 0 ≤ v → v < g.vertnbr → PartOf tab.get N (g.baseval + v) (r.get v)) := by
  refine Holds_forUp (fun i r => r.lo = part.lo ∧ r.hi = part.hi ∧ ∀ v, 0 ≤ v → v < g.vertnbr → PartOf tab.get i (g.baseval + v) (r.get v)) hN
    ⟨rfl, rfl, fun v v1 v2 => Or.inr ⟨fun i i1 i2 => by omega, hpart v v1 v2⟩⟩ ?_ (fun r h => h.2.2)
  rintro i r i1 i2 ⟨r1, r2, r3⟩
  unfold directBody
  rw [Arr.rd_ok tab (by omega) (by omega), ok_bind]
  have keep : ∀ v, 0 ≤ v → v < g.vertnbr → (tab.get i).1 ≠ g.baseval + v → PartOf tab.get (i + 1) (g.baseval + v) (r.get v) := by
    intro v v1 v2 hv
    rcases r3 v v1 v2 with ⟨j, j1, j2, j3⟩ | ⟨q1, q2⟩
    · exact Or.inl ⟨j, j1, by omega, j3⟩
    · refine Or.inr ⟨fun j j1 j2 => ?_, q2⟩
      by_cases e : j = i
      · subst e; exact hv
      · exact q1 j j1 (by omega)
  by_cases hc : (tab.get i).1 - g.baseval ≥ 0 ∧ (tab.get i).1 - g.baseval < g.vertnbr
  · rw [if_pos hc, Arr.wr_ok r _ (by omega) (by omega), Holds_ok]
    refine ⟨r1, r2, fun v v1 v2 => ?_⟩
    by_cases e : v = (tab.get i).1 - g.baseval
    · subst e
      rw [Arr.set_get_same]
      exact Or.inl ⟨i, i1, by omega, by omega, rfl⟩
    · rw [Arr.set_get_ne _ _ e]
      exact keep v v1 v2 (by omega)
  · rw [if_neg hc, Holds_pure]
    exact ⟨r1, r2, fun v v1 v2 => keep v v1 v2 (by omega)⟩

/-- The `while` loop. -/
theorem skip_holds {tab : Arr VertSort} {N l m : Int} (h1 : tab.lo ≤ 0) (h2 : N < tab.hi) (hN : 0 < N) (hm1 : 0 ≤ m) (hm2 : m ≤ N) (hpre : ∀ j, 0 ≤ j → j < m → (tab.get j).1 < l)
    (hend : m = N → (tab.get N).1 < l) :
    Holds (loopM (skipBody tab N l) (N.toNat + 2) m) (fun r => match r with
      | none => ∀ j, 0 ≤ j → j < N → (tab.get j).1 < l
      | some m' => m ≤ m' ∧ m' < N ∧ (∀ j, 0 ≤ j → j < m' → (tab.get j).1 < l) ∧ l ≤ (tab.get m').1) := by
  refine Holds_loopM (fun m' => m ≤ m' ∧ m' ≤ N ∧ (m' = N → m = N) ∧ ∀ j, 0 ≤ j → j < m' → (tab.get j).1 < l) (fun m' => (N + 1 - m').toNat) ?_ _ m ⟨Int.le_refl _, hm2, fun h => h, hpre⟩ (by omega)
  rintro m' ⟨a1, a2, a3, a4⟩
  unfold skipBody
  rw [Arr.rd_ok tab (by omega) (by omega), ok_bind]
  by_cases hc : (tab.get m').1 < l
  · have hnext : ∀ j, 0 ≤ j → j < m' + 1 → (tab.get j).1 < l := by
      intro j j1 j2
      by_cases e : j = m'
      · subst e; exact hc
      · exact a4 j j1 (by omega)
    rw [if_pos hc]
    by_cases hge : m' + 1 ≥ N
    · rw [if_pos hge, Holds_pure]
      exact fun j j1 j2 => hnext j j1 (by omega)
    · rw [if_neg hge, Holds_pure]
      exact ⟨⟨by omega, by omega, by omega, hnext⟩, by omega⟩
  · rw [if_neg hc, Holds_pure]
    refine ⟨a1, ?_, a4, by omega⟩
    apply Classical.byContradiction
    intro hcon
    have e : m' = N := by omega
    subst e
    exact hc (hend (a3 rfl))

/-- The merging loop. -/
theorem merge_holds {tab : Arr VertSort} {N V : Int} {part : Arr Int} (h1 : tab.lo ≤ 0) (h2 : N + V ≤ tab.hi) (hN : 0 < N) (hV : 0 ≤ V) (hp1 : part.lo ≤ 0) (hp2 : V ≤ part.hi)
    (hs1 : Strict tab 0 N) (hs2 : Strict tab N (N + V)) (hnum : ∀ i, 0 ≤ i → i < V → 0 ≤ (tab.get (N + i)).2 ∧ (tab.get (N + i)).2 < V)
    (hinj : ∀ i j, 0 ≤ i → i < j → j < V → (tab.get (N + i)).2 ≠ (tab.get (N + j)).2) (hpart : ∀ v, 0 ≤ v → v < V → part.get v = -1) {Q : Loop Merge (Arr Int) → Prop}
    (hQ1 : ∀ r, (∀ i, 0 ≤ i → i < V → PartOf tab.get N (tab.get (N + i)).1 (r.get (tab.get (N + i)).2)) → Q (.brk r))
    (hQ2 : ∀ st : Merge, (∀ i, 0 ≤ i → i < V → PartOf tab.get N (tab.get (N + i)).1 (st.part.get (tab.get (N + i)).2)) → Q (.next st)) :
    Holds (forUpB 0 V ⟨0, part⟩ (mergeBody tab N)) Q := by
  refine Holds_forUpB (fun i (st : Merge) => st.part.lo = part.lo ∧ st.part.hi = part.hi ∧ 0 ≤ st.m ∧ st.m ≤ N ∧ (st.m = N → 0 < i) ∧
      (∀ j i', 0 ≤ j → j < st.m → i ≤ i' → i' < V → (tab.get j).1 < (tab.get (N + i')).1) ∧
      (∀ i', 0 ≤ i' → i' < i → PartOf tab.get N (tab.get (N + i')).1 (st.part.get (tab.get (N + i')).2)) ∧
      (∀ i', i ≤ i' → i' < V → st.part.get (tab.get (N + i')).2 = -1))
    (fun r => ∀ i, 0 ≤ i → i < V → PartOf tab.get N (tab.get (N + i)).1 (r.get (tab.get (N + i)).2)) hV ?_ ?_ (fun st h => hQ2 st h.2.2.2.2.2.2.1) hQ1
  · refine ⟨rfl, rfl, Int.le_refl _, by dsimp only; omega, fun h => by dsimp only at h; omega, fun j i' j1 j2 => by dsimp only at j2; omega, fun i' i1 i2 => by omega, fun i' i1 i2 => ?_⟩
    have := hnum i' i1 i2
    exact hpart _ this.1 this.2
  · rintro i ⟨m, p⟩ i1 i2 ⟨a1, a2, a3, a4, a5, a6, a7, a8⟩
    dsimp only at a1 a2 a3 a4 a5 a6 a7 a8
    have hstr : ∀ i', i < i' → i' < V → (tab.get (N + i)).1 < (tab.get (N + i')).1 := fun i' k1 k2 => hs2 (N + i) (N + i') (by omega) (by omega) (by omega)
    unfold mergeBody
    rw [Arr.rd_ok tab (by omega) (by omega), ok_bind, Holds_bind]
    refine (skip_holds h1 (by omega) hN a3 a4 (fun j j1 j2 => a6 j i j1 j2 (Int.le_refl _) i2) (fun e => ?_)).mono ?_
    · have := hs2 N (N + i) (Int.le_refl _) (by have := a5 e; omega) (by omega)
      exact this
    · intro r hr
      cases r with
      | none =>
        dsimp only at hr ⊢
        rw [Holds_pure]
        intro i' k1 k2
        by_cases hlt : i' < i
        · exact a7 i' k1 hlt
        · refine Or.inr ⟨fun j j1 j2 => ?_, a8 i' (by omega) k2⟩
          have q1 := hr j j1 j2
          by_cases e : i' = i
          · subst e; omega
          · have := hstr i' (by omega) k2
            omega
      | some m' =>
        dsimp only at hr ⊢
        obtain ⟨b1, b2, b3, b4⟩ := hr
        unfold assign
        rw [Arr.rd_ok tab (by omega) (by omega)]
        simp only [ok_bind]
        have hn := hnum i i1 i2
        have hother : ∀ i', 0 ≤ i' → i' < V → i' ≠ i → (tab.get (N + i')).2 ≠ (tab.get (N + i)).2 := by
          intro i' k1 k2 k3
          rcases Int.lt_or_gt_of_ne k3 with q | q
          · exact hinj i' i k1 q i2
          · exact fun e => hinj i i' i1 q k2 e.symm
        have hbef : ∀ j i', 0 ≤ j → j < m' → i + 1 ≤ i' → i' < V → (tab.get j).1 < (tab.get (N + i')).1 := by
          intro j i' j1 j2 k1 k2
          have q1 := b3 j j1 j2
          have q2 := hstr i' (by omega) k2
          omega
        by_cases hc : (tab.get m').1 = (tab.get (N + i)).1
        · rw [if_pos hc, Arr.wr_ok p _ (by omega) (by omega)]
          simp only [ok_bind, pure_bind, Holds_pure]
          refine ⟨a1, a2, by dsimp only; omega, by dsimp only; omega, fun _ => by omega, ?_, ?_, ?_⟩
          · intro j i' j1 j2 k1 k2
            dsimp only at j2
            by_cases e : j = m'
            · subst e
              have := hstr i' (by omega) k2
              omega
            · exact hbef j i' j1 (by omega) k1 k2
          · intro i' k1 k2
            dsimp only
            by_cases e : i' = i
            · subst e
              rw [Arr.set_get_same]
              exact Or.inl ⟨m', by omega, b2, hc, rfl⟩
            · rw [Arr.set_get_ne _ _ (hother i' k1 (by omega) e)]
              exact a7 i' k1 (by omega)
          · intro i' k1 k2
            dsimp only
            rw [Arr.set_get_ne _ _ (hother i' (by omega) k2 (by omega))]
            exact a8 i' (by omega) k2
        · rw [if_neg hc]
          simp only [pure_bind, Holds_pure]
          refine ⟨a1, a2, by dsimp only; omega, by dsimp only; omega, fun e => by dsimp only at e; omega, hbef, ?_, fun i' k1 k2 => a8 i' (by omega) k2⟩
          intro i' k1 k2
          by_cases e : i' = i
          · subst e
            refine Or.inr ⟨fun j j1 j2 => ?_, a8 i' (Int.le_refl _) i2⟩
            by_cases q : j < m'
            · have := b3 j j1 q
              omega
            · by_cases q' : j = m'
              · subst q'; exact hc
              · have := hs1 m' j (by omega) (by omega) j2
                omega
          · exact a7 i' k1 (by omega)

/-- All that follows the search for duplicates. -/
theorem finish_holds {k : Nat} {g : Graph} {N : Int} {tab : Arr VertSort} {part : Arr Int} (hN : 0 < N) (hV : 0 ≤ g.vertnbr) (hVm : g.vertnbr ≤ numMax k) (h1 : tab.lo = 0) (h2 : tab.hi = N + sortNbr g)
    (hs : Strict tab 0 N) (hp1 : part.lo ≤ 0) (hp2 : g.vertnbr ≤ part.hi) (hpart : ∀ v, 0 ≤ v → v < g.vertnbr → part.get v = -1) (hb : g.vlbltax = none ∨ g.baseval = 0) (hl : Labelled g) :
    Holds (finish k g N tab part) (fun r => ∀ v, 0 ≤ v → v < g.vertnbr → PartOf tab.get N (vertLabel g v) (r.get v)) := by
  unfold finish
  unfold sortNbr at h2
  cases hvl : g.vlbltax with
  | none =>
    rw [hvl, if_neg (by simp)] at h2
    dsimp only
    have := direct_holds (g := g) (part := part) (by omega : 0 ≤ N) hs.distinct (by omega) (by omega) hp1 hp2 hpart
    refine this.mono fun r hr v v1 v2 => ?_
    unfold vertLabel
    rw [hvl]
    exact hr v v1 v2
  | some vl =>
    rw [hvl, if_pos (by simp)] at h2
    dsimp only
    obtain ⟨l1, l2, l3⟩ := hl vl hvl
    have hb0 : g.baseval = 0 := by
      rcases hb with h | h
      · rw [hvl] at h; cases h
      · exact h
    rw [hb0, Int.zero_add] at l2
    rw [hb0] at l1
    rw [Holds_bind]
    refine Holds_forUp (fun i t => TabInv t 0 (N + g.vertnbr) N (N + i) ∧ (∀ j, j < N → t.tab.get j = tab.get j) ∧ ∀ v, 0 ≤ v → v < i → t.tab.get (N + v) = (vl.get v, v)) hV ?_ ?_ ?_
    · refine ⟨?_, fun j j1 => rfl, fun v v1 v2 => by omega⟩
      rw [Int.add_zero, ← h1, ← h2]
      exact TabInv.start N
    · rintro i t i1 i2 ⟨t1, t2, t3⟩
      unfold vertBody
      rw [Arr.rd_ok vl (by omega) (by omega), ok_bind]
      refine (put_holds t1 (by omega) (by omega) _ _).mono ?_
      rintro r ⟨r1, r2, r3⟩
      refine ⟨by rw [← Int.add_assoc]; exact r1, fun j j1 => by rw [r3 j (by omega)]; exact t2 j j1, fun v v1 v2 => ?_⟩
      by_cases e : v = i
      · subst e; exact r2
      · rw [r3 _ (by omega)]
        exact t3 v v1 (by omega)
    · rintro t ⟨t1, t2, t3⟩
      rw [Holds_bind]
      refine (sortIf_holds hV hVm (by have := t1.lo; omega) (by have := t1.hi; omega) t1.asc).mono ?_
      rintro s ⟨s1, s2⟩
      have s1' := s1
      obtain ⟨e1, e2, _⟩ := s1'
      have hlow : ∀ j, j < N → s.get j = tab.get j := fun j hj => by rw [s1.outside (by omega), t2 j hj]
      have hcell : ∀ i, 0 ≤ i → i < g.vertnbr → ∃ v, 0 ≤ v ∧ v < g.vertnbr ∧ s.get (N + i) = (vl.get v, v) := by
        intro i i1 i2
        obtain ⟨j, j1, j2, j3⟩ := s1.inside (i := N + i) (by omega) (by omega)
        refine ⟨j - N, by omega, by omega, ?_⟩
        rw [j3]
        have := t3 (j - N) (by omega) (by omega)
        rw [show N + (j - N) = j from by omega] at this
        exact this
      have hsurj : ∀ v, 0 ≤ v → v < g.vertnbr → ∃ i, 0 ≤ i ∧ i < g.vertnbr ∧ s.get (N + i) = (vl.get v, v) := by
        intro v v1 v2
        obtain ⟨i, i1, i2, i3⟩ := s1.surj (j := N + v) (by omega) (by omega)
        refine ⟨i - N, by omega, by omega, ?_⟩
        rw [show N + (i - N) = i from by omega, i3]
        exact t3 v v1 v2
      have hinj : ∀ i j, 0 ≤ i → i < j → j < g.vertnbr → (s.get (N + i)).2 ≠ (s.get (N + j)).2 := by
        intro i j i1 i2 i3 e
        obtain ⟨_, _, f, hf1, hf2⟩ := s1
        have hin : ∀ i, N ≤ i → i < N + g.vertnbr → N ≤ f i ∧ f i < N + g.vertnbr := by
          intro i i1 i2
          by_cases hj : N ≤ f i ∧ f i < N + g.vertnbr
          · exact hj
          · have := f.injective (hf1 (f i) hj)
            omega
        have q1 := hin (N + i) (by omega) (by omega)
        have q2 := hin (N + j) (by omega) (by omega)
        rw [hf2, hf2] at e
        have w1 := t3 (f (N + i) - N) (by omega) (by omega)
        have w2 := t3 (f (N + j) - N) (by omega) (by omega)
        rw [show N + (f (N + i) - N) = f (N + i) from by omega] at w1
        rw [show N + (f (N + j) - N) = f (N + j) from by omega] at w2
        rw [w1, w2] at e
        dsimp only at e
        have : f (N + i) = f (N + j) := by omega
        have := f.injective this
        omega
      have hstr : Strict s N (N + g.vertnbr) := by
        intro i j i1 i2 i3
        have q := s2 i j i1 i2 i3
        obtain ⟨v, v1, v2, v3⟩ := hcell (i - N) (by omega) (by omega)
        obtain ⟨w, w1, w2, w3⟩ := hcell (j - N) (by omega) (by omega)
        have qi := hinj (i - N) (j - N) (by omega) (by omega) (by omega)
        rw [v3, w3] at qi
        rw [show N + (i - N) = i from by omega] at v3
        rw [show N + (j - N) = j from by omega] at w3
        dsimp only at qi
        rw [v3, w3] at q ⊢
        dsimp only at q ⊢
        have : vl.get v ≠ vl.get w := by
          rcases Int.lt_or_gt_of_ne qi with h | h
          · exact l3 v w (by omega) h (by omega)
          · exact fun e => l3 w v (by omega) h (by omega) e.symm
        omega
      have hfinal : ∀ r : Arr Int, (∀ i, 0 ≤ i → i < g.vertnbr → PartOf s.get N (s.get (N + i)).1 (r.get (s.get (N + i)).2)) → ∀ v, 0 ≤ v → v < g.vertnbr → PartOf tab.get N (vertLabel g v) (r.get v) := by
        intro r hr v v1 v2
        obtain ⟨i, i1, i2, i3⟩ := hsurj v v1 v2
        have := hr i i1 i2
        rw [i3] at this
        dsimp only at this
        unfold vertLabel
        rw [hvl, hb0]
        dsimp only
        rw [Int.zero_add]
        exact this.congr (fun j j1 j2 => hlow j j2)
      rw [Holds_bind]
      have b1 := t1.lo
      have b2 := t1.hi
      refine merge_holds (by omega) (by omega) hN hV hp1 hp2 (fun i j i1 i2 i3 => by rw [hlow i (by omega), hlow j i3]; exact hs i j i1 i2 i3) hstr ?_ hinj hpart ?_ ?_
      · intro i i1 i2
        obtain ⟨v, v1, v2, v3⟩ := hcell i i1 i2
        rw [v3]
        exact ⟨v1, v2⟩
      · intro r hr
        exact hfinal r hr
      · intro st hr
        exact hfinal st.part hr

/-- All that follows reading. -/
theorem process_holds {k : Nat} {g : Graph} {N : Int} {t : Tab} {part : Arr Int} (hN : 0 < N) (hNm : N ≤ numMax k) (hV : 0 ≤ g.vertnbr) (hVm : g.vertnbr ≤ numMax k) (ht : TabInv t 0 (N + sortNbr g) 0 N)
    (hp1 : part.lo ≤ 0) (hp2 : g.vertnbr ≤ part.hi) (hpart : ∀ v, 0 ≤ v → v < g.vertnbr → part.get v = -1) (hb : g.vlbltax = none ∨ g.baseval = 0) (hl : Labelled g) :
    Holds (process k g N t part) (fun r => match r with
      | none => ¬ Distinct t.tab.get N
      | some r => Distinct t.tab.get N ∧ ∀ v, 0 ≤ v → v < g.vertnbr → PartOf t.tab.get N (vertLabel g v) (r.get v)) := by
  have hsn : 0 ≤ sortNbr g := by
    unfold sortNbr
    split <;> omega
  have b1 := ht.lo
  have b2 := ht.hi
  unfold process
  rw [Holds_bind]
  refine (sortIf_holds (d := 0) (by omega) hNm (by omega) (by omega) (fun h => by rw [Int.zero_add]; exact ht.asc h)).mono ?_
  rw [Int.zero_add]
  rintro s ⟨s1, s2⟩
  have s1' := s1
  obtain ⟨e1, e2, _⟩ := s1'
  rw [Holds_andThen]
  refine Holds_loopO (fun i _ => ∀ j, 1 ≤ j → j < i → (s.get j).1 ≠ (s.get (j - 1)).1) (¬ Distinct s.get N) (by omega) (fun j j1 j2 => by omega) ?_ ?_ ?_
  · intro i _ i1 i2 hI
    unfold dupBody
    rw [Arr.rd_ok s (by omega) (by omega), ok_bind, Arr.rd_ok s (by omega) (by omega), ok_bind, Holds_guardO]
    by_cases hc : (s.get i).1 ≠ (s.get (i - 1)).1
    · rw [if_pos hc]
      intro j j1 j2
      by_cases e : j = i
      · subst e; exact hc
      · exact hI j j1 (by omega)
    · rw [if_neg hc]
      intro hd
      exact hc (fun e => hd (i - 1) i (by omega) (by omega) i2 e.symm)
  · intro _ hI
    have hstr := strict_of_dup s2 hI
    dsimp only
    rw [Holds_bind]
    refine (finish_holds hN hV hVm (by omega) (by omega) hstr hp1 hp2 hpart hb hl).mono ?_
    intro r hr
    rw [Holds_pure]
    exact ⟨(Distinct.of_perm s1).1 hstr.distinct, fun v v1 v2 => (hr v v1 v2).of_perm s1⟩
  · intro hd
    exact fun h => hd ((Distinct.of_perm s1).2 h)

end MapIO
end Scotch
