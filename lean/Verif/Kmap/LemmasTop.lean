import Verif.Kmap.LemmasFinal
import Verif.Kmap.LemmasReal

/-! # Static mapping: user routines -/

set_option autoImplicit false
set_option linter.unusedSimpArgs false

namespace Scotch.Kmap

open Graph (ConsE consE_iff)

variable {D : Type} {o : ArchOps D} {n : Int} {w : Int → Int} {Valid : D → Prop} {Has : D → Int → Prop}

theorem both {α : Type} {x : M α} {Q R : α → Prop} (h : Holds x Q) (h' : Post x R) : Holds x fun a => Q a ∧ R a := by
  cases x with
  | ok a => exact ⟨h, h'⟩
  | error e => exact h

theorem compute_free (hA : ArchLaws o n w Valid Has) {f : Int → Int → Int} (hD : DistLaw o n f) (h00 : ∀ k, 0 ≤ k → k < n → f k k = 0) {env : Env D} (he : env.Ok) {fl : Flags} {apart : Bool} (hfl : TieOk fl apart n)
    {g : Graph} (hg : Mappable g) (junk avg : Int → Int) {a : Arr Int} (a1 : a.lo ≤ g.baseval) (a2 : g.vertnnd ≤ a.hi) {pfix : Int → Int} (hp : ∀ v, g.Vertex v → pfix v < 0) :
    Holds (mapCompute2 o env fl apart junk avg g 0 a) fun r => r.1 = 0 ∧ MapOk o Has n env g pfix r.2.2 a r.2.1 := by
  have hn := arch_pos hA
  unfold mapCompute2
  rw [Holds_bind]
  refine hA.frst.mono ?_
  rintro d ⟨d1, d2⟩
  rw [if_neg (by omega), Holds_bind]
  refine (hA.size d d1).mono ?_
  intro z hz
  have hz : z = n := by rw [hz]; exact tl_frst hA d2
  subst hz
  rw [if_neg (by omega), Holds_bind]
  refine (both (mapRb_free hA hD h00 he hfl (by omega) hg.cons hg.alloc hg.base hg.vnum d1 d2 junk avg) (mapRb_real o env fl apart _ junk avg g d 0 none)).mono ?_
  rintro ⟨c, k, log⟩ ⟨⟨hc, proc, -, hF, hp'⟩, hr⟩
  dsimp only at hc hF hp' hr ⊢
  rw [Holds_bind]
  refine (mapTerm_final hA hg.cons hF a1 a2).mono ?_
  rintro a' ⟨q1, q2, q3, q4⟩
  rw [Holds_pure]
  refine ⟨hc, q1, q2, fun v hv => ?_, fun v hv h => ?_, fun v hv _ => ?_, q4, hr⟩
  · rw [q3 v hv]; exact ⟨(hp' v hv).1, (hp' v hv).2.1⟩
  · have := hp v hv; omega
  · rw [q3 v hv]; exact (hp' v hv).2.2

theorem compute_fixed (hA : ArchLaws o n w Valid Has) (hn27 : n < 2 ^ 27) {f : Int → Int → Int} (hD : DistLaw o n f) (h00 : ∀ k, 0 ≤ k → k < n → f k k = 0) {env : Env D} (he : env.Ok) {fl : Flags} {apart : Bool} (hfl : TieOk fl apart n)
    {g : Graph} (hg : Mappable g) (junk avg : Int → Int) {a : Arr Int} (a1 : a.lo ≤ g.baseval) (a2 : g.vertnnd ≤ a.hi) (hp : ∀ v, g.Vertex v → a.get v < n) (hpos : 0 < fixedNbr g a.get)
    (hld : (∀ v, g.Vertex v → 0 ≤ a.get v) ∨ ∃ v, g.Vertex v ∧ 0 ≤ a.get v ∧ g.velo v ≠ 0) :
    Holds (mapCompute2 o env fl apart junk avg g (fixedNbr g a.get) a) fun r => r.1 = 0 ∧ MapOk o Has n env g a.get r.2.2 a r.2.1 := by
  have hn := arch_pos hA
  have hnn := hg.cons.vertnnd
  have hnb := hg.cons.vertnbr
  unfold mapCompute2
  rw [Holds_bind]
  refine hA.frst.mono ?_
  rintro d ⟨d1, d2⟩
  have hlen : ((seg id g.baseval g.vertnnd).length : Int) = g.vertnbr := by exact seg_length id (by omega) |>.trans (by omega)
  by_cases hall : fixedNbr g a.get ≥ g.vertnbr
  · rw [if_pos ⟨hpos, hall⟩, Holds_pure]
    have hall' : ∀ v, g.Vertex v → 0 ≤ a.get v := by
      intro v hv
      have hle := List.length_filter_le (fun v => decide (0 ≤ a.get v)) (seg id g.baseval g.vertnnd)
      unfold fixedNbr at hall
      have := List.filter_eq_self.1 (List.filter_sublist.eq_of_length (by omega : ((seg id g.baseval g.vertnnd).filter fun v => decide (0 ≤ a.get v)).length = _)) v ((mem_seg _ _ _ _).2 ⟨v, hv.1, hv.2, rfl⟩)
      exact of_decide_eq_true this
    refine ⟨rfl, rfl, rfl, fun v hv => ⟨hall' v hv, hp v hv⟩, fun _ _ _ => rfl, fun v hv h => ?_, fun _ _ => rfl, fun c hc => (by cases hc)⟩
    have := hall' v hv; omega
  · rw [if_neg (fun h => hall h.2), Holds_bind]
    refine (hA.size d d1).mono ?_
    intro z hz
    have hz : z = n := by rw [hz]; exact tl_frst hA d2
    subst hz
    have hld : ∃ v, g.Vertex v ∧ 0 ≤ a.get v ∧ g.velo v ≠ 0 := by
      rcases hld with h | h
      · exfalso
        apply hall
        unfold fixedNbr
        rw [List.filter_eq_self.2]
        · omega
        · intro v hv
          obtain ⟨x, x1, x2, rfl⟩ := (mem_seg _ _ _ _).1 hv
          exact decide_eq_true (h x ⟨x1, x2⟩)
      · exact h
    rw [if_pos hpos, Holds_bind]
    refine (both (mapRb_fixed hA hn27 hD h00 he hfl (by omega) hg.cons hg.alloc hg.base hg.vnum d1 d2 junk avg a1 a2 hp hld) (mapRb_real o env fl apart _ junk avg g d _ (some a))).mono ?_
    rintro ⟨c, k, log⟩ ⟨⟨hc, proc, -, hF, hp', hx⟩, hr⟩
    dsimp only at hc hF hp' hx hr ⊢
    rw [Holds_bind]
    refine (mapTerm_final hA hg.cons hF a1 a2).mono ?_
    rintro a' ⟨q1, q2, q3, q4⟩
    rw [Holds_pure]
    refine ⟨hc, q1, q2, fun v hv => ?_, fun v hv h => ?_, fun v hv h => ?_, q4, hr⟩
    · rw [q3 v hv]
      by_cases c : 0 ≤ a.get v
      · rw [hx v hv c]; exact ⟨c, hp v hv⟩
      · have := hp' v hv (by omega)
        exact ⟨this.1, this.2.1⟩
    · rw [q3 v hv]; exact hx v hv h
    · rw [q3 v hv]; exact (hp' v hv h).2.2

theorem fixed_count {g : Graph} (hg : Mappable g) {a : Arr Int} (a1 : a.lo ≤ g.baseval) (a2 : g.vertnnd ≤ a.hi) (hp : ∀ v, g.Vertex v → -1 ≤ a.get v) :
    Holds (forUp g.baseval (g.baseval + g.vertnbr) (0 : Int) fun v n => do
      if (← a.rd v) ≠ -1 then return n + 1 else return n) fun r => r = fixedNbr g a.get := by
  have hnn := hg.cons.vertnnd
  have hnb := hg.cons.vertnbr
  refine Holds_forUp (fun i s => s = (((seg id g.baseval i).filter fun v => decide (0 ≤ a.get v)).length : Int)) (by omega) ?_ ?_ ?_
  · rw [seg_empty id (Int.le_refl _)]; rfl
  · intro i s i1 i2 hs
    rw [a.rd_ok (by omega) (by omega), ok_bind]
    have := hp i ⟨i1, by omega⟩
    rw [seg_succ id i1, List.filter_append, List.length_append]
    split
    · rename_i c
      rw [Holds_pure, hs]
      have : decide (0 ≤ a.get i) = true := decide_eq_true (by omega)
      simp [this]
    · rename_i c
      rw [Holds_pure, hs]
      have : decide (0 ≤ a.get i) = false := decide_eq_false (by omega)
      simp [this]
  · intro s hs
    rw [hs, ← hnn]; rfl

theorem graphMapFixed_holds (hA : ArchLaws o n w Valid Has) (hn27 : n < 2 ^ 27) {f : Int → Int → Int} (hD : DistLaw o n f) (h00 : ∀ k, 0 ≤ k → k < n → f k k = 0) {env : Env D} (he : env.Ok) {fl : Flags} {apart : Bool} (hfl : TieOk fl apart n)
    {g : Graph} (hg : Mappable g) (junk avg : Int → Int) {a : Arr Int} (a1 : a.lo ≤ g.baseval) (a2 : g.vertnnd ≤ a.hi) (hp : ∀ v, g.Vertex v → -1 ≤ a.get v ∧ a.get v < n)
    (hld : (∀ v, g.Vertex v → 0 ≤ a.get v) ∨ (∀ v, g.Vertex v → a.get v = -1) ∨ ∃ v, g.Vertex v ∧ 0 ≤ a.get v ∧ g.velo v ≠ 0) :
    Holds (graphMapFixed o env fl apart junk avg g a) fun r => r.1 = 0 ∧ MapOk o Has n env g a.get r.2.2 a r.2.1 := by
  unfold graphMapFixed
  rw [Holds_bind]
  refine (fixed_count hg a1 a2 (fun v hv => (hp v hv).1)).mono ?_
  rintro z rfl
  by_cases h0 : fixedNbr g a.get = 0
  · have hnone : ∀ v, g.Vertex v → a.get v < 0 := by
      intro v hv
      unfold fixedNbr at h0
      have h0 : ((seg id g.baseval g.vertnnd).filter fun v => decide (0 ≤ a.get v)).length = 0 := by omega
      have := List.filter_eq_nil_iff.1 (List.length_eq_zero_iff.1 h0) v ((mem_seg _ _ _ _).2 ⟨v, hv.1, hv.2, rfl⟩)
      have := of_decide_eq_false (Bool.eq_false_iff.2 this)
      omega
    rw [h0]
    exact compute_free hA hD h00 he hfl hg junk avg a1 a2 hnone
  · have hpos : 0 < fixedNbr g a.get := by unfold fixedNbr at h0 ⊢; omega
    refine compute_fixed hA hn27 hD h00 he hfl hg junk avg a1 a2 (fun v hv => (hp v hv).2) hpos ?_
    rcases hld with h | h | h
    · exact Or.inl h
    · exfalso
      apply h0
      unfold fixedNbr
      rw [List.filter_eq_nil_iff.2]; · rfl
      intro v hv
      obtain ⟨x, x1, x2, rfl⟩ := (mem_seg _ _ _ _).1 hv
      have := h x ⟨x1, x2⟩
      simp [this]
    · exact Or.inr h

end Scotch.Kmap
