import Verif.Util
import Verif.Order.Spec

/-! # Orderings: helper lemmas -/

set_option linter.unusedSimpArgs false

namespace Scotch

theorem IsInj.isPerm {base n : Int} {f : Int → Int} (h : IsInj 0 base n f) : IsPerm base n f := by
  refine ⟨fun i h1 h2 => h.range i h1 (by omega), ?_⟩
  intro y h1 h2
  obtain ⟨i, hi1, hi2, rfl⟩ := h.surj y h1 h2
  exact ⟨i, hi1, by omega, rfl, fun j hj1 hj2 e => h.inj j i hj1 (by omega) hi1 (by omega) e⟩

theorem IsPerm.isInj {base n : Int} {f : Int → Int} (h : IsPerm base n f) : IsInj 0 base n f := by
  refine ⟨fun i h1 h2 => h.1 i h1 (by omega), ?_⟩
  intro i j hi1 hi2 hj1 hj2 e
  have hr := h.1 j hj1 (by omega)
  obtain ⟨k, _, _, _, hu⟩ := h.2 (f j) hr.1 hr.2
  rw [hu i hi1 (by omega) e, hu j hj1 (by omega) rfl]

/-! ## orderPeri -/

theorem orderPeri_holds {permtab peritab : Arr Int} {permbas permnbr peribas : Int}
    (hn : 0 ≤ permnbr)
    (hperm : IsInj 0 permbas permnbr permtab.get)
    (h1 : permtab.lo ≤ 0 ∧ permnbr ≤ permtab.hi) (h2 : peritab.lo ≤ 0 ∧ permnbr ≤ peritab.hi) :
    Holds (orderPeri permtab permbas permnbr peritab peribas) (fun r =>
      r.lo = peritab.lo ∧ r.hi = peritab.hi ∧
      (∀ i, 0 ≤ i → i < permnbr → r.get (permtab.get i - permbas) = i + peribas) ∧
      (∀ k, (k < 0 ∨ permnbr ≤ k) → r.get k = peritab.get k)) := by
  unfold orderPeri
  refine Holds_forUp (fun m r => r.lo = peritab.lo ∧ r.hi = peritab.hi ∧
      (∀ i, 0 ≤ i → i < m → r.get (permtab.get i - permbas) = i + peribas) ∧
      (∀ k, (k < 0 ∨ permnbr ≤ k) → r.get k = peritab.get k)) hn ?_ ?_ ?_
  · exact ⟨rfl, rfl, fun i a b => by omega, fun _ _ => rfl⟩
  · rintro i s hi1 hi2 ⟨hlo, hhi, hs, hf⟩
    have hr := hperm.range i hi1 (by omega)
    simp only [Holds_bind, Holds_rd, Holds_wr, hlo, hhi]
    refine ⟨by omega, by omega, hlo, hhi, ?_, ?_⟩
    · intro j hj1 hj2
      by_cases e : j = i
      · subst e; simp
      · rw [Arr.set_get_ne _ _ (fun h => e (hperm.inj j i hj1 (by omega) hi1 (by omega) (by omega)))]
        exact hs j hj1 (by omega)
    · intro k hk
      rw [Arr.set_get_ne _ _ (by omega)]
      exact hf k hk
  · intro s hs; exact hs

/-! ## orderCheck2 -/

namespace Cblk

mutual
theorem width_pos : ∀ c : Cblk, c.Alloc → c.Coherent → 1 ≤ c.width
  | .leaf _ _ _, _, _ => by simp [width, leaves]
  | .node t v c sons, ha, hc => by
    simp only [Alloc] at ha
    simp only [Coherent] at hc
    have := widthL_ge sons ha.2 hc.2.2.2.2.2
    simp only [width, leaves]
    omega
theorem widthL_ge : ∀ l : List Cblk, AllocL l → CoherentL l → l.length ≤ (leavesL l).length
  | [], _, _ => by simp
  | s :: r, ha, hc => by
    simp only [AllocL] at ha
    simp only [CoherentL] at hc
    have h1 := width_pos s ha.1 hc.1
    have h2 := widthL_ge r ha.2 hc.2
    simp only [width] at h1
    simp only [leavesL, List.length_append, List.length_cons]
    omega
end

mutual
theorem width_le_nodes : ∀ c : Cblk, c.Alloc → c.Coherent → c.width ≤ c.nodes
  | .leaf _ _ _, _, _ => by simp [width, leaves, nodes]
  | .node t v c sons, ha, hc => by
    simp only [Alloc] at ha
    simp only [Coherent] at hc
    have := widthL_le_nodes sons ha.2 hc.2.2.2.2.2
    simp only [width, leaves, nodes]
    omega
theorem widthL_le_nodes : ∀ l : List Cblk, AllocL l → CoherentL l → (leavesL l).length ≤ nodesL l
  | [], _, _ => by simp [leavesL, nodesL]
  | s :: r, ha, hc => by
    simp only [AllocL] at ha
    simp only [CoherentL] at hc
    have h1 := width_le_nodes s ha.1 hc.1
    have h2 := widthL_le_nodes r ha.2 hc.2
    simp only [width] at h1
    simp only [leavesL, List.length_append, nodesL]
    omega
end

mutual
/-- Sum of the leaf sizes. -/
theorem leaves_sum : ∀ c : Cblk, c.Coherent → c.leaves.sum = c.vnodnbr
  | .leaf _ v _, _ => by simp [leaves, vnodnbr]
  | .node t v c sons, hc => by
    simp only [Coherent] at hc
    have := leavesL_sum sons hc.2.2.2.2.2
    simp only [leaves, vnodnbr, this, hc.2.2.2.2.1]
theorem leavesL_sum : ∀ l : List Cblk, CoherentL l → (leavesL l).sum = vnodsum l
  | [], _ => by simp [leavesL, vnodsum]
  | s :: r, hc => by
    simp only [CoherentL] at hc
    simp only [leavesL, List.sum_append, vnodsum, leaves_sum s hc.1, leavesL_sum r hc.2]
end

mutual
theorem leaves_pos : ∀ c : Cblk, c.Coherent → ∀ v ∈ c.leaves, 1 ≤ v
  | .leaf _ v _, hc => by
    simp only [Coherent] at hc
    simp only [leaves, List.mem_singleton]
    rintro w rfl; omega
  | .node t v c sons, hc => by
    simp only [Coherent] at hc
    simpa only [leaves] using leavesL_pos sons hc.2.2.2.2.2
theorem leavesL_pos : ∀ l : List Cblk, CoherentL l → ∀ v ∈ leavesL l, 1 ≤ v
  | [], _ => by simp [leavesL]
  | s :: r, hc => by
    simp only [CoherentL] at hc
    simp only [leavesL, List.mem_append]
    rintro v (h | h)
    · exact leaves_pos s hc.1 v h
    · exact leavesL_pos r hc.2 v h
end

end Cblk

open Cblk

mutual
theorem orderCheck2_holds : ∀ (c : Cblk) (k : Counters), c.Alloc →
    Holds (orderCheck2 c k) (fun r => (r.1 = 0 ↔ c.Coherent) ∧
      (r.1 = 0 → r.2 = (k.1 + c.width - 1, k.2 + c.nodes - 1)))
  | .leaf t v c, k, _ => by
    simp only [orderCheck2, Coherent, width, leaves, nodes]
    split
    · simp; omega
    · split
      · rename_i h; simp [h]
      · split
        · rename_i h; simp [h]
        · simp; omega
  | .node t v c sons, k, ha => by
    obtain ⟨k1, k2⟩ := k
    simp only [Alloc] at ha
    simp only [orderCheck2, Coherent, width, leaves, nodes]
    split
    · simp; omega
    · rename_i hv
      split
      · rename_i ht
        simp only [Holds_ok]
        refine ⟨⟨fun h => by simp at h, fun h => ?_⟩, fun h => by simp at h⟩
        have := h.1; omega
      · rename_i ht
        split
        · rename_i hn
          simp only [Holds_ok]
          refine ⟨⟨fun h => by simp at h, fun h => ?_⟩, fun h => by simp at h⟩
          rcases hn with hn | ⟨hn1, hn2⟩
          · have := h.2.2.1; omega
          · have := h.2.2.2.1 hn1; omega
        · rename_i hn
          have hlen : c.toNat = sons.length := by omega
          simp only [Holds_bind, hlen]
          refine (orderCheck2Sons_holds sons _ 0 ha.2).mono ?_
          rintro ⟨o, kk, vs⟩ ⟨h1, h2⟩
          simp only at h1 h2 ⊢
          by_cases ho : o = 0
          · obtain ⟨h2a, h2b⟩ := h2 ho
            simp only [ho, ne_eq, not_true_eq_false, if_false]
            have hcl := h1.mp ho
            split
            · rename_i hvs
              simp only [Holds_ok]
              refine ⟨⟨fun h => by simp at h, fun h => ?_⟩, fun h => by simp at h⟩
              have := h.2.2.2.2.1; omega
            · rename_i hvs
              simp only [Holds_ok]
              refine ⟨⟨fun _ => ⟨?_, by omega, by omega, ?_, by omega, hcl⟩, fun _ => trivial⟩, fun _ => ?_⟩
              · by_cases t1 : t = ORDERCBLKNEDI
                · exact Or.inl t1
                · by_cases t2 : t = ORDERCBLKDICO
                  · exact Or.inr (Or.inl t2)
                  · by_cases t3 : t = ORDERCBLKSEQU
                    · exact Or.inr (Or.inr t3)
                    · exact absurd ⟨t1, t2, t3⟩ ht
              · intro hne
                have : ¬ (c < 2 ∨ c > 3) := fun hh => hn (Or.inr ⟨hne, hh⟩)
                omega
              · rw [h2a]
                ext
                · simp only; omega
                · simp only; omega
          · simp only [ho, ne_eq, not_false_eq_true, if_true, Holds_ok]
            refine ⟨⟨fun h => by simp at h, fun h => ?_⟩, fun h => by simp at h⟩
            exact absurd (h1.mpr h.2.2.2.2.2) ho
theorem orderCheck2Sons_holds : ∀ (l : List Cblk) (k : Counters) (vs : Int), AllocL l →
    Holds (orderCheck2Sons l l.length k vs) (fun r => (r.1 = 0 ↔ CoherentL l) ∧
      (r.1 = 0 → r.2.1 = (k.1 + (leavesL l).length - l.length, k.2 + nodesL l - l.length) ∧
        r.2.2 = vs + vnodsum l))
  | [], k, vs, _ => by simp [orderCheck2Sons, CoherentL, leavesL, nodesL, vnodsum]
  | s :: r, k, vs, ha => by
    simp only [AllocL] at ha
    simp only [List.length_cons, orderCheck2Sons, Holds_bind, CoherentL, leavesL, nodesL, vnodsum,
      List.length_append]
    refine (orderCheck2_holds s k ha.1).mono ?_
    rintro ⟨o, kk⟩ ⟨h1, h2⟩
    simp only at h1 h2 ⊢
    by_cases ho : o = 0
    · simp only [ho, ne_eq, not_true_eq_false, if_false]
      refine (orderCheck2Sons_holds r kk _ ha.2).mono ?_
      rintro ⟨o', kk', vs'⟩ ⟨h1', h2'⟩
      simp only at h1' h2' ⊢
      refine ⟨⟨fun h => ⟨h1.mp ho, h1'.mp h⟩, fun h => h1'.mpr h.2⟩, fun h => ?_⟩
      obtain ⟨e1, e2⟩ := h2' h
      have e := h2 ho
      simp only [width] at e
      subst e
      refine ⟨?_, by omega⟩
      rw [e1]
      ext
      · push_cast; omega
      · push_cast; omega
    · simp only [ho, ne_eq, not_false_eq_true, if_true, Holds_ok]
      refine ⟨⟨fun h => by simp at h, fun h => absurd (h1.mpr h.1) ho⟩, fun h => by simp at h⟩
end

/-! ## orderCheck -/

/-- First pass of `orderCheck`: index checks. -/
theorem orderCheck_pass1 (base n : Int) (peri : Arr Int) (hn : 0 ≤ n)
    (hm : peri.lo ≤ 0 ∧ n ≤ peri.hi) :
    Holds (forUpB 0 n (Arr.const base (base + n) (-1)) fun vertnum (permtax : Arr Int) => do
        let p ← peri.rd vertnum
        if p < base ∨ p ≥ base + n then return .brk (1 : Int)
        let q ← permtax.rd p
        if q ≠ -1 then return .brk 1
        let permtax ← permtax.wr p vertnum
        return .next permtax)
      (Loop.Sat (fun a => a.lo = base ∧ a.hi = base + n ∧ IsInj 0 base n peri.get ∧
          ∀ y, base ≤ y → y < base + n → a.get y ≠ -1)
        (fun e => e = 1 ∧ ¬ IsInj 0 base n peri.get)) := by
  refine Holds_forUpB (fun m a => a.lo = base ∧ a.hi = base + n ∧
      (∀ i, 0 ≤ i → i < m → base ≤ peri.get i ∧ peri.get i < base + n ∧ a.get (peri.get i) = i) ∧
      (∀ y, a.get y = -1 ∨ (0 ≤ a.get y ∧ a.get y < m ∧ peri.get (a.get y) = y)))
    (fun e => e = 1 ∧ ¬ IsInj 0 base n peri.get) hn ?_ ?_ ?_ ?_
  · exact ⟨rfl, rfl, fun i a b => by omega, fun y => Or.inl rfl⟩
  · rintro i a hi1 hi2 ⟨hlo, hhi, h1, h2⟩
    simp only [Holds_bind, Holds_rd]
    refine ⟨by omega, ?_⟩
    split
    · rename_i hp
      simp only [Holds_pure, Loop.Sat_brk, true_and]
      intro hinj
      have := hinj.range i hi1 (by omega)
      omega
    · rename_i hp
      simp only [Holds_bind, Holds_rd, Holds_pure]
      refine ⟨by omega, ?_⟩
      split
      · rename_i hq
        simp only [Holds_pure, Loop.Sat_brk, true_and]
        intro hinj
        rcases h2 (peri.get i) with h | ⟨g1, g2, g3⟩
        · exact hq h
        · have := hinj.inj _ _ g1 (by omega) hi1 (by omega) g3
          omega
      · rename_i hq
        simp only [Holds_bind, Holds_wr, Holds_pure, Loop.Sat_next, Arr.set_lo, Arr.set_hi]
        refine ⟨by omega, hlo, hhi, ?_, ?_⟩
        · intro j hj1 hj2
          by_cases e : j = i
          · subst e
            refine ⟨by omega, by omega, by simp⟩
          · have hj := h1 j hj1 (by omega)
            have hne : peri.get j ≠ peri.get i := by
              intro he
              rw [he] at hj
              omega
            rw [Arr.set_get_ne _ _ hne]
            exact hj
        · intro y
          by_cases e : y = peri.get i
          · subst e
            right
            simp only [Arr.set_get_same]
            exact ⟨hi1, by omega, trivial⟩
          · rw [Arr.set_get_ne _ _ e]
            rcases h2 y with h | h
            · exact Or.inl h
            · exact Or.inr ⟨h.1, by omega, h.2.2⟩
  · rintro a ⟨hlo, hhi, h1, h2⟩
    have hinj : IsInj 0 base n peri.get := by
      refine ⟨fun i a b => ⟨(h1 i a (by omega)).1, (h1 i a (by omega)).2.1⟩, ?_⟩
      intro i j hi1 hi2 hj1 hj2 e
      have a1 := (h1 i hi1 (by omega)).2.2
      have a2 := (h1 j hj1 (by omega)).2.2
      rw [e] at a1
      omega
    refine ⟨hlo, hhi, hinj, ?_⟩
    intro y hy1 hy2
    obtain ⟨i, hi1, hi2, rfl⟩ := hinj.surj y hy1 hy2
    have := (h1 i hi1 (by omega)).2.2
    omega
  · intro r hr; exact hr

theorem orderCheck_holds (o : Order) (hm : OrderMem o) :
    Holds (orderCheck o) (fun r => r = 0 ↔ ValidOrder o) := by
  have hvn : o.cblktre.Coherent → 1 ≤ o.cblktre.vnodnbr := by
    cases o.cblktre with
    | leaf t v c => intro h; simp only [Coherent] at h; simp only [vnodnbr]; omega
    | node t v c s => intro h; simp only [Coherent] at h; simp only [vnodnbr]; omega
  unfold orderCheck
  split
  · rename_i h
    simp only [Holds_pure]
    exact ⟨fun h => by simp at h, fun hv => absurd hv.size h⟩
  · rename_i hsz
    have hsz : o.vnodnbr = o.cblktre.vnodnbr := by simpa using hsz
    split
    · rename_i h
      simp only [Holds_pure, pure_bind]
      refine ⟨fun h => by simp at h, fun hv => ?_⟩
      have h1 := hv.cblk
      have h2 := hv.node
      have h3 := width_le_nodes _ hm.tree hv.tree
      have h4 := width_pos _ hm.tree hv.tree
      omega
    · rename_i hcnt
      by_cases hn : 0 ≤ o.vnodnbr
      · simp only [Holds_bind, Holds_pure, pure_bind]
        refine (orderCheck_pass1 o.baseval o.vnodnbr o.peritab hn hm.peri).mono ?_
        intro l hl
        cases l with
        | brk e =>
          obtain ⟨rfl, hni⟩ := hl
          simp only [Holds_pure]
          exact ⟨fun h => by simp at h, fun hv => absurd hv.perm.isInj hni⟩
        | next a =>
          obtain ⟨hlo, hhi, hinj, hne⟩ := hl
          simp only [Holds_bind]
          refine Holds_forUpB (fun _ _ => True) (fun _ => False) hn trivial ?_ ?_ ?_
          · intro i _ hi1 hi2 _
            simp only [Holds_bind, Holds_rd]
            refine ⟨by omega, ?_⟩
            have := hne (i + o.baseval) (by omega) (by omega)
            simp [this]
          · intro _ _
            simp only [Holds_bind]
            refine (orderCheck2_holds o.cblktre (1, 1) hm.tree).mono ?_
            rintro ⟨e, c1, c2⟩ ⟨h1, h2⟩
            simp only at h1 h2 ⊢
            split
            · rename_i he
              simp only [Holds_pure]
              exact ⟨fun h => by simp at h, fun hv => absurd (h1.mpr hv.tree) he⟩
            · rename_i he
              have he : e = 0 := by simpa using he
              have h2 := h2 he
              have e1 : c1 = 1 + o.cblktre.width - 1 := congrArg Prod.fst h2
              have e2 : c2 = 1 + o.cblktre.nodes - 1 := congrArg Prod.snd h2
              split
              · simp only [Holds_pure, pure_bind]
                exact ⟨fun h => by simp at h, fun hv => by have := hv.cblk; omega⟩
              · split
                · simp only [Holds_pure, pure_bind]
                  exact ⟨fun h => by simp at h, fun hv => by have := hv.node; omega⟩
                · simp only [Holds_pure, pure_bind]
                  exact ⟨fun _ => ⟨hinj.isPerm, h1.mp he, hsz, by omega, by omega⟩, fun _ => trivial⟩
          · intro r hr; exact hr.elim
      · simp only [Holds_bind, Holds_pure, pure_bind]
        rw [forUpB_empty (by omega)]
        simp only [Holds_ok]
        rw [forUpB_empty (by omega)]
        simp only [Holds_bind, Holds_ok]
        refine (orderCheck2_holds o.cblktre (1, 1) hm.tree).mono ?_
        rintro ⟨e, c1, c2⟩ ⟨h1, h2⟩
        simp only at h1 h2 ⊢
        have he : e ≠ 0 := fun h => by have := hvn (h1.mp h); omega
        simp only [he, ne_eq, not_false_eq_true, if_true, Holds_pure, pure_bind]
        exact ⟨fun h => by simp at h, fun hv => absurd (h1.mpr hv.tree) he⟩

end Scotch
