import Verif.ArchIO.LemmasLoad

/-! # Target architectures in files: weighted complete graphs and decompositions -/

set_option autoImplicit false
set_option linter.unusedSimpArgs false

namespace Scotch.ArchIO
open Text

variable {E : Env}

/-! ## Weighted complete graphs -/

namespace W
open Arch.Cmpltw

/-- `archCmpltwArchBuild2`, on records in the order of the processors. -/
theorem build2_spec (n : Int) (hn : 1 ≤ n) (hmax : n < 2 ^ 31) (w : Int → Int) (hw : ∀ k, 0 ≤ k → k < n → 0 < w k) (t : Arr Rec) (hlo : t.lo = 0) (hhi : t.hi = n)
    (hu : ∀ k, 0 ≤ k → k < n → t.get k = (w k, k)) (junk : Int → Rec) : Holds (build2 ⟨n, t, sumI 0 n w⟩ junk) (fun a => a.vertnbr = n ∧ a.velosum = sumI 0 n w ∧ WF a w) := by
  unfold build2
  split
  · simp only [Holds_pure]
    exact ⟨trivial, trivial, wf_of_bag n (by omega) _ hw t (by omega) (by omega) t hu rfl⟩
  · rename_i h3
    dsimp only at h3 ⊢
    simp only [Holds_bind, Holds_pure]
    refine (C02_intSort2asc2 t n (by omega) hmax (by omega) (by omega)).mono ?_
    rintro p ⟨hp, -⟩
    have hbp := bag_perm t p hp
    have e1 := hp.1
    have e2 := hp.2.1
    refine (build3_spec (n.toNat + 1) 0 n p ⟨0, n, junk⟩ (by omega) (by omega) (by omega) (by omega) (by simp)
      (by simp) ?_).mono ?_
    · intro x hx
      rw [Int.zero_add, hbp, mem_bag] at hx
      obtain ⟨k, k0, k1, e⟩ := hx
      rw [← e, hu k k0 k1]
      exact hw k k0 k1
    · rintro ⟨q, r⟩ ⟨q1, q2, -, -, -, q6⟩
      dsimp only at q1 q2 q6 ⊢
      rw [Int.zero_add] at q6
      exact ⟨trivial, trivial, wf_of_bag n (by omega) _ hw q (by omega) (by omega) t hu (by rw [q6, hbp])⟩

/-- The sum of the weights, in the order of the processors. -/
theorem WF.sum_w {a : Arch} {w : Int → Int} (h : WF a w) : a.velosum = sumI 0 a.vertnbr w := by
  rw [h.sum]
  unfold sumI
  refine Finset.sum_bij (fun i _ => (a.velotab.get i).2) ?_ ?_ ?_ ?_
  · intro i hi
    rw [Finset.mem_Ico] at hi ⊢
    have := h.inj.range i hi.1 (by omega)
    omega
  · intro i hi j hj e
    rw [Finset.mem_Ico] at hi hj
    exact h.inj.inj i j hi.1 (by omega) hj.1 (by omega) e
  · intro k hk
    rw [Finset.mem_Ico] at hk
    obtain ⟨i, i1, i2, e⟩ := h.inj.surj k hk.1 (by omega)
    exact ⟨i, by rw [Finset.mem_Ico]; omega, e⟩
  · intro i hi
    rw [Finset.mem_Ico] at hi
    exact h.velo i hi.1 hi.2

/-- The load of a processor is found. -/
theorem piece_eq {a : Arch} {w : Int → Int} (h : WF a w) {k : Int} (k0 : 0 ≤ k) (k1 : k < a.vertnbr) : cmpltwPiece a k = .ok (32 :: printInt (w k)) := by
  have hl := h.lo
  have hh := h.hi
  have : Holds (cmpltwPiece a k) (fun t => t = 32 :: printInt (w k)) := by
    unfold cmpltwPiece
    rw [Holds_bind]
    refine Holds_forUpB (fun i _ => ∀ j, 0 ≤ j → j < i → (a.velotab.get j).2 ≠ k) (fun t => t = 32 :: printInt (w k)) (by omega) (fun j _ _ => by omega) ?_ ?_ ?_
    · intro i _ i1 i2 hI
      rw [Holds_bind, Arr.rd_ok a.velotab (by omega) (by omega), Holds_ok]
      by_cases e : (a.velotab.get i).2 = k
      · rw [if_pos e, Holds_pure]
        dsimp only [Loop.Sat]
        rw [h.velo i i1 i2, e]
      · rw [if_neg e, Holds_pure]
        intro j j0 j1
        by_cases ej : j = i
        · rw [ej]; exact e
        · exact hI j j0 (by omega)
    · intro _ hI
      obtain ⟨i, i1, i2, e⟩ := h.inj.surj k k0 (by omega)
      exact absurd e (hI i i1 (by omega))
    · intro t ht
      exact ht
  obtain ⟨t, e, rfl⟩ := Holds_iff_exists.1 this
  exact e

end W

theorem cmpltw_load {a : Arch.Cmpltw.Arch} {w : Int → Int} (h : Arch.Cmpltw.WF a w) (h1 : a.vertnbr ≤ E.numMax) (h2 : a.vertnbr < 2 ^ 31) (h3 : a.velosum ≤ E.numMax) (rest : Stream) :
    ∃ t, cmpltwSave a = .ok t ∧ Holds (cmpltwLoad E (10 :: (t ++ rest))) (Gives rest (fun b => a.vertnbr = b.vertnbr ∧ a.velosum = b.velosum ∧ Arch.Cmpltw.WF b w)) := by
  have hn := h.nbr
  have hs := W.WF.sum_w h
  have hle : ∀ k, 0 ≤ k → k ≤ a.vertnbr → 0 ≤ sumI 0 k w ∧ sumI 0 k w ≤ E.numMax := by
    intro k k0 k1
    have e := sumI_split k0 k1 w
    have p1 := sumI_nonneg (lo := 0) (hi := k) (f := w) (fun i i0 i1 => by have := h.pos i i0 (by omega); omega)
    have p2 := sumI_nonneg (lo := k) (hi := a.vertnbr) (f := w) (fun i i0 i1 => by have := h.pos i (by omega) i1; omega)
    omega
  refine ⟨_, by
    unfold cmpltwSave
    rw [writeAll_eq (by omega) _ (P := fun k => 32 :: printInt (w k)) (fun k k0 k1 => W.piece_eq h k0 k1)]
    rfl, ?_⟩
  have hw : ∀ k, 0 ≤ k → k < a.vertnbr → Fits E (w k) := by
    intro k k0 k1
    have p := h.pos k k0 k1
    have q1 := hle k k0 (by omega)
    have q2 := hle (k + 1) (by omega) (by omega)
    rw [sumI_succ k0] at q2
    exact ⟨by omega, by omega⟩
  have ht : Toks E.numMax rest (10 :: (printInt a.vertnbr ++ (seg (fun k => 32 :: printInt (w k)) 0 a.vertnbr).flatten ++ [10] ++ rest))
      (a.vertnbr :: ((seg (fun i => [w i]) 0 a.vertnbr).flatten ++ [])) := by
    rw [List.append_assoc, List.append_assoc]
    obtain ⟨k1, k2⟩ := toks_pre (E := E) (F := w) (n := a.vertnbr) (r := rest) (t := [10] ++ rest) (l := []) (by omega) hw (noDigit_sp (by decide) _) (Toks.sp1 (by decide) Toks.last)
    exact Toks.sp1 (by decide) (Toks.num (by omega) h1 k2 k1)
  unfold cmpltwLoad
  refine Holds_scan ht fun s1 ht => Holds_guard (by omega) ?_
  refine Holds_then (Holds_loop (fun i (st : Arr Arch.Cmpltw.Rec × Int × Stream) => Filled a.vertnbr st.1 (fun k => (w k, k)) i ∧ st.1.lo = 0 ∧ st.1.hi = a.vertnbr ∧ st.2.1 = sumI 0 i w ∧
      Toks E.numMax rest st.2.2 ((seg (fun i => [w i]) i a.vertnbr).flatten ++ [])) (by omega) ?_ ?_) ?_
  · exact ⟨⟨Int.le_refl _, Int.le_refl _, fun k _ _ => by omega⟩, rfl, rfl, (sumI_empty (Int.le_refl _) _).symm, ht⟩
  · rintro i ⟨t, sum, s⟩ i1 i2 ⟨p1, p2, p3, p4, p5⟩
    dsimp only at p1 p2 p3 p4 p5 ⊢
    have hp := h.pos i i1 i2
    rw [flatten_seg_cons _ i2] at p5
    refine Holds_scan p5 fun s2 p5 => Holds_guard (by omega) ?_
    obtain ⟨q1, q2⟩ := hle (i + 1) (by omega) (by omega)
    rw [sumI_succ i1, ← p4] at q1 q2
    obtain ⟨t', e, k1, k2, k3⟩ := p1.wr i1 i2
    dsimp only at e ⊢
    rw [chkNum_ok (by omega) q2, ok_bind, e, ok_bind, Holds_pure]
    exact ⟨_, rfl, k1, by dsimp only; omega, by dsimp only; omega, by dsimp only; rw [sumI_succ i1, p4], p5⟩
  · rintro ⟨t, sum, s⟩ ⟨p1, p2, p3, p4, p5⟩
    dsimp only at p1 p2 p3 p4 p5 ⊢
    rw [seg_empty _ (Int.le_refl _)] at p5
    rw [Holds_bind, p4]
    refine (W.build2_spec a.vertnbr hn h2 w h.pos t p2 p3 (fun k k0 k1 => p1.2.2 k k0 k1) E.junkR).mono ?_
    rintro b ⟨b1, b2, b3⟩
    rw [Holds_pure]
    exact Gives.of (P := fun b => a.vertnbr = b.vertnbr ∧ a.velosum = b.velosum ∧ Arch.Cmpltw.WF b w) ⟨b1.symm, by rw [b2, hs], b3⟩ p5

/-! ## Decompositions -/

theorem deco_load {a : Deco} (h : Valid E (.deco a)) (rest : Stream) : ∃ t, decoSave a = .ok t ∧ Holds (decoLoad E (10 :: (t ++ rest))) (Gives rest (Same (.deco a))) := by
  obtain ⟨h1, h2, h3, h4, hv, hd⟩ := h
  have hn := hv.nbr
  have v1 := hv.lo
  have v2 := hv.hi
  have d1 := hd.lo
  have d2 := hd.hi
  have hpos : 0 ≤ a.domvertnbr * (a.domvertnbr - 1) := by nlinarith
  have hdiv : (a.domvertnbr * (a.domvertnbr - 1)).tdiv 2 = a.domvertnbr * (a.domvertnbr - 1) / 2 := Int.tdiv_eq_ediv_of_nonneg hpos
  generalize hj : a.domvertnbr * (a.domvertnbr - 1) / 2 = j at *
  have hj0 := hd.nbr
  refine ⟨_, by
    unfold decoSave
    rw [writeAll_eq hn _ (P := fun i => printInt (a.domverttab.get i).1 ++ (9 :: (printInt (a.domverttab.get i).2.1 ++ (9 :: (printInt (a.domverttab.get i).2.2 ++ [10])))))
      (fun i i1 i2 => by rw [Arr.rd_ok a.domverttab (by omega) (by omega)]; rfl), ok_bind]
    dsimp only
    rw [hdiv, writeAll_eq hj0 _ (P := fun i => printInt (a.domdisttab.get i) ++ [if i.tmod 8 = 7 ∧ i ≠ j - 1 then 10 else 9])
      (fun i i1 i2 => by rw [Arr.rd_ok a.domdisttab (by omega) (by omega)]; rfl), ok_bind]
    rfl, ?_⟩
  generalize hsep : (fun i : Int => if i.tmod 8 = 7 ∧ i ≠ j - 1 then (10 : Nat) else 9) = sep
  have hsep' : ∀ i, sep i = 32 ∨ sep i = 9 ∨ sep i = 10 := by
    intro i
    rw [← hsep]
    dsimp only
    split <;> decide
  have hP : (fun i => printInt (a.domdisttab.get i) ++ [if i.tmod 8 = 7 ∧ i ≠ j - 1 then 10 else 9]) = fun i => printInt (a.domdisttab.get i) ++ [sep i] := by rw [← hsep]
  rw [hP]
  have hD : Toks E.numMax rest ((seg (fun i => printInt (a.domdisttab.get i) ++ [sep i]) 0 j).flatten ++ ([10] ++ rest)) ((seg (fun i => [a.domdisttab.get i]) 0 j).flatten ++ []) :=
    toks_post hj0 hd.all hsep' (Toks.sp1 (by decide) Toks.last)
  have hV := (toks_pieces (m := E.numMax) (r := rest) (φ := fun _ => True) (P := fun i => printInt (a.domverttab.get i).1 ++ (9 :: (printInt (a.domverttab.get i).2.1 ++ (9 :: (printInt (a.domverttab.get i).2.2 ++ [10])))))
    (L := fun i => [(a.domverttab.get i).1, (a.domverttab.get i).2.1, (a.domverttab.get i).2.2]) hn (by
      intro i t l i1 i2 _ ht
      refine ⟨?_, trivial⟩
      obtain ⟨f1, f2, f3⟩ := hv.all i i1 i2
      rw [List.append_assoc, List.cons_append, List.append_assoc, List.cons_append, List.append_assoc]
      exact Toks.numc (by decide) f1 (Toks.numc (by decide) f2 (Toks.numc (by decide) f3 ht))) trivial hD).1
  have ht : Toks E.numMax rest (10 :: (49 :: 10 :: (printInt a.domtermnbr ++ (9 :: (printInt a.domvertnbr ++ [10]))) ++ (seg (fun i => printInt (a.domverttab.get i).1 ++ (9 :: (printInt (a.domverttab.get i).2.1 ++
      (9 :: (printInt (a.domverttab.get i).2.2 ++ [10]))))) 0 a.domvertnbr).flatten ++ (seg (fun i => printInt (a.domdisttab.get i) ++ [sep i]) 0 j).flatten ++ [10] ++ rest))
      (1 :: a.domtermnbr :: a.domvertnbr :: ((seg (fun i => [(a.domverttab.get i).1, (a.domverttab.get i).2.1, (a.domverttab.get i).2.2]) 0 a.domvertnbr).flatten ++
        ((seg (fun i => [a.domdisttab.get i]) 0 j).flatten ++ []))) := by
    refine Toks.sp1 (by decide) ?_
    have e : printInt 1 = [49] := by decide
    have := Toks.numc (m := E.numMax) (r := rest) (v := 1) (c := 10) (by decide) ⟨by omega, by omega⟩ (Toks.numc (v := a.domtermnbr) (c := 9) (by decide) ⟨by omega, by omega⟩ (Toks.numc (c := 10) (v := a.domvertnbr) (by decide) ⟨by omega, h3⟩ hV))
    rw [e] at this
    simpa using this
  unfold decoLoad
  refine Holds_get ht fun s1 ht => Holds_guard (by decide) ?_
  dsimp only
  rw [if_neg (by decide)]
  refine Holds_get ht fun s2 ht => Holds_get ht fun s3 ht => Holds_guard ⟨by omega, by omega⟩ ?_
  dsimp only
  rw [chkNum_ok (by omega) h4, ok_bind, hdiv]
  refine Holds_then (Holds_loop (fun i (st : Arr DecoVert × Stream) => Filled a.domvertnbr st.1 a.domverttab.get i ∧
      Toks E.numMax rest st.2 ((seg (fun i => [(a.domverttab.get i).1, (a.domverttab.get i).2.1, (a.domverttab.get i).2.2]) i a.domvertnbr).flatten ++
        ((seg (fun i => [a.domdisttab.get i]) 0 j).flatten ++ []))) hn ⟨⟨Int.le_refl _, Int.le_refl _, fun k _ _ => by omega⟩, ht⟩ ?_) ?_
  · rintro i ⟨t, s⟩ i1 i2 ⟨p1, p5⟩
    dsimp only at p1 p5 ⊢
    rw [flatten_seg_cons _ i2] at p5
    refine Holds_get p5 fun s2 p5 => Holds_get p5 fun s3 p5 => Holds_get p5 fun s4 p5 => ?_
    obtain ⟨t', e, k1, k2, k3⟩ := p1.wr i1 i2
    dsimp only
    rw [show ((a.domverttab.get i).1, (a.domverttab.get i).2.1, (a.domverttab.get i).2.2) = a.domverttab.get i from rfl, e, ok_bind, Holds_pure]
    exact ⟨_, rfl, k1, p5⟩
  · rintro ⟨tv, s⟩ ⟨p1, p5⟩
    dsimp only at p1 p5 ⊢
    rw [seg_empty _ (Int.le_refl _)] at p5
    refine Holds_then (Holds_loop (fun i (st : Arr Int × Stream) => Filled j st.1 a.domdisttab.get i ∧ Toks E.numMax rest st.2 ((seg (fun i => [a.domdisttab.get i]) i j).flatten ++ [])) hj0
      ⟨⟨Int.le_refl _, by dsimp only; omega, fun k _ _ => by omega⟩, p5⟩ ?_) ?_
    · rintro i ⟨t, s⟩ i1 i2 ⟨q1, q5⟩
      dsimp only at q1 q5 ⊢
      rw [flatten_seg_cons _ i2] at q5
      refine Holds_get q5 fun s2 q5 => ?_
      obtain ⟨t', e, k1, k2, k3⟩ := q1.wr i1 i2
      dsimp only
      rw [e, ok_bind, Holds_pure]
      exact ⟨_, rfl, k1, q5⟩
    · rintro ⟨td, s⟩ ⟨q1, q5⟩
      dsimp only at q1 q5 ⊢
      rw [seg_empty _ (Int.le_refl _)] at q5
      rw [Holds_pure]
      refine Gives.of (P := Same (.deco a)) ⟨rfl, ⟨rfl, fun i i1 i2 => (p1.2.2 i i1 i2).symm⟩, fun i i1 i2 => ?_⟩ q5
      rw [hj] at i2
      exact (q1.2.2 i i1 i2).symm

end Scotch.ArchIO
