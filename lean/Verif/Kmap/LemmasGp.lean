import Verif.Kmap.Lemmas
import Verif.Bipart.Props
import Verif.Post

/-! # Static mapping: bipartitioning by greedy graph growing -/

set_option autoImplicit false
set_option linter.unusedSimpArgs false

namespace Scotch.Kmap

variable {D : Type}

open Bipart (over)

theorem over_len {g : Graph} (hc : g.Consistent) (part : Arr Int) (k : Int) : over g part.get k (fun _ => 1) = (ofPart g part k).length := by
  have hnn := hc.vertnnd
  have hnb := hc.vertnbr
  unfold over ofPart
  suffices h : ∀ (i : Nat), sumI g.baseval (g.baseval + i) (fun v => if part.get v = k then (fun _ => (1 : Int)) v else 0) = (((seg id g.baseval (g.baseval + i)).filter fun v => decide (part.get v = k)).length : Int) by
    have := h g.vertnbr.toNat
    rw [show g.baseval + (g.vertnbr.toNat : Int) = g.vertnnd by omega] at this
    exact this
  intro i
  induction i with
  | zero => rw [sumI_empty (by omega), seg_empty id (by omega)]; rfl
  | succ i ih =>
    rw [show g.baseval + ((i + 1 : Nat) : Int) = g.baseval + i + 1 by omega, sumI_succ (by omega), ih, seg_succ id (by omega), List.filter_append, List.length_append]
    by_cases c : part.get (g.baseval + i) = k
    · simp [c]
    · simp [c]

theorem init_zero (avgOf : Int → Int → Int → Int) (junk : Int → Int) (b : Bipart.Bgraph) (g : Graph) (dd w0 w1 : Int) : Post (Bipart.init avgOf junk junk b g dd w0 w1 0 0) fun b' => b'.commgainextn0 = 0 := by
  unfold Bipart.init Bipart.init2
  dsimp only
  rw [Post_bind]
  exact Post_iff.2 (fun _ _ => rfl)

theorem gpBip_ok (o : ArchOps D) (hd : ∀ d0 d1, Holds (o.dist d0 d1) fun _ => True) (hw : ∀ d, Holds (o.wght d) fun _ => True) (avgOf : Int → Int → Int → Int) (hav : ∀ s w0 w1, 0 ≤ s → 0 ≤ avgOf s w0 w1) (junk : Int → Int) (b : Bipart.Bgraph) (passnbr : Int) :
    BipOk (gpBip o avgOf junk b passnbr) := by
  intro p g d0 d1 hc ha hb
  unfold gpBip
  rw [Holds_bind]; refine (hd d0 d1).mono (fun dd _ => ?_)
  rw [Holds_bind]; refine (hw d0).mono (fun w0 _ => ?_)
  rw [Holds_bind]; refine (hw d1).mono (fun w1 _ => ?_)
  rw [Holds_bind]
  have hC := Graph.consE_iff.2 hc
  obtain ⟨b1, eb, h⟩ := Holds_iff_exists.1 (Bipart.init_holds avgOf junk junk hC ha b dd w0 w1 0 0)
  have hz := Post_iff.1 (init_zero avgOf junk b g dd w0 w1) b1 eb
  rw [eb, Holds_ok]
  obtain ⟨h1, h2, h3, h4, h5, h6, h7, h8, h9, h10, h11⟩ := h
  have hs : b1.s.Consistent := by
    rw [h3]
    exact Graph.consE_iff.1 ⟨hC.vertnbr, hC.vertnnd, hC.range, hC.inside, hC.symm, hC.simple, hC.edgenbr, hC.velo, hC.velosum, hC.edlo, hC.edlosum, hC.degrmax⟩
  rw [Holds_bind]
  refine (Bipart.C28_gp_partial b1 hs h2 h1 ?_ ?_ junk passnbr).mono ?_
  · rw [h4]
    have : 0 ≤ g.velosum := by
      rw [hc.velosum]
      exact sumI_nonneg (fun v v1 v2 => hc.velo v ⟨v1, v2⟩)
    have := hav (g.velosum + 0 + 0) w0 w1 (by omega)
    omega
  · rw [hz]
    symm
    apply sumI_eq_zero
    intro v _ _
    unfold Bipart.Bgraph.veex
    rw [h10]
  · rintro b2 ⟨V, S⟩
    rw [Holds_pure]
    have e : b2.s = { g with vlbltax := none } := by rw [S.s, h3]
    refine ⟨b2.parttax, b2.compsize0, rfl, ?_, ?_, ?_, ?_⟩
    · have := h2.part.1; rw [h3] at this; rw [S.bounds.1]; exact this
    · have := h2.part.2; rw [h3] at this; rw [S.bounds.2.1]; exact this
    · intro v hv
      exact V.parts v (by rw [e]; exact hv)
    · rw [V.size, e]
      exact over_len hc b2.parttax 0

end Scotch.Kmap
