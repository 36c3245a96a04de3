import Verif.Separ.LemmasFm7

/-! # Fiduccia-Mattheyses refinement of separators: partial correctness -/

set_option autoImplicit false

namespace Scotch.Separ

theorem FmReady.same {b b' : Vgraph} (R : FmReady b) (h : SameProblem b b') (V : Valid b') : FmReady b' :=
  ⟨by rw [h.s]; exact R.cons, h.alloc R.alloc, V, by rw [h.s]; exact R.base, by rw [h.dwgt.1, h.dwgt.2]; exact R.dwgt, by rw [h.s]; exact R.velo, by rw [h.s]; exact R.full⟩

theorem FmReady.hyp {b : Vgraph} (R : FmReady b) {env : SfEnv} (ho : GainsOk env.order) : SfHyp b env :=
  ⟨Graph.consE_iff.2 R.cons, R.alloc, R.base, (Graph.consE_iff.2 R.cons).degrmax.2, (Graph.consE_iff.2 R.cons).degrmax.1, R.velo, ho⟩

theorem separateFm_orFuel {b : Vgraph} (R : FmReady b) {env : SfEnv} (ho : GainsOk env.order) {gg : Vgraph → M Vgraph} (hgg : Holds (gg b) (fun b' => SameProblem b b' ∧ Valid b')) {para : SfParam} (hm : 0 ≤ para.movenbr)
    (mat : Int) (fuel : Nat) : OrFuel (separateFm env gg para mat fuel b) (fun b' => SameProblem b b' ∧ Valid b') := by
  unfold separateFm
  have main : ∀ b1, FmReady b1 → OrFuel (sfMain env para mat fuel b1) (fun b' => SameProblem b1 b' ∧ Valid b') := fun b1 R1 =>
    (sfMain_fuel R1.valid R1.dwgt (R1.hyp ho) hm R1.full mat fuel).mono fun _ h => ⟨h.1, h.2.1⟩
  by_cases h0 : b.fronnbr = 0
  · rw [if_pos h0]
    by_cases h1 : env.absI b.comploaddlt ≤ mat
    · rw [if_pos h1, OrFuel_pure]
      exact ⟨SameProblem.refl b, R.valid⟩
    · rw [if_neg h1, OrFuel_bind]
      refine (OrFuel.of_holds hgg).mono ?_
      rintro b1 ⟨S1, V1⟩
      by_cases h2 : b1.fronnbr = 0
      · rw [if_pos h2, OrFuel_pure]
        exact ⟨S1, V1⟩
      · rw [if_neg h2]
        refine (main b1 (R.same S1 V1)).mono ?_
        rintro b2 ⟨S2, V2⟩
        exact ⟨S1.trans S2, V2⟩
  · rw [if_neg h0]
    exact main b R

end Scotch.Separ
