import Verif.Separ.LemmasSt

/-! # Selection of the best of two separations -/

set_option autoImplicit false
set_option linter.unusedSimpArgs false

namespace Scotch.Separ
open Graph

theorem Valid.load_total {b : Vgraph} (C : b.s.Consistent) (V : Valid b) : b.s.velosum - b.compload0 - b.compload1 = b.compload2 := by
  have h1 := over_total (g := b.s) V.parts b.s.velo
  have h2 := C.velosum
  rw [V.load0, V.load1, V.load2]
  omega

theorem same_load2 {b c : Vgraph} (V : Valid b) (W : Valid c) (h : SameProblem b c) (hp : ∀ v, b.s.Vertex v → c.part v = b.part v) : c.compload2 = b.compload2 := by
  rw [V.load2, W.load2, h.s]
  exact Bipart.over_congr (g := b.s) 2 hp (fun _ _ => rfl)

theorem select_meets {cls : Graph → Prop} {tot : Bool} {env : SEnv} (he : env.Ok cls) (fuel : Nat) {s t : SStrat} (gs : SGood cls tot false s) (gt : SGood cls tot false t) (p : Path) {b : Vgraph} (R : Ready b) (hcls : cls b.s) :
    Meets tot (separateSt env fuel (.select s t) p b) (fun r => r.1 = 0 ∧ ∃ r1 b2 r2, separateSt env fuel s (1 :: p) b = .ok r1 ∧ SameProblem b b2 ∧ Valid b2 ∧ (∀ v, b.s.Vertex v → b2.part v = b.part v) ∧
      separateSt env fuel t (2 :: p) b2 = .ok r2 ∧ (r1.1 = 0 → r.2.compload2 ≤ r1.2.compload2) ∧ (r2.1 = 0 → r.2.compload2 ≤ r2.2.compload2) ∧ (r1.1 ≠ 0 ∨ r2.1 ≠ 0 → r.2.compload2 ≤ b.compload2)) := by
  have hE := consE_iff.2 R.cons
  rw [separateSt]
  rw [Meets_bind]
  refine Meets.mono (Meets.of_holds <| stSave_holds R) ?_
  intro s1 hs1
  rw [Meets_bind]
  refine Meets.mono (separateSt_meets he fuel s gs (1 :: p) b R hcls).eqn ?_
  rintro ⟨o, b1⟩ ⟨e1, h1, _, h3⟩
  dsimp only at h1 h3
  rw [Meets_bind]
  refine Meets.mono (P := fun r => SameProblem b r.1 ∧ Valid r.1 ∧ (∀ v, b.s.Vertex v → r.1.part v = b.part v) ∧ ∃ c, SameProblem b c ∧ Valid c ∧ Saved c r.2 ∧ (o = 0 → c = b1) ∧ (o ≠ 0 → c.compload2 = b.compload2)) ?_ ?_
  · unfold selFirst
    dsimp only
    by_cases ho : o = 0
    · rw [if_neg (fun h => h ho), Meets_bind]
      have R1 := R.next h1 (h3 ho)
      refine Meets.mono (Meets.of_holds <| stSave_holds R1) ?_
      intro s0 hs0
      rw [Meets_bind]
      refine Meets.mono (Meets.of_holds <| storeUpdt_holds hE R.alloc R.valid hs1 h1) ?_
      rintro b2 ⟨k1, k2, k3⟩
      rw [Meets_pure]
      exact ⟨k2, k1, k3, b1, h1, h3 ho, hs0, fun _ => rfl, fun h => absurd ho h⟩
    · rw [if_pos ho, Meets_bind]
      refine Meets.mono (Meets.of_holds <| storeUpdt_holds hE R.alloc R.valid hs1 h1) ?_
      rintro b2 ⟨k1, k2, k3⟩
      rw [Meets_bind]
      refine Meets.mono (Meets.of_holds <| stSave_holds (R.next k2 k1)) ?_
      intro s0 hs0
      rw [Meets_pure]
      exact ⟨k2, k1, k3, b2, k2, k1, hs0, fun h => absurd h ho, fun _ => same_load2 R.valid k1 k2 k3⟩
  · rintro ⟨b2, s0⟩ ⟨k1, k2, k3, c, c1, c2, c3, c4, c5⟩
    dsimp only at k1 k2 k3 c3 ⊢
    rw [Meets_bind]
    refine Meets.mono (separateSt_meets he fuel t gt (2 :: p) b2 (R.next k1 k2) (by rw [k1.s]; exact hcls)).eqn ?_
    rintro ⟨o2, b3⟩ ⟨e2, q1, _, q3⟩
    dsimp only at q1 q3 ⊢
    have q1' := k1.trans q1
    rw [Meets_bind]
    refine Meets.mono (P := fun r => SameProblem b r ∧ Valid r ∧ (o2 = 0 → r = b3) ∧ (o2 ≠ 0 → r.compload2 = b.compload2)) ?_ ?_
    · by_cases ho : o2 = 0
      · rw [if_neg (fun h => h ho), Meets_pure]
        exact ⟨q1', q3 ho, fun _ => rfl, fun h => absurd ho h⟩
      · rw [if_pos ho]
        refine Meets.mono (Meets.of_holds <| storeUpdt_holds hE R.alloc R.valid hs1 q1') ?_
        rintro b4 ⟨m1, m2, m3⟩
        exact ⟨m2, m1, fun h => absurd h ho, fun _ => same_load2 R.valid m1 m2 m3⟩
    · rintro b4 ⟨m1, m2, m3, m4⟩
      have Rc := R.next c1 c2
      have e4 : b4.s.velosum - s0.compload0 - s0.compload1 = c.compload2 := by
        rw [m1.s, ← c1.s, c3.vals.2.2.1, c3.vals.2.2.2.1]
        exact Valid.load_total Rc.cons c2
      rw [e4]
      have hcb : SameProblem c b4 := by
        obtain ⟨a1, ⟨a2, a3, a4, a5⟩, a6, a7⟩ := c1
        obtain ⟨d1, ⟨d2, d3, d4, d5⟩, d6, d7⟩ := m1
        exact ⟨d1.trans a1.symm, ⟨d2.trans a2.symm, d3.trans a3.symm, d4.trans a4.symm, d5.trans a5.symm⟩, d6.trans a6.symm, d7.trans a7.symm⟩
      have fin : ∀ r : Vgraph, r.compload2 ≤ c.compload2 → r.compload2 ≤ b4.compload2 → (0 : Int) = 0 ∧ ∃ r1 b2 r2, separateSt env fuel s (1 :: p) b = .ok r1 ∧ SameProblem b b2 ∧ Valid b2 ∧
          (∀ v, b.s.Vertex v → b2.part v = b.part v) ∧ separateSt env fuel t (2 :: p) b2 = .ok r2 ∧ (r1.1 = 0 → r.compload2 ≤ r1.2.compload2) ∧ (r2.1 = 0 → r.compload2 ≤ r2.2.compload2) ∧
          (r1.1 ≠ 0 ∨ r2.1 ≠ 0 → r.compload2 ≤ b.compload2) := by
        intro r g1 g2
        refine ⟨rfl, (o, b1), b2, (o2, b3), e1, k1, k2, k3, e2, fun h => c4 h ▸ g1, fun h => m3 h ▸ g2, ?_⟩
        rintro (h | h)
        · exact c5 h ▸ g1
        · exact m4 h ▸ g2
      rw [Meets_ite]
      refine ⟨fun hlt => ?_, fun hge => ?_⟩
      · rw [Meets_bind]
        refine Meets.mono (Meets.of_holds <| storeUpdt_holds (consE_iff.2 Rc.cons) Rc.alloc Rc.valid c3 hcb) ?_
        rintro b5 ⟨n3, n4, n5⟩
        rw [Meets_pure]
        have := same_load2 c2 n3 n4 n5
        exact fin b5 (by omega) (by omega)
      · rw [Meets_pure]
        exact fin b4 (by omega) (Int.le_refl _)

end Scotch.Separ
