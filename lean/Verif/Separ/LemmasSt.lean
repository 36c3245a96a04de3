import Verif.Separ.LemmasBasic
import Verif.Separ.LemmasGp
import Verif.Separ.LemmasGg
import Verif.Separ.LemmasMl
import Verif.Separ.LemmasFm8
import Verif.Separ.LemmasBd6
import Verif.Separ.LemmasDf

/-! # Separation strategies: lemmas -/

set_option autoImplicit false
set_option linter.unusedSimpArgs false

namespace Scotch.Separ
open Graph

theorem Ready.next {b c : Vgraph} (R : Ready b) (h : SameProblem b c) (hv : Valid c) : Ready c :=
  ⟨by rw [h.s]; exact R.cons, h.alloc R.alloc, hv, by rw [h.s]; exact R.base, by rw [h.s]; exact R.size, by rw [h.dwgt.1, h.dwgt.2]; exact R.dwgt⟩

theorem stSave_holds {env : SEnv} {p : Path} {b : Vgraph} (R : Ready b) : Holds (storeSave b (stInit env p b)) (Saved b) := by
  have hn := R.size
  exact storeSave_holds (consE_iff.2 R.cons) R.alloc R.valid (by unfold stInit storeInit; dsimp only; omega) (by unfold stInit storeInit; dsimp only; omega)

/-- Graphs of a class, with at least two vertices if `anch`. -/
def AnchCls (anch : Bool) (cls : Graph → Prop) (g : Graph) : Prop := cls g ∧ (anch = true → 2 ≤ g.vertnbr)

theorem SepMethod.weaken {cls cls' : Graph → Prop} {tot sure : Bool} {f : Vgraph → M (Int × Vgraph)} (h : ∀ g, cls' g → cls g) (hf : SepMethod cls tot sure f) : SepMethod cls' tot sure f :=
  fun b R hb => hf b R (h _ hb)

theorem separateSt_meetsA {cls : Graph → Prop} {tot : Bool} {env : SEnv} (he : env.Ok cls) (fuel : Nat) (st : SStrat) : ∀ {sure anch : Bool}, SGoodA cls tot sure anch st → ∀ p, SepMethod (AnchCls anch cls) tot sure (separateSt env fuel st p) := by
  induction st with
  | empty =>
    intro sure anch _ p b R hcls
    unfold separateSt
    rw [Meets_pure]
    exact ⟨SameProblem.refl b, fun _ => rfl, fun _ => R.valid⟩
  | zr =>
    intro sure anch _ p b R hcls
    unfold separateSt
    rw [Meets_bind]
    refine (Meets.of_holds (zr_holds (consE_iff.2 R.cons) R.alloc R.valid)).mono ?_
    rintro b' ⟨h1, h2, _⟩
    rw [Meets_pure]
    exact ⟨h1, fun _ => rfl, fun _ => h2⟩
  | gp n =>
    intro sure anch _ p b R hcls
    unfold separateSt
    rw [Meets_bind]
    refine (Meets.of_holds (gp_holds (consE_iff.2 R.cons) R.alloc R.valid R.dwgt.1 R.dwgt.2 (env.junk p) n)).mono ?_
    rintro b' ⟨h1, h2⟩
    rw [Meets_pure]
    exact ⟨h1, fun _ => rfl, fun _ => h2⟩
  | gg n =>
    intro sure anch _ p b R hcls
    unfold separateSt
    rw [Meets_bind]
    refine (Meets.of_holds (gg_holds (consE_iff.2 R.cons) R.alloc R.valid R.dwgt.2 n (fun _ => by have := R.size; omega) (fun k _ _ => he.gg p b k R))).mono ?_
    rintro b' ⟨h1, h2⟩
    rw [Meets_pure]
    exact ⟨h1, fun _ => rfl, fun _ => h2⟩
  | fm para =>
    intro sure anch hg p b R hcls
    obtain ⟨g1, g2, g3⟩ := hg
    subst g1
    unfold separateSt
    rw [Meets_bind]
    have hF := g3 b.s hcls.1
    have hgg : Holds (separateGg (env.gg p b) 4 b) (fun b' => SameProblem b b' ∧ Valid b') :=
      gg_holds (consE_iff.2 R.cons) R.alloc R.valid R.dwgt.2 4 (fun _ => by have := R.size; omega) (fun k _ _ => he.gg p b k R)
    refine Meets.mono (P := fun b' => SameProblem b b' ∧ Valid b')
      (show OrFuel _ _ from separateFm_orFuel ⟨R.cons, R.alloc, R.valid, R.base, R.dwgt.2, hF.velo, hF.full⟩ (env := ⟨env.fmJunk p, env.order p, env.absI⟩) (he.order p) hgg g2 (env.mat p b) fuel) ?_
    rintro b' ⟨h1, h2⟩
    rw [Meets_pure]
    exact ⟨h1, fun _ => rfl, fun _ => h2⟩
  | df para =>
    intro sure anch hg p b R hcls
    unfold separateSt
    have h2 : 2 ≤ b.s.vertnbr := by
      rcases hg with h | h
      · exact hcls.2 h
      · exact h _ hcls.1
    rw [Meets_bind]
    refine (Meets.of_holds (separateDf_holds (consE_iff.2 R.cons) R.alloc h2 (env.df p) para)).mono ?_
    rintro b' ⟨h1, h2⟩
    rw [Meets_pure]
    exact ⟨h1, fun _ => rfl, fun _ => h2⟩
  | ml asc low iha ihl =>
    intro sure anch hg p b R hcls
    obtain ⟨ga, gl⟩ := hg
    unfold separateSt
    have := R.size
    have w : ∀ g, cls g → AnchCls false cls g := fun g h => ⟨h, fun h => by cases h⟩
    exact separateMl2_meets he (fun q => (iha ga q).weaken w) (fun q => (ihl gl q).weaken w) _ p b R.pre hcls.1 (by push_cast; omega)
  | bd distmax bnd org ihb iho =>
    intro sure anch hg p
    obtain ⟨gb, go, gc⟩ := hg
    intro b R hcls
    unfold separateSt
    exact separateBd_meets (ihb gb _) (iho go _) (fun g g' h n => ⟨gc g g' h.1 n, fun _ => n.two⟩) _ distmax b R hcls
  | vw fails =>
    intro sure anch hg p b R hcls
    unfold separateSt
    rw [Meets_pure]
    refine ⟨SameProblem.refl b, fun hs => ?_, fun _ => R.valid⟩
    rw [hg hs p]; rfl
  | concat s t ihs iht =>
    intro sure anch hg p b R hcls
    obtain ⟨gs, gt⟩ := hg
    unfold separateSt
    rw [Meets_bind]
    refine Meets.mono (ihs gs _ b R hcls) ?_
    rintro ⟨o, b1⟩ ⟨h1, h2, h3⟩
    dsimp only at h1 h2 h3 ⊢
    by_cases ho : o = 0
    · rw [if_pos ho]
      refine Meets.mono (iht gt _ b1 (R.next h1 (h3 ho)) (by rw [h1.s]; exact hcls)) ?_
      rintro r ⟨k1, k2, k3⟩
      exact ⟨h1.trans k1, k2, k3⟩
    · rw [if_neg ho, Meets_pure]
      exact ⟨h1, h2, fun h => absurd h ho⟩
  | cond c s t ihs iht =>
    intro sure anch hg p b R hcls
    obtain ⟨gc, gs, gt⟩ := hg
    unfold separateSt
    cases hcb : c p b with
    | none =>
      dsimp only
      rw [Meets_pure]
      exact ⟨SameProblem.refl b, fun hs => absurd hcb (gc hs p b), fun h => by dsimp only at h; omega⟩
    | some x =>
      cases x with
      | true => exact ihs gs _ b R hcls
      | false => exact iht gt _ b R hcls
  | cond1 c s ihs =>
    intro sure anch hg p b R hcls
    obtain ⟨gc, gs⟩ := hg
    unfold separateSt
    cases hcb : c p b with
    | none =>
      dsimp only
      rw [Meets_pure]
      exact ⟨SameProblem.refl b, fun hs => absurd hcb (gc hs p b), fun h => by dsimp only at h; omega⟩
    | some x =>
      cases x with
      | true => exact ihs gs _ b R hcls
      | false =>
        dsimp only
        rw [Meets_pure]
        exact ⟨SameProblem.refl b, fun _ => rfl, fun _ => R.valid⟩
  | select s t ihs iht =>
    intro sure anch hg p b R hcls
    obtain ⟨gs, gt⟩ := hg
    have hE := consE_iff.2 R.cons
    unfold separateSt
    rw [Meets_bind]
    refine Meets.mono (Meets.of_holds <| stSave_holds R) ?_
    intro s1 hs1
    rw [Meets_bind]
    refine Meets.mono (ihs gs _ b R hcls) ?_
    rintro ⟨o, b1⟩ ⟨h1, _, h3⟩
    dsimp only at h1 h3
    rw [Meets_bind]
    refine Meets.mono (P := fun r => SameProblem b r.1 ∧ Valid r.1 ∧ ∃ c, SameProblem b c ∧ Valid c ∧ Saved c r.2) ?_ ?_
    · unfold selFirst
      dsimp only
      by_cases ho : o = 0
      · rw [if_neg (fun h => h ho), Meets_bind]
        have R1 := R.next h1 (h3 ho)
        refine Meets.mono (Meets.of_holds <| stSave_holds R1) ?_
        intro s0 hs0
        rw [Meets_bind]
        refine Meets.mono (Meets.of_holds <| storeUpdt_holds hE R.alloc R.valid hs1 h1) ?_
        rintro b2 ⟨k1, k2, _⟩
        rw [Meets_pure]
        exact ⟨k2, k1, b1, h1, h3 ho, hs0⟩
      · rw [if_pos ho, Meets_bind]
        refine Meets.mono (Meets.of_holds <| storeUpdt_holds hE R.alloc R.valid hs1 h1) ?_
        rintro b2 ⟨k1, k2, _⟩
        rw [Meets_bind]
        refine Meets.mono (Meets.of_holds <| stSave_holds (R.next k2 k1)) ?_
        intro s0 hs0
        rw [Meets_pure]
        exact ⟨k2, k1, b2, k2, k1, hs0⟩
    · rintro ⟨b2, s0⟩ ⟨k1, k2, c, c1, c2, c3⟩
      dsimp only at k1 k2 c3 ⊢
      rw [Meets_bind]
      refine Meets.mono (iht gt _ b2 (R.next k1 k2) (by rw [k1.s]; exact hcls)) ?_
      rintro ⟨o2, b3⟩ ⟨q1, _, q3⟩
      dsimp only at q1 q3 ⊢
      have q1' := k1.trans q1
      rw [Meets_bind]
      refine Meets.mono (P := fun r => SameProblem b r ∧ Valid r) ?_ ?_
      · by_cases ho : o2 = 0
        · rw [if_neg (fun h => h ho), Meets_pure]
          exact ⟨q1', q3 ho⟩
        · rw [if_pos ho]
          refine Meets.mono (Meets.of_holds <| storeUpdt_holds hE R.alloc R.valid hs1 q1') ?_
          rintro b4 ⟨m1, m2, _⟩
          exact ⟨m2, m1⟩
      · rintro b4 ⟨m1, m2⟩
        rw [Meets_ite]
        refine ⟨fun _ => ?_, fun _ => ?_⟩
        · rw [Meets_bind]
          have Rc := R.next c1 c2
          have hcb : SameProblem c b4 := by
            obtain ⟨a1, ⟨a2, a3, a4, a5⟩, a6, a7⟩ := c1
            obtain ⟨d1, ⟨d2, d3, d4, d5⟩, d6, d7⟩ := m1
            exact ⟨d1.trans a1.symm, ⟨d2.trans a2.symm, d3.trans a3.symm, d4.trans a4.symm, d5.trans a5.symm⟩, d6.trans a6.symm, d7.trans a7.symm⟩
          refine Meets.mono (Meets.of_holds <| storeUpdt_holds (consE_iff.2 Rc.cons) Rc.alloc Rc.valid c3 hcb) ?_
          rintro b5 ⟨m3, m4, _⟩
          rw [Meets_pure]
          exact ⟨c1.trans m4, fun _ => rfl, fun _ => m3⟩
        · rw [Meets_pure]
          exact ⟨m1, fun _ => rfl, fun _ => m2⟩
  | ext f =>
    intro sure anch hg p b R hcls
    unfold separateSt
    exact hg p b R hcls.1

theorem separateSt_meets {cls : Graph → Prop} {tot : Bool} {env : SEnv} (he : env.Ok cls) (fuel : Nat) (st : SStrat) {sure : Bool} (hg : SGood cls tot sure st) (p : Path) : SepMethod cls tot sure (separateSt env fuel st p) :=
  (separateSt_meetsA he fuel st hg p).weaken fun _ h => ⟨h, fun h => by cases h⟩

end Scotch.Separ
