import Verif.Msep.ModelSt
import Verif.Msep.Lemmas
import Verif.Bipart.LemmasCheck

/-! # Separation of meshes: strategies -/

set_option autoImplicit false
set_option linter.unusedSimpArgs false

namespace Scotch.Msep
open Bipart (copyN copyN_holds)

variable {b c : Vmesh}

/-- What a store holds after a separation was saved to it. -/
structure Saved (b : Vmesh) (st : Store) : Prop where
  esize : st.ecmpsize0 = b.ecmpsize0 ∧ st.ecmpsize1 = b.ecmpsize1
  nsize : st.ncmpsize0 = b.ncmpsize0 ∧ st.ncmpsize1 = b.ncmpsize1 ∧ st.fronnbr = b.fronnbr
  load : st.ncmpload0 = b.ncmpload0 ∧ st.ncmpload1 = b.ncmpload1 ∧ st.ncmpload2 = b.ncmpload2 ∧ st.ncmploaddlt = b.ncmploaddlt
  fron : (st.frontab.lo = 0 ∧ st.frontab.hi = b.m.velmnbr + b.m.vnodnbr) ∧ ∀ i, 0 ≤ i → i < b.fronnbr → st.frontab.get i = b.frontab.get i
  part : (st.parttab.lo = 0 ∧ st.parttab.hi = b.m.velmnbr + b.m.vnodnbr) ∧ ∀ i, 0 ≤ i → i < b.m.velmnbr + b.m.vnodnbr → st.parttab.get i = b.parttax.get (b.m.baseval + i)

theorem Valid.room (C : b.m.Consistent) (V : Valid b) : 0 ≤ b.fronnbr ∧ b.fronnbr ≤ b.m.vnodnbr := by
  have h1 := V.fron.1
  have c1 := C.vnodnbr
  have c2 := C.vnodnnd
  have := V.fron.le (lo := b.m.vnodbas) (hi := b.m.vnodnnd) (by omega) (fun v hv => hv.1)
  omega

theorem storeSave_holds (C : b.m.Consistent) (A : Alloc b) (V : Valid b) (junk : Int → Int) : Holds (storeSave junk b) (Saved b) := by
  have r := V.room C
  have a1 := A.part
  have a2 := A.fron
  have c1 := C.velmnbr
  have c2 := C.vnodnbr
  unfold storeSave
  dsimp only
  rw [Holds_bind]
  refine (copyN_holds (by omega) (Int.le_refl _) (by show 0 + b.fronnbr ≤ b.m.velmnbr + b.m.vnodnbr; omega) (by omega) (by omega)).mono ?_
  rintro f ⟨f1, f2, f3⟩
  rw [Holds_bind]
  refine (copyN_holds (by omega) (Int.le_refl _) (by show 0 + (b.m.velmnbr + b.m.vnodnbr) ≤ b.m.velmnbr + b.m.vnodnbr; omega) (by omega) (by omega)).mono ?_
  rintro p ⟨p1, p2, p3⟩
  rw [Holds_pure]
  refine ⟨⟨rfl, rfl⟩, ⟨rfl, rfl, rfl⟩, ⟨rfl, rfl, rfl, rfl⟩, ⟨⟨f1, f2⟩, fun i i1 i2 => ?_⟩, ⟨⟨p1, p2⟩, fun i i1 i2 => ?_⟩⟩
  · simpa using f3 i i1 i2
  · simpa using p3 i i1 i2

/-- The separation that was saved is put back. -/
structure Back (b c : Vmesh) : Prop where
  m : c.m = b.m
  alloc : Alloc c
  valid : Valid c
  fronnbr : c.fronnbr = b.fronnbr
  part : ∀ v, b.m.Elem v ∨ b.m.Node v → c.part v = b.part v

theorem storeUpdt_holds (C : b.m.Consistent) (V : Valid b) {st : Store} (S : Saved b st) (hm : c.m = b.m) (A : Alloc c) : Holds (storeUpdt c st) (Back b) := by
  have r := V.room C
  have a1 := A.part
  have a2 := A.fron
  have a3 := A.mesh
  rw [hm] at a1 a2 a3
  have c1 := C.velmnbr
  have c2 := C.vnodnbr
  obtain ⟨⟨v1, v2⟩, ⟨v3, v4, v5⟩, ⟨v6, v7, v8, v9⟩, ⟨⟨s1, s2⟩, s3⟩, ⟨⟨s4, s5⟩, s6⟩⟩ := S
  unfold storeUpdt
  rw [hm, Holds_bind]
  refine (copyN_holds (by omega) (by omega) (by omega) (by omega) (by omega)).mono ?_
  rintro f ⟨f1, f2, f3⟩
  rw [Holds_bind]
  refine (copyN_holds (by omega) (by omega) (by omega) (by omega) (by omega)).mono ?_
  rintro p ⟨p1, p2, p3⟩
  rw [Holds_pure]
  have hp : ∀ v, b.m.Elem v ∨ b.m.Node v → p.get v = b.part v := by
    intro v hv
    have hr := Mesh.in_range C hv
    have := p3 (v - b.m.baseval) (by omega) (by omega)
    rw [Int.zero_add, s6 _ (by omega) (by omega), show b.m.baseval + (v - b.m.baseval) = v by omega] at this
    exact this
  have hf : ∀ i, 0 ≤ i → i < b.fronnbr → f.get i = b.frontab.get i := by
    intro i i1 i2
    have := f3 i i1 (by omega)
    rw [Int.zero_add] at this
    rw [this, s3 i i1 i2]
  have es : ∀ k f, elemSum b.m p.get k f = elemSum b.m b.part k f := fun k f => sumI_congr fun v w1 w2 => by rw [hp v (Or.inl ⟨w1, w2⟩)]
  have ns : ∀ k f, nodeSum b.m p.get k f = nodeSum b.m b.part k f := fun k f => sumI_congr fun v w1 w2 => by rw [hp v (Or.inr ⟨w1, w2⟩)]
  refine ⟨rfl, ⟨a3, ?_, ?_⟩, ⟨?_, ?_, ?_, ?_, ?_, ?_, ?_, ?_, ?_, ?_, ?_, ?_, ?_, ?_⟩, v5, hp⟩
  · show p.lo ≤ b.m.baseval ∧ b.m.baseval + b.m.velmnbr + b.m.vnodnbr ≤ p.hi
    omega
  · show f.lo ≤ 0 ∧ b.m.vnodnbr ≤ f.hi
    omega
  · intro n hn
    show p.get n = 0 ∨ p.get n = 1 ∨ p.get n = 2
    rw [hp n (Or.inr hn)]
    exact V.node n hn
  · intro e he
    show p.get e = 0 ∨ p.get e = 1
    rw [hp e (Or.inl he)]
    exact V.elem e he
  · intro e n he hn
    show p.get n = 2 ∨ p.get n = p.get e
    rw [hp e (Or.inl he), hp n (Or.inr (C.nodes e he n hn).1)]
    exact V.apart e n he hn
  · intro e he hn
    show p.get e = 0
    rw [hp e (Or.inl he)]
    exact V.alone e he hn
  · exact (v1.trans V.esize0).trans (es 0 _).symm
  · exact (v2.trans V.esize1).trans (es 1 _).symm
  · exact (v3.trans V.nsize0).trans (ns 0 _).symm
  · exact (v4.trans V.nsize1).trans (ns 1 _).symm
  · exact (v5.trans V.nsize2).trans (ns 2 _).symm
  · exact (v6.trans V.load0).trans (ns 0 _).symm
  · exact (v7.trans V.load1).trans (ns 1 _).symm
  · exact (v8.trans V.load2).trans (ns 2 _).symm
  · show st.ncmploaddlt = st.ncmpload0 - st.ncmpload1
    rw [v9, v6, v7]
    exact V.delta
  · show Enum f st.fronnbr (fun n => b.m.Node n ∧ p.get n = 2)
    rw [v5]
    exact (V.fron.agree hf).congr fun v => and_congr_right fun hv => by rw [hp v (Or.inr hv)]

theorem separateSt_select (env : MEnv) (s t : MStrat) (p : Path) (b : Vmesh) : separateSt env (.select s t) p b = (do
    let s1 ← storeSave (env.junk (3 :: p)) b
    let (_, b) ← separateSt env s (1 :: p) b
    let s0 ← storeSave (env.junk (4 :: p)) b
    let b ← storeUpdt b s1
    let (_, b) ← separateSt env t (2 :: p) b
    selBest env s0 b) := rfl

/-- Selection. -/
theorem select_meets {ok : Mesh → Prop} {tot : Bool} {env : MEnv} {s t : MStrat} (hs : ∀ p, MMethod ok tot true (separateSt env s p)) (ht : ∀ p, MMethod ok tot true (separateSt env t p)) (p : Path) (hk : ok b.m) (C : b.m.Consistent) (A : Alloc b)
    (V : Valid b) : Meets tot (separateSt env (.select s t) p b) (fun r => r.1 = 0 ∧ r.2.m = b.m ∧ Alloc r.2 ∧ Valid r.2 ∧ ∃ r1 b2 r2, separateSt env s (1 :: p) b = .ok r1 ∧ Back b b2 ∧ separateSt env t (2 :: p) b2 = .ok r2 ∧
      r.2.fronnbr ≤ r1.2.fronnbr ∧ r.2.fronnbr ≤ r2.2.fronnbr) := by
  rw [separateSt_select, Meets_bind]
  refine (Meets.of_holds (storeSave_holds C A V _)).mono ?_
  intro s1 S1
  rw [Meets_bind]
  refine ((hs (1 :: p) b hk C A V).eqn).mono ?_
  rintro ⟨o1, b1⟩ ⟨e1, m1, A1, z1, V1⟩
  dsimp only at m1 A1 z1 V1 ⊢
  have V1 := V1 (z1 rfl)
  have C1 : b1.m.Consistent := by rw [m1]; exact C
  rw [Meets_bind]
  refine (Meets.of_holds (storeSave_holds C1 A1 V1 _)).mono ?_
  intro s0 S0
  rw [Meets_bind]
  refine (Meets.of_holds (storeUpdt_holds C V S1 m1 A1)).mono ?_
  intro b2 B2
  rw [Meets_bind]
  refine ((ht (2 :: p) b2 (by rw [B2.m]; exact hk) (by rw [B2.m]; exact C) B2.alloc B2.valid).eqn).mono ?_
  rintro ⟨o3, b3⟩ ⟨e3, m3, A3, z3, V3⟩
  dsimp only at m3 A3 z3 V3 ⊢
  have V3 := V3 (z3 rfl)
  have hn : s0.fronnbr = b1.fronnbr := S0.nsize.2.2
  unfold selBest
  rw [Meets_ite]
  refine ⟨fun h => ?_, fun h => ?_⟩
  · rw [Meets_bind]
    refine (Meets.of_holds (storeUpdt_holds C1 V1 S0 (by rw [m3, B2.m, m1]) A3)).mono ?_
    intro b4 B4
    rw [Meets_pure]
    have := B4.fronnbr
    exact ⟨rfl, B4.m.trans m1, B4.alloc, B4.valid, _, b2, _, e1, B2, e3, by dsimp only; omega, by dsimp only; omega⟩
  · rw [Meets_pure]
    exact ⟨rfl, m3.trans B2.m, A3, V3, _, b2, _, e1, B2, e3, by dsimp only; omega, by dsimp only; omega⟩

theorem separateSt_meets {ok : Mesh → Prop} {cls : Graph → Prop} {tot : Bool} {env : MEnv} (he : env.Ok ok cls) (st : MStrat) : ∀ {sure : Bool}, MGood ok cls tot sure st → ∀ p, MMethod ok tot sure (separateSt env st p) := by
  induction st with
  | empty =>
    intro sure _ p b _ _ A V
    unfold separateSt
    rw [Meets_pure]
    exact ⟨rfl, A, fun _ => rfl, fun _ => V⟩
  | zr =>
    intro sure _ p b _ C A V
    unfold separateSt separateZr
    rw [Meets_bind, Meets_ite]
    refine ⟨fun _ => ?_, fun _ => ?_⟩
    · refine (Meets.of_holds (zero_holds C A)).mono ?_
      rintro b' ⟨h1, h2, h3, -⟩
      rw [Meets_pure]
      exact ⟨h1, h2, fun _ => rfl, fun _ => h3⟩
    · rw [Meets_pure, Meets_pure]
      exact ⟨rfl, A, fun _ => rfl, fun _ => V⟩
  | gr sep =>
    intro sure hg p b hk C A V
    unfold separateSt
    rw [he.wght p]
    exact separateGr_meets (hg p) ⟨C, A.mesh, he.base _ hk, he.deg _ hk, he.key _ hk⟩ A V (he.node _ hk) (fun g h => he.cls _ g hk h) _
  | concat s t ihs iht =>
    intro sure hg p b hk C A V
    unfold separateSt
    rw [Meets_bind]
    refine (ihs hg.1 _ b hk C A V).mono ?_
    rintro ⟨o, b1⟩ ⟨h1, h2, h3, h4⟩
    dsimp only at h1 h2 h3 h4 ⊢
    rw [Meets_ite]
    refine ⟨fun h => ?_, fun h => ?_⟩
    · refine (iht hg.2 _ b1 (by rw [h1]; exact hk) (by rw [h1]; exact C) h2 (h4 h)).mono ?_
      rintro r ⟨k1, k2, k3, k4⟩
      exact ⟨k1.trans h1, k2, k3, k4⟩
    · rw [Meets_pure]
      exact ⟨h1, h2, h3, h4⟩
  | cond c s t ihs iht =>
    intro sure hg p b hk C A V
    unfold separateSt
    cases hcb : c p b with
    | none =>
      dsimp only
      rw [Meets_pure]
      exact ⟨rfl, A, fun hs => absurd hcb (hg.1 hs p b), fun h => absurd h (show ¬ (1 : Int) = 0 by decide)⟩
    | some x =>
      cases x
      · exact iht hg.2.2 _ b hk C A V
      · exact ihs hg.2.1 _ b hk C A V
  | cond1 c s ihs =>
    intro sure hg p b hk C A V
    unfold separateSt
    cases hcb : c p b with
    | none =>
      dsimp only
      rw [Meets_pure]
      exact ⟨rfl, A, fun hs => absurd hcb (hg.1 hs p b), fun h => absurd h (show ¬ (1 : Int) = 0 by decide)⟩
    | some x =>
      cases x
      · dsimp only
        rw [Meets_pure]
        exact ⟨rfl, A, fun _ => rfl, fun _ => V⟩
      · exact ihs hg.2 _ b hk C A V
  | select s t ihs iht =>
    intro sure hg p b hk C A V
    refine (select_meets (fun q => ihs hg.1 q) (fun q => iht hg.2 q) p hk C A V).mono ?_
    rintro r ⟨h1, h2, h3, h4, -⟩
    exact ⟨h2, h3, fun _ => h1, fun _ => h4⟩
  | ext f =>
    intro sure hg p b hk C A V
    unfold separateSt
    exact hg p b hk C A V

end Scotch.Msep
