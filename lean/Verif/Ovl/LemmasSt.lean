import Verif.Ovl.LemmasMl
import Verif.Separ.PropsSt
import Verif.Bipart.LemmasCheck

/-! # Partitioning with overlap: strategies -/

set_option autoImplicit false
set_option linter.unusedSimpArgs false

namespace Scotch.Ovl
open Graph Bipart

/-- A store holds a partition. -/
structure Saved (b : Wgraph) (st : Store) : Prop where
  nbr : st.partnbr = b.partnbr ∧ st.fronnbr = b.fronnbr ∧ st.fronload = b.fronload
  load : (st.compload.lo = 0 ∧ st.compload.hi = b.partnbr) ∧ ∀ i, 0 ≤ i → i < b.partnbr → st.compload.get i = b.compload.get i
  size : (st.compsize.lo = 0 ∧ st.compsize.hi = b.partnbr) ∧ ∀ i, 0 ≤ i → i < b.partnbr → st.compsize.get i = b.compsize.get i
  fron : (st.frontab.lo = 0 ∧ st.frontab.hi = b.s.vertnbr) ∧ ∀ i, 0 ≤ i → i < b.fronnbr → st.frontab.get i = b.frontab.get i
  part : (st.parttab.lo = 0 ∧ st.parttab.hi = b.s.vertnbr) ∧ ∀ i, 0 ≤ i → i < b.s.vertnbr → st.parttab.get i = b.parttax.get (b.s.baseval + i)
  room : 0 ≤ b.fronnbr ∧ b.fronnbr ≤ b.s.vertnbr

theorem storeSave_holds {b : Wgraph} (hb : Pre b) (hf : 0 ≤ b.fronnbr ∧ b.fronnbr ≤ b.s.vertnbr) (junk : Path → Int → Int) (st : Store) : Holds (storeSave b (storeInit b junk st)) (Saved b) := by
  unfold storeSave storeInit
  have a1 := hb.alloc.load
  have a2 := hb.alloc.size
  have a3 := hb.alloc.fron
  have a4 := hb.alloc.part
  have hn := hb.parts
  have hv := hb.size
  have hnn := hb.cons.vertnnd
  rw [Holds_bind]
  refine (copyN_holds (by omega) (Int.le_refl _) (by show 0 + b.partnbr ≤ b.partnbr; omega) (by omega) (by omega)).mono ?_
  rintro load ⟨l1, l2, l3⟩
  rw [Holds_bind]
  refine (copyN_holds (by omega) (Int.le_refl _) (by show 0 + b.partnbr ≤ b.partnbr; omega) (by omega) (by omega)).mono ?_
  rintro size ⟨s1, s2, s3⟩
  rw [Holds_bind]
  refine (copyN_holds (by omega) (Int.le_refl _) (by show 0 + b.fronnbr ≤ b.s.vertnbr; omega) (by omega) (by omega)).mono ?_
  rintro fron ⟨f1, f2, f3⟩
  rw [Holds_bind]
  refine (copyN_holds (by omega) (Int.le_refl _) (by show 0 + b.s.vertnbr ≤ b.s.vertnbr; omega) (by omega) (by omega)).mono ?_
  rintro part ⟨p1, p2, p3⟩
  rw [Holds_pure]
  refine ⟨⟨rfl, rfl, rfl⟩, ⟨⟨l1, l2⟩, fun i i1 i2 => ?_⟩, ⟨⟨s1, s2⟩, fun i i1 i2 => ?_⟩, ⟨⟨f1, f2⟩, fun i i1 i2 => ?_⟩, ⟨⟨p1, p2⟩, fun i i1 i2 => ?_⟩, hf⟩
  · simpa using l3 i i1 i2
  · simpa using s3 i i1 i2
  · simpa using f3 i i1 i2
  · simpa using p3 i i1 i2

theorem within_congr {g : Graph} (C : g.Consistent) {part part' : Int → Int} (h : ∀ v, g.Vertex v → part' v = part v) (k : Int) (f : Int → Int) : within g part' k f = within g part k f := by
  unfold within
  apply sumI_congr
  intro v v1 v2
  have e : Belongs g part' k v ↔ Belongs g part k v := by
    unfold Belongs
    rw [h v ⟨v1, v2⟩]
    refine or_congr Iff.rfl (and_congr Iff.rfl ?_)
    constructor
    · rintro ⟨p, hp, e⟩; exact ⟨p, hp, by rw [← h _ (C.inside v p ⟨v1, v2⟩ hp).1]; exact e⟩
    · rintro ⟨p, hp, e⟩; exact ⟨p, hp, by rw [h _ (C.inside v p ⟨v1, v2⟩ hp).1]; exact e⟩
  by_cases hb : Belongs g part k v
  · rw [if_pos hb, if_pos (e.2 hb)]
  · rw [if_neg hb, if_neg (fun h => hb (e.1 h))]

/-- Validity depends on the values of the arrays only. -/
theorem Valid.congr {b b' : Wgraph} (C : b.s.Consistent) (V : Valid b) (S : SameProblem b b') (hf : b'.fronnbr = b.fronnbr ∧ b'.fronload = b.fronload) (h1 : ∀ i, 0 ≤ i → i < b.partnbr → b'.compload.get i = b.compload.get i)
    (h2 : ∀ i, 0 ≤ i → i < b.partnbr → b'.compsize.get i = b.compsize.get i) (h3 : ∀ i, 0 ≤ i → i < b.fronnbr → b'.frontab.get i = b.frontab.get i) (h4 : ∀ v, b.s.Vertex v → b'.part v = b.part v) : Valid b' := by
  have es := S.s
  have en := S.partnbr
  refine ⟨⟨?_, ?_⟩, ?_, ?_, ?_, ?_⟩
  · rw [es, en]
    intro v hv
    rw [h4 v hv]
    exact V.parts.range v hv
  · rw [es]
    intro v p hv hp
    rw [h4 v hv, h4 _ (C.inside v p hv hp).1]
    exact V.parts.sep v p hv hp
  · rw [es, hf.1]
    exact (V.fron.agree (fun i i1 i2 => h3 i i1 i2)).congr fun v => and_congr_right fun hv => by rw [h4 v hv]
  · rw [es, hf.2, V.fronload]
    exact over_congr (g := b.s) (-1) (fun v hv => (h4 v hv).symm) (fun _ _ => rfl)
  · rw [es, en]
    intro k k1 k2
    rw [h1 k k1 k2, V.load k k1 k2]
    exact (within_congr C h4 k _).symm
  · rw [es, en]
    intro k k1 k2
    rw [h2 k k1 k2, V.size k k1 k2]
    exact (within_congr C h4 k _).symm

theorem storeUpdt_holds {b0 b : Wgraph} (hb : Pre b0) (S : SameProblem b0 b) {st : Store} {c : Wgraph} (Sc : SameProblem b0 c) (X : Saved c st) :
    Holds (storeUpdt b st) (fun b' => SameProblem b0 b' ∧ (Valid c → Valid b') ∧ b'.fronnbr = c.fronnbr ∧ b'.fronload = c.fronload ∧ ∀ v, b0.s.Vertex v → b'.part v = c.part v) := by
  have hbb := S.pre hb
  have hcc := Sc.pre hb
  unfold storeUpdt
  have a1 := hbb.alloc.load
  have a2 := hbb.alloc.size
  have a3 := hbb.alloc.fron
  have a4 := hbb.alloc.part
  have es : b.s = c.s := S.s.trans Sc.s.symm
  have en : b.partnbr = c.partnbr := S.partnbr.trans Sc.partnbr.symm
  have hn := hcc.parts
  have hv := hcc.size
  have hnn := hcc.cons.vertnnd
  have x1 := X.nbr
  have x2 := X.load.1
  have x3 := X.size.1
  have x4 := X.fron.1
  have x5 := X.part.1
  have x6 := X.room
  rw [en] at a1 a2
  have eb : b.s.baseval = c.s.baseval := by rw [es]
  have ev : b.s.vertnbr = c.s.vertnbr := by rw [es]
  have ee : b.s.vertnnd = c.s.vertnnd := by rw [es]
  rw [Holds_bind]
  refine (copyN_holds (by omega) (by omega) (by omega) (by omega) (by omega)).mono ?_
  rintro load ⟨l1, l2, l3⟩
  rw [Holds_bind]
  refine (copyN_holds (by omega) (by omega) (by omega) (by omega) (by omega)).mono ?_
  rintro size ⟨s1, s2, s3⟩
  rw [Holds_bind]
  refine (copyN_holds (by omega) (by omega) (by omega) (by omega) (by omega)).mono ?_
  rintro fron ⟨f1, f2, f3⟩
  rw [Holds_bind]
  refine (copyN_holds (by omega) (by omega) (by omega) (by omega) (by omega)).mono ?_
  rintro part ⟨p1, p2, p3⟩
  rw [Holds_pure]
  have hpart : ∀ v, c.s.Vertex v → part.get v = c.parttax.get v := by
    intro v hv
    have hv1 := hv.1
    have hv2 := hv.2
    have h1 := p3 (v - c.s.baseval) (by omega) (by omega)
    have h2 := X.part.2 (v - c.s.baseval) (by omega) (by omega)
    rw [show c.s.baseval + (v - c.s.baseval) = v by omega] at h2
    rw [show b.s.baseval + (v - c.s.baseval) = v by omega] at h1
    rw [h1, Int.zero_add, h2]
  have SP : SameProblem b { b with partnbr := st.partnbr, fronnbr := st.fronnbr, fronload := st.fronload, compload := load, compsize := size, frontab := fron, parttax := part } :=
    ⟨rfl, x1.1.trans en.symm, ⟨p1, p2⟩, ⟨f1, f2⟩, ⟨l1, l2⟩, ⟨s1, s2⟩⟩
  refine ⟨S.trans SP, fun V => ?_, x1.2.1, x1.2.2, fun v hv => hpart v (by rw [Sc.s]; exact hv)⟩
  have Scb : SameProblem c { b with partnbr := st.partnbr, fronnbr := st.fronnbr, fronload := st.fronload, compload := load, compsize := size, frontab := fron, parttax := part } := by
    have B := S.trans SP
    exact ⟨B.s.trans Sc.s.symm, B.partnbr.trans Sc.partnbr.symm, ⟨B.part.1.trans Sc.part.1.symm, B.part.2.trans Sc.part.2.symm⟩, ⟨B.fron.1.trans Sc.fron.1.symm, B.fron.2.trans Sc.fron.2.symm⟩,
      ⟨B.load.1.trans Sc.load.1.symm, B.load.2.trans Sc.load.2.symm⟩, ⟨B.size.1.trans Sc.size.1.symm, B.size.2.trans Sc.size.2.symm⟩⟩
  refine V.congr hcc.cons Scb ⟨x1.2.1, x1.2.2⟩ (fun i i1 i2 => ?_) (fun i i1 i2 => ?_) (fun i i1 i2 => ?_) hpart
  · have h := l3 i i1 (by omega)
    rw [Int.zero_add] at h
    exact h.trans (X.load.2 i i1 i2)
  · have h := s3 i i1 (by omega)
    rw [Int.zero_add] at h
    exact h.trans (X.size.2 i i1 i2)
  · have h := f3 i i1 (by omega)
    rw [Int.zero_add] at h
    exact h.trans (X.fron.2 i i1 i2)

theorem Valid.room {b : Wgraph} (hb : Pre b) (V : Valid b) : 0 ≤ b.fronnbr ∧ b.fronnbr ≤ b.s.vertnbr := by
  have hle := V.fron.le (lo := b.s.baseval) (hi := b.s.vertnnd) (by have := hb.cons.vertnnd; have := hb.cons.vertnbr; omega) (fun v hv => hv.1)
  have := V.fron.1
  have := hb.cons.vertnnd
  omega

variable {cls : Graph → Prop} {np : Int} {nul tot : Bool} {env : WEnv}

/-- A selection. -/
theorem select_holds (fuel : Nat) {s t : WStrat} {sure : Bool} (hs : ∀ p, PartMethod cls np nul tot sure true (partSt env fuel s p)) (ht : ∀ p, PartMethod cls np nul tot true true (partSt env fuel t p)) (p : Path) {b : Wgraph} (hb : Pre b) (hc : cls b.s)
    (hnp : b.partnbr = np) (V : Valid b) :
    Mt nul tot (partSt env fuel (.select s t) p b) (fun r => Res sure b r ∧ ∃ r1 b2 r2, partSt env fuel s (1 :: p) b = .ok r1 ∧ SameProblem b b2 ∧ Valid b2 ∧ (∀ v, b.s.Vertex v → b2.part v = b.part v) ∧
      partSt env fuel t (2 :: p) b2 = .ok r2 ∧ r.1 = r1.1 ∧ r.2.fronload ≤ r1.2.fronload ∧ r.2.fronload ≤ r2.2.fronload) := by
  rw [partSt, Mt_bind]
  refine (Mt.of_holds (storeSave_holds hb (V.room hb) _ _)).mono ?_
  intro s1 X1
  have h1 := hs (1 :: p) b hb hc hnp (fun _ => V)
  rw [Mt_bind]
  cases e1 : partSt env fuel s (1 :: p) b with
  | error e => rw [e1] at h1; cases e <;> exact h1
  | ok r1 =>
    rw [e1] at h1
    obtain ⟨o, b1⟩ := r1
    have R1 : Res sure b (o, b1) := h1
    have S1 : SameProblem b b1 := R1.same
    have hb1 : Pre b1 := S1.pre hb
    have rm : 0 ≤ b1.fronnbr ∧ b1.fronnbr ≤ b1.s.vertnbr := by
      by_cases ho : o = 0
      · exact (R1.valid ho).room hb1
      · have := R1.fron ho (V.room hb).1 (V.room hb).2
        rw [S1.s]; exact this
    change Mt nul tot (storeSave b1 _ >>= _) _
    rw [Mt_bind]
    refine (Mt.of_holds (storeSave_holds hb1 rm _ _)).mono ?_
    intro s0 X0
    rw [Mt_bind]
    refine (Mt.of_holds (storeUpdt_holds hb S1 (SameProblem.refl b) X1)).mono ?_
    rintro b2 ⟨S2, V2, -, -, q2⟩
    have V2 := V2 V
    have h2 := ht (2 :: p) b2 (S2.pre hb) (by rw [S2.s]; exact hc) (by rw [S2.partnbr]; exact hnp) (fun _ => V2)
    rw [Mt_bind]
    cases e2 : partSt env fuel t (2 :: p) b2 with
    | error e => rw [e2] at h2; cases e <;> exact h2
    | ok r2 =>
      rw [e2] at h2
      obtain ⟨o2, b3⟩ := r2
      have R2 : Res true b2 (o2, b3) := h2
      have S3 : SameProblem b b3 := S2.trans R2.same
      have ho2 : o2 = 0 := R2.sure rfl
      have V3 : Valid b3 := R2.valid ho2
      change Mt nul tot (selEnd o o2 b3 s0) _
      unfold selEnd
      have x := X0.nbr.2.2
      rw [x]
      by_cases hlt : (o = 0 ∨ o2 = 0) ∧ b1.fronload < b3.fronload
      · rw [if_pos hlt, Mt_bind]
        refine (Mt.of_holds (storeUpdt_holds hb S3 S1 X0)).mono ?_
        rintro b4 ⟨S4, V4, n4, l4, -⟩
        refine ⟨⟨S4, R1.sure, fun h => V4 (R1.valid h), fun h k1 k2 => ?_⟩, _, b2, _, rfl, S2, V2, q2, e2, rfl, ?_, ?_⟩
        · show 0 ≤ b4.fronnbr ∧ b4.fronnbr ≤ b.s.vertnbr
          rw [n4, ← S1.s]; exact rm
        · show b4.fronload ≤ b1.fronload
          omega
        · show b4.fronload ≤ b3.fronload
          omega
      · rw [if_neg hlt]
        refine ⟨⟨S3, R1.sure, fun _ => V3, fun h k1 k2 => ?_⟩, _, b2, _, rfl, S2, V2, q2, e2, rfl, ?_, ?_⟩
        · have := V3.room (S3.pre hb)
          rw [S3.s] at this
          exact this
        · show b3.fronload ≤ b1.fronload
          have : ¬ b1.fronload < b3.fronload := fun h => hlt ⟨Or.inr ho2, h⟩
          omega
        · exact Int.le_refl _

theorem partZr_holds {b : Wgraph} (hb : Pre b) (V : Valid b) : Holds (partZr b) (fun b' => SameProblem b b' ∧ Valid b') := by
  unfold partZr
  have a2 := hb.alloc.size
  have hn := hb.parts
  rw [Arr.rd_ok _ (by omega) (by omega), ok_bind, Holds_ite]
  refine ⟨fun _ => ?_, fun _ => ⟨SameProblem.refl b, V⟩⟩
  exact (zero_holds hb.cons hb.alloc hn).mono (fun b' h => ⟨h.1, h.2.1⟩)

theorem partSt_holds (he : env.Ok cls) (fuel : Nat) : ∀ (s : WStrat) (sure init : Bool), WGood cls env np nul tot sure init s → ∀ p, PartMethod cls np nul tot sure init (partSt env fuel s p) := by
  intro s
  induction s with
  | empty =>
    intro sure init hg p b hb hc hnp hi
    unfold partSt
    exact ⟨SameProblem.refl b, fun _ => rfl, fun _ => hi hg, fun h => absurd rfl h⟩
  | zr =>
    intro sure init hg p b hb hc hnp hi
    unfold partSt
    rw [Mt_bind]
    refine (Mt.of_holds (partZr_holds hb (hi hg))).mono ?_
    rintro b' ⟨S, V⟩
    exact ⟨S, fun _ => rfl, fun _ => V, fun h => absurd rfl h⟩
  | rb sep =>
    intro sure init hg p b hb hc hnp hi
    obtain ⟨g1, scls, g2, g3, g4, g5⟩ := hg
    unfold partSt
    exact partRb_holds g2 (env := { env.rb with sep := fun q => Separ.separateSt env.sep fuel sep q }) he.al (fun q => Separ.C29_strategy scls tot env.sep g4 fuel sure sep g5 q) he.order _ p hb (g3 _ hc) (by rw [hnp]; exact g1)
  | ml asc low iha ihl =>
    intro sure init hg p b hb hc hnp hi
    unfold partSt
    have := hb.size
    exact partMl2_holds he (fun q => iha sure true hg.1 q) (fun q => ihl sure true hg.2 q) _ p b hb hc hnp (by push_cast; omega)
  | concat s t ihs iht =>
    intro sure init hg p b hb hc hnp hi
    unfold partSt
    rw [Mt_bind]
    refine (ihs sure init hg.1 (1 :: p) b hb hc hnp hi).mono ?_
    rintro ⟨o, b1⟩ R
    dsimp only
    by_cases ho : o = 0
    · rw [if_pos ho]
      have S1 : SameProblem b b1 := R.same
      have V1 : Valid b1 := R.valid ho
      refine (iht sure true hg.2 (2 :: p) b1 (S1.pre hb) (by rw [S1.s]; exact hc) (by rw [S1.partnbr]; exact hnp) (fun _ => V1)).mono ?_
      rintro x X
      refine ⟨S1.trans X.same, X.sure, X.valid, fun h _ _ => ?_⟩
      have rm := V1.room (S1.pre hb)
      have := X.fron h rm.1 rm.2
      rw [S1.s] at this
      exact this
    · rw [if_neg ho]
      exact R
  | cond c s t ihs iht =>
    intro sure init hg p b hb hc hnp hi
    unfold partSt
    obtain ⟨g1, g2, g3⟩ := hg
    cases hcc : c p b with
    | none => exact ⟨SameProblem.refl b, fun h => absurd hcc (g1 h p b), fun h => (by cases h), fun _ h1 h2 => ⟨h1, h2⟩⟩
    | some x =>
      cases x
      · exact iht sure init g3 (2 :: p) b hb hc hnp hi
      · exact ihs sure init g2 (1 :: p) b hb hc hnp hi
  | cond1 c s ihs =>
    intro sure init hg p b hb hc hnp hi
    unfold partSt
    obtain ⟨g0, g1, g2⟩ := hg
    cases hcc : c p b with
    | none => exact ⟨SameProblem.refl b, fun h => absurd hcc (g1 h p b), fun h => (by cases h), fun _ h1 h2 => ⟨h1, h2⟩⟩
    | some x =>
      cases x
      · exact ⟨SameProblem.refl b, fun _ => rfl, fun _ => hi g0, fun h => absurd rfl h⟩
      · exact ihs sure init g2 (1 :: p) b hb hc hnp hi
  | select s t ihs iht =>
    intro sure init hg p b hb hc hnp hi
    obtain ⟨g0, g1, g2⟩ := hg
    exact (select_holds fuel (ihs sure true g1) (iht true true g2) p hb hc hnp (hi g0)).mono fun r h => h.1
  | ext f =>
    intro sure init hg p b hb hc hnp hi
    unfold partSt
    exact hg p b hb hc hnp hi

end Scotch.Ovl
