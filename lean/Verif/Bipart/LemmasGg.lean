import Verif.Bipart.ModelGg
import Verif.Bipart.LemmasFmVals
import Verif.Bipart.LemmasGpMain

/-! # Bipartition by greedy graph growing: lemmas -/

set_option autoImplicit false
set_option linter.unusedSimpArgs false

namespace Scotch.Bipart
open Graph

variable {b : Bgraph} {u v w e : Int}

/-- Parts given by the states of vertices. -/
def stPart (st : Arr Int) (v : Int) : Int := if st.get v = 1 then 1 else 0

/-- What the oracle may give. -/
structure GgOracle.Ok (o : GgOracle) (g : Graph) : Prop where
  root : 0 ≤ o.root ∧ o.root < g.vertnbr
  bnd : o.perm.lo ≤ 0 ∧ g.vertnbr ≤ o.perm.hi
  perm : ∀ i, 0 ≤ i → i < g.vertnbr → g.Vertex (o.perm.get i)

/-- State of a pass. -/
structure GgInv (b : Bgraph) (s : Gg) : Prop where
  sb : s.st.lo = b.s.baseval ∧ s.st.hi = b.s.vertnnd
  gb : s.gain.lo = b.s.baseval ∧ s.gain.hi = b.s.vertnnd
  st : ∀ v, b.s.Vertex v → s.st.get v = 0 ∨ s.st.get v = 1 ∨ s.st.get v = 2
  gain : ∀ v, b.s.Vertex v → s.st.get v ≠ 1 → s.gain.get v = (fmVals b (stPart s.st) v).comm
  cur : CurOk b (stPart s.st) ⟨s.dlt, s.comm, over b.s (stPart s.st) 0 b.veex - over b.s (stPart s.st) 1 b.veex, 0⟩
  next : ∀ v w, b.s.Vertex v → b.s.Adj v w → s.st.get v = 1 → s.st.get w ≠ 0

theorem stPart_parts (st : Arr Int) : Parts b.s (stPart st) := by
  intro v _
  unfold stPart
  split
  · exact Or.inr rfl
  · exact Or.inl rfl

/-- Number of vertices that are not in part 1. -/
def ggLeft (b : Bgraph) (st : Arr Int) : Int := over b.s (stPart st) 0 (fun _ => 1)

theorem ggLeft_nonneg (st : Arr Int) : 0 ≤ ggLeft b st := sumI_nonneg fun _ _ _ => by dsimp only; split <;> decide

theorem ggLeft_le (hc : ConsE b.s) (st : Arr Int) : ggLeft b st ≤ b.s.vertnbr := by
  have h1 := over_add (g := b.s) (stPart_parts (b := b) st) (fun _ => 1)
  have h2 : 0 ≤ over b.s (stPart st) 1 (fun _ => 1) := sumI_nonneg fun _ _ _ => by dsimp only; split <;> decide
  rw [size_eq hc] at h1
  unfold ggLeft
  omega

theorem stPart_congr {st st' : Arr Int} (h : ∀ v, b.s.Vertex v → (st'.get v = 1 ↔ st.get v = 1)) : ∀ v, b.s.Vertex v → stPart st' v = stPart st v := by
  intro v hv
  unfold stPart
  by_cases h1 : st.get v = 1
  · rw [if_pos h1, if_pos ((h v hv).2 h1)]
  · rw [if_neg h1, if_neg (fun h2 => h1 ((h v hv).1 h2))]

theorem CurOk.congr {p q : Int → Int} {c : FmCur} (hc : ConsE b.s) (hp : Parts b.s q) (h : ∀ v, b.s.Vertex v → p v = q v) (H : CurOk b p c) : CurOk b q c := by
  have o : ∀ k f, over b.s p k f = over b.s q k f := fun k f => over_congr k h (fun _ _ => rfl)
  refine ⟨hp, ?_, ?_, ?_, H.swap⟩
  · rw [← o]; exact H.dlt
  · rw [← o, ← cut_congr hc h]; exact H.comm
  · rw [← o, ← o]; exact H.extn

/-- A free vertex becomes linked. -/
theorem GgInv.link {s : Gg} (hc : ConsE b.s) (I : GgInv b s) (hv : b.s.Vertex v) (h1 : s.st.get v ≠ 1) : GgInv b { s with st := s.st.set v 2 } := by
  have hp : ∀ w, b.s.Vertex w → stPart (s.st.set v 2) w = stPart s.st w := by
    refine stPart_congr ?_
    intro w _
    by_cases hw : w = v
    · rw [hw, Arr.set_get_same]
      exact ⟨fun h => absurd h (by decide), fun h => absurd h h1⟩
    · rw [Arr.set_get_ne _ _ hw]
  have o : ∀ k f, over b.s (stPart (s.st.set v 2)) k f = over b.s (stPart s.st) k f := fun k f => over_congr k hp (fun _ _ => rfl)
  refine ⟨I.sb, I.gb, ?_, ?_, ?_, ?_⟩
  · intro w hw
    dsimp only
    by_cases hwv : w = v
    · rw [hwv, Arr.set_get_same]; exact Or.inr (Or.inr rfl)
    · rw [Arr.set_get_ne _ _ hwv]; exact I.st w hw
  · intro w hw hn
    dsimp only at hn ⊢
    rw [fmVals_congr hc hw hp]
    by_cases hwv : w = v
    · rw [hwv]; exact I.gain v hv h1
    · rw [Arr.set_get_ne _ _ hwv] at hn; exact I.gain w hw hn
  · dsimp only
    rw [o, o]
    exact I.cur.congr hc (stPart_parts _) (fun w hw => (hp w hw).symm)
  · intro x y hx hxy h
    dsimp only at h ⊢
    by_cases hxv : x = v
    · rw [hxv, Arr.set_get_same] at h; exact absurd h (by decide)
    · rw [Arr.set_get_ne _ _ hxv] at h
      by_cases hyv : y = v
      · rw [hyv, Arr.set_get_same]; decide
      · rw [Arr.set_get_ne _ _ hyv]; exact I.next x y hx hxy h

/-! ## One vertex goes to part 1 -/

open Classical in
theorem ggArcs_holds (hc : ConsE b.s) (ha : Alloc b) {s : Gg} (I : GgInv b s) (hu : b.s.Vertex u) (h1 : s.st.get u ≠ 1) (dlt comm : Int) :
    Holds (b.s.forArcs u { s with st := s.st.set u 1, dlt := dlt, comm := comm } (ggArc b)) (fun t => t.dlt = dlt ∧ t.comm = comm ∧ t.tick = s.tick ∧ (t.st.lo = b.s.baseval ∧ t.st.hi = b.s.vertnnd) ∧
      (t.gain.lo = b.s.baseval ∧ t.gain.hi = b.s.vertnnd) ∧
      (∀ v, b.s.Vertex v → t.st.get v = if v = u then 1 else if s.st.get v ≠ 1 ∧ b.s.Adj u v then 2 else s.st.get v) ∧
      ∀ v, b.s.Vertex v → v ≠ u → s.st.get v ≠ 1 → t.gain.get v = (fmVals b (flip (stPart s.st) u) v).comm) := by
  have hr := (hc.range u hu).2
  have hpu : stPart s.st u = 0 := if_neg h1
  have hx0 : xorP 0 0 = 0 := by decide
  refine Holds_forArcs ha.graph hu hr (fun e t => t.dlt = dlt ∧ t.comm = comm ∧ t.tick = s.tick ∧ (t.st.lo = b.s.baseval ∧ t.st.hi = b.s.vertnnd) ∧
      (t.gain.lo = b.s.baseval ∧ t.gain.hi = b.s.vertnnd) ∧
      (∀ v, b.s.Vertex v → ((∃ e', b.s.vert u ≤ e' ∧ e' < e ∧ b.s.dest e' = v) → t.st.get v = if s.st.get v = 1 then 1 else 2) ∧
        ((¬ ∃ e', b.s.vert u ≤ e' ∧ e' < e ∧ b.s.dest e' = v) → t.st.get v = if v = u then 1 else s.st.get v)) ∧
      ∀ v, b.s.Vertex v → v ≠ u → s.st.get v ≠ 1 → ((∃ e', b.s.vert u ≤ e' ∧ e' < e ∧ b.s.dest e' = v) → t.gain.get v = (fmVals b (flip (stPart s.st) u) v).comm) ∧
        ((¬ ∃ e', b.s.vert u ≤ e' ∧ e' < e ∧ b.s.dest e' = v) → t.gain.get v = s.gain.get v)) ?_ ?_ ?_
  · refine ⟨rfl, rfl, rfl, I.sb, I.gb, ?_, ?_⟩
    · intro v _
      refine ⟨fun ⟨e', k1, k2, _⟩ => by omega, fun _ => ?_⟩
      dsimp only
      by_cases hv : v = u
      · rw [hv, Arr.set_get_same, if_pos rfl]
      · rw [Arr.set_get_ne _ _ hv, if_neg hv]
    · intro v _ _ _
      exact ⟨fun ⟨e', k1, k2, _⟩ => by omega, fun _ => rfl⟩
  · rintro e t k1 k2 ⟨i1, i2, i3, i4, i5, i6, i7⟩
    obtain ⟨hw, hne⟩ := hc.inside u e hu k1 k2
    have hadj := fmVals_flip_adj hc I.cur.parts hu k1 k2
    have hsim : ∀ e', b.s.vert u ≤ e' → e' < e → b.s.dest e' ≠ b.s.dest e := by
      intro e' a1 a2 a3
      have := hc.simple u hu e' e a1 (by omega) k1 k2 a3
      omega
    have hst := (i6 _ hw).2 (fun ⟨e', a1, a2, a3⟩ => hsim e' a1 a2 a3)
    rw [if_neg hne] at hst
    generalize hwd : b.s.dest e = w at *
    have hgrow : ∀ v, v ≠ w → ((∃ e', b.s.vert u ≤ e' ∧ e' < e + 1 ∧ b.s.dest e' = v) ↔ ∃ e', b.s.vert u ≤ e' ∧ e' < e ∧ b.s.dest e' = v) := by
      intro v hv
      constructor
      · rintro ⟨e', a1, a2, a3⟩
        by_cases he : e' = e
        · rw [he, hwd] at a3; exact absurd a3.symm hv
        · exact ⟨e', a1, by omega, a3⟩
      · rintro ⟨e', a1, a2, a3⟩; exact ⟨e', a1, by omega, a3⟩
    have hin : ∃ e', b.s.vert u ≤ e' ∧ e' < e + 1 ∧ b.s.dest e' = w := ⟨e, k1, by omega, hwd⟩
    unfold ggArc
    rw [Arr.rd_ok _ (by have := hw.1; omega) (by have := hw.2; omega), ok_bind]
    by_cases hs : t.st.get w ≠ 1
    · have hs' : s.st.get w ≠ 1 := by rw [← hst]; exact hs
      have hgw := (i7 w hw hne hs').2 (fun ⟨e', a1, a2, a3⟩ => hsim e' a1 a2 a3)
      rw [if_pos hs, Arr.rd_ok _ (by have := hw.1; omega) (by have := hw.2; omega), ok_bind, rdEdlo_eq ha.graph hu k1 k2, ok_bind, Arr.wr_ok _ _ (by have := hw.1; omega) (by have := hw.2; omega), ok_bind,
        Arr.wr_ok _ _ (by have := hw.1; omega) (by have := hw.2; omega), ok_bind, Holds_pure]
      refine ⟨i1, i2, i3, i4, i5, ?_, ?_⟩
      · intro v hv
        dsimp only
        by_cases hvw : v = w
        · rw [hvw, Arr.set_get_same, if_neg hs']
          exact ⟨fun _ => rfl, fun h => absurd hin h⟩
        · rw [Arr.set_get_ne _ _ hvw, hgrow v hvw]
          exact i6 v hv
      · intro v hv hvu hv1
        dsimp only
        by_cases hvw : v = w
        · subst hvw
          refine ⟨fun _ => ?_, fun h => absurd hin h⟩
          rw [Arr.set_get_same, hadj, hgw, I.gain v hv hv1]
          dsimp only
          rw [hpu, show stPart s.st v = 0 from if_neg hv1, hx0]
          rw [show (2 : Int) * 0 - 1 = -1 by decide, Int.mul_neg, Int.mul_one, Int.mul_comm (b.s.edlo e)]
          omega
        · rw [Arr.set_get_ne _ _ hvw, hgrow v hvw]
          exact i7 v hv hvu hv1
    · rw [if_neg hs, Holds_pure]
      have hs' : s.st.get w = 1 := by rw [← hst]; exact Classical.not_not.1 hs
      refine ⟨i1, i2, i3, i4, i5, ?_, ?_⟩
      · intro v hv
        by_cases hvw : v = w
        · rw [hvw, if_pos hs']
          exact ⟨fun _ => Classical.not_not.1 hs, fun h => absurd hin h⟩
        · rw [hgrow v hvw]; exact i6 v hv
      · intro v hv hvu hv1
        by_cases hvw : v = w
        · rw [hvw] at hv1; exact absurd hs' hv1
        · rw [hgrow v hvw]; exact i7 v hv hvu hv1
  · rintro t ⟨i1, i2, i3, i4, i5, i6, i7⟩
    refine ⟨i1, i2, i3, i4, i5, ?_, ?_⟩
    · intro v hv
      by_cases had : b.s.Adj u v
      · have hvu : v ≠ u := (hc.adj_vertex hu had).2
        rw [(i6 v hv).1 had, if_neg hvu]
        by_cases h : s.st.get v = 1
        · rw [if_pos h, if_neg (fun hx => hx.1 h), h]
        · rw [if_neg h, if_pos ⟨h, had⟩]
      · rw [(i6 v hv).2 had]
        by_cases hvu : v = u
        · rw [if_pos hvu, if_pos hvu]
        · rw [if_neg hvu, if_neg hvu, if_neg (fun hx => had hx.2)]
    · intro v hv hvu hv1
      by_cases had : b.s.Adj u v
      · exact (i7 v hv hvu hv1).1 had
      · rw [(i7 v hv hvu hv1).2 had, I.gain v hv hv1, fmVals_flip_other hc hv hvu hu had]

open Classical in
/-- A vertex has gone to part 1, and its neighbours have been updated. -/
theorem GgInv.move {s t : Gg} (hc : ConsE b.s) (I : GgInv b s) (hu : b.s.Vertex u) (h1 : s.st.get u ≠ 1) (hd : t.dlt = s.dlt - b.s.velo u) (hm : t.comm = s.comm + s.gain.get u)
    (hsb : t.st.lo = b.s.baseval ∧ t.st.hi = b.s.vertnnd) (hgb : t.gain.lo = b.s.baseval ∧ t.gain.hi = b.s.vertnnd)
    (hst : ∀ v, b.s.Vertex v → t.st.get v = if v = u then 1 else if s.st.get v ≠ 1 ∧ b.s.Adj u v then 2 else s.st.get v)
    (hg : ∀ v, b.s.Vertex v → v ≠ u → s.st.get v ≠ 1 → t.gain.get v = (fmVals b (flip (stPart s.st) u) v).comm) :
    GgInv b t ∧ ggLeft b t.st = ggLeft b s.st - 1 := by
  have hpu : stPart s.st u = 0 := if_neg h1
  have hp : ∀ v, b.s.Vertex v → stPart t.st v = flip (stPart s.st) u v := by
    intro v hv
    unfold flip
    by_cases hvu : v = u
    · rw [if_pos hvu, hpu, hvu]
      unfold stPart
      rw [hst u hu, if_pos rfl, if_pos rfl]
      rfl
    · rw [if_neg hvu]
      unfold stPart
      rw [hst v hv, if_neg hvu]
      by_cases h : s.st.get v = 1
      · rw [show (if s.st.get v ≠ 1 ∧ b.s.Adj u v then 2 else s.st.get v) = s.st.get v from if_neg (fun hx => hx.1 h)]
      · rw [if_neg h]
        by_cases h' : s.st.get v ≠ 1 ∧ b.s.Adj u v
        · rw [if_pos h', if_neg (by decide)]
        · rw [if_neg h', if_neg h]
  have hF := flip_parts I.cur.parts u hu
  have o : ∀ k f, over b.s (stPart t.st) k f = over b.s (flip (stPart s.st) u) k f := fun k f => over_congr k hp (fun _ _ => rfl)
  refine ⟨⟨hsb, hgb, ?_, ?_, ?_, ?_⟩, ?_⟩
  · intro v hv
    rw [hst v hv]
    by_cases hvu : v = u
    · rw [if_pos hvu]; exact Or.inr (Or.inl rfl)
    · rw [if_neg hvu]
      split
      · exact Or.inr (Or.inr rfl)
      · exact I.st v hv
  · intro v hv hv1
    have hvu : v ≠ u := by
      rintro rfl
      rw [hst v hv, if_pos rfl] at hv1
      exact hv1 rfl
    rw [fmVals_congr hc hv hp]
    apply hg v hv hvu
    intro h
    rw [hst v hv, if_neg hvu, if_neg (fun hx => hx.1 h)] at hv1
    exact hv1 h
  · have K := (I.cur.flip hc hu).congr hc (stPart_parts t.st) (fun v hv => (hp v hv).symm)
    refine ⟨K.parts, ?_, ?_, rfl, Or.inl rfl⟩
    · rw [← K.dlt, hd]
      dsimp only [fmVals]
      rw [hpu]
      omega
    · rw [← K.comm, hm, I.gain u hu h1]
  · intro v w hv hvw h
    have hw := (hc.adj_vertex hv hvw).1
    rw [hst w hw]
    by_cases hwu : w = u
    · rw [if_pos hwu]; decide
    · rw [if_neg hwu]
      by_cases hvu : v = u
      · rw [hvu] at hvw
        by_cases h' : s.st.get w = 1
        · rw [if_neg (fun hx => hx.1 h'), h']; decide
        · rw [if_pos ⟨h', hvw⟩]; decide
      · rw [hst v hv, if_neg hvu] at h
        split at h
        · exact absurd h (by decide)
        · split
          · decide
          · exact I.next v w hv hvw h
  · unfold ggLeft
    rw [o, over0_flip I.cur.parts hu, hpu]
    omega

/-! ## Growth -/

theorem ggFirst_holds (hc : ConsE b.s) {s : Gg} (I : GgInv b s) (o : GgOracle) : Holds (ggFirst b o s) (fun r => ∀ v, r = some v → b.s.Vertex v ∧ s.st.get v = 2) := by
  unfold ggFirst
  have hn := hc.vertnbr
  have hnn := hc.vertnnd
  have hsb := I.sb
  rw [Holds_bind]
  refine Holds_forUpB (fun _ _ => True) (fun v => b.s.Vertex v ∧ s.st.get v = 2) (by omega) trivial ?_ ?_ ?_
  · rintro i ⟨⟩ h1 h2 -
    rw [Arr.rd_ok _ (by omega) (by omega), ok_bind]
    by_cases h : s.st.get i = 2
    · rw [if_pos h, Holds_pure, Loop.Sat_brk]; exact ⟨⟨h1, h2⟩, h⟩
    · rw [if_neg h, Holds_pure, Loop.Sat_next]; trivial
  · rintro ⟨⟩ -
    dsimp only
    rw [Holds_pure]
    intro v hv; cases hv
  · rintro v hv
    dsimp only
    split
    · rename_i h
      rw [Holds_pure]
      intro x hx
      cases hx
      obtain ⟨⟨a1, a2⟩, a3⟩ := h
      exact ⟨⟨by omega, by omega⟩, a3⟩
    · rw [Holds_pure]
      intro x hx
      cases hx
      exact hv

theorem ggGrow_holds (hc : ConsE b.s) (ha : Alloc b) (o : GgOracle) {s : Gg} (I : GgInv b s) (hu : b.s.Vertex u) (h2 : s.st.get u = 2) :
    Holds (loopM (ggStep b o) (b.s.vertnbr.toNat + 1) (u, s)) (fun r => GgInv b r.2 ∧ (r.1 = false → ggLeft b r.2.st < ggLeft b s.st)) := by
  have hle := ggLeft_le hc s.st
  refine Holds_loopM (fun x : Int × Gg => GgInv b x.2 ∧ b.s.Vertex x.1 ∧ x.2.st.get x.1 = 2 ∧ ggLeft b x.2.st ≤ ggLeft b s.st) (fun x => (ggLeft b x.2.st).toNat) ?_ _ _
    ⟨I, hu, h2, Int.le_refl _⟩ ?_
  · rintro ⟨v, r⟩ ⟨J, hv, hv2, hl⟩
    dsimp only at J hv hv2 hl
    have hv1 : r.st.get v ≠ 1 := by rw [hv2]; decide
    have hsb := J.sb
    have hgb := J.gb
    have x1 := hv.1
    have x2 := hv.2
    unfold ggStep
    dsimp only
    rw [rdVelo_eq ha.graph hv, ok_bind]
    by_cases hcond : o.absI (r.dlt - b.s.velo v) ≥ o.absI r.dlt ∧ b.s.velo v > 0
    · rw [if_pos hcond, Holds_pure, Loop.Sat_brk]
      exact ⟨J, fun h => absurd h.symm Bool.false_ne_true⟩
    · rw [if_neg hcond, Arr.wr_ok _ _ (by omega) (by omega), ok_bind, Arr.rd_ok _ (by omega) (by omega), ok_bind, Holds_bind]
      refine (ggArcs_holds hc ha J hv hv1 _ _).mono ?_
      rintro t ⟨t1, t2, t3, t4, t5, t6, t7⟩
      obtain ⟨K, hlt⟩ := J.move hc hv hv1 t1 t2 t4 t5 t6 t7
      rw [Holds_bind]
      refine (ggFirst_holds hc K o).mono ?_
      rintro (_ | w) hw
      · dsimp only
        rw [Holds_pure, Loop.Sat_brk]
        exact ⟨K, fun _ => by dsimp only; omega⟩
      · dsimp only
        rw [Holds_pure, Loop.Sat_next]
        have := hw w rfl
        have g0 := ggLeft_nonneg (b := b) t.st
        refine ⟨⟨⟨K.sb, K.gb, K.st, K.gain, K.cur, K.next⟩, this.1, this.2, by dsimp only; omega⟩, ?_⟩
        dsimp only
        omega
  · dsimp only
    omega

theorem ggScan_holds (hc : ConsE b.s) {o : GgOracle} (ho : o.Ok b.s) {s : Gg} (I : GgInv b s) {i : Int} (hi : 0 ≤ i) :
    Holds (ggScan b o.perm s.st i) (fun r => ∀ x, r = some x → 0 ≤ x.1 ∧ b.s.Vertex x.2 ∧ s.st.get x.2 = 0) := by
  unfold ggScan
  have hsb := I.sb
  have hb := ho.bnd
  by_cases hle : i ≤ b.s.vertnbr
  · rw [Holds_bind]
    refine Holds_forUpB (fun _ _ => True) (fun x => 0 ≤ x.1 ∧ b.s.Vertex x.2 ∧ s.st.get x.2 = 0) hle trivial ?_ ?_ ?_
    · rintro j ⟨⟩ h1 h2 -
      have hv := ho.perm j (by omega) h2
      rw [Arr.rd_ok _ (by omega) (by omega), ok_bind, Arr.rd_ok _ (by have := hv.1; omega) (by have := hv.2; omega), ok_bind]
      by_cases h : s.st.get (o.perm.get j) = 0
      · rw [if_pos h, Holds_pure, Loop.Sat_brk]; exact ⟨by dsimp only; omega, hv, h⟩
      · rw [if_neg h, Holds_pure, Loop.Sat_next]; trivial
    · rintro ⟨⟩ -
      dsimp only
      rw [Holds_pure]
      intro x hx; cases hx
    · rintro x hx
      dsimp only
      rw [Holds_pure]
      intro y hy; cases hy; exact hx
  · rw [Holds_bind]
    unfold forUpB
    rw [show (b.s.vertnbr - i).toNat = 0 by omega]
    unfold forNB
    rw [Holds_ok]
    dsimp only
    rw [Holds_pure]
    intro x hx; cases hx

theorem ggRoots_holds (hc : ConsE b.s) (ha : Alloc b) {o : GgOracle} (ho : o.Ok b.s) {s : Gg} (I : GgInv b s) (hu : b.s.Vertex u) (h0 : s.st.get u = 0) :
    Holds (loopM (ggRoot b o) (b.s.vertnbr.toNat + 1) (u, 0, s)) (GgInv b) := by
  have hle := ggLeft_le hc s.st
  refine Holds_loopM (fun x : Int × Int × Gg => GgInv b x.2.2 ∧ b.s.Vertex x.1 ∧ x.2.2.st.get x.1 = 0 ∧ 0 ≤ x.2.1) (fun x => (ggLeft b x.2.2.st).toNat) ?_ _ _
    ⟨I, hu, h0, Int.le_refl _⟩ (by dsimp only; omega)
  rintro ⟨v, i, r⟩ ⟨J, hv, hv0, hi⟩
  dsimp only at J hv hv0 hi
  have hv1 : r.st.get v ≠ 1 := by rw [hv0]; decide
  have hsb := J.sb
  have x1 := hv.1
  have x2 := hv.2
  have K := J.link hc hv hv1
  have hsame : ggLeft b (r.st.set v 2) = ggLeft b r.st := by
    unfold ggLeft
    refine over_congr 0 ?_ (fun _ _ => rfl)
    refine stPart_congr ?_
    intro w _
    by_cases hw : w = v
    · rw [hw, Arr.set_get_same]
      exact ⟨fun h => absurd h (by decide), fun h => absurd h hv1⟩
    · rw [Arr.set_get_ne _ _ hw]
  unfold ggRoot
  dsimp only
  rw [Arr.wr_ok _ _ (by omega) (by omega), ok_bind, Holds_bind]
  refine (ggGrow_holds hc ha o K hv (Arr.set_get_same _ _ _)).mono ?_
  rintro ⟨stop, t⟩ ⟨L, hlt⟩
  dsimp only at L hlt ⊢
  cases stop with
  | true => rw [if_pos rfl, Holds_pure, Loop.Sat_brk]; exact L
  | false =>
    rw [if_neg Bool.false_ne_true, Holds_bind]
    refine (ggScan_holds hc ho L hi).mono ?_
    rintro (_ | ⟨j, w⟩) hw
    · dsimp only
      rw [Holds_pure, Loop.Sat_brk]; exact L
    · have hw := hw _ rfl
      dsimp only at hw ⊢
      rw [Holds_pure, Loop.Sat_next]
      have := hlt rfl
      rw [hsame] at this
      have g0 := ggLeft_nonneg (b := b) t.st
      exact ⟨⟨L, hw.2.1, hw.2.2, by dsimp only; omega⟩, by dsimp only; omega⟩

/-! ## Passes -/

theorem ggLoad_holds (hc : ConsE b.s) (ha : Alloc b) (hv : b.s.Vertex v) : Holds (ggLoad b v) (fun x => x = sumI (b.s.vert v) (b.s.vend v) b.s.edlo) := by
  unfold ggLoad
  have hr := (hc.range v hv).2
  cases h : b.s.edlotax with
  | none =>
    dsimp only
    rw [rdVend_eq ha.graph hv, ok_bind, rdVert_eq ha.graph hv, ok_bind, Holds_pure]
    have : sumI (b.s.vert v) (b.s.vend v) b.s.edlo = sumI (b.s.vert v) (b.s.vend v) (fun _ => 1) := by
      apply sumI_congr
      intro e _ _
      unfold Graph.edlo
      rw [h]
    rw [this, sumI_const hr]
    omega
  | some a =>
    dsimp only
    refine Holds_forArcs ha.graph hv hr (fun e c => c = sumI (b.s.vert v) e b.s.edlo) ?_ ?_ ?_
    · rw [sumI_empty (Int.le_refl _)]
    · intro e c h1 h2 hi
      have := rdEdlo_eq ha.graph hv h1 h2
      unfold Graph.rdEdlo at this
      rw [h] at this
      dsimp only at this
      rw [this, ok_bind, Holds_pure, sumI_succ h1, hi]
    · intro c hi; exact hi

theorem ggGains_holds (hc : ConsE b.s) (ha : Alloc b) (junk : Int → Int) : Holds (ggGains b junk) (fun a => (a.lo = b.s.baseval ∧ a.hi = b.s.vertnnd) ∧
    ∀ v, b.s.Vertex v → a.get v = (fmVals b (fun _ => 0) v).comm) := by
  unfold ggGains
  have hn := hc.vertnbr
  have hnn := hc.vertnnd
  refine Holds_forUp (fun i (a : Arr Int) => (a.lo = b.s.baseval ∧ a.hi = b.s.vertnnd) ∧ ∀ v, b.s.baseval ≤ v → v < i → a.get v = (fmVals b (fun _ => 0) v).comm) (by omega) ?_ ?_ ?_
  · exact ⟨⟨rfl, hnn.symm⟩, fun v h1 h2 => by omega⟩
  · rintro i a h1 h2 ⟨e1, e2⟩
    have hv : b.s.Vertex i := ⟨h1, h2⟩
    unfold ggGain0
    rw [Holds_bind, Holds_bind]
    refine (ggLoad_holds hc ha hv).mono ?_
    rintro x rfl
    rw [rdVeex_eq ha hv, ok_bind, Holds_pure, Arr.wr_ok _ _ (by omega) (by omega), Holds_ok]
    refine ⟨e1, ?_⟩
    intro v v1 v2
    by_cases hvi : v = i
    · rw [hvi, Arr.set_get_same]
      unfold fmVals
      dsimp only
      rw [arcGain_inner (fun _ _ _ => rfl)]
      omega
    · rw [Arr.set_get_ne _ _ hvi]; exact e2 v v1 (by omega)
  · rintro a ⟨e1, e2⟩
    exact ⟨e1, fun v hv => e2 v hv.1 hv.2⟩

theorem ggPass_holds (hc : ConsE b.s) (ha : Alloc b) {o : GgOracle} (ho : o.Ok b.s) {gain0 : Arr Int} (hb : gain0.lo = b.s.baseval ∧ gain0.hi = b.s.vertnnd)
    (hg : ∀ v, b.s.Vertex v → gain0.get v = (fmVals b (fun _ => 0) v).comm) : Holds (ggPass b o gain0) (GgInv b) := by
  unfold ggPass
  have hn := hc.vertnbr
  have hnn := hc.vertnnd
  have hr := ho.root
  have e : ∀ v, stPart (Arr.const b.s.baseval (b.s.baseval + b.s.vertnbr) 0) v = 0 := fun v => if_neg (by decide : ¬ (0 : Int) = 1)
  have e' : stPart (Arr.const b.s.baseval (b.s.baseval + b.s.vertnbr) 0) = fun _ => 0 := funext e
  refine ggRoots_holds hc ha ho ?_ ⟨by omega, by omega⟩ rfl
  refine ⟨⟨rfl, hnn.symm⟩, hb, fun v _ => Or.inl rfl, ?_, ?_, ?_⟩
  · intro v hv _
    dsimp only
    rw [e']
    exact hg v hv
  · dsimp only
    refine ⟨stPart_parts _, ?_, ?_, rfl, Or.inl rfl⟩
    · dsimp only
      rw [e', over_const_zero, if_pos rfl, hc.velosum]
    · dsimp only
      rw [e', over_const_zero, if_neg (by decide)]
      have : cut b.s (fun _ => 0) = 0 := by
        unfold cut over
        apply sumI_eq_zero
        intro v _ _
        rw [if_pos rfl]
        exact linkTo_zero (fun _ _ h => absurd h (by decide))
      rw [this]
      omega
  · intro v w _ _ h
    exact absurd h (by decide : ¬ (0 : Int) = 1)

/-- Parts with a mark on the frontier of part 0, and the matching values. -/
structure GgBest (b : Bgraph) (part : Arr Int) (dlt comm : Int) : Prop where
  pb : part.lo = b.parttax.lo ∧ part.hi = b.parttax.hi
  three : ∀ v, b.s.Vertex v → part.get v = 0 ∨ part.get v = 1 ∨ part.get v = 2
  next : ∀ v w, b.s.Vertex v → b.s.Adj v w → part.get v = 1 → part.get w ≠ 0
  dlt : dlt = over b.s (stPart part) 0 b.s.velo - b.compload0avg
  comm : comm = cut b.s (stPart part) * b.domndist + b.commloadextn0 + over b.s (stPart part) 1 b.veex

theorem ggParts_holds (hc : ConsE b.s) (ha : Alloc b) {s : Gg} (I : GgInv b s) {part : Arr Int} (hp : part.lo = b.parttax.lo ∧ part.hi = b.parttax.hi) :
    Holds (ggParts b s.st part) (fun a => GgBest b a s.dlt s.comm) := by
  unfold ggParts
  have hn := hc.vertnbr
  have hnn := hc.vertnnd
  have hpa := ha.part
  have hsb := I.sb
  refine Holds_forUp (fun i (a : Arr Int) => (a.lo = b.parttax.lo ∧ a.hi = b.parttax.hi) ∧ ∀ v, b.s.baseval ≤ v → v < i → a.get v = s.st.get v) (by omega) ?_ ?_ ?_
  · exact ⟨hp, fun v h1 h2 => by omega⟩
  · rintro i a h1 h2 ⟨e1, e2⟩
    rw [Arr.rd_ok _ (by omega) (by omega), ok_bind, Arr.wr_ok _ _ (by omega) (by omega), Holds_ok]
    refine ⟨e1, ?_⟩
    intro v v1 v2
    by_cases hvi : v = i
    · rw [hvi, Arr.set_get_same]
      have := I.st i ⟨h1, h2⟩
      split <;> omega
    · rw [Arr.set_get_ne _ _ hvi]; exact e2 v v1 (by omega)
  · rintro a ⟨e1, e2⟩
    have e3 : ∀ v, b.s.Vertex v → a.get v = s.st.get v := fun v hv => e2 v hv.1 hv.2
    have e4 : ∀ v, b.s.Vertex v → stPart a v = stPart s.st v := stPart_congr fun v hv => by rw [e3 v hv]
    have o : ∀ k f, over b.s (stPart a) k f = over b.s (stPart s.st) k f := fun k f => over_congr k e4 (fun _ _ => rfl)
    refine ⟨e1, fun v hv => by rw [e3 v hv]; exact I.st v hv, ?_, ?_, ?_⟩
    · intro v w hv hvw
      rw [e3 v hv, e3 w (hc.adj_vertex hv hvw).1]
      exact I.next v w hv hvw
    · rw [o]; exact I.cur.dlt
    · rw [o, cut_congr hc e4]; exact I.cur.comm

theorem ggTries_holds (hc : ConsE b.s) (ha : Alloc b) (hn0 : 0 < b.s.vertnbr) {o : Int → GgOracle} (ho : ∀ i, (o i).Ok b.s) {gain0 : Arr Int} (hb : gain0.lo = b.s.baseval ∧ gain0.hi = b.s.vertnnd)
    (hg : ∀ v, b.s.Vertex v → gain0.get v = (fmVals b (fun _ => 0) v).comm) {passnbr : Int} (hpn : 0 < passnbr) :
    Holds (forUp 0 passnbr (b.parttax, b.compload0dlt, b.commload) (ggTry b o gain0)) (fun r => GgBest b r.1 r.2.1 r.2.2) := by
  refine Holds_forUp (fun i (r : Arr Int × Int × Int) => (r.1.lo = b.parttax.lo ∧ r.1.hi = b.parttax.hi) ∧ (0 < i → GgBest b r.1 r.2.1 r.2.2)) (by omega) ?_ ?_ ?_
  · exact ⟨⟨rfl, rfl⟩, fun h => by omega⟩
  · rintro i ⟨part, dlt, comm⟩ h1 h2 ⟨e1, e2⟩
    dsimp only at e1 e2
    unfold ggTry ggDraw
    rw [if_neg (by omega), pure_bind, Holds_bind]
    refine (ggPass_holds hc ha (ho i) hb hg).mono ?_
    rintro t I
    dsimp only
    split
    · rw [Holds_bind]
      refine (ggParts_holds hc ha I e1).mono ?_
      rintro a B
      rw [Holds_pure]
      exact ⟨B.pb, fun _ => B⟩
    · rename_i h
      rw [Holds_pure]
      refine ⟨e1, fun _ => e2 ?_⟩
      rcases Int.lt_or_le 0 i with h' | h'
      · exact h'
      · exact absurd (Or.inl (by omega)) h
  · rintro r ⟨_, e⟩
    exact e hpn

end Scotch.Bipart
