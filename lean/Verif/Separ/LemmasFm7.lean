import Verif.Separ.LemmasFm6
import Verif.Bipart.LemmasFmMain

/-! # Fiduccia-Mattheyses refinement of separators: results and initial table -/

set_option autoImplicit false
set_option linter.unusedSimpArgs false

namespace Scotch.Separ
open Graph
open Bipart (FmVals FmSlot FmSave FmSt FmCur Fm FmOwn FmKey FmTab fmFree fmSearch fmSize fmPrime FmOwn_set FmKey_set over over_congr fmFree_eq fmSize_holds)
open Hash (Tab probe probe_in)
open Coarsen (IsMask)

variable {b : Vgraph} {keys : List Int} {s s0 : Fm} {pb P : Int → Int} {h v : Int}

/-! ## Results -/

theorem sfRestoreEnd_holds (S : SRdy b keys pb s) :
    Holds (forUp 0 s.savenbr s.hash fun i a => sfRestoreEnd s a (s.savenbr - 1 - i)) (fun t => t.lo = 0 ∧ t.hi = s.msk + 1 ∧
      (∀ y, (t.get y).vertnum = (s.hash.get y).vertnum) ∧ ∀ y, 0 ≤ y → y < s.msk + 1 → FmOwn s.hash y → (t.get y).v.part = pb (FmKey s.hash y)) := by
  have hnn := S.nonneg
  have hlo := S.hlo
  have hhi := S.hhi
  have slo := S.slo
  have shi := S.shi
  have hle := S.save_lt
  refine Holds_forUp (fun i t => t.lo = 0 ∧ t.hi = s.msk + 1 ∧ (∀ y, (t.get y).vertnum = (s.hash.get y).vertnum) ∧
      (∀ n, s.savenbr - i ≤ n → n < s.savenbr → (t.get (s.save.get n).hashnum).v.part = (s.save.get n).v.part) ∧
      ∀ y, (∀ n, s.savenbr - i ≤ n → n < s.savenbr → (s.save.get n).hashnum ≠ y) → (t.get y).v = (s.hash.get y).v) hnn
    ⟨hlo, hhi, fun _ => rfl, fun n n1 n2 => by omega, fun _ _ => rfl⟩ ?_ ?_
  · rintro i t i1 i2 ⟨t1, t2, t3, t4, t5⟩
    obtain ⟨c1, c2, c4⟩ := S.sv (s.savenbr - 1 - i) (by omega) (by omega)
    have := hle (s.savenbr - 1 - i) (by omega) (by omega)
    unfold sfRestoreEnd
    rw [Arr.rd_ok _ (by omega) (by omega), ok_bind, Arr.rd_ok _ (by omega) (by omega), ok_bind, Arr.wr_ok _ _ (by omega) (by omega), Holds_ok]
    refine ⟨t1, t2, ?_, ?_, ?_⟩
    · intro z
      by_cases c : z = (s.save.get (s.savenbr - 1 - i)).hashnum
      · rw [c, Arr.set_get_same]
        exact t3 _
      · rw [Arr.set_get_ne _ _ c]
        exact t3 z
    · intro n n1 n2
      by_cases c : n = s.savenbr - 1 - i
      · rw [c, Arr.set_get_same]
      · have : (s.save.get n).hashnum ≠ (s.save.get (s.savenbr - 1 - i)).hashnum := by
          intro c'
          exact c (S.inj _ _ (by omega) n2 (by omega) (by omega) c')
        rw [Arr.set_get_ne _ _ this]
        exact t4 n (by omega) n2
    · intro z hz
      rw [Arr.set_get_ne _ _ (fun c => hz (s.savenbr - 1 - i) (by omega) (by omega) c.symm)]
      exact t5 z (fun n n1 n2 => hz n (by omega) n2)
  · rintro t ⟨t1, t2, t3, t4, t5⟩
    refine ⟨t1, t2, t3, ?_⟩
    intro y y1 y2 hy
    by_cases hm : ∃ i, 0 ≤ i ∧ i < s.savenbr ∧ (s.save.get i).hashnum = y
    · obtain ⟨i, i1, i2, i3⟩ := hm
      have h4 := t4 i (by omega) i2
      have h5 := (S.sv i i1 i2).2.2.1
      rw [i3] at h4 h5
      rw [h4, h5]
    · rw [t5 y ?_, (S.vals y y1 y2 hy (fun i i1 i2 c => hm ⟨i, i1, i2, c⟩)).1.1]
      intro n n1 n2 c
      exact hm ⟨n, by omega, n2, c⟩

/-- State of the loop that writes the results. -/
structure SfOutOk (b : Vgraph) (s : Fm) (pb : Int → Int) (h : Int) (t : SfOut) : Prop where
  pbd : t.part.lo = b.parttax.lo ∧ t.part.hi = b.parttax.hi
  fbd : t.fron.lo = b.frontab.lo ∧ t.fron.hi = b.frontab.hi
  new : ∀ y, 0 ≤ y → y < h → FmOwn s.hash y → t.part.get (FmKey s.hash y) = pb (FmKey s.hash y)
  old : ∀ v, b.s.Vertex v → (∀ y, 0 ≤ y → y < h → FmOwn s.hash y → FmKey s.hash y ≠ v) → t.part.get v = b.part v
  size : b.compsize1 + t.sizedlt = over b.s t.part.get 1 (fun _ => 1)
  fron : Enum t.fron t.fronnum (fun v => ∃ y, 0 ≤ y ∧ y < h ∧ FmOwn s.hash y ∧ FmKey s.hash y = v ∧ pb v = 2)

theorem sfWrite_holds (hc : ConsE b.s) (ha : Alloc b) (hb : 0 ≤ b.s.baseval) (hp1 : Parts b.s b.part) (hpb : Parts b.s pb) (S : SRdy b keys pb s) {t' : Arr FmSlot} (ht0 : t'.lo = 0) (ht1 : t'.hi = s.msk + 1)
    (htv : ∀ y, (t'.get y).vertnum = (s.hash.get y).vertnum) (htp : ∀ y, 0 ≤ y → y < s.msk + 1 → FmOwn s.hash y → (t'.get y).v.part = pb (FmKey s.hash y))
    (h1 : 0 ≤ h) (h2 : h < s.msk + 1) {t : SfOut} (T : SfOutOk b s pb h t) : Holds (sfWrite t' h t) (SfOutOk b s pb (h + 1)) := by
  unfold sfWrite
  rw [Arr.rd_ok _ (by omega) (by omega), ok_bind]
  by_cases ho : FmOwn s.hash h
  · have hk : FmKey s.hash h ∈ keys := (S.tab.mem _).2 ⟨h, h1, h2, ho, rfl⟩
    have hv := S.vert _ hk
    have hvv : (t'.get h).vertnum = FmKey s.hash h := htv h
    rw [if_neg (by rw [hvv]; have := hv.1; omega), hvv, htp h h1 h2 ho]
    have huni : ∀ y, 0 ≤ y → y < h → FmOwn s.hash y → FmKey s.hash y ≠ FmKey s.hash h := by
      intro y y1 y2 y3 c
      have := S.tab.uniq y1 (by omega) h1 h2 y3 ho c
      omega
    generalize hud : FmKey s.hash h = u at *
    have hbp := ha.part
    have hbf := ha.fron
    obtain ⟨pb1, pb2⟩ := T.pbd
    obtain ⟨fb1, fb2⟩ := T.fbd
    have hu1 := hv.1
    have hu2 := hv.2
    have hparts : Parts b.s t.part.get := by
      intro v hv
      by_cases c : ∀ y, 0 ≤ y → y < h → FmOwn s.hash y → FmKey s.hash y ≠ v
      · rw [T.old v hv c]; exact hp1 v hv
      · push Not at c
        obtain ⟨y, y1, y2, y3, y4⟩ := c
        rw [← y4, T.new y y1 y2 y3, y4]
        exact hpb v hv
    have hw : ∃ P d, sfWritePart u (pb u) t.part t.sizedlt = .ok (P, d) ∧ P.lo = t.part.lo ∧ P.hi = t.part.hi ∧ P.get u = pb u ∧ (∀ v, v ≠ u → P.get v = t.part.get v) ∧ b.compsize1 + d = over b.s P.get 1 (fun _ => 1) := by
      unfold sfWritePart
      rw [Arr.rd_ok _ (by omega) (by omega), ok_bind]
      by_cases c : pb u ≠ t.part.get u
      · rw [if_pos c, Arr.wr_ok _ _ (by omega) (by omega), ok_bind]
        refine ⟨_, _, rfl, rfl, rfl, Arr.set_get_same _ _ _, fun v c => Arr.set_get_ne _ _ c, ?_⟩
        rw [set_upd, over_upd _ hv, ← T.size]
        rcases hpb u hv with a | a | a <;> rcases hparts u hv with e | e | e <;> rw [a, e] <;> simp <;> omega
      · rw [if_neg c]
        exact ⟨_, _, rfl, rfl, rfl, by push Not at c; exact c.symm, fun _ _ => rfl, T.size⟩
    obtain ⟨P, d, w1, w2, w3, w4, w5, w6⟩ := hw
    rw [w1, ok_bind]
    have hu : ¬ ∃ y, 0 ≤ y ∧ y < h ∧ FmOwn s.hash y ∧ FmKey s.hash y = u ∧ pb u = 2 := by
      rintro ⟨y, y1, y2, y3, y4, _⟩
      exact huni y y1 y2 y3 y4
    have hlt := T.fron.lt (lo := b.s.baseval) (hi := b.s.vertnnd) (x := u) (fun v => by
      rintro ⟨y, y1, y2, y3, y4, _⟩
      have := S.vert _ ((S.tab.mem _).2 ⟨y, y1, by omega, y3, rfl⟩)
      rw [y4] at this
      exact ⟨this.1, this.2⟩) hu hu1 hu2
    have hnn := hc.vertnnd
    have hn0 := T.fron.1
    have hnew : ∀ y, 0 ≤ y → y < h + 1 → FmOwn s.hash y → P.get (FmKey s.hash y) = pb (FmKey s.hash y) := by
      intro y y1 y2 y3
      by_cases c : y = h
      · rw [c, hud]; exact w4
      · rw [w5 _ (huni y y1 (by omega) y3)]
        exact T.new y y1 (by omega) y3
    have hold : ∀ v, b.s.Vertex v → (∀ y, 0 ≤ y → y < h + 1 → FmOwn s.hash y → FmKey s.hash y ≠ v) → P.get v = b.part v := by
      intro v hv' hy
      rw [w5 v (fun c => hy h h1 (by omega) ho (by rw [hud, c]))]
      exact T.old v hv' (fun y y1 y2 y3 => hy y y1 (by omega) y3)
    unfold sfWriteFron
    by_cases hcut : pb u = 2
    · rw [if_pos hcut, Arr.wr_ok _ _ (by omega) (by omega), ok_bind, pure_bind, Holds_pure]
      refine ⟨⟨w2.trans pb1, w3.trans pb2⟩, ⟨fb1, fb2⟩, hnew, hold, w6, ?_⟩
      dsimp only
      refine (T.fron.push hu).congr ?_
      intro v
      constructor
      · rintro (⟨y, y1, y2, y3⟩ | rfl)
        · exact ⟨y, y1, by omega, y3⟩
        · exact ⟨h, h1, by omega, ho, hud, hcut⟩
      · rintro ⟨y, y1, y2, y3, y4, y5⟩
        by_cases c : y = h
        · right; rw [← y4, c, hud]
        · left; exact ⟨y, y1, by omega, y3, y4, y5⟩
    · rw [if_neg hcut, pure_bind, Holds_pure]
      refine ⟨⟨w2.trans pb1, w3.trans pb2⟩, ⟨fb1, fb2⟩, hnew, hold, w6, ?_⟩
      refine T.fron.congr ?_
      intro v
      constructor
      · rintro ⟨y, y1, y2, y3⟩
        exact ⟨y, y1, by omega, y3⟩
      · rintro ⟨y, y1, y2, y3, y4, y5⟩
        by_cases c : y = h
        · rw [← y4, c, hud] at y5
          exact absurd y5 hcut
        · exact ⟨y, y1, by omega, y3, y4, y5⟩
  · have hvv : (t'.get h).vertnum = -1 := by
      rw [htv]
      unfold FmOwn at ho
      push Not at ho
      exact ho
    rw [if_pos hvv, Holds_pure]
    have hne : ∀ y, y < h + 1 → FmOwn s.hash y → y < h := by
      intro y y2 y3
      have : y ≠ h := by intro c; rw [c] at y3; exact ho y3
      omega
    refine ⟨T.pbd, T.fbd, fun y y1 y2 y3 => T.new y y1 (hne y y2 y3) y3, fun v hv hy => T.old v hv (fun y y1 y2 y3 => hy y y1 (by omega) y3), T.size, ?_⟩
    refine T.fron.congr ?_
    intro v
    constructor
    · rintro ⟨y, y1, y2, y3⟩
      exact ⟨y, y1, by omega, y3⟩
    · rintro ⟨y, y1, y2, y3, y4⟩
      exact ⟨y, y1, hne y y2 y3, y3, y4⟩

theorem sfFinish_holds (hc : ConsE b.s) (ha : Alloc b) (hb : 0 ≤ b.s.baseval) (hv : Valid b) (hw : b.dwgt0 + b.dwgt1 ≠ 0) (S : SRdy b keys pb s) :
    Holds (sfFinish b s) (fun b' => SameProblem b b' ∧ Valid b' ∧ b'.comploaddlt = s.bst.dlt ∧ b'.compload2 = s.bst.comm) := by
  have hpb := S.bst.parts
  unfold sfFinish
  rw [Holds_bind]
  refine (sfRestoreEnd_holds S).mono ?_
  rintro t' ⟨t1, t2, t3, t4⟩
  rw [Holds_bind]
  have hmax := S.max
  refine Holds_forUp (fun i t => SfOutOk b s pb i t) (by have := S.tab.pos; omega) ?_ (fun i t i1 i2 T => sfWrite_holds hc ha hb hv.parts hpb S t1 t2 t3 t4 i1 (by omega) T) ?_
  · refine ⟨⟨rfl, rfl⟩, ⟨rfl, rfl⟩, fun y y1 y2 => by omega, fun _ _ _ => rfl, ?_, (Enum.empty _).congr ?_⟩
    · dsimp only
      rw [Int.add_zero]
      exact hv.size1
    · intro v
      constructor
      · exact False.elim
      · rintro ⟨y, y1, y2, _⟩
        omega
  · intro t T
    rw [hmax] at T
    have hfin : ∀ v, b.s.Vertex v → t.part.get v = pb v := by
      intro v hvv
      by_cases hk : v ∈ keys
      · obtain ⟨y, y1, y2, y3, y4⟩ := (S.tab.mem v).1 hk
        rw [← y4]
        exact T.new y y1 y2 y3
      · rw [T.old v hvv (fun y y1 y2 y3 c => hk ((S.tab.mem v).2 ⟨y, y1, y2, y3, c⟩))]
        exact (S.out v hvv hk).1.symm
    obtain ⟨hd, h2⟩ := S.bst.cur
    have tv := over_total (g := b.s) hpb b.s.velo
    rw [← hc.velosum] at tv
    have tn := over_total (g := b.s) hpb (fun _ => 1)
    rw [size_total hc] at tn
    have e : s.bst.dlt + (b.s.velosum - s.bst.comm) * b.dwgt0 = over b.s pb 0 b.s.velo * (b.dwgt0 + b.dwgt1) := by
      rw [hd, h2, ← tv, show over b.s pb 0 b.s.velo + over b.s pb 1 b.s.velo + over b.s pb 2 b.s.velo - over b.s pb 2 b.s.velo =
        over b.s pb 0 b.s.velo + over b.s pb 1 b.s.velo by omega, Int.add_mul, Int.mul_add]
      omega
    unfold cdiv
    rw [if_neg hw, e, Int.mul_tdiv_cancel _ hw, Holds_bind, Holds_pure, Holds_pure]
    have hov : ∀ k (f : Int → Int), over b.s t.part.get k f = over b.s pb k f := fun k f => over_congr (g := b.s) k hfin (fun _ _ => rfl)
    have hfr : Enum t.fron t.fronnum (fun v => b.s.Vertex v ∧ t.part.get v = 2) := by
      refine T.fron.congr ?_
      intro v
      constructor
      · rintro ⟨y, y1, y2, y3, y4, y5⟩
        have hvv := S.vert _ ((S.tab.mem v).2 ⟨y, y1, y2, y3, y4⟩)
        exact ⟨hvv, (hfin v hvv).trans y5⟩
      · rintro ⟨hvv, h2v⟩
        rw [hfin v hvv] at h2v
        by_cases hk : v ∈ keys
        · obtain ⟨y, y1, y2, y3, y4⟩ := (S.tab.mem v).1 hk
          exact ⟨y, y1, y2, y3, y4, h2v⟩
        · have := S.out v hvv hk
          rw [h2v] at this
          exact absurd this.1.symm this.2
    have hn : t.fronnum = over b.s t.part.get 2 (fun _ => 1) := enum_size hc hfr
    have hs1 := T.size
    rw [hov] at hn hs1
    refine ⟨⟨rfl, ⟨T.pbd.1, T.pbd.2, T.fbd.1, T.fbd.2⟩, rfl, rfl⟩, ⟨⟨?_, ?_, ?_, ?_, ?_, ?_, ?_, ?_, ?_⟩, hfr⟩, rfl, rfl⟩
    · intro v hvv
      show t.part.get v = 0 ∨ t.part.get v = 1 ∨ t.part.get v = 2
      rw [hfin v hvv]
      exact hpb v hvv
    · have hs := sep_adj.1 S.bst.sep
      refine sep_adj.2 ?_
      intro v w hvv hvw
      show ¬ (t.part.get v = 0 ∧ t.part.get w = 1) ∧ ¬ (t.part.get v = 1 ∧ t.part.get w = 0)
      rw [hfin v hvv, hfin w (hc.adj_vertex hvv hvw).1]
      exact hs v w hvv hvw
    · change b.s.vertnbr - (b.compsize1 + t.sizedlt) - t.fronnum = over b.s t.part.get 0 _
      rw [hov]; omega
    · exact T.size
    · change t.fronnum = over b.s t.part.get 2 _
      rw [hov]; exact hn
    · change _ = over b.s t.part.get 0 b.s.velo
      rw [hov]
    · change b.s.velosum - s.bst.comm - over b.s pb 0 b.s.velo = over b.s t.part.get 1 b.s.velo
      rw [hov]; omega
    · change s.bst.comm = over b.s t.part.get 2 b.s.velo
      rw [hov]; exact h2
    · change s.bst.dlt = over b.s pb 0 b.s.velo * b.dwgt1 - (b.s.velosum - s.bst.comm - over b.s pb 0 b.s.velo) * b.dwgt0
      rw [hd, show b.s.velosum - s.bst.comm - over b.s pb 0 b.s.velo = over b.s pb 1 b.s.velo by omega]

/-! ## Initial table -/

theorem sfInitVals_holds (hc : ConsE b.s) (ha : Alloc b) (hp : Parts b.s b.part) (hv : b.s.Vertex v) (h2 : b.part v = 2) : Holds (sfInitVals b v) (Vals b.s b.part (gains b.s b.part) v) := by
  have hbp := ha.part
  have n0 := near_arcs hc b.part 0 hv
  have n1 := near_arcs hc b.part 1 hv
  have hr := (hc.range v hv).2
  unfold sfInitVals
  cases hvt : b.s.velotax with
  | some vt =>
    dsimp only
    have hvl : ∀ w, vt.get w = b.s.velo w := by intro w; unfold Graph.velo; rw [hvt]
    have hvb := ha.graph.velo vt hvt
    rw [Holds_bind]
    refine Holds_forArcs ha.graph hv hr (fun e t => t.1 = sumI (b.s.vert v) e (fun e => if b.part (b.s.dest e) = 1 then b.s.velo (b.s.dest e) else 0) ∧
      t.2 = 2 * (sumI (b.s.vert v) e (fun e => if b.part (b.s.dest e) = 0 then b.s.velo (b.s.dest e) else 0) + sumI (b.s.vert v) e (fun e => if b.part (b.s.dest e) = 1 then b.s.velo (b.s.dest e) else 0))) ?_ ?_ ?_
    · rw [sumI_empty (Int.le_refl _), sumI_empty (Int.le_refl _)]
      exact ⟨rfl, rfl⟩
    · rintro e t e1 e2 ⟨t1, t2⟩
      obtain ⟨hw, _⟩ := hc.inside v e hv e1 e2
      have w1 := hw.1
      have w2 := hw.2
      rw [Arr.rd_ok _ (by omega) (by omega), ok_bind, Arr.rd_ok _ (by omega) (by omega), ok_bind, Holds_pure, sumI_succ e1, sumI_succ e1, hvl]
      dsimp only
      have hpw : b.parttax.get (b.s.dest e) = b.part (b.s.dest e) := rfl
      rw [hpw, t1, t2]
      rcases hp _ hw with c | c | c <;> rw [c] <;> simp <;> omega
    · rintro t ⟨t1, t2⟩
      have v1 := hv.1
      have v2 := hv.2
      rw [Arr.rd_ok _ (by omega) (by omega), ok_bind, Holds_pure, hvl]
      rw [n0, n1] at t2
      rw [n1] at t1
      refine ⟨h2.symm, rfl, fun _ i hi => ?_⟩
      unfold gains sgGet
      rcases hi with rfl | rfl
      · rw [if_pos rfl]
        dsimp only
        rw [t1]; rfl
      · rw [if_neg (by decide)]
        dsimp only
        rw [show (1 - 1 : Int) = 0 from rfl]
        omega
  | none =>
    dsimp only
    have hvl : ∀ w, b.s.velo w = 1 := by intro w; unfold Graph.velo; rw [hvt]
    have hsum : sumI (b.s.vert v) (b.s.vend v) (fun e => if b.part (b.s.dest e) = 0 then b.s.velo (b.s.dest e) else 0) + sumI (b.s.vert v) (b.s.vend v) (fun e => if b.part (b.s.dest e) = 1 then b.s.velo (b.s.dest e) else 0) +
        sumI (b.s.vert v) (b.s.vend v) (fun e => if b.part (b.s.dest e) = 2 then (1 : Int) else 0) = b.s.vend v - b.s.vert v := by
      rw [← sumI_add_dist, ← sumI_add_dist, sumI_congr (g := fun _ => (1 : Int)), sumI_const hr, Int.mul_one]
      intro e e1 e2
      obtain ⟨hw, _⟩ := hc.inside v e hv e1 e2
      rw [hvl]
      rcases hp _ hw with c | c | c <;> rw [c] <;> simp
    rw [Holds_bind]
    refine Holds_forArcs ha.graph hv hr (fun e t => t.1 = sumI (b.s.vert v) e (fun e => if b.part (b.s.dest e) = 1 then b.s.velo (b.s.dest e) else 0) ∧
      t.2 = 2 * sumI (b.s.vert v) e (fun e => if b.part (b.s.dest e) = 2 then (1 : Int) else 0)) ?_ ?_ ?_
    · rw [sumI_empty (Int.le_refl _), sumI_empty (Int.le_refl _)]
      exact ⟨rfl, rfl⟩
    · rintro e t e1 e2 ⟨t1, t2⟩
      obtain ⟨hw, _⟩ := hc.inside v e hv e1 e2
      have w1 := hw.1
      have w2 := hw.2
      rw [Arr.rd_ok _ (by omega) (by omega), ok_bind, Holds_pure, sumI_succ e1, sumI_succ e1]
      dsimp only
      have hpw : b.parttax.get (b.s.dest e) = b.part (b.s.dest e) := rfl
      rw [hpw, t1, t2, hvl]
      rcases hp _ hw with c | c | c <;> rw [c] <;> simp <;> omega
    · rintro t ⟨t1, t2⟩
      rw [rdVert_eq ha.graph hv, ok_bind, rdVend_eq ha.graph hv, ok_bind, Holds_pure]
      rw [n0, n1] at hsum
      rw [n1] at t1
      refine ⟨h2.symm, by rw [hvl], fun _ i hi => ?_⟩
      unfold gains sgGet
      rw [hvl]
      rcases hi with rfl | rfl
      · rw [if_pos rfl]
        dsimp only
        rw [t1]; rfl
      · rw [if_neg (by decide)]
        dsimp only
        rw [show (1 - 1 : Int) = 0 from rfl]
        omega

/-- Table under construction. -/
structure SFill (b : Vgraph) (keys : List Int) (msk : Int) (t : Arr FmSlot) : Prop where
  lo : t.lo = 0
  hi : t.hi = msk + 1
  tab : FmTab t msk keys
  vert : ∀ k ∈ keys, b.s.Vertex k
  own : ∀ y, FmOwn t y → (t.get y).mswp = -1 ∧ Vals b.s b.part (gains b.s b.part) (FmKey t y) (t.get y).v ∧ (t.get y).v.part = 2 ∧ (t.get y).st = .link
  free : ∀ y, ¬ FmOwn t y → (t.get y).mswp = -1

theorem sfInsert_holds (hc : ConsE b.s) (ha : Alloc b) (hb : 0 ≤ b.s.baseval) (hp : Parts b.s b.part) {msk : Int} (hm : IsMask msk) {t : Arr FmSlot} (F : SFill b keys msk t) (hv : b.s.Vertex v) (h2 : b.part v = 2) (hn : v ∉ keys)
    (hroom : (keys.length : Int) < msk + 1) : Holds (sfInsert b msk v t) (SFill b (keys ++ [v]) msk) := by
  have hv0 : 0 ≤ v := by have := hv.1; omega
  unfold sfInsert
  obtain ⟨d, P, N, e⟩ := fmFree_eq F.tab hm F.lo F.hi hv0 hroom hn
  have hin := probe_in (prime := fmPrime) F.tab.pos v d
  have hlo := F.lo
  have hhi := F.hi
  rw [e, ok_bind, Holds_bind]
  refine (sfInitVals_holds hc ha hp hv h2).mono ?_
  intro x X
  generalize hg : probe fmPrime (msk + 1) v d = h at *
  rw [Arr.wr_ok _ _ (by omega) (by omega), Holds_ok]
  have ho : ∀ y, FmOwn (t.set h ⟨v, x, -1, .link⟩) y ↔ FmOwn t y ∨ y = h := by
    intro y
    unfold FmOwn
    by_cases c : y = h
    · rw [c, Arr.set_get_same]
      exact ⟨fun _ => Or.inr rfl, fun _ => by dsimp only; omega⟩
    · rw [Arr.set_get_ne _ _ c]
      exact ⟨Or.inl, fun z => z.resolve_right c⟩
  have hkk : ∀ y, y ≠ h → FmKey (t.set h ⟨v, x, -1, .link⟩) y = FmKey t y := by
    intro y c
    unfold FmKey
    rw [Arr.set_get_ne _ _ c]
  have hkh : FmKey (t.set h ⟨v, x, -1, .link⟩) h = v := by
    unfold FmKey
    rw [Arr.set_get_same]
  refine ⟨hlo, hhi, ?_, ?_, ?_, ?_⟩
  · refine F.tab.insert P (by rw [hg]; exact N) ?_ ?_ ?_ <;> rw [hg]
    · exact ho
    · exact hkk
    · exact hkh
  · intro k hk
    rw [List.mem_append] at hk
    rcases hk with hk | hk
    · exact F.vert k hk
    · rw [List.mem_singleton] at hk; rw [hk]; exact hv
  · intro y hy
    by_cases c : y = h
    · rw [c, hkh, Arr.set_get_same]
      exact ⟨rfl, X, X.1.trans h2, rfl⟩
    · rw [hkk y c, Arr.set_get_ne _ _ c]
      exact F.own y (((ho y).1 hy).resolve_right c)
  · intro y hy
    have c : y ≠ h := fun c => hy ((ho y).2 (Or.inr c))
    rw [Arr.set_get_ne _ _ c]
    exact F.free y (fun z => hy ((ho y).2 (Or.inl z)))

theorem sfill_empty {msk : Int} (hm : IsMask msk) : SFill b [] msk (Arr.const 0 (msk + 1) FmSlot.empty) := by
  have hn : ∀ y, ¬ FmOwn (Arr.const 0 (msk + 1) FmSlot.empty) y := by
    intro y hy
    exact hy rfl
  refine ⟨rfl, rfl, Tab.empty (by have := hm.nonneg; omega) (fun y _ _ => hn y), fun k hk => absurd hk List.not_mem_nil, fun y hy => absurd hy (hn y), fun y _ => rfl⟩

theorem sfFill_holds (hc : ConsE b.s) (ha : Alloc b) (hb : 0 ≤ b.s.baseval) (hv : Valid b) {msk : Int} (hm : IsMask msk) (hroom : b.fronnbr ≤ msk + 1) :
    Holds (forUp 0 b.fronnbr (Arr.const 0 (msk + 1) FmSlot.empty) fun i a => do sfInsert b msk (← b.frontab.rd i) a)
      (fun t => ∃ keys, SFill b keys msk t ∧ (∀ v, b.s.Vertex v → v ∉ keys → b.part v ≠ 2) ∧ (keys.length : Int) = b.fronnbr) := by
  have hn := hc.vertnbr
  have hnn := hc.vertnnd
  have hf := hv.fron
  have hle := hf.le (lo := b.s.baseval) (hi := b.s.vertnnd) (by omega) (fun v hvv => ⟨hvv.1.1, hvv.1.2⟩)
  have hbf := ha.fron
  refine Holds_forUp (fun i t => ∃ keys, SFill b keys msk t ∧ (∀ v, v ∈ keys ↔ ∃ j, 0 ≤ j ∧ j < i ∧ b.frontab.get j = v) ∧ (keys.length : Int) = i) hf.1 ?_ ?_ ?_
  · refine ⟨[], sfill_empty hm, fun v => ⟨fun h => absurd h List.not_mem_nil, ?_⟩, rfl⟩
    rintro ⟨j, j1, j2, _⟩
    omega
  · rintro i t i1 i2 ⟨keys, F, k1, k2⟩
    have hvi := hf.mem i1 i2
    have hi1 := hvi.1.1
    have hi2 := hvi.1.2
    rw [Arr.rd_ok _ (by omega) (by omega), ok_bind]
    refine (sfInsert_holds hc ha hb hv.parts hm F hvi.1 hvi.2 ?_ (by omega)).mono ?_
    · intro z
      obtain ⟨j, j1, j2, j3⟩ := (k1 _).1 z
      have := hf.2.1 j i j1 (by omega) i1 i2 j3
      omega
    · intro t' F'
      refine ⟨_, F', ?_, ?_⟩
      · intro v
        rw [List.mem_append, List.mem_singleton, k1]
        constructor
        · rintro (⟨j, j1, j2, j3⟩ | rfl)
          · exact ⟨j, j1, by omega, j3⟩
          · exact ⟨i, i1, by omega, rfl⟩
        · rintro ⟨j, j1, j2, rfl⟩
          by_cases c : j = i
          · right; rw [c]
          · left; exact ⟨j, j1, by omega, rfl⟩
      · rw [List.length_append, List.length_singleton]
        omega
  · rintro t ⟨keys, F, k1, k2⟩
    refine ⟨keys, F, ?_, k2⟩
    intro v hvv hvn h2
    exact hvn ((k1 v).2 ((hf.2.2 v).1 ⟨hvv, h2⟩))

theorem sfSize_pow (n : Int) : ∀ (k : Nat) (msk : Int), (∃ j : Nat, msk + 1 = 512 * 2 ^ j) → ∀ m, fmSize n k msk = .ok m → ∃ j : Nat, m + 1 = 512 * 2 ^ j := by
  intro k
  induction k with
  | zero => intro msk _ m h; cases h
  | succ k ih =>
    intro msk hj m h
    unfold fmSize at h
    by_cases hc : msk + 1 < n
    · rw [if_pos hc] at h
      obtain ⟨j, hj⟩ := hj
      exact ih _ ⟨j + 1, by rw [pow_succ]; omega⟩ m h
    · rw [if_neg hc] at h
      cases h
      exact hj

/-- Number of vertices for which the table can become full. -/
def NoFull (b : Vgraph) : Prop := ∀ k : Nat, b.s.vertnbr ≠ 512 * 2 ^ k

theorem sfInit (hc : ConsE b.s) (ha : Alloc b) (hb : 0 ≤ b.s.baseval) (hv : Valid b) (env : SfEnv) {para : SfParam} (hmv : 0 ≤ para.movenbr) (hfull : NoFull b) (mat : Int) :
    ∃ keys s, SRdy b keys b.part s ∧ s.bst = ⟨b.comploaddlt, b.compload2, 0, 0⟩ ∧ ∀ fuel, sfMain env para mat fuel b = sfPasses env b para.movenbr mat fuel (s, para.passnbr) >>= sfFinish b := by
  have hn := hc.vertnbr
  have hnn := hc.vertnnd
  have hfl := hv.fron.le (lo := b.s.baseval) (hi := b.s.vertnnd) (by omega) (fun v hvv => ⟨hvv.1.1, hvv.1.2⟩)
  have hdeg := hc.degrmax.1
  have hf0 := hv.fron.1
  generalize hH : min (16 * (b.fronnbr + para.movenbr + b.s.degrmax) + 1) b.s.vertnbr = H
  have hsz : Holds (fmSize H (H.toNat + 1) 511) (fun m => IsMask m ∧ 255 ≤ m ∧ (m + 1) % 4 = 0 ∧ H ≤ m + 1) := by
    rcases fmSize_holds H (H.toNat + 1) 511 ⟨9, by decide⟩ (by omega) (by decide) (by omega) with h | h
    · exact h
    · omega
  obtain ⟨msk, hmsk, hm, hm1, hm2, hm3⟩ := Holds_iff_exists.1 hsz
  obtain ⟨j, hj⟩ := sfSize_pow H _ _ ⟨0, by decide⟩ msk hmsk
  have hroom : b.fronnbr ≤ msk + 1 := by omega
  obtain ⟨t, ht, keys, F, hout, hklen⟩ := Holds_iff_exists.1 (sfFill_holds hc ha hb hv hm hroom)
  have hne := hfull j
  rw [← hj] at hne
  refine ⟨keys, {
    hash := t, msk := msk, max := (msk + 1) / 4, nbr := b.fronnbr, save := ⟨0, msk + 1, env.junk⟩, savenbr := 0, mswp := -1, lock := [],
    cur := ⟨b.comploaddlt, b.compload2, 0, 0⟩, bst := ⟨b.comploaddlt, b.compload2, 0, 0⟩, dltmin := 0, dltmax := max mat (env.absI b.comploaddlt), moveflag := false, movenbr := 0, clock := 0 }, ?_, ?_, fun fuel => ?_⟩
  · refine ⟨hm, by dsimp only; omega, F.lo, F.hi, rfl, rfl, F.tab, F.vert, hklen.symm, ?_, ?_, Int.le_refl _, fun h hh => absurd hh List.not_mem_nil, ?_, ?_, Int.le_refl _, ?_, ?_, fun x hx hk => ⟨rfl, hout x hx hk⟩, ⟨hv.parts, hv.sep, ?_, hv.load2⟩⟩
    · unfold Fit
      dsimp only
      rw [hklen]
      omega
    · intro y y1 y2
      dsimp only
      refine ⟨?_, F.free y⟩
      by_cases ho : FmOwn t y
      · rw [(F.own y ho).1]
      · rw [F.free y ho]
    · intro y y1 y2 ho
      dsimp only at ho ⊢
      rw [(F.own y ho).2.2.2]
      exact ⟨by decide, fun z => absurd z (by decide)⟩
    · intro y y1 y2 ho _
      exact ⟨(F.own y ho).2.1, fun _ => (F.own y ho).2.2.1⟩
    · intro i i1 i2
      dsimp only at i2
      omega
    · intro i j i1 i2
      dsimp only at i2
      omega
    · dsimp only
      rw [hv.delta, hv.load0, hv.load1]
  · rfl
  · unfold sfMain
    dsimp only
    rw [hH, hmsk, ok_bind, ht, ok_bind]

/-- Result of the refinement. -/
def SfPost (b : Vgraph) (absI : Int → Int) (mat : Int) (b' : Vgraph) : Prop :=
  SameProblem b b' ∧ Valid b' ∧ ((∀ x, absI x = |x|) → |b.comploaddlt| ≤ mat →
    |b'.comploaddlt| ≤ mat ∧ (b'.compload2 < b.compload2 ∨ (b'.compload2 = b.compload2 ∧ |b'.comploaddlt| ≤ |b.comploaddlt|)))

theorem sfEnd_post (hc : ConsE b.s) (ha : Alloc b) (hb : 0 ≤ b.s.baseval) (hv : Valid b) (hw : b.dwgt0 + b.dwgt1 ≠ 0) {absI : Int → Int} {mat : Int} (hbst : s.bst = ⟨b.comploaddlt, b.compload2, 0, 0⟩) {s' : Fm} (E : SfEnd b absI mat s s') :
    Holds (sfFinish b s') (SfPost b absI mat) := by
  obtain ⟨⟨keys', pb', S'⟩, E⟩ := E
  refine (sfFinish_holds hc ha hb hv hw S').mono ?_
  rintro b' ⟨b1, b2, b3, b4⟩
  refine ⟨b1, b2, fun habs hbal => ?_⟩
  rw [hbst] at E
  obtain ⟨e1, e2⟩ := E habs hbal
  rw [b3, b4]
  refine ⟨e1, ?_⟩
  unfold SLt SSame at e2
  dsimp only at e2
  omega

theorem sfMain_fuel (hv : Valid b) (hw : b.dwgt0 + b.dwgt1 ≠ 0) {env : SfEnv} (H : SfHyp b env) {para : SfParam} (hmv : 0 ≤ para.movenbr) (hfull : NoFull b) (mat : Int) (fuel : Nat) :
    OrFuel (sfMain env para mat fuel b) (SfPost b env.absI mat) := by
  obtain ⟨keys, s, S, hbst, e⟩ := sfInit H.cons H.alloc H.base hv env hmv hfull mat
  rw [e, OrFuel_bind]
  refine (sfPasses_fuel H para.movenbr mat para.passnbr fuel S).mono ?_
  intro s' E
  exact OrFuel.of_holds (sfEnd_post H.cons H.alloc H.base hv hw hbst E)

theorem sfMain_ends (hv : Valid b) (hw : b.dwgt0 + b.dwgt1 ≠ 0) {env : SfEnv} (H : SfHyp b env) (habs : ∀ x, env.absI x = |x|) {para : SfParam} (hmv : 0 ≤ para.movenbr) (hfull : NoFull b) (mat : Int) (hbal : |b.comploaddlt| ≤ mat) :
    Ends (fun fuel => sfMain env para mat fuel b) (SfPost b env.absI mat) := by
  obtain ⟨keys, s, S, hbst, e⟩ := sfInit H.cons H.alloc H.base hv env hmv hfull mat
  have hb' : |s.bst.dlt| ≤ mat := by rw [hbst]; exact hbal
  have := Ends.bind (g := fun _ => sfFinish b) (sfPasses_ends H habs para.movenbr mat para.passnbr S hb') (fun s' E => Ends.of_holds (sfEnd_post H.cons H.alloc H.base hv hw hbst E))
  obtain ⟨r, q, n, hn⟩ := this
  refine ⟨r, q, n, fun fuel hf => ?_⟩
  dsimp only
  rw [e]
  exact hn fuel hf

end Scotch.Separ
