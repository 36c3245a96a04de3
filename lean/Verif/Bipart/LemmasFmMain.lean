import Verif.Bipart.LemmasFmLoop

/-! # Fiduccia-Mattheyses refinement: results and initial table -/

set_option autoImplicit false
set_option linter.unusedSimpArgs false

namespace Scotch.Bipart
open Graph
open Coarsen (IsMask land land_mask)
open Hash (Tab Path probe probe_in probe_succ probe_surj)

variable {b : Bgraph} {keys : List Int} {p pb : Int → Int} {r r' : Int → Int → Int} {s s' s0 : Fm} {h u v w e mit mat : Int}

/-! ## Results -/

theorem fmSwapParts_holds (hc : ConsE b.s) (ha : Alloc b) (hv : Valid b) {sw : Int} (hs : sw = 0 ∨ sw = 1) :
    Holds (fmSwapParts b sw) (fun x => x.1.lo = b.parttax.lo ∧ x.1.hi = b.parttax.hi ∧ (∀ v, b.s.Vertex v → x.1.get v = xorP (b.part v) sw) ∧ b.compsize0 + x.2 = over b.s x.1.get 0 (fun _ => 1)) := by
  unfold fmSwapParts
  have hn := hc.vertnbr
  have hnn := hc.vertnnd
  have hb := ha.part
  have hp := hv.parts
  rcases hs with rfl | rfl
  · rw [if_neg (by decide), Holds_pure]
    refine ⟨rfl, rfl, ?_, ?_⟩
    · intro v hvv
      show b.part v = _
      rcases hp v hvv with a | a <;> rw [a] <;> decide
    · dsimp only
      rw [Int.add_zero]
      exact hv.size
  · rw [if_pos (by decide), Holds_bind]
    refine Holds_forUp (fun i (a : Arr Int) => a.lo = b.parttax.lo ∧ a.hi = b.parttax.hi ∧
      (∀ v, b.s.baseval ≤ v → v < i → a.get v = xorP (b.part v) 1) ∧ ∀ v, i ≤ v → a.get v = b.part v) (by omega) ?_ ?_ ?_
    · exact ⟨rfl, rfl, fun v h1 h2 => by omega, fun v _ => rfl⟩
    · rintro i a h1 h2 ⟨e1, e2, e3, e4⟩
      rw [Arr.rd_ok _ (by omega) (by omega), ok_bind, Arr.wr_ok _ _ (by omega) (by omega), Holds_ok]
      refine ⟨e1, e2, ?_, ?_⟩
      · intro v v1 v2
        by_cases hv : v = i
        · rw [hv, Arr.set_get_same, e4 i (by omega)]
        · rw [Arr.set_get_ne _ _ hv, e3 v v1 (by omega)]
      · intro v hv
        rw [Arr.set_get_ne _ _ (by omega), e4 v (by omega)]
    · rintro a ⟨e1, e2, e3, e4⟩
      rw [Holds_pure]
      refine ⟨e1, e2, fun v hv => e3 v hv.1 hv.2, ?_⟩
      dsimp only
      have hq : ∀ v, b.s.Vertex v → a.get v = 1 - b.part v := by
        intro v hv
        rw [e3 v hv.1 hv.2]
        rcases hp v hv with c | c <;> rw [c] <;> decide
      rw [over_congr (q := fun v => 1 - b.part v) 0 hq (fun _ _ => rfl), (over_flipAll (p := b.part) (fun _ => 1)).1, hv.size]
      have := over_add hp (fun _ => 1)
      rw [size_eq hc] at this
      omega

/-- State of the loop that writes the results. -/
structure FmOutOk (b : Bgraph) (s : Fm) (pb p1 : Int → Int) (h : Int) (t : FmOut) : Prop where
  pbd : t.part.lo = b.parttax.lo ∧ t.part.hi = b.parttax.hi
  fbd : t.fron.lo = b.frontab.lo ∧ t.fron.hi = b.frontab.hi
  new : ∀ y, 0 ≤ y → y < h → FmOwn s.hash y → t.part.get (FmKey s.hash y) = pb (FmKey s.hash y)
  old : ∀ v, b.s.Vertex v → (∀ y, 0 ≤ y → y < h → FmOwn s.hash y → FmKey s.hash y ≠ v) → t.part.get v = p1 v
  size : b.compsize0 + t.sizedlt = over b.s t.part.get 0 (fun _ => 1)
  fron : Enum t.fron t.fronnbr (fun v => ∃ y, 0 ≤ y ∧ y < h ∧ FmOwn s.hash y ∧ FmKey s.hash y = v ∧ 0 < cutCnt b.s pb v)

theorem fmWrite_holds (hc : ConsE b.s) (ha : Alloc b) (hb : 0 ≤ b.s.baseval) {p1 : Int → Int} (hp1 : Parts b.s p1) (hpb : Parts b.s pb) (G : FmGeo b keys s) {t' : Arr FmSlot} (ht0 : t'.lo = 0) (ht1 : t'.hi = s.msk + 1)
    (htv : ∀ y, (t'.get y).vertnum = (s.hash.get y).vertnum) (htp : ∀ y, 0 ≤ y → y < s.msk + 1 → FmOwn s.hash y → (t'.get y).v.part = pb (FmKey s.hash y) ∧ (t'.get y).v.cut = cutCnt b.s pb (FmKey s.hash y))
    (h1 : 0 ≤ h) (h2 : h < s.msk + 1) {t : FmOut} (T : FmOutOk b s pb p1 h t) : Holds (fmWrite t' h t) (FmOutOk b s pb p1 (h + 1)) := by
  unfold fmWrite
  rw [Arr.rd_ok _ (by omega) (by omega), ok_bind]
  by_cases ho : FmOwn s.hash h
  · have hk : FmKey s.hash h ∈ keys := (G.tab.mem _).2 ⟨h, h1, h2, ho, rfl⟩
    have hv := G.vert _ hk
    have hvv : (t'.get h).vertnum = FmKey s.hash h := htv h
    rw [if_neg (by rw [hvv]; have := hv.1; omega), hvv, (htp h h1 h2 ho).1, (htp h h1 h2 ho).2]
    have huni : ∀ y, 0 ≤ y → y < h → FmOwn s.hash y → FmKey s.hash y ≠ FmKey s.hash h := by
      intro y y1 y2 y3 c
      have := G.tab.uniq y1 (by omega) h1 h2 y3 ho c
      omega
    generalize hud : FmKey s.hash h = u at *
    have hbp := ha.part
    have hbf := ha.fron
    obtain ⟨pb1, pb2⟩ := T.pbd
    obtain ⟨fb1, fb2⟩ := T.fbd
    have hu1 := hv.1
    have hu2 := hv.2
    -- the part array
    have hparts : Parts b.s t.part.get := by
      intro v hv
      by_cases c : ∀ y, 0 ≤ y → y < h → FmOwn s.hash y → FmKey s.hash y ≠ v
      · rw [T.old v hv c]; exact hp1 v hv
      · push Not at c
        obtain ⟨y, y1, y2, y3, y4⟩ := c
        rw [← y4, T.new y y1 y2 y3, y4]
        exact hpb v hv
    have hw : ∃ P d, fmWritePart u (pb u) t.part t.sizedlt = .ok (P, d) ∧ P.lo = t.part.lo ∧ P.hi = t.part.hi ∧ P.get u = pb u ∧ (∀ v, v ≠ u → P.get v = t.part.get v) ∧ b.compsize0 + d = over b.s P.get 0 (fun _ => 1) := by
      unfold fmWritePart
      rw [Arr.rd_ok _ (by omega) (by omega), ok_bind]
      by_cases c : t.part.get u ≠ pb u
      · rw [if_pos c, Arr.wr_ok _ _ (by omega) (by omega), ok_bind]
        refine ⟨_, _, rfl, rfl, rfl, Arr.set_get_same _ _ _, fun v c => Arr.set_get_ne _ _ c, ?_⟩
        have e : (t.part.set u (pb u)).get = flip t.part.get u := by
          funext v
          unfold flip
          by_cases c' : v = u
          · rw [if_pos c', c', Arr.set_get_same]
            have := hpb u hv
            have := hparts u hv
            omega
          · rw [if_neg c', Arr.set_get_ne _ _ c']
        rw [e, over0_flip hparts hv, ← T.size]
        have := hpb u hv
        have := hparts u hv
        omega
      · rw [if_neg c]
        exact ⟨_, _, rfl, rfl, rfl, by push Not at c; exact c, fun _ _ => rfl, T.size⟩
    obtain ⟨P, d, w1, w2, w3, w4, w5, w6⟩ := hw
    rw [w1, ok_bind]
    have hu : ¬ ∃ y, 0 ≤ y ∧ y < h ∧ FmOwn s.hash y ∧ FmKey s.hash y = u ∧ 0 < cutCnt b.s pb u := by
      rintro ⟨y, y1, y2, y3, y4, _⟩
      exact huni y y1 y2 y3 y4
    have hlt := T.fron.lt (lo := b.s.baseval) (hi := b.s.vertnnd) (x := u) (fun v => by
      rintro ⟨y, y1, y2, y3, y4, _⟩
      have := G.vert _ ((G.tab.mem _).2 ⟨y, y1, by omega, y3, rfl⟩)
      rw [y4] at this
      exact ⟨this.1, this.2⟩) hu hu1 hu2
    have hnn := hc.vertnnd
    have hn0 := T.fron.1
    have hnew : ∀ y, 0 ≤ y → y < h + 1 → FmOwn s.hash y → P.get (FmKey s.hash y) = pb (FmKey s.hash y) := by
      intro y y1 y2 y3
      by_cases c : y = h
      · rw [c, hud]; exact w4
      · rw [w5 _ (huni y y1 (by omega) y3)]
        exact T.new y y1 (by omega) y3
    have hold : ∀ v, b.s.Vertex v → (∀ y, 0 ≤ y → y < h + 1 → FmOwn s.hash y → FmKey s.hash y ≠ v) → P.get v = p1 v := by
      intro v hv' hy
      rw [w5 v (fun c => hy h h1 (by omega) ho (by rw [hud, c]))]
      exact T.old v hv' (fun y y1 y2 y3 => hy y y1 (by omega) y3)
    unfold fmWriteFron
    by_cases hcut : cutCnt b.s pb u > 0
    · rw [if_pos hcut, Arr.wr_ok _ _ (by omega) (by omega), ok_bind, pure_bind, Holds_pure]
      refine ⟨⟨w2.trans pb1, w3.trans pb2⟩, ⟨fb1, fb2⟩, hnew, hold, w6, ?_⟩
      dsimp only
      refine (T.fron.push hu).congr ?_
      intro v
      constructor
      · rintro (⟨y, y1, y2, y3⟩ | rfl)
        · exact ⟨y, y1, by omega, y3⟩
        · exact ⟨h, h1, by omega, ho, hud, hcut⟩
      · rintro ⟨y, y1, y2, y3, y4, y5⟩
        by_cases c : y = h
        · right; rw [← y4, c, hud]
        · left; exact ⟨y, y1, by omega, y3, y4, y5⟩
    · rw [if_neg hcut, pure_bind, Holds_pure]
      refine ⟨⟨w2.trans pb1, w3.trans pb2⟩, ⟨fb1, fb2⟩, hnew, hold, w6, ?_⟩
      refine T.fron.congr ?_
      intro v
      constructor
      · rintro ⟨y, y1, y2, y3⟩
        exact ⟨y, y1, by omega, y3⟩
      · rintro ⟨y, y1, y2, y3, y4, y5⟩
        by_cases c : y = h
        · rw [← y4, c, hud] at y5
          exact absurd y5 hcut
        · exact ⟨y, y1, by omega, y3, y4, y5⟩
  · have hvv : (t'.get h).vertnum = -1 := by
      rw [htv]
      unfold FmOwn at ho
      push Not at ho
      exact ho
    rw [if_pos hvv, Holds_pure]
    have hne : ∀ y, y < h + 1 → FmOwn s.hash y → y < h := by
      intro y y2 y3
      have : y ≠ h := by intro c; rw [c] at y3; exact ho y3
      omega
    refine ⟨T.pbd, T.fbd, fun y y1 y2 y3 => T.new y y1 (hne y y2 y3) y3, fun v hv hy => T.old v hv (fun y y1 y2 y3 => hy y y1 (by omega) y3), T.size, ?_⟩
    refine T.fron.congr ?_
    intro v
    constructor
    · rintro ⟨y, y1, y2, y3⟩
      exact ⟨y, y1, by omega, y3⟩
    · rintro ⟨y, y1, y2, y3, y4⟩
      exact ⟨y, y1, hne y y2 y3, y3, y4⟩

theorem fmRestoreEnd_holds (S : FmRdy b keys pb s) :
    Holds (forUp 0 s.savenbr s.hash fun i a => fmRestoreEnd s a (s.savenbr - 1 - i)) (fun t => t.lo = 0 ∧ t.hi = s.msk + 1 ∧
      (∀ y, (t.get y).vertnum = (s.hash.get y).vertnum) ∧
      ∀ y, 0 ≤ y → y < s.msk + 1 → FmOwn s.hash y → (t.get y).v.part = pb (FmKey s.hash y) ∧ (t.get y).v.cut = cutCnt b.s pb (FmKey s.hash y)) := by
  have hnn := S.nonneg
  have hlo := S.geo.hlo
  have hhi := S.geo.hhi
  have slo := S.geo.slo
  have shi := S.geo.shi
  have hle := S.save_lt
  refine Holds_forUp (fun i t => t.lo = 0 ∧ t.hi = s.msk + 1 ∧ (∀ y, (t.get y).vertnum = (s.hash.get y).vertnum) ∧
      (∀ n, s.savenbr - i ≤ n → n < s.savenbr → (t.get (s.save.get n).hashnum).v.part = (s.save.get n).v.part ∧ (t.get (s.save.get n).hashnum).v.cut = (s.save.get n).v.cut) ∧
      ∀ y, (∀ n, s.savenbr - i ≤ n → n < s.savenbr → (s.save.get n).hashnum ≠ y) → (t.get y).v = (s.hash.get y).v) hnn
    ⟨hlo, hhi, fun _ => rfl, fun n n1 n2 => by omega, fun _ _ => rfl⟩ ?_ ?_
  · rintro i t i1 i2 ⟨t1, t2, t3, t4, t5⟩
    obtain ⟨c1, c2, c4⟩ := S.sv (s.savenbr - 1 - i) (by omega) (by omega)
    have := hle (s.savenbr - 1 - i) (by omega) (by omega)
    unfold fmRestoreEnd
    rw [Arr.rd_ok _ (by omega) (by omega), ok_bind, Arr.rd_ok _ (by omega) (by omega), ok_bind, Arr.wr_ok _ _ (by omega) (by omega), Holds_ok]
    refine ⟨t1, t2, ?_, ?_, ?_⟩
    · intro z
      by_cases c : z = (s.save.get (s.savenbr - 1 - i)).hashnum
      · rw [c, Arr.set_get_same]
        exact t3 _
      · rw [Arr.set_get_ne _ _ c]
        exact t3 z
    · intro n n1 n2
      by_cases c : n = s.savenbr - 1 - i
      · rw [c, Arr.set_get_same]
        exact ⟨rfl, rfl⟩
      · have : (s.save.get n).hashnum ≠ (s.save.get (s.savenbr - 1 - i)).hashnum := by
          intro c'
          exact c (S.inj _ _ (by omega) n2 (by omega) (by omega) c')
        rw [Arr.set_get_ne _ _ this]
        exact t4 n (by omega) n2
    · intro z hz
      rw [Arr.set_get_ne _ _ (fun c => hz (s.savenbr - 1 - i) (by omega) (by omega) c.symm)]
      exact t5 z (fun n n1 n2 => hz n (by omega) n2)
  · rintro t ⟨t1, t2, t3, t4, t5⟩
    refine ⟨t1, t2, t3, ?_⟩
    intro y y1 y2 hy
    by_cases hm : ∃ i, 0 ≤ i ∧ i < s.savenbr ∧ (s.save.get i).hashnum = y
    · obtain ⟨i, i1, i2, i3⟩ := hm
      have h4 := t4 i (by omega) i2
      rw [i3] at h4
      rw [h4.1, h4.2]
      have := (S.sv i i1 i2).2.2
      rw [i3] at this
      rw [this]
      exact ⟨rfl, rfl⟩
    · rw [t5 y ?_, S.vals y y1 y2 hy (fun i i1 i2 c => hm ⟨i, i1, i2, c⟩)]
      · exact ⟨rfl, rfl⟩
      · intro n n1 n2 c
        exact hm ⟨n, by omega, n2, c⟩

theorem fmFinish_holds (hc : ConsE b.s) (ha : Alloc b) (hb : 0 ≤ b.s.baseval) (hv : Valid b) (S : FmRdy b keys pb s) :
    Holds (fmFinish b s) (fun b' => SameProblem b b' ∧ Valid b' ∧ b'.compload0dlt = s.bst.dlt ∧ b'.commload = s.bst.comm) := by
  have G := S.geo
  have hpb := S.cur.parts
  have hpart := hv.parts
  unfold fmFinish
  rw [Holds_bind]
  refine (fmSwapParts_holds hc ha hv S.cur.swap).mono ?_
  rintro ⟨q, d⟩ ⟨q1, q2, q3, q4⟩
  rw [Holds_bind]
  refine (fmRestoreEnd_holds S).mono ?_
  rintro t' ⟨t1, t2, t3, t4⟩
  dsimp only at q1 q2 q3 q4 ⊢
  have hp1 : Parts b.s q.get := by
    intro v hvv
    rw [q3 v hvv]
    rcases hpart v hvv with a | a <;> rcases S.cur.swap with c | c <;> rw [a, c] <;> decide
  rw [Holds_bind]
  refine Holds_forUp (fun i t => FmOutOk b s pb q.get i t) (by have := G.tab.pos; omega) ?_ (fun i t i1 i2 T => fmWrite_holds hc ha hb hp1 hpb G t1 t2 t3 t4 i1 i2 T) ?_
  · refine ⟨⟨q1, q2⟩, ⟨rfl, rfl⟩, fun y y1 y2 => by omega, fun _ _ _ => rfl, q4, (Enum.empty _).congr ?_⟩
    intro v
    constructor
    · exact False.elim
    · rintro ⟨y, y1, y2, _⟩
      omega
  · intro t T
    rw [Holds_pure]
    have hfin : ∀ v, b.s.Vertex v → t.part.get v = pb v := by
      intro v hvv
      by_cases hk : v ∈ keys
      · obtain ⟨y, y1, y2, y3, y4⟩ := (G.tab.mem v).1 hk
        rw [← y4]
        exact T.new y y1 y2 y3
      · rw [T.old v hvv (fun y y1 y2 y3 c => hk ((G.tab.mem v).2 ⟨y, y1, y2, y3, c⟩)), q3 v hvv]
        exact (S.out v hvv hk).1.symm
    have hcur := S.cur
    have hpp : ∀ v, b.s.Vertex v → Bgraph.part { b with
      parttax := t.part, frontab := t.fron, fronnbr := t.fronnbr, compload0 := s.bst.dlt + b.compload0avg, compload0dlt := s.bst.dlt,
      compsize0 := b.compsize0 + t.sizedlt, commload := s.bst.comm, commgainextn := s.bst.extn } v = pb v := hfin
    refine ⟨⟨rfl, rfl, ⟨T.pbd.1, T.pbd.2, T.fbd.1, T.fbd.2⟩, ⟨rfl, rfl, rfl⟩, ⟨rfl, rfl⟩, ⟨rfl, rfl, rfl⟩, ⟨rfl, rfl⟩⟩, ⟨?_, ?_, ?_, ?_, ?_, ?_, ?_⟩, rfl, rfl⟩
    · intro v hvv
      rw [hpp v hvv]
      exact hpb v hvv
    · dsimp only
      rw [over_congr 0 hpp (fun _ _ => rfl), hcur.dlt]
      omega
    · dsimp only
      omega
    · exact T.size
    · dsimp only
      rw [over_congr 1 hpp (fun _ _ => rfl), cut_congr hc hpp, hcur.comm]
      rfl
    · dsimp only
      rw [over_congr 1 hpp (fun _ _ => rfl), over_congr 0 hpp (fun _ _ => rfl), hcur.extn]
      rfl
    · dsimp only
      refine T.fron.congr ?_
      intro v
      rw [Frontier_congr hc hpp v]
      constructor
      · rintro ⟨y, y1, y2, y3, y4, y5⟩
        have hvv := G.vert _ ((G.tab.mem v).2 ⟨y, y1, y2, y3, y4⟩)
        exact (frontier_inner hvv).2 (cutCnt_pos.1 y5)
      · intro hf
        have hvv := hf.1
        rw [frontier_inner hvv] at hf
        by_cases hk : v ∈ keys
        · obtain ⟨y, y1, y2, y3, y4⟩ := (G.tab.mem v).1 hk
          exact ⟨y, y1, y2, y3, y4, cutCnt_pos.2 hf⟩
        · exact absurd (S.out v hvv hk).2 hf

/-! ## Initial table -/

theorem fmInitVals_eq (hc : ConsE b.s) (ha : Alloc b) (hp : Parts b.s b.part) (hv : b.s.Vertex v) : fmInitVals b v = .ok (fmVals b b.part v) := by
  have hbp := ha.part
  have h1 := hv.1
  have h2 := hv.2
  have hA : Holds (b.s.forArcs v ((0, 0) : Int × Int) fun e w t => do
      let partend ← b.parttax.rd w
      let edloval ← b.s.rdEdlo e
      let partdlt := xorP (b.part v) partend
      return (t.1 + partdlt, t.2 + (1 - 2 * partdlt) * edloval)) (fun t => t = (cutCnt b.s b.part v, arcGain b.s b.part v)) := by
    refine Holds_forArcs ha.graph hv (hc.range v hv).2 (fun e t => t = (sumI (b.s.vert v) e (fun e => if b.part (b.s.dest e) = b.part v then 0 else 1), sumI (b.s.vert v) e (fun e => b.s.edlo e * (if b.part (b.s.dest e) = b.part v then 1 else -1)))) ?_ ?_ ?_
    · rw [sumI_empty (Int.le_refl _), sumI_empty (Int.le_refl _)]
    · rintro e t e1 e2 rfl
      obtain ⟨hw, _⟩ := hc.inside v e hv e1 e2
      have w1 := hw.1
      have w2 := hw.2
      rw [Arr.rd_ok _ (by omega) (by omega), ok_bind, rdEdlo_eq ha.graph hv e1 e2, ok_bind, Holds_pure, sumI_succ e1, sumI_succ e1]
      show (_, _) = (_, _)
      have hpw : b.parttax.get (b.s.dest e) = b.part (b.s.dest e) := rfl
      rw [hpw, xorP_eq (hp v hv) (hp _ hw)]
      dsimp only
      congr 1
      · congr 1
        rcases hp v hv with a | a <;> rcases hp _ hw with c | c <;> rw [a, c] <;> decide
      · congr 1
        rw [Int.mul_comm]
        congr 1
        rcases hp v hv with a | a <;> rcases hp _ hw with c | c <;> rw [a, c] <;> decide
    · intro t ht
      exact ht
  obtain ⟨t, t1, t2⟩ := Holds_iff_exists.1 hA
  unfold fmInitVals
  rw [Arr.rd_ok _ (by omega) (by omega), ok_bind]
  have hpv : b.parttax.get v = b.part v := rfl
  rw [hpv]
  rw [t1, ok_bind, rdVelo_eq ha.graph hv, ok_bind, rdVeex_eq ha hv, ok_bind, t2]
  rfl

/-- Table under construction. -/
structure FillOk (b : Bgraph) (keys : List Int) (msk : Int) (t : Arr FmSlot) : Prop where
  lo : t.lo = 0
  hi : t.hi = msk + 1
  tab : FmTab t msk keys
  vert : ∀ k ∈ keys, b.s.Vertex k
  own : ∀ y, FmOwn t y → (t.get y).mswp = 0 ∧ (t.get y).v = fmVals b b.part (FmKey t y) ∧ (t.get y).st = .link
  free : ∀ y, ¬ FmOwn t y → (t.get y).mswp = -1

theorem fmInsert_holds (hc : ConsE b.s) (ha : Alloc b) (hb : 0 ≤ b.s.baseval) (hp : Parts b.s b.part) {msk : Int} (hm : IsMask msk) {t : Arr FmSlot} (F : FillOk b keys msk t) (hv : b.s.Vertex v) (hn : v ∉ keys) (hroom : (keys.length : Int) < msk + 1) :
    Holds (fmInsert b msk v t) (FillOk b (keys ++ [v]) msk) := by
  have hv0 : 0 ≤ v := by have := hv.1; omega
  unfold fmInsert
  rw [fmInitVals_eq hc ha hp hv, ok_bind]
  obtain ⟨d, P, N, e⟩ := fmFree_eq F.tab hm F.lo F.hi hv0 hroom hn
  have hin := probe_in (prime := fmPrime) F.tab.pos v d
  have hlo := F.lo
  have hhi := F.hi
  rw [e, ok_bind]
  generalize hg : probe fmPrime (msk + 1) v d = h at *
  rw [Arr.wr_ok _ _ (by omega) (by omega), Holds_ok]
  have ho : ∀ y, FmOwn (t.set h ⟨v, fmVals b b.part v, 0, .link⟩) y ↔ FmOwn t y ∨ y = h := by
    intro y
    unfold FmOwn
    by_cases c : y = h
    · rw [c, Arr.set_get_same]
      exact ⟨fun _ => Or.inr rfl, fun _ => by dsimp only; omega⟩
    · rw [Arr.set_get_ne _ _ c]
      exact ⟨Or.inl, fun z => z.resolve_right c⟩
  have hkk : ∀ y, y ≠ h → FmKey (t.set h ⟨v, fmVals b b.part v, 0, .link⟩) y = FmKey t y := by
    intro y c
    unfold FmKey
    rw [Arr.set_get_ne _ _ c]
  have hkh : FmKey (t.set h ⟨v, fmVals b b.part v, 0, .link⟩) h = v := by
    unfold FmKey
    rw [Arr.set_get_same]
  refine ⟨hlo, hhi, ?_, ?_, ?_, ?_⟩
  · refine F.tab.insert P (by rw [hg]; exact N) ?_ ?_ ?_ <;> rw [hg]
    · exact ho
    · exact hkk
    · exact hkh
  · intro k hk
    rw [List.mem_append] at hk
    rcases hk with hk | hk
    · exact F.vert k hk
    · rw [List.mem_singleton] at hk; rw [hk]; exact hv
  · intro y hy
    by_cases c : y = h
    · rw [c, hkh, Arr.set_get_same]
      exact ⟨rfl, rfl, rfl⟩
    · rw [hkk y c, Arr.set_get_ne _ _ c]
      exact F.own y (((ho y).1 hy).resolve_right c)
  · intro y hy
    have c : y ≠ h := fun c => hy ((ho y).2 (Or.inr c))
    rw [Arr.set_get_ne _ _ c]
    exact F.free y (fun z => hy ((ho y).2 (Or.inl z)))

theorem fill_empty {msk : Int} (hm : IsMask msk) : FillOk b [] msk (Arr.const 0 (msk + 1) FmSlot.empty) := by
  have hn : ∀ y, ¬ FmOwn (Arr.const 0 (msk + 1) FmSlot.empty) y := by
    intro y hy
    exact hy rfl
  refine ⟨rfl, rfl, Tab.empty (by have := hm.nonneg; omega) (fun y _ _ => hn y), fun k hk => absurd hk List.not_mem_nil, fun y hy => absurd hy (hn y), fun y _ => rfl⟩

theorem fmFill_holds (hc : ConsE b.s) (ha : Alloc b) (hb : 0 ≤ b.s.baseval) (hv : Valid b) {msk : Int} (hm : IsMask msk) (all : Bool) (hroom : if all then b.s.vertnbr ≤ msk + 1 else b.fronnbr ≤ msk + 1) :
    Holds (fmFill b all msk (Arr.const 0 (msk + 1) FmSlot.empty)) (fun t => ∃ keys, FillOk b keys msk t ∧ (∀ v, b.s.Vertex v → v ∉ keys → Inner b.s b.part v) ∧ (all = true → ∀ v, b.s.Vertex v → v ∈ keys) ∧ (all = false → (keys.length : Int) = b.fronnbr)) := by
  have hn := hc.vertnbr
  have hnn := hc.vertnnd
  have hp := hv.parts
  unfold fmFill
  cases all with
  | true =>
    rw [if_pos rfl] at hroom
    rw [if_pos rfl]
    refine Holds_forUp (fun i t => ∃ keys, FillOk b keys msk t ∧ (∀ v, v ∈ keys ↔ b.s.baseval ≤ v ∧ v < i) ∧ (keys.length : Int) = i - b.s.baseval) (by omega) ?_ ?_ ?_
    · refine ⟨[], fill_empty hm, fun v => ⟨fun h => absurd h List.not_mem_nil, fun h => by omega⟩, ?_⟩
      rw [List.length_nil]
      omega
    · rintro i t i1 i2 ⟨keys, F, k1, k2⟩
      refine (fmInsert_holds hc ha hb hp hm F ⟨i1, i2⟩ (fun z => by have := (k1 i).1 z; omega) (by omega)).mono ?_
      intro t' F'
      refine ⟨_, F', ?_, ?_⟩
      · intro v
        rw [List.mem_append, List.mem_singleton, k1]
        omega
      · rw [List.length_append, List.length_singleton]
        omega
    · rintro t ⟨keys, F, k1, k2⟩
      exact ⟨keys, F, fun v hvv hvn => absurd ((k1 v).2 ⟨hvv.1, hvv.2⟩) hvn, fun _ v hvv => (k1 v).2 ⟨hvv.1, hvv.2⟩, fun h => absurd h (by decide)⟩
  | false =>
    rw [if_neg Bool.false_ne_true] at hroom
    rw [if_neg Bool.false_ne_true]
    have hf := hv.fron
    have hle := hf.le (lo := b.s.baseval) (hi := b.s.vertnnd) (by omega) (fun v hvv => ⟨hvv.1.1, hvv.1.2⟩)
    have hbf := ha.fron
    refine Holds_forUp (fun i t => ∃ keys, FillOk b keys msk t ∧ (∀ v, v ∈ keys ↔ ∃ j, 0 ≤ j ∧ j < i ∧ b.frontab.get j = v) ∧ (keys.length : Int) = i) hf.1 ?_ ?_ ?_
    · refine ⟨[], fill_empty hm, fun v => ⟨fun h => absurd h List.not_mem_nil, ?_⟩, rfl⟩
      rintro ⟨j, j1, j2, _⟩
      omega
    · rintro i t i1 i2 ⟨keys, F, k1, k2⟩
      have hvi := (hf.mem i1 i2).1
      have hi1 := hvi.1
      have hi2 := hvi.2
      rw [Arr.rd_ok _ (by omega) (by omega), ok_bind]
      refine (fmInsert_holds hc ha hb hp hm F hvi ?_ (by omega)).mono ?_
      · intro z
        obtain ⟨j, j1, j2, j3⟩ := (k1 _).1 z
        have := hf.2.1 j i j1 (by omega) i1 i2 j3
        omega
      · intro t' F'
        refine ⟨_, F', ?_, ?_⟩
        · intro v
          rw [List.mem_append, List.mem_singleton, k1]
          constructor
          · rintro (⟨j, j1, j2, j3⟩ | rfl)
            · exact ⟨j, j1, by omega, j3⟩
            · exact ⟨i, i1, by omega, rfl⟩
          · rintro ⟨j, j1, j2, rfl⟩
            by_cases c : j = i
            · right; rw [c]
            · left; exact ⟨j, j1, by omega, rfl⟩
        · rw [List.length_append, List.length_singleton]
          omega
    · rintro t ⟨keys, F, k1, k2⟩
      refine ⟨keys, F, ?_, fun h => absurd h (by decide), fun _ => k2⟩
      intro v hvv hvn
      by_contra hi
      have := (hf.2.2 v).1 ((frontier_inner hvv).2 hi)
      exact hvn ((k1 v).2 this)

theorem fmSize_holds (n : Int) : ∀ (k : Nat) (msk : Int), IsMask msk → 255 ≤ msk → (msk + 1) % 4 = 0 → n < msk + 1 + k → Holds (fmSize n k msk) (fun m => IsMask m ∧ 255 ≤ m ∧ (m + 1) % 4 = 0 ∧ n ≤ m + 1) ∨ (k = 0 ∧ n < msk + 1) := by
  intro k
  induction k with
  | zero =>
    intro msk _ _ _ h
    exact Or.inr ⟨rfl, by omega⟩
  | succ k ih =>
    intro msk hm h1 h4 h2
    left
    unfold fmSize
    by_cases hc : msk + 1 < n
    · rw [if_pos hc]
      rcases ih (msk * 2 + 1) hm.double (by omega) (by omega) (by push_cast at h2; omega) with h | h
      · exact h
      · obtain ⟨rfl, h⟩ := h
        push_cast at h2
        omega
    · rw [if_neg hc, Holds_ok]
      exact ⟨hm, h1, h4, by omega⟩

theorem fmMain_holds (hc : ConsE b.s) (ha : Alloc b) (hb : 0 ≤ b.s.baseval) (hv : Valid b) (hd : 0 ≤ b.domndist) (junk : Int → FmSave) {pick : FmPick} (hpick : PickOk pick) (para : FmParam) (hmv : 0 ≤ para.movenbr)
    (all : Bool) (hall : all = false → 0 < b.fronnbr) (mit mat : Int) {dltmin dltmax : Int} (h1 : dltmin = min b.compload0dlt mit) (h2 : dltmax = max b.compload0dlt mat) :
    ∃ n, ∀ fuel, n ≤ fuel → Holds (fmMain junk pick para fuel all mit mat dltmin dltmax b) (fun b' => SameProblem b b' ∧ Valid b' ∧
      (mit ≤ b.compload0dlt → b.compload0dlt ≤ mat → b'.commload < b.commload ∨ (b'.commload = b.commload ∧ |b'.compload0dlt| ≤ |b.compload0dlt|)) ∧
      (b.veextax = none → min b.compload0dlt mit ≤ b'.compload0dlt ∧ b'.compload0dlt ≤ max b.compload0dlt mat)) := by
  have hn := hc.vertnbr
  have hnn := hc.vertnnd
  have hfl := hv.fron.le (lo := b.s.baseval) (hi := b.s.vertnnd) (by omega) (fun v hvv => ⟨hvv.1.1, hvv.1.2⟩)
  have hdeg : all = false → 0 ≤ b.s.degrmax := fun _ => hc.degrmax.1
  have hf0 := hv.fron.1
  generalize hH : (if all then b.s.vertnbr * 4 else min (4 * (b.fronnbr + para.movenbr + b.s.degrmax)) b.s.vertnbr) = H
  have hsz : Holds (fmSize H (H.toNat + 1) 255) (fun m => IsMask m ∧ 255 ≤ m ∧ (m + 1) % 4 = 0 ∧ H ≤ m + 1) := by
    rcases fmSize_holds H (H.toNat + 1) 255 ⟨8, by decide⟩ (by omega) (by decide) (by omega) with h | h
    · exact h
    · omega
  obtain ⟨msk, hmsk, hm, hm1, hm2, hm3⟩ := Holds_iff_exists.1 hsz
  have hroom : if all then b.s.vertnbr ≤ msk + 1 else b.fronnbr ≤ msk + 1 := by
    cases all with
    | true => rw [if_pos rfl] at hH ⊢; omega
    | false => have := hdeg rfl; rw [if_neg Bool.false_ne_true] at hH ⊢; omega
  obtain ⟨t, ht, keys, F, hout, hkall, hklen⟩ := Holds_iff_exists.1 (fmFill_holds hc ha hb hv hm all hroom)
  have hC : CurOk b b.part ⟨b.compload0dlt, b.commload, b.commgainextn, 0⟩ := by
    refine ⟨hv.parts, ?_, hv.comm, hv.gain, Or.inl rfl⟩
    dsimp only
    rw [hv.delta, hv.load]
  have hpx : ∀ v, b.s.Vertex v → b.part v = xorP (b.part v) 0 := by
    intro v hvv
    rcases hv.parts v hvv with a | a <;> rw [a] <;> decide
  have hklt : (all = false → (keys.length : Int) < msk + 1 ∨ ∀ v, b.s.Vertex v → v ∈ keys) := by
    intro hal
    have hl := hklen hal
    have hdg := hdeg hal
    have hf := hall hal
    rw [hal, if_neg Bool.false_ne_true] at hH hroom
    by_cases c : (keys.length : Int) < msk + 1
    · exact Or.inl c
    · right
      have hlen : (keys.length : Int) = b.s.vertnbr := by omega
      have hsub : keys.toFinset ⊆ Finset.Ico b.s.baseval b.s.vertnnd := by
        intro k hk
        rw [List.mem_toFinset] at hk
        have := F.vert k hk
        rw [Finset.mem_Ico]
        exact ⟨this.1, this.2⟩
      have heq := Finset.eq_of_subset_of_card_le hsub (by
        rw [List.toFinset_card_of_nodup F.tab.nodup, Int.card_Ico]
        omega)
      intro v hvv
      rw [← List.mem_toFinset, heq, Finset.mem_Ico]
      exact ⟨hvv.1, hvv.2⟩
  generalize hS : ({
    hash := t, msk := msk, max := (msk + 1) / 4, nbr := if all then H else b.fronnbr, save := ⟨0, msk + 1, junk⟩, savenbr := 0, mswp := 0, lock := [],
    cur := ⟨b.compload0dlt, b.commload, b.commgainextn, 0⟩, bst := ⟨b.compload0dlt, b.commload, b.commgainextn, 0⟩, dltmin := dltmin, dltmax := dltmax, moveflag := false, movenbr := 0, clock := 0 } : Fm) = s
  have I : FmRdy b keys b.part s := by
    rw [← hS]
    refine ⟨⟨hm, by dsimp only; omega, F.lo, F.hi, rfl, rfl, F.tab, F.vert, ?_, ?_, ?_, List.nodup_nil, ?_⟩, hC, ?_, ?_, Int.le_refl _, ?_, ?_, Int.le_refl _⟩
    · cases all with
      | true => exact Or.inr (hkall rfl)
      | false => exact hklt rfl
    · cases all with
      | true => exact Or.inr (hkall rfl)
      | false => left; dsimp only; rw [if_neg Bool.false_ne_true, hklen rfl]
    · intro y y1 y2
      refine ⟨fun hy => ?_, F.free y⟩
      dsimp only
      rw [(F.own y hy).1]
      omega
    · intro y
      constructor
      · intro z; exact absurd z List.not_mem_nil
      · rintro ⟨_, z2, z3⟩
        rw [(F.own y z2).2.2] at z3
        exact absurd z3 (by decide)
    · intro v hvv hvn
      exact ⟨hpx v hvv, hout v hvv hvn⟩
    · intro y y1 y2 hy _
      exact (F.own y hy).2.1
    · intro i i1 i2
      dsimp only at i2
      omega
    · intro i j i1 i2
      dsimp only at i2
      omega
  have hbst : s.bst = ⟨b.compload0dlt, b.commload, b.commgainextn, 0⟩ := by rw [← hS]
  have hsmin : s.dltmin = dltmin := by rw [← hS]
  have hsmax : s.dltmax = dltmax := by rw [← hS]
  have E : FmEnd b mit mat s s := by
    refine ⟨⟨keys, _, I⟩, ?_, Or.inr ⟨rfl, rfl, rfl, rfl⟩, fun _ => ?_⟩
    · rw [hsmin, hsmax]; omega
    · rw [hsmin, hsmax, hbst]; dsimp only; omega
  obtain ⟨n, hn⟩ := fmPasses_holds hc ha hb hv.parts hd junk hpick all para.movenbr para.passnbr E
  refine ⟨n, fun fuel hf => ?_⟩
  unfold fmMain
  dsimp only
  rw [hH, hmsk, ok_bind, ht, ok_bind, hS, Holds_bind]
  refine (hn fuel hf).mono ?_
  intro s' E'
  obtain ⟨⟨keys', pb', I'⟩, r', le', bal'⟩ := E'
  refine (fmFinish_holds hc ha hb hv I').mono ?_
  rintro b' ⟨b1, b2, b3, b4⟩
  refine ⟨b1, b2, ?_, ?_⟩
  · intro g1 g2
    unfold FmLt FmSame at le'
    rw [hbst] at le'
    rw [hsmin, hsmax] at r' le'
    dsimp only at le'
    rw [b3, b4]
    omega
  · intro hx
    have := bal' hx
    rw [hsmin, hsmax] at r'
    rw [b3]
    omega

end Scotch.Bipart
