import Verif.Bipart.ModelFm
import Verif.Bipart.Lemmas
import Verif.Bipart.LemmasBasic

/-! # Fiduccia-Mattheyses refinement: values of vertices -/

set_option autoImplicit false
set_option linter.unusedSimpArgs false

namespace Scotch.Bipart
open Graph

/-- Number of neighbours in the other part. -/
def cutCnt (g : Graph) (p : Int → Int) (v : Int) : Int := sumI (g.vert v) (g.vend v) (fun e => if p (g.dest e) = p v then 0 else 1)

/-- Change of the cut when a vertex changes part, as a sum over arcs. -/
def arcGain (g : Graph) (p : Int → Int) (v : Int) : Int := sumI (g.vert v) (g.vend v) (fun e => g.edlo e * (if p (g.dest e) = p v then 1 else -1))

/-- Values of a vertex for a partition. -/
def fmVals (b : Bgraph) (p : Int → Int) (v : Int) : FmVals :=
  ⟨p v, (2 * p v - 1) * b.s.velo v, arcGain b.s p v * b.domndist - (2 * p v - 1) * b.veex v, cutCnt b.s p v⟩

/-- All neighbours of a vertex are in its part. -/
def Inner (g : Graph) (p : Int → Int) (v : Int) : Prop := ∀ e, g.vert v ≤ e → e < g.vend v → p (g.dest e) = p v

variable {g : Graph} {b : Bgraph} {p q : Int → Int} {u v w e : Int}

theorem arcGain_eq (hc : ConsE g) (hv : g.Vertex v) : arcGain g p v = cutGain g p v := arc_sum hc hv (fun w => if p w = p v then 1 else -1)

theorem fmVals_congr (hc : ConsE b.s) (hv : b.s.Vertex v) (h : ∀ v, b.s.Vertex v → p v = q v) : fmVals b p v = fmVals b q v := by
  have e0 := h v hv
  have e1 : arcGain b.s p v = arcGain b.s q v := by
    apply sumI_congr
    intro e h1 h2
    rw [e0, h _ (hc.inside v e hv h1 h2).1]
  have e2 : cutCnt b.s p v = cutCnt b.s q v := by
    apply sumI_congr
    intro e h1 h2
    rw [e0, h _ (hc.inside v e hv h1 h2).1]
  unfold fmVals
  rw [e0, e1, e2]

theorem cutCnt_nonneg : 0 ≤ cutCnt g p v := sumI_nonneg fun _ _ _ => by split <;> omega

theorem cutCnt_pos : 0 < cutCnt g p v ↔ ¬ Inner g p v := by
  constructor
  · intro h hi
    have : cutCnt g p v = 0 := sumI_eq_zero fun e h1 h2 => by rw [if_pos (hi e h1 h2)]
    omega
  · intro h
    unfold Inner at h
    push Not at h
    obtain ⟨e, h1, h2, h3⟩ := h
    have hs := sumI_single h1 h2 (fun _ => (1 : Int))
    have hm : sumI (g.vert v) (g.vend v) (fun v => if v = e then 1 else 0) ≤ cutCnt g p v := by
      apply sumI_mono
      intro i _ _
      by_cases hi : i = e
      · rw [if_pos hi, hi, if_neg h3]
      · rw [if_neg hi]; split <;> omega
    rw [hs] at hm
    omega

theorem frontier_inner (hv : g.Vertex v) : Frontier g p v ↔ ¬ Inner g p v := by
  rw [frontier_adj]
  unfold Inner Adj
  push Not
  constructor
  · rintro ⟨_, w, ⟨e, h1, h2, rfl⟩, h3⟩; exact ⟨e, h1, h2, h3⟩
  · rintro ⟨e, h1, h2, h3⟩; exact ⟨hv, _, ⟨e, h1, h2, rfl⟩, h3⟩

theorem cutCnt_inner (h : Inner g p v) : cutCnt g p v = 0 := sumI_eq_zero fun e h1 h2 => by rw [if_pos (h e h1 h2)]

theorem arcGain_inner (h : Inner g p v) : arcGain g p v = sumI (g.vert v) (g.vend v) g.edlo :=
  sumI_congr fun e h1 h2 => by rw [if_pos (h e h1 h2), Int.mul_one]

theorem Inner_congr (hc : ConsE g) (hv : g.Vertex v) (h : ∀ v, g.Vertex v → p v = q v) (hi : Inner g p v) : Inner g q v := by
  intro e h1 h2
  rw [← h _ hv, ← h _ (hc.inside v e hv h1 h2).1]
  exact hi e h1 h2

/-! ## One vertex changes part -/

theorem flip_self : flip p u u = 1 - p u := by unfold flip; rw [if_pos rfl]
theorem flip_ne (h : w ≠ u) : flip p u w = p w := by unfold flip; rw [if_neg h]

theorem fmVals_flip_self (hc : ConsE b.s) (hp : Parts b.s p) (hu : b.s.Vertex u) :
    fmVals b (flip p u) u = ⟨xorP (p u) 1, - ((2 * p u - 1) * b.s.velo u), - (arcGain b.s p u * b.domndist - (2 * p u - 1) * b.veex u), b.s.vend u - b.s.vert u - cutCnt b.s p u⟩ := by
  have hr := (hc.range u hu).2
  have e1 : arcGain b.s (flip p u) u = - arcGain b.s p u := by
    unfold arcGain
    rw [← sumI_neg]
    apply sumI_congr
    intro e h1 h2
    have hd := hc.inside u e hu h1 h2
    rw [flip_self, flip_ne hd.2]
    rcases hp u hu with a | a <;> rcases hp _ hd.1 with c | c <;> rw [a, c] <;> simp
  have e2 : cutCnt b.s (flip p u) u = b.s.vend u - b.s.vert u - cutCnt b.s p u := by
    have hk : cutCnt b.s (flip p u) u + cutCnt b.s p u = sumI (b.s.vert u) (b.s.vend u) (fun _ => 1) := by
      unfold cutCnt
      rw [← sumI_add_dist]
      apply sumI_congr
      intro e h1 h2
      have hd := hc.inside u e hu h1 h2
      rw [flip_self, flip_ne hd.2]
      rcases hp u hu with a | a <;> rcases hp _ hd.1 with c | c <;> rw [a, c] <;> simp
    rw [sumI_const hr] at hk
    omega
  unfold fmVals
  rw [e1, e2, flip_self, xorP_eq (hp u hu) (Or.inr rfl)]
  have e3 : (2 * (1 - p u) - 1) = - (2 * p u - 1) := by omega
  rw [e3, Int.neg_mul, Int.neg_mul, Int.neg_mul]
  congr 1
  · rcases hp u hu with a | a <;> rw [a] <;> rfl
  · omega

theorem fmVals_flip_other (hc : ConsE b.s) (hw : b.s.Vertex w) (hne : w ≠ u) (hu : b.s.Vertex u) (ha : ¬ b.s.Adj u w) : fmVals b (flip p u) w = fmVals b p w := by
  have hd : ∀ e, b.s.vert w ≤ e → e < b.s.vend w → b.s.dest e ≠ u := by
    intro e h1 h2 he
    exact ha (hc.adj_symm hw ⟨e, h1, h2, he⟩)
  have e1 : arcGain b.s (flip p u) w = arcGain b.s p w := by
    apply sumI_congr
    intro e h1 h2
    rw [flip_ne hne, flip_ne (hd e h1 h2)]
  have e2 : cutCnt b.s (flip p u) w = cutCnt b.s p w := by
    apply sumI_congr
    intro e h1 h2
    rw [flip_ne hne, flip_ne (hd e h1 h2)]
  unfold fmVals
  rw [e1, e2, flip_ne hne]

theorem Inner_flip_other (hc : ConsE g) (hw : g.Vertex w) (hne : w ≠ u) (ha : ¬ g.Adj u w) : Inner g (flip p u) w ↔ Inner g p w := by
  have hd : ∀ e, g.vert w ≤ e → e < g.vend w → g.dest e ≠ u := by
    intro e h1 h2 he
    exact ha (hc.adj_symm hw ⟨e, h1, h2, he⟩)
  unfold Inner
  constructor
  · intro h e h1 h2
    have := h e h1 h2
    rwa [flip_ne hne, flip_ne (hd e h1 h2)] at this
  · intro h e h1 h2
    rw [flip_ne hne, flip_ne (hd e h1 h2)]
    exact h e h1 h2

theorem fmVals_flip_adj (hc : ConsE b.s) (hp : Parts b.s p) (hu : b.s.Vertex u) (h1 : b.s.vert u ≤ e) (h2 : e < b.s.vend u) :
    fmVals b (flip p u) (b.s.dest e) = { fmVals b p (b.s.dest e) with
      comm := (fmVals b p (b.s.dest e)).comm + b.domndist * 2 * b.s.edlo e * (2 * xorP (p u) (p (b.s.dest e)) - 1),
      cut := (fmVals b p (b.s.dest e)).cut - (2 * xorP (p u) (p (b.s.dest e)) - 1) } := by
  obtain ⟨hw, hne⟩ := hc.inside u e hu h1 h2
  obtain ⟨e', a1, a2, a3, a4⟩ := hc.symm u e hu h1 h2
  generalize hw' : b.s.dest e = w at *
  have hd : ∀ i, b.s.vert w ≤ i → i < b.s.vend w → i ≠ e' → b.s.dest i ≠ u := by
    intro i i1 i2 hi he
    exact hi (hc.simple w hw i e' i1 i2 a1 a2 (by rw [he, a3]))
  have e1 : arcGain b.s (flip p u) w = arcGain b.s p w + 2 * b.s.edlo e * (2 * xorP (p u) (p w) - 1) := by
    unfold arcGain
    have hs := sumI_update a1 a2 (fun i => b.s.edlo i * (if p (b.s.dest i) = p w then 1 else -1)) (b.s.edlo e * (if 1 - p u = p w then 1 else -1))
    rw [sumI_congr (g := fun j => if j = e' then b.s.edlo e * (if 1 - p u = p w then 1 else -1) else b.s.edlo j * (if p (b.s.dest j) = p w then 1 else -1)) ?_, hs]
    · rw [a3, a4, xorP_eq (hp u hu) (hp w hw)]
      rcases hp u hu with a | a <;> rcases hp w hw with c | c <;> rw [a, c] <;> simp <;> omega
    · intro i i1 i2
      by_cases hi : i = e'
      · rw [if_pos hi, hi, a3, flip_self, flip_ne hne, a4]
      · rw [if_neg hi, flip_ne hne, flip_ne (hd i i1 i2 hi)]
  have e2 : cutCnt b.s (flip p u) w = cutCnt b.s p w - (2 * xorP (p u) (p w) - 1) := by
    unfold cutCnt
    have hs := sumI_update a1 a2 (fun i => if p (b.s.dest i) = p w then 0 else 1) (if 1 - p u = p w then 0 else 1)
    rw [sumI_congr (g := fun j => if j = e' then (if 1 - p u = p w then 0 else 1) else (if p (b.s.dest j) = p w then 0 else 1)) ?_, hs]
    · rw [a3, xorP_eq (hp u hu) (hp w hw)]
      rcases hp u hu with a | a <;> rcases hp w hw with c | c <;> rw [a, c] <;> simp
    · intro i i1 i2
      by_cases hi : i = e'
      · rw [if_pos hi, hi, a3, flip_self, flip_ne hne]
      · rw [if_neg hi, flip_ne hne, flip_ne (hd i i1 i2 hi)]
  unfold fmVals
  dsimp only
  rw [e1, e2, flip_ne hne]
  congr 1
  rw [Int.add_mul]
  generalize 2 * xorP (p u) (p w) - 1 = x
  have : 2 * b.s.edlo e * x * b.domndist = b.domndist * 2 * b.s.edlo e * x := by
    rw [Int.mul_comm _ b.domndist, ← Int.mul_assoc, ← Int.mul_assoc]
  omega

/-! ## All vertices change parts -/

theorem fmVals_flipAll (hc : ConsE b.s) (hp : Parts b.s p) (hv : b.s.Vertex v) :
    fmVals b (fun v => 1 - p v) v = ⟨xorP (p v) 1, - ((2 * p v - 1) * b.s.velo v), (arcGain b.s p v * b.domndist - (2 * p v - 1) * b.veex v) + 2 * (1 - 2 * xorP (p v) 1) * b.veex v, cutCnt b.s p v⟩ := by
  have e1 : arcGain b.s (fun v => 1 - p v) v = arcGain b.s p v := by
    apply sumI_congr
    intro e h1 h2
    by_cases h : p (b.s.dest e) = p v
    · rw [if_pos h, if_pos (by dsimp only; omega)]
    · rw [if_neg h, if_neg (by dsimp only; omega)]
  have e2 : cutCnt b.s (fun v => 1 - p v) v = cutCnt b.s p v := by
    apply sumI_congr
    intro e h1 h2
    by_cases h : p (b.s.dest e) = p v
    · rw [if_pos h, if_pos (by dsimp only; omega)]
    · rw [if_neg h, if_neg (by dsimp only; omega)]
  unfold fmVals
  dsimp only
  rw [e1, e2, xorP_eq (hp v hv) (Or.inr rfl)]
  rcases hp v hv with a | a <;> rw [a] <;> simp <;> first | done | omega

theorem Inner_flipAll (h : Inner g p v) : Inner g (fun v => 1 - p v) v := by
  intro e h1 h2
  dsimp only
  rw [h e h1 h2]

/-! ## Values of a partition -/

/-- The recorded values are the ones of a partition. -/
structure CurOk (b : Bgraph) (p : Int → Int) (c : FmCur) : Prop where
  parts : Parts b.s p
  dlt : c.dlt = over b.s p 0 b.s.velo - b.compload0avg
  comm : c.comm = cut b.s p * b.domndist + b.commloadextn0 + over b.s p 1 b.veex
  extn : c.extn = over b.s p 0 b.veex - over b.s p 1 b.veex
  swap : c.swap = 0 ∨ c.swap = 1

theorem CurOk.flip {c : FmCur} (hc : ConsE b.s) (h : CurOk b p c) (hu : b.s.Vertex u) :
    CurOk b (flip p u) { c with dlt := c.dlt + (fmVals b p u).comp, comm := c.comm + (fmVals b p u).comm, extn := c.extn + 2 * (2 * (fmVals b p u).part - 1) * b.veex u } := by
  have hp := h.parts
  refine ⟨flip_parts hp u hu, ?_, ?_, ?_, h.swap⟩
  · dsimp only [fmVals]
    rw [over0_flip hp hu, h.dlt]
    have : (2 * p u - 1) * b.s.velo u = - ((1 - 2 * p u) * b.s.velo u) := by rw [← Int.neg_mul]; congr 1; omega
    omega
  · dsimp only [fmVals]
    rw [over1_flip hp hu, cut_flip hc hp hu, h.comm, arcGain_eq hc hu, Int.add_mul]
    have : (2 * p u - 1) * b.veex u = - ((1 - 2 * p u) * b.veex u) := by rw [← Int.neg_mul]; congr 1; omega
    omega
  · dsimp only [fmVals]
    rw [over1_flip hp hu, over0_flip hp hu, h.extn]
    have : 2 * (2 * p u - 1) * b.veex u = - (2 * ((1 - 2 * p u) * b.veex u)) := by
      rw [Int.mul_assoc, ← Int.mul_neg, ← Int.neg_mul]
      congr 2
      omega
    omega

theorem CurOk.flipAll {c : FmCur} (hc : ConsE b.s) (h : CurOk b p c) :
    CurOk b (fun v => 1 - p v) ⟨b.s.velosum - c.dlt - 2 * b.compload0avg, c.comm + c.extn, - c.extn, xorP c.swap 1⟩ := by
  have hp := h.parts
  have o1 := over_add hp b.s.velo
  have o2 := over_add hp b.veex
  refine ⟨flipAll_parts hp, ?_, ?_, ?_, ?_⟩
  · dsimp only
    rw [(over_flipAll b.s.velo).1, h.dlt, hc.velosum]
    omega
  · dsimp only
    rw [(over_flipAll b.veex).2, cut_flipAll hc hp, h.comm, h.extn]
    omega
  · dsimp only
    rw [(over_flipAll b.veex).2, (over_flipAll b.veex).1, h.extn]
    omega
  · dsimp only
    rcases h.swap with a | a <;> rw [a] <;> decide

end Scotch.Bipart
