import Verif.Separ.LemmasEs9
import Verif.Separ.PropsSt
import Verif.Bipart.LemmasGpMain

/-! # C30: vertex separators from edge separators -/

set_option autoImplicit false
set_option linter.unusedSimpArgs false

namespace Scotch.Separ
open Graph Bipart

theorem Bipartite.bip {g : Graph} {partnbr : Int} (h : Bipartite g partnbr) : Bip g (g.baseval + partnbr) := by
  have hc := consE_iff.2 h.cons
  have := hc.vertnnd
  have := h.part
  refine ⟨h.alloc, h.base, hc.vertnnd, by omega, by omega, fun v hv => (hc.range v hv).2, fun v w hv ha => (hc.adj_vertex hv ha).1, ?_, fun v w hv ha => hc.adj_symm hv ha⟩
  intro v w hv ha
  obtain ⟨q, hq, rfl⟩ := (adj_iff v w).1 ha
  exact h.cross v q hv hq

/-- Whatever the content of work arrays, the array which is returned lists, without repetition, vertices that cover all the edges of the bipartite graph. -/
theorem C30_cover (g : Graph) (partnbr : Int) (B : Bipartite g partnbr) (junk : Nat → Int → Int) (sep : Arr Int) (h1 : sep.lo ≤ 0) (h2 : g.vertnbr ≤ sep.hi) :
    Holds (esCover junk g partnbr sep) (fun r => ∃ S : Int → Prop, (∀ v, S v → g.Vertex v) ∧ Enum r.1 r.2 S ∧ Covers g S) := by
  obtain ⟨mate, -, -, h⟩ := esCover_holds B.bip B.cons.vertnbr B.load junk h1 h2
  rw [show g.baseval + partnbr - g.baseval = partnbr by omega] at h
  refine h.mono ?_
  rintro r ⟨S, C⟩
  refine ⟨fun v => g.Vertex v ∧ S v, fun v hv => hv.1, C.enum, ?_⟩
  intro v q hv hq
  have hw := (B.cons.inside v q hv hq).1
  rcases C.cover v q.1 hv ((adj_iff v q.1).2 ⟨q, hq, rfl⟩) with k | k
  · exact Or.inl ⟨hv, k⟩
  · exact Or.inr ⟨hw, k⟩

/-- If the greedy initial matching has no augmenting path, the cover has the least number of vertices. Without this hypothesis, which comes from the search of augmenting paths being never run, the cover may be larger. -/
theorem C30_minimum_partial (g : Graph) (partnbr : Int) (B : Bipartite g partnbr) (junk : Nat → Int → Int) (sep : Arr Int) (h1 : sep.lo ≤ 0) (h2 : g.vertnbr ≤ sep.hi) :
    ∃ mate, esMatch g partnbr ⟨g.baseval, g.vertnnd, junk 0⟩ = .ok mate ∧ (NoAugment g (g.baseval + partnbr) mate.get →
      Holds (esCover junk g partnbr sep) (fun r => ∀ l : List Int, Covers g (fun v => v ∈ l) → r.2 ≤ l.length)) := by
  obtain ⟨mate, e, hm, h⟩ := esCover_holds B.bip B.cons.vertnbr B.load junk h1 h2
  rw [show g.baseval + partnbr - g.baseval = partnbr by omega] at h e
  refine ⟨mate, e, fun hna => h.mono ?_⟩
  rintro r ⟨S, C⟩ l hl
  refine cover_min B.bip hm C hna l ?_
  intro v w hv ha
  obtain ⟨q, hq, rfl⟩ := (adj_iff v w).1 ha
  exact hl v q hv hq

/-- Whatever the strategy that computes bipartitions, provided it is right, and whatever the kind of separator, the separation obtained is valid but for the difference of loads, which ignores the weights of the parts. The graph is not changed. -/
theorem C30_separate_partial (junk : Nat → Int → Int) (avgOf : Int → Int → Int → Int) (a : Bgraph) (sure : Bool) (bip : Bgraph → M (Int × Bgraph)) (hbip : BipMethod sure bip) (thin : Bool)
    (b : Vgraph) (C : b.s.Consistent) (A : Alloc b) (h0 : 0 ≤ b.s.baseval) (h1 : 1 ≤ b.s.vertnbr) (hav : 0 ≤ avgOf b.s.velosum b.dwgt0 b.dwgt1) :
    Holds (separateEs junk avgOf a bip thin b) (fun r => SameProblem b r.2 ∧ (sure = true → r.1 = 0) ∧
      (r.1 = 0 → r.2.comploaddlt = r.2.compload0 - r.2.compload1 ∧ Valid { r.2 with comploaddlt := r.2.compload0 * r.2.dwgt1 - r.2.compload1 * r.2.dwgt0 })) :=
  separateEs_holds junk avgOf a hbip thin C A h0 h1 hav

/-- When the weights of the parts are 1, as in nested dissection, the separation is valid. -/
theorem C30_separate_unit (junk : Nat → Int → Int) (avgOf : Int → Int → Int → Int) (a : Bgraph) (sure : Bool) (bip : Bgraph → M (Int × Bgraph)) (hbip : BipMethod sure bip) (thin : Bool)
    (b : Vgraph) (R : Ready b) (hd : b.dwgt0 = 1 ∧ b.dwgt1 = 1) (hav : 0 ≤ avgOf b.s.velosum 1 1) :
    Holds (separateEs junk avgOf a bip thin b) (fun r => SameProblem b r.2 ∧ (sure = true → r.1 = 0) ∧ (r.1 = 0 → Valid r.2)) := by
  refine (separateEs_holds junk avgOf a hbip thin R.cons R.alloc R.base R.size (by rw [hd.1, hd.2]; exact hav)).mono ?_
  rintro r ⟨S, s, h⟩
  refine ⟨S, s, fun hr => ?_⟩
  obtain ⟨k1, k2⟩ := h hr
  exact separateEs_valid (by rw [S.dwgt.1, S.dwgt.2]; exact hd) k1 k2

/-- Greedy growing may be the strategy that computes bipartitions. -/
theorem C30_gp (junk : Int → Int) (passnbr : Int) : BipMethod true (fun a => do let a' ← bipartGp junk passnbr a; return (0, a')) := by
  intro a S
  rw [Holds_bind]
  refine (bipartGp_holds (consE_iff.2 S.cons) S.alloc S.avg ?_ S.valid junk passnbr).mono ?_
  · rw [S.extn.2]
    symm
    apply sumI_eq_zero
    intro v _ _
    unfold Bgraph.veex
    rw [S.veex]
  · rintro b' ⟨V, P⟩
    rw [Holds_pure]
    exact ⟨P, fun _ => rfl, fun _ => V⟩

/-! ## Cases -/

/-- Tree: vertex 0 is linked to 3, 4 and 5, and vertex 3 to 0, 1 and 2. -/
def exT : Graph :=
  { baseval := 0, vertnbr := 6, vertnnd := 6, verttax := Arr.ofList 0 [0, 3, 4, 5, 8, 9, 10], vendtax := none, velotax := none, velosum := 6, vnumtax := none, vlbltax := none,
    edgenbr := 10, edgetax := Arr.ofList 0 [3, 4, 5, 3, 3, 0, 1, 2, 0, 0], edlotax := none, edlosum := 10, degrmax := 3 }

theorem bipartite_of {g : Graph} {partnbr : Int} (h1 : g.consB = true) (h2 : g.allocB = true) (h3 : 0 ≤ g.baseval) (h4 : g.velotax = none ∨ g.baseval = 0)
    (h5 : 0 ≤ partnbr ∧ partnbr ≤ g.vertnbr)
    (h6 : ∀ i ∈ List.range g.vertnbr.toNat, ∀ p ∈ g.nbrs (g.baseval + i), (g.baseval + i < g.baseval + partnbr ↔ ¬ p.1 < g.baseval + partnbr)) : Bipartite g partnbr := by
  have hc := Graph.consB_sound h1
  refine ⟨hc, Graph.allocB_sound h2, h3, h4, h5, ?_⟩
  intro v p hv hp
  have q1 := hv.1
  have q2 := hv.2
  have := hc.vertnnd
  have e : v = g.baseval + ((v - g.baseval).toNat : Int) := by omega
  rw [e] at hp ⊢
  exact h6 _ (by rw [List.mem_range]; omega) p hp

theorem exT_bipartite : Bipartite exT 3 := bipartite_of (by decide +kernel) (by decide +kernel) (by decide) (by decide) (by decide) (by decide +kernel)

/-- The cover is not always of least size: vertices 0 and 3 cover the tree, but three vertices are returned. -/
theorem C30_not_minimum : ∃ (g : Graph) (partnbr : Int) (sep : Arr Int), Bipartite g partnbr ∧ sep.lo ≤ 0 ∧ g.vertnbr ≤ sep.hi ∧
    ∃ r, esCover (fun _ _ => 7) g partnbr sep = .ok r ∧ r.2 = 3 ∧ Covers g (fun v => v ∈ [(0 : Int), 3]) := by
  refine ⟨exT, 3, Arr.ofList 0 [9, 9, 9, 9, 9, 9], exT_bipartite, by decide, by decide, ?_⟩
  have h : (esCover (fun _ _ => 7) exT 3 (Arr.ofList 0 [9, 9, 9, 9, 9, 9])).map (fun r => r.2) = .ok 3 := by decide +kernel
  obtain ⟨r, e, -⟩ := Holds_iff_exists.1 (C30_cover exT 3 exT_bipartite (fun _ _ => 7) (Arr.ofList 0 [9, 9, 9, 9, 9, 9]) (by decide) (by decide))
  rw [e] at h
  refine ⟨r, e, by simpa [Except.map] using h, ?_⟩
  have hd : ∀ i ∈ List.range 6, ∀ p ∈ exT.nbrs (i : Int), (i : Int) ∈ [(0 : Int), 3] ∨ p.1 ∈ [(0 : Int), 3] := by decide +kernel
  intro v p hv hp
  have q1 : 0 ≤ v := hv.1
  have q2 : v < 6 := hv.2
  have ev : v = (v.toNat : Int) := by omega
  rw [ev] at hp ⊢
  exact hd _ (by rw [List.mem_range]; omega) p hp

/-- Path: 2 – 0 – 3 – 1, whose initial matching has no augmenting path. -/
def exP : Graph :=
  { baseval := 0, vertnbr := 4, vertnnd := 4, verttax := Arr.ofList 0 [0, 2, 3, 4, 6], vendtax := none, velotax := some (Arr.ofList 0 [1, 2, 3, 4]), velosum := 10, vnumtax := none, vlbltax := none,
    edgenbr := 6, edgetax := Arr.ofList 0 [2, 3, 3, 0, 0, 1], edlotax := none, edlosum := 6, degrmax := 2 }

theorem exP_bipartite : Bipartite exP 2 := bipartite_of (by decide +kernel) (by decide +kernel) (by decide) (by decide) (by decide) (by decide +kernel)
example : (esMatch exP 2 ⟨0, 4, fun _ => 7⟩).map Arr.toList = .ok [2, 3, 0, 1] := by decide +kernel
example : NoAugment exP 2 (Arr.ofList 0 [2, 3, 0, 1]).get := by
  intro r h1 h2 _
  have q1 : 0 ≤ r := h1.1
  have q2 : r < 4 := h1.2
  rcases (by omega : r = 2 ∨ r = 3) with rfl | rfl <;> decide
example : (esCover (fun _ _ => 7) exP 2 (Arr.ofList 0 [9, 9, 9, 9])).map (fun r => (r.1.toList, r.2)) = .ok ([0, 1, 9, 9], 2) := by decide +kernel

/-- Any bipartition graph. -/
def exA : Bgraph :=
  { s := exG, veextax := none, parttax := Arr.ofList 0 [], frontab := Arr.ofList 0 [], fronnbr := 0, compload0min := 0, compload0max := 0, compload0avg := 0, compload0dlt := 0, compload0 := 0,
    compsize0 := 0, commload := 0, commloadextn0 := 0, commgainextn := 0, commgainextn0 := 0, domndist := 0, domnwght0 := 0, domnwght1 := 0, vfixload0 := 0, vfixload1 := 0 }

def exEs (thin : Bool) (b : Vgraph) : M (Int × Vgraph) :=
  separateEs (fun _ _ => 7) (fun s w0 w1 => s * w0 / (w0 + w1)) exA (fun a => do let a' ← bipartGp (fun _ => 7) 2 a; return (0, a')) thin b

example : Ready { exB with dwgt1 := 1, comploaddlt := -1 } :=
  ⟨exG_cons, ⟨exG_alloc, by decide, by decide⟩, by
    obtain ⟨⟨p, s, s0, s1, s2, l0, l1, l2, _⟩, f⟩ := exB_valid
    exact ⟨⟨p, s, s0, s1, s2, l0, l1, l2, by decide⟩, f⟩, by decide, by decide, by decide, by decide⟩
example : (exEs true { exB with dwgt1 := 1 }).map (fun r => (r.1, show' r.2)) = .ok (0, [0, 0, 2, 1, 1, 2, 1, 3, 3, 1, 0]) := by decide +kernel
example : (exEs false { exB with dwgt1 := 1 }).map (fun r => (r.1, show' r.2)) = .ok (0, [0, 2, 2, 1, 2, 1, 1, 2, 3, 2, -1]) := by decide +kernel

/-- With other weights, the difference of loads which is recorded may be wrong. -/
theorem C30_delta_wrong : ∃ b : Vgraph, Ready b ∧ ∃ r, exEs true b = .ok r ∧ r.1 = 0 ∧ ¬ Valid r.2 := by
  have hr : Ready exB := ⟨exG_cons, exB_alloc, exB_valid, by decide, by decide, by decide, by decide⟩
  refine ⟨exB, hr, ?_⟩
  obtain ⟨r, e, S, h1, h2⟩ := Holds_iff_exists.1 (C30_separate_partial (fun _ _ => 7) (fun s w0 w1 => s * w0 / (w0 + w1)) exA true _ (C30_gp (fun _ => 7) 2) true exB
    hr.cons hr.alloc hr.base hr.size (by decide))
  refine ⟨r, e, h1 rfl, ?_⟩
  have hc : (exEs true exB).map (fun r => decide (r.2.comploaddlt = r.2.compload0 * r.2.dwgt1 - r.2.compload1 * r.2.dwgt0)) = .ok false := by decide +kernel
  have e' : exEs true exB = .ok r := e
  rw [e'] at hc
  intro V
  have := V.delta
  simp [Except.map, this] at hc

end Scotch.Separ
