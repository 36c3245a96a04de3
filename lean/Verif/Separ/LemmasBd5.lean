import Verif.Separ.LemmasBd4
import Verif.Bipart.LemmasGpGrow

/-! # Separation of band graphs: the band graph is a separation graph -/

set_option autoImplicit false
set_option linter.unusedSimpArgs false
set_option linter.unusedTactic false
set_option linter.unreachableTactic false
set_option linter.unnecessarySeqFocus false

namespace Scotch.Separ
open Graph
open Bipart (over)

variable {b : Vgraph} {s : BdSt} {D distmax vlvl : Int} {idx : Arr Int} {a0 a1 : Int}

/-- Sum over the vertices of a part that are out of the band. -/
def outs (b : Vgraph) (s : BdSt) (k : Int) (f : Int → Int) : Int := sumI b.s.baseval b.s.vertnnd (fun v => if s.dist.get v = -1 ∧ b.part v = k then f v else 0)

/-- Sum over the vertices of the queue. -/
theorem BdFound.sum_queue (hc : ConsE b.s) (F : BdFound b D s) (f : Int → Int) :
    sumI 0 s.head (fun i => f (s.queu.get i)) = sumI b.s.baseval b.s.vertnnd (fun v => if s.dist.get v = -1 then 0 else f v) := by
  obtain ⟨hh0, hh1⟩ := F.head_le hc
  rw [sumI_enum s.queu.get f b.s.baseval b.s.vertnnd 0 s.head hh0 (fun i j => F.enum.2.1 i j) (fun i i1 i2 => (F.enum.mem i1 i2).1)]
  refine sumI_congr fun v v1 v2 => ?_
  have h := F.enum.2.2 v
  by_cases hd : s.dist.get v = -1
  · rw [if_pos hd, if_neg (fun k => (h.2 k).2 hd)]
  · rw [if_neg hd, if_pos (h.1 ⟨⟨v1, v2⟩, hd⟩)]

theorem BdFound.sum_band (hc : ConsE b.s) (F : BdFound b D s) (f : Int → Int) :
    sumI b.s.baseval (s.head + b.s.baseval) (fun u => f (bq b s u)) = sumI b.s.baseval b.s.vertnnd (fun v => if s.dist.get v = -1 then 0 else f v) := by
  rw [← F.sum_queue hc]
  have h := sumI_shift 0 s.head b.s.baseval (fun u => f (bq b s u))
  rw [Int.zero_add] at h
  rw [h]
  refine sumI_congr fun i _ _ => ?_
  unfold bq
  rw [show i + b.s.baseval - b.s.baseval = i by omega]

/-- Vertices of the separator are in the band. -/
theorem BdFound.sep_in (F : BdFound b D s) (hv : Valid b) {v : Int} (h : b.s.Vertex v) (hp : b.part v = 2) : s.dist.get v = 0 := by
  obtain ⟨i, i1, i2, i3⟩ := (hv.fron.2.2 v).1 ⟨h, hp⟩
  rw [← i3]
  exact (F.fron.2 i i1 i2).2

/-- Sums of the search, as sums over vertices out of the band. -/
theorem BdFound.outs_eq (hc : ConsE b.s) (F : BdFound b D s) (hv : Valid b) :
    b.compload0 - (s.velosum - b.compload2 - s.load1) = outs b s 0 b.s.velo ∧ b.compload1 - s.load1 = outs b s 1 b.s.velo ∧
    b.compsize0 - (s.head - s.size1 - b.fronnbr) = outs b s 0 (fun _ => 1) ∧ b.compsize1 - s.size1 = outs b s 1 (fun _ => 1) := by
  have h1 : s.velosum = sumI b.s.baseval b.s.vertnnd (fun v => if s.dist.get v = -1 then 0 else b.s.velo v) := by rw [F.velo]; exact F.sum_queue hc b.s.velo
  have h2 : s.load1 = sumI b.s.baseval b.s.vertnnd (fun v => if s.dist.get v = -1 then 0 else b.s.velo v * (b.part v % 2)) := by rw [F.load]; exact F.sum_queue hc (fun v => b.s.velo v * (b.part v % 2))
  have h3 : s.size1 = sumI b.s.baseval b.s.vertnnd (fun v => if s.dist.get v = -1 then 0 else b.part v % 2) := by rw [F.size]; exact F.sum_queue hc (fun v => b.part v % 2)
  have h4 : s.head = sumI b.s.baseval b.s.vertnnd (fun v => if s.dist.get v = -1 then 0 else 1) := by
    rw [← F.sum_queue hc (fun _ => 1), sumI_const (F.head_le hc).1]; omega
  have p := hv.parts
  have q := fun v h => F.sep_in hv (v := v) h
  rw [hv.load0, hv.load1, hv.load2, hv.size0, hv.size1, hv.size2, h1, h2, h3, h4]
  unfold outs over
  refine ⟨?_, ?_, ?_, ?_⟩
  · rw [← sumI_sub_dist, ← sumI_sub_dist, ← sumI_sub_dist]
    refine sumI_congr fun v v1 v2 => ?_
    have := q v ⟨v1, v2⟩
    rcases p v ⟨v1, v2⟩ with k | k | k <;> rw [k] <;> by_cases e : s.dist.get v = -1 <;> simp [e] <;> omega
  · rw [← sumI_sub_dist]
    refine sumI_congr fun v v1 v2 => ?_
    have := q v ⟨v1, v2⟩
    rcases p v ⟨v1, v2⟩ with k | k | k <;> rw [k] <;> by_cases e : s.dist.get v = -1 <;> simp [e] <;> omega
  · rw [← sumI_sub_dist, ← sumI_sub_dist, ← sumI_sub_dist]
    refine sumI_congr fun v v1 v2 => ?_
    have := q v ⟨v1, v2⟩
    rcases p v ⟨v1, v2⟩ with k | k | k <;> rw [k] <;> by_cases e : s.dist.get v = -1 <;> simp [e] <;> omega
  · rw [← sumI_sub_dist]
    refine sumI_congr fun v v1 v2 => ?_
    have := q v ⟨v1, v2⟩
    rcases p v ⟨v1, v2⟩ with k | k | k <;> rw [k] <;> by_cases e : s.dist.get v = -1 <;> simp [e] <;> omega

theorem outs_nonneg (k : Int) {f : Int → Int} (h : ∀ v, b.s.Vertex v → 0 ≤ f v) : 0 ≤ outs b s k f := by
  unfold outs
  refine sumI_nonneg fun v v1 v2 => ?_
  split
  · exact h v ⟨v1, v2⟩
  · omega

theorem outs_pos (k : Int) {f : Int → Int} (h : ∀ v, b.s.Vertex v → 0 < f v) (hn : 0 < outs b s k (fun _ => 1)) : 0 < outs b s k f := by
  have : outs b s k (fun _ => 1) ≤ outs b s k f := by
    unfold outs
    refine sumI_mono fun v v1 v2 => ?_
    have := h v ⟨v1, v2⟩
    dsimp only
    split <;> omega
  omega

theorem BdFound.outs_two (F : BdFound b D s) (hv : Valid b) (f : Int → Int) : outs b s 2 f = 0 := by
  unfold outs
  refine sumI_eq_zero fun v v1 v2 => ?_
  rw [if_neg]
  rintro ⟨h1, h2⟩
  have := F.sep_in hv ⟨v1, v2⟩ h2
  omega

/-- All vertices out of the band. -/
theorem BdFound.outs_all (hc : ConsE b.s) (F : BdFound b D s) (hv : Valid b) (f : Int → Int) :
    sumI b.s.baseval (s.head + b.s.baseval) (fun u => f (bq b s u)) + outs b s 0 f + outs b s 1 f = sumI b.s.baseval b.s.vertnnd f := by
  rw [F.sum_band hc]
  unfold outs
  rw [← sumI_add_dist, ← sumI_add_dist]
  refine sumI_congr fun v v1 v2 => ?_
  have := F.sep_in hv (v := v) ⟨v1, v2⟩
  rcases hv.parts v ⟨v1, v2⟩ with k | k | k <;> rw [k] <;> by_cases e : s.dist.get v = -1 <;> simp [e] <;> omega

/-- Loads and sizes of the parts of the graph and of the band graph. -/
theorem BdFound.glue (hc : ConsE b.s) (F : BdFound b D s) {r : Graph × Arr Int} (B : BdBand b s idx a0 a1 r) {p pc f fc : Int → Int} (hb : ∀ u, b.s.baseval ≤ u → u < s.head + b.s.baseval → pc u = p (bq b s u))
    (hf : ∀ u, b.s.baseval ≤ u → u < s.head + b.s.baseval → fc u = f (bq b s u)) (h0 : pc (s.head + b.s.baseval) = 0) (h1 : pc (s.head + b.s.baseval + 1) = 1) (ho : ∀ v, b.s.Vertex v → s.dist.get v = -1 → p v = b.part v) (k : Int) :
    over r.1 pc k fc + outs b s k f = over b.s p k f + (if k = 0 then fc (s.head + b.s.baseval) else 0) + (if k = 1 then fc (s.head + b.s.baseval + 1) else 0) := by
  obtain ⟨hh0, hh1⟩ := F.head_le hc
  obtain ⟨e1, e2, e3, e4⟩ := B.shape
  unfold over
  rw [e1, e3, show s.head + b.s.baseval + 2 = s.head + b.s.baseval + 1 + 1 by omega, sumI_succ (by omega), sumI_succ (by omega), h0, h1]
  have hsum : sumI b.s.baseval (s.head + b.s.baseval) (fun u => if pc u = k then fc u else 0) = sumI b.s.baseval b.s.vertnnd (fun v => if s.dist.get v = -1 then 0 else if p v = k then f v else 0) := by
    rw [← F.sum_band hc]
    refine sumI_congr fun u u1 u2 => ?_
    rw [hb u u1 u2, hf u u1 u2]
  have htot : sumI b.s.baseval b.s.vertnnd (fun v => if s.dist.get v = -1 then 0 else if p v = k then f v else 0) + outs b s k f = sumI b.s.baseval b.s.vertnnd (fun v => if p v = k then f v else 0) := by
    unfold outs
    rw [← sumI_add_dist]
    refine sumI_congr fun v v1 v2 => ?_
    by_cases e : s.dist.get v = -1
    · rw [ho v ⟨v1, v2⟩ e]; simp [e]
    · simp [e]
  rw [hsum]
  have c0 : (if (0 : Int) = k then fc (s.head + b.s.baseval) else 0) = if k = 0 then fc (s.head + b.s.baseval) else 0 := by
    by_cases e : k = 0
    · rw [if_pos e, if_pos e.symm]
    · rw [if_neg e, if_neg (fun h => e h.symm)]
  have c1 : (if (1 : Int) = k then fc (s.head + b.s.baseval + 1) else 0) = if k = 1 then fc (s.head + b.s.baseval + 1) else 0 := by
    by_cases e : k = 1
    · rw [if_pos e, if_pos e.symm]
    · rw [if_neg e, if_neg (fun h => e h.symm)]
  rw [c0, c1]
  omega

/-! ## The band graph is consistent -/

theorem BdCtx.bIn_nodup (C : BdCtx b D distmax s vlvl idx) {u : Int} (u1 : b.s.baseval ≤ u) (u2 : u < s.head + b.s.baseval) : (bIn b s idx.get u).Nodup := by
  obtain ⟨m1, -⟩ := C.found.bq_mem u1 u2
  have hr := (C.cons.range _ m1).2
  unfold bIn seg List.Nodup
  rw [List.pairwise_filter, List.pairwise_map]
  refine List.Pairwise.imp_of_mem ?_ List.nodup_range
  intro i j hi hj hij h1 h2 heq
  rw [List.mem_range] at hi hj
  rw [decide_eq_true_eq] at h1 h2
  dsimp only at heq
  have di := C.cons.inside _ (b.s.vert (bq b s u) + i) m1 (by omega) (by omega)
  have dj := C.cons.inside _ (b.s.vert (bq b s u) + j) m1 (by omega) (by omega)
  have ki := ((C.idx_in di.1).2 h1).2.2
  have kj := ((C.idx_in dj.1).2 h2).2.2
  rw [heq, kj] at ki
  have := C.cons.simple _ m1 _ _ (by omega) (by omega) (by omega) (by omega) ki
  omega

theorem bFrom_nodup (idx : Int → Int) (k lo hi : Int) : (bFrom b s idx k lo hi).Nodup := by
  unfold bFrom
  refine List.Nodup.filter _ ?_
  unfold seg
  rw [List.nodup_iff_pairwise_ne, List.pairwise_map]
  refine List.Pairwise.imp ?_ List.nodup_range
  intro i j hij h
  simp only [id] at h
  omega

/-- Neighbours in the band graph. -/
theorem BdCtx.mem_adj (C : BdCtx b D distmax s vlvl idx) {u w : Int} (u1 : b.s.baseval ≤ u) (u2 : u < s.head + b.s.baseval + 2) :
    w ∈ bAdj b s idx.get u ↔
      (u < s.head + b.s.baseval ∧ b.s.baseval ≤ w ∧ w < s.head + b.s.baseval ∧ b.s.Adj (bq b s u) (bq b s w)) ∨
      (u < s.head + b.s.baseval ∧ bAnc b s idx.get u = true ∧ w = s.head + b.s.baseval + b.part (bq b s u)) ∨
      (b.s.baseval ≤ w ∧ w < s.head + b.s.baseval ∧ bAnc b s idx.get w = true ∧ u = s.head + b.s.baseval + b.part (bq b s w)) := by
  unfold bAdj
  by_cases h : u < s.head + b.s.baseval
  · rw [if_pos h, List.mem_append, C.mem_bIn u1 h]
    have hlast : ¬ (b.s.baseval ≤ w ∧ w < s.head + b.s.baseval ∧ bAnc b s idx.get w = true ∧ u = s.head + b.s.baseval + b.part (bq b s w)) := by
      rintro ⟨w1, w2, w3, w4⟩
      have := C.anc_part w1 w2 w3
      omega
    by_cases ha : bAnc b s idx.get u = true
    · rw [if_pos ha, List.mem_singleton]
      constructor
      · rintro (k | k)
        · exact Or.inl ⟨h, k⟩
        · exact Or.inr (Or.inl ⟨h, ha, k⟩)
      · rintro (k | k | k)
        · exact Or.inl k.2
        · exact Or.inr k.2.2
        · exact absurd k hlast
    · rw [if_neg ha]
      constructor
      · rintro (k | k)
        · exact Or.inl ⟨h, k⟩
        · cases k
      · rintro (k | k | k)
        · exact Or.inl k.2
        · exact absurd k.2.1 ha
        · exact absurd k hlast
  · rw [if_neg h]
    by_cases h0 : u = s.head + b.s.baseval
    · rw [if_pos h0, mem_bFrom]
      constructor
      · rintro ⟨k1, k2, k3, k4⟩; exact Or.inr (Or.inr ⟨k1, k2, k3, by omega⟩)
      · rintro (k | k | ⟨k1, k2, k3, k4⟩)
        · exact absurd k.1 h
        · exact absurd k.1 h
        · exact ⟨k1, k2, k3, by omega⟩
    · rw [if_neg h0, List.mem_reverse, mem_bFrom]
      constructor
      · rintro ⟨k1, k2, k3, k4⟩; exact Or.inr (Or.inr ⟨k1, k2, k3, by omega⟩)
      · rintro (k | k | ⟨k1, k2, k3, k4⟩)
        · exact absurd k.1 h
        · exact absurd k.1 h
        · exact ⟨k1, k2, k3, by omega⟩

theorem BdCtx.adj_nodup (C : BdCtx b D distmax s vlvl idx) {u : Int} (u1 : b.s.baseval ≤ u) : (bAdj b s idx.get u).Nodup := by
  unfold bAdj
  by_cases h : u < s.head + b.s.baseval
  · rw [if_pos h]
    by_cases ha : bAnc b s idx.get u = true
    · rw [if_pos ha, List.nodup_append]
      refine ⟨C.bIn_nodup u1 h, List.nodup_singleton _, ?_⟩
      intro x hx y hy
      rw [List.mem_singleton] at hy
      have := (C.mem_bIn u1 h).1 hx
      have := C.anc_part u1 h ha
      omega
    · rw [if_neg ha, List.append_nil]; exact C.bIn_nodup u1 h
  · rw [if_neg h]
    split
    · exact bFrom_nodup _ _ _ _
    · rw [List.nodup_reverse]; exact bFrom_nodup _ _ _ _

theorem BdCtx.consistent (C : BdCtx b D distmax s vlvl idx) {r : Graph × Arr Int} (B : BdBand b s idx (outs b s 0 b.s.velo) (outs b s 1 b.s.velo) r) : r.1.Consistent := by
  obtain ⟨e1, e2, e3, e4⟩ := B.shape
  obtain ⟨hh0, hh1⟩ := C.found.head_le C.cons
  have hvx : ∀ v, r.1.Vertex v ↔ b.s.baseval ≤ v ∧ v < s.head + b.s.baseval + 2 := by
    intro v; unfold Graph.Vertex; rw [e1, e3]
  refine B.lists.consistent ?_ ?_ ?_ ?_
  · intro v hv w hw
    obtain ⟨v1, v2⟩ := (hvx v).1 hv
    rw [hvx w]
    rcases (C.mem_adj v1 v2).1 hw with ⟨k1, k2, k3, k4⟩ | ⟨k1, k2, k3⟩ | ⟨k1, k2, k3, k4⟩
    · have m := (C.found.bq_mem v1 k1).1
      have hd := C.cons.adj_vertex m k4
      refine ⟨⟨k2, by omega⟩, ?_, (C.mem_adj k2 (by omega)).2 (Or.inl ⟨k3, v1, k1, C.cons.adj_symm m k4⟩)⟩
      intro e
      exact hd.2 (by rw [e])
    · have := C.anc_part v1 k1 k2
      refine ⟨by omega, by omega, (C.mem_adj (by omega) (by omega)).2 (Or.inr (Or.inr ⟨v1, k1, k2, k3⟩))⟩
    · have := C.anc_part k1 k2 k3
      refine ⟨by omega, by omega, (C.mem_adj (by omega) (by omega)).2 (Or.inr (Or.inl ⟨k2, k3, k4⟩))⟩
  · intro v hv
    exact C.adj_nodup ((hvx v).1 hv).1
  · intro v hv
    obtain ⟨v1, v2⟩ := (hvx v).1 hv
    by_cases h : v < s.head + b.s.baseval
    · rw [B.velo v v1 h]
      exact C.cons.velo _ (C.found.bq_mem v1 h).1
    · by_cases h0 : v = s.head + b.s.baseval
      · rw [h0, B.anch.1]; exact outs_nonneg 0 C.cons.velo
      · rw [show v = s.head + b.s.baseval + 1 by omega, B.anch.2]; exact outs_nonneg 1 C.cons.velo
  · rw [e1, e3, e4, C.cons.velosum, ← C.found.outs_all C.cons C.valid b.s.velo, show s.head + b.s.baseval + 2 = s.head + b.s.baseval + 1 + 1 by omega, sumI_succ (by omega), sumI_succ (by omega), B.anch.1, B.anch.2]
    rw [sumI_congr (f := r.1.velo) (g := fun u => b.s.velo (bq b s u)) (fun u u1 u2 => B.velo u u1 u2)]

/-- Adjacency in the band graph. -/
theorem BdBand.adj {r : Graph × Arr Int} (B : BdBand b s idx a0 a1 r) {v w : Int} (hv : r.1.Vertex v) : r.1.Adj v w ↔ w ∈ bAdj b s idx.get v := by
  rw [Graph.adj_iff]
  constructor
  · rintro ⟨⟨x, l⟩, h1, rfl⟩
    exact ((B.lists.mem hv x l).1 h1).1
  · intro h
    exact ⟨(w, 1), (B.lists.mem hv w 1).2 ⟨h, rfl⟩, rfl⟩

end Scotch.Separ
