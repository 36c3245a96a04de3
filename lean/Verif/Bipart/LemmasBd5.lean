import Verif.Bipart.LemmasBd4
import Verif.Coarsen.Quot

/-! # Bipartition of band graphs: vertices out of the band are merged into the anchor vertices -/

set_option autoImplicit false
set_option linter.unusedSimpArgs false

namespace Scotch.Bipart
open Graph

variable {b : Bgraph} {s : BdSt} {vlvl : Int} {a0 a1 : Int}

/-- Vertex of the band graph that stands for a vertex. -/
def bφ (b : Bgraph) (s : BdSt) (v : Int) : Int := if s.idx.get v = -1 then bN b s + b.part v else s.idx.get v

/-- Sum over the vertices that are merged into a vertex of the band graph. -/
def fib (b : Bgraph) (s : BdSt) (f : Int → Int) (c : Int) : Int := sumI b.s.baseval b.s.vertnnd (fun v => if bφ b s v = c then f v else 0)

theorem BdCtx.φ_out (_C : BdCtx b vlvl s) {v : Int} (h : s.idx.get v = -1) : bφ b s v = bN b s + b.part v := if_pos h

theorem BdCtx.φ_in (_C : BdCtx b vlvl s) {v : Int} (h : s.idx.get v ≠ -1) : bφ b s v = s.idx.get v := if_neg h

theorem BdCtx.φ_range (C : BdCtx b vlvl s) {v : Int} (hv : b.s.Vertex v) : b.s.baseval ≤ bφ b s v ∧ bφ b s v < bN b s + 2 := by
  have hh := C.head_le
  by_cases h : s.idx.get v = -1
  · rw [C.φ_out h]; have := C.valid.parts v hv; omega
  · rw [C.φ_in h]; have := C.idx_in hv h; omega

theorem BdCtx.φ_bq (C : BdCtx b vlvl s) {u : Int} (u1 : b.s.baseval ≤ u) (u2 : u < bN b s) : bφ b s (bq b s u) = u := by
  rw [C.φ_in (C.bq_ne u1 u2), (C.bq_mem u1 u2).2]

/-- Vertices of the band are the ones whose image is not an anchor vertex. -/
theorem BdCtx.φ_eq (C : BdCtx b vlvl s) {v c : Int} (hv : b.s.Vertex v) (c2 : c < bN b s) (h : bφ b s v = c) : s.idx.get v ≠ -1 ∧ v = bq b s c := by
  by_cases k : s.idx.get v = -1
  · rw [C.φ_out k] at h; have := C.valid.parts v hv; omega
  · rw [C.φ_in k] at h
    have := (C.idx_in hv k).2.2
    rw [h] at this
    exact ⟨k, this.symm⟩

theorem BdCtx.φ_anc (C : BdCtx b vlvl s) {v k : Int} (hv : b.s.Vertex v) (h0 : 0 ≤ k) (h : bφ b s v = bN b s + k) : s.idx.get v = -1 ∧ b.part v = k := by
  by_cases e : s.idx.get v = -1
  · rw [C.φ_out e] at h; exact ⟨e, by omega⟩
  · rw [C.φ_in e] at h; have := C.idx_in hv e; omega

theorem BdCtx.fib_in (C : BdCtx b vlvl s) (f : Int → Int) {c : Int} (c1 : b.s.baseval ≤ c) (c2 : c < bN b s) : fib b s f c = f (bq b s c) := by
  obtain ⟨m1, -⟩ := C.bq_mem c1 c2
  unfold fib
  rw [← sumI_single m1.1 m1.2 f]
  refine sumI_congr fun v v1 v2 => ?_
  by_cases h : v = bq b s c
  · rw [if_pos h, if_pos (by rw [h]; exact C.φ_bq c1 c2)]
  · rw [if_neg h, if_neg (fun e => h (C.φ_eq ⟨v1, v2⟩ c2 e).2)]

/-- Vertices out of the band have no neighbour in the other part. -/
theorem BdCtx.out_part (C : BdCtx b vlvl s) {v w : Int} (hv : b.s.Vertex v) (h : s.idx.get v = -1) (ha : b.s.Adj v w) : b.part w = b.part v := by
  refine Classical.byContradiction fun k => ?_
  obtain ⟨p, p1, p2⟩ := (adj_iff v w).1 ha
  obtain ⟨i, i1, i2, i3⟩ := (C.valid.fron.2.2 v).1 ⟨hv, p, p1, by rw [p2]; exact k⟩
  have e := C.found.fron i i1 i2
  have hl := C.found.lvl
  have := (C.found.enum.mem (i := i) i1 (by omega)).2
  rw [e, i3] at this
  exact this h

/-! ## Sums -/

theorem BdCtx.fib_sum (C : BdCtx b vlvl s) (f q : Int → Int) :
    sumI b.s.baseval b.s.vertnnd (fun v => f v * q (bφ b s v)) = sumI b.s.baseval (bN b s) (fun u => f (bq b s u) * q u) + fib b s f (bN b s) * q (bN b s) + fib b s f (bN b s + 1) * q (bN b s + 1) := by
  have hh := C.head_le
  have hin : ∀ v, b.s.Vertex v → ({ b.s with vertnnd := bN b s + 2 } : Graph).Vertex (bφ b s v) := fun v hv => C.φ_range hv
  have h := Coarsen.push_in hin f q
  dsimp only at h
  rw [← h, show bN b s + 2 = bN b s + 1 + 1 by omega, sumI_succ (by omega), sumI_succ (by omega)]
  congr 2
  refine sumI_congr fun u u1 u2 => ?_
  rw [show sumI b.s.baseval b.s.vertnnd (fun v => if bφ b s v = u then f v else 0) = fib b s f u from rfl, C.fib_in f u1 u2]

theorem BdCtx.fib_all (C : BdCtx b vlvl s) (f : Int → Int) :
    sumI b.s.baseval b.s.vertnnd f = sumI b.s.baseval (bN b s) (fun u => f (bq b s u)) + fib b s f (bN b s) + fib b s f (bN b s + 1) := by
  have := C.fib_sum f (fun _ => 1)
  simpa using this

/-- Sum over the vertices of a part. -/
theorem BdCtx.fib_zero (C : BdCtx b vlvl s) (f : Int → Int) :
    over b.s b.part 0 f = sumI b.s.baseval (bN b s) (fun u => f (bq b s u) - f (bq b s u) * b.part (bq b s u)) + fib b s f (bN b s) := by
  unfold over
  rw [C.fib_all (fun v => if b.part v = 0 then f v else 0)]
  have e1 : fib b s (fun v => if b.part v = 0 then f v else 0) (bN b s + 1) = 0 := by
    refine sumI_eq_zero fun v v1 v2 => ?_
    by_cases h : bφ b s v = bN b s + 1
    · dsimp only
      rw [if_pos h, if_neg (by have := (C.φ_anc ⟨v1, v2⟩ (by omega) h).2; omega)]
    · rw [if_neg h]
  have e0 : fib b s (fun v => if b.part v = 0 then f v else 0) (bN b s) = fib b s f (bN b s) := by
    refine sumI_congr fun v v1 v2 => ?_
    by_cases h : bφ b s v = bN b s
    · dsimp only
      rw [if_pos h, if_pos h, if_pos (C.φ_anc (k := 0) ⟨v1, v2⟩ (by omega) (by omega)).2]
    · rw [if_neg h, if_neg h]
  rw [e0, e1, Int.add_zero]
  congr 1
  refine sumI_congr fun u u1 u2 => ?_
  rcases C.part u1 u2 with h | h
  · rw [if_pos h, h]; omega
  · rw [if_neg (by omega), h]; omega

theorem BdCtx.fib_one (C : BdCtx b vlvl s) (f : Int → Int) :
    over b.s b.part 1 f = sumI b.s.baseval (bN b s) (fun u => f (bq b s u) * b.part (bq b s u)) + fib b s f (bN b s + 1) := by
  unfold over
  rw [C.fib_all (fun v => if b.part v = 1 then f v else 0)]
  have e1 : fib b s (fun v => if b.part v = 1 then f v else 0) (bN b s) = 0 := by
    refine sumI_eq_zero fun v v1 v2 => ?_
    by_cases h : bφ b s v = bN b s
    · dsimp only
      rw [if_pos h, if_neg (by have := (C.φ_anc (k := 0) ⟨v1, v2⟩ (by omega) (by omega)).2; omega)]
    · rw [if_neg h]
  have e0 : fib b s (fun v => if b.part v = 1 then f v else 0) (bN b s + 1) = fib b s f (bN b s + 1) := by
    refine sumI_congr fun v v1 v2 => ?_
    by_cases h : bφ b s v = bN b s + 1
    · dsimp only
      rw [if_pos h, if_pos h, if_pos (C.φ_anc ⟨v1, v2⟩ (by omega) h).2]
    · rw [if_neg h, if_neg h]
  rw [e0, e1, Int.add_zero]
  congr 1
  refine sumI_congr fun u u1 u2 => ?_
  rcases C.part u1 u2 with h | h
  · rw [if_neg (by omega), h]; omega
  · rw [if_pos h, h]; omega

/-- Loads and numbers of the vertices that are out of the band. -/
theorem BdCtx.outer (C : BdCtx b vlvl s) :
    b.compload0 - (s.velosum - s.load1) = fib b s b.s.velo (bN b s) ∧ b.s.velosum - b.compload0 - s.load1 = fib b s b.s.velo (bN b s + 1) ∧
    b.compsize0 - (s.head - s.size1) = fib b s (fun _ => 1) (bN b s) ∧ b.s.vertnbr - b.compsize0 - s.size1 = fib b s (fun _ => 1) (bN b s + 1) := by
  have hh := C.head_le
  have l0 := C.fib_zero b.s.velo
  have la := C.fib_all b.s.velo
  have n0 := C.fib_zero (fun _ => 1)
  have na := C.fib_all (fun _ => 1)
  rw [sumI_sub_dist, sum_bq b s b.s.velo, sum_bq b s (fun v => b.s.velo v * b.part v), ← C.found.velo, ← C.found.load, ← C.valid.load] at l0
  rw [sum_bq b s b.s.velo, ← C.found.velo, ← C.cons.velosum] at la
  have e : sumI b.s.baseval (bN b s) (fun u => (1 : Int) * b.part (bq b s u)) = s.size1 := by
    rw [C.found.size, ← sum_bq b s b.part]
    refine sumI_congr fun u _ _ => Int.one_mul _
  rw [sumI_sub_dist, sumI_const (by omega), e, ← C.valid.size] at n0
  rw [sumI_const (by omega), sumI_const (by omega)] at na
  refine ⟨?_, ?_, ?_, ?_⟩ <;> omega

/-! ## Arcs -/

/-- Load of the arcs between the vertices that are merged. -/
def bS (b : Bgraph) (s : BdSt) (c d : Int) : Int := fib b s (fun v => fib b s (b.s.wgt v) d) c

theorem BdCtx.arcLoad (C : BdCtx b vlvl s) (c d : Int) : Coarsen.arcLoad b.s (bφ b s) c d = bS b s c d := Coarsen.arcLoad_wgt (consE_iff.1 C.cons) c d

theorem BdCtx.bS_symm (C : BdCtx b vlvl s) (c d : Int) : bS b s c d = bS b s d c := by
  have e : ∀ c d, bS b s c d = sumI b.s.baseval b.s.vertnnd (fun v => sumI b.s.baseval b.s.vertnnd (fun w => if bφ b s v = c ∧ bφ b s w = d then b.s.wgt v w else 0)) := by
    intro c d
    refine sumI_congr fun v v1 v2 => ?_
    by_cases h : bφ b s v = c
    · rw [if_pos h]
      refine sumI_congr fun w w1 w2 => ?_
      by_cases h2 : bφ b s w = d
      · rw [if_pos h2, if_pos ⟨h, h2⟩]
      · rw [if_neg h2, if_neg (fun k => h2 k.2)]
    · rw [if_neg h, eq_comm]
      refine sumI_eq_zero fun w w1 w2 => if_neg (fun k => h k.1)
  rw [e, e, sumI_comm]
  refine sumI_congr fun v v1 v2 => sumI_congr fun w w1 w2 => ?_
  by_cases h : bφ b s w = c ∧ bφ b s v = d
  · rw [if_pos h, if_pos ⟨h.2, h.1⟩, wgt_symm C.cons ⟨w1, w2⟩ ⟨v1, v2⟩]
  · rw [if_neg h, if_neg (fun k => h ⟨k.2, k.1⟩)]

theorem BdCtx.bS_in (C : BdCtx b vlvl s) {c d : Int} (c1 : b.s.baseval ≤ c) (c2 : c < bN b s) (d1 : b.s.baseval ≤ d) (d2 : d < bN b s) : bS b s c d = b.s.wgt (bq b s c) (bq b s d) := by
  unfold bS
  rw [C.fib_in _ c1 c2, C.fib_in _ d1 d2]

theorem BdCtx.bS_anc (C : BdCtx b vlvl s) {c : Int} (c1 : b.s.baseval ≤ c) (c2 : c < bN b s) : bS b s c (bN b s + b.part (bq b s c)) = ancL b s c := by
  obtain ⟨m1, -⟩ := C.bq_mem c1 c2
  unfold bS
  rw [C.fib_in _ c1 c2]
  have e : ancL b s c = sumI (b.s.vert (bq b s c)) (b.s.vend (bq b s c)) (fun e => b.s.edlo e * (fun w => if s.idx.get w = -1 then (1 : Int) else 0) (b.s.dest e)) := by
    refine sumI_congr fun e _ _ => ?_
    dsimp only
    split <;> simp
  rw [e, arc_sum C.cons m1 (fun w => if s.idx.get w = -1 then (1 : Int) else 0)]
  refine sumI_congr fun w w1 w2 => ?_
  by_cases h : s.idx.get w = -1
  · rw [if_pos h, C.φ_out h, Int.mul_one]
    by_cases ha : b.s.Adj (bq b s c) w
    · have := C.out_part ⟨w1, w2⟩ h (C.cons.adj_symm m1 ha)
      rw [if_pos (by omega)]
    · rw [wgt_none ha]; split <;> rfl
  · rw [if_neg h, Int.mul_zero, if_neg]
    intro k
    have := C.valid.parts _ m1
    exact h (C.φ_anc ⟨w1, w2⟩ (by omega) k).1

theorem BdCtx.adj_anc (_C : BdCtx b vlvl s) {k d l : Int} (hk : k = 0 ∨ k = 1) : (d, l) ∈ bAdj b s (bN b s + k) ↔ (d, l) ∈ bFrom b s k b.s.baseval (bN b s) := by
  unfold bAdj
  rw [if_neg (by omega)]
  rcases hk with rfl | rfl
  · rw [if_pos (by omega)]
  · rw [if_neg (by omega), List.mem_reverse]

/-- Neighbours in the band graph. -/
theorem BdCtx.mem_adj (C : BdCtx b vlvl s) {c d l : Int} (c1 : b.s.baseval ≤ c) (c2 : c < bN b s + 2) :
    (d, l) ∈ bAdj b s c ↔ d ≠ c ∧ (∃ v w, b.s.Vertex v ∧ bφ b s v = c ∧ b.s.Adj v w ∧ bφ b s w = d) ∧ l = bS b s c d := by
  by_cases h : c < bN b s
  · obtain ⟨m1, m2⟩ := C.bq_mem c1 h
    have hp := C.part c1 h
    have e : bAdj b s c = bIn b s c ++ (if 0 < ancL b s c then [(bN b s + b.part (bq b s c), ancL b s c)] else []) := by unfold bAdj; rw [if_pos h]
    rw [e, List.mem_append, C.mem_bIn c1 h]
    constructor
    · rintro (⟨d1, d2, d3, d4⟩ | k)
      · refine ⟨?_, ⟨_, _, m1, C.φ_bq c1 h, d3, C.φ_bq d1 d2⟩, ?_⟩
        · rintro rfl; exact (C.cons.adj_vertex m1 d3).2 rfl
        · rw [C.bS_in c1 h d1 d2]; exact d4
      · by_cases ha : 0 < ancL b s c
        · rw [if_pos ha, List.mem_singleton, Prod.mk.injEq] at k
          obtain ⟨rfl, rfl⟩ := k
          obtain ⟨w, w1, w2⟩ := (C.ancL_pos c1 h).1 ha
          have hw := (C.cons.adj_vertex m1 w1).1
          refine ⟨by omega, ⟨_, w, m1, C.φ_bq c1 h, w1, ?_⟩, (C.bS_anc c1 h).symm⟩
          rw [C.φ_out w2, C.out_part hw w2 (C.cons.adj_symm m1 w1)]
        · rw [if_neg ha] at k; cases k
    · rintro ⟨hne, ⟨v, w, hv, v1, hw, w1⟩, rfl⟩
      obtain ⟨v2, rfl⟩ := C.φ_eq hv h v1
      have hvw := (C.cons.adj_vertex hv hw).1
      by_cases k : s.idx.get w = -1
      · right
        have e3 := C.out_part hvw k (C.cons.adj_symm hv hw)
        rw [C.φ_out k, ← e3] at w1
        have ha := (C.ancL_pos c1 h).2 ⟨w, hw, k⟩
        rw [if_pos ha, ← w1, C.bS_anc c1 h]
        exact List.mem_singleton_self _
      · left
        obtain ⟨k1, k2, k3⟩ := C.idx_in hvw k
        rw [C.φ_in k] at w1
        rw [w1] at k1 k2 k3
        rw [C.bS_in c1 h k1 k2, k3]
        exact ⟨k1, k2, hw, rfl⟩
  · obtain ⟨k, hk, rfl⟩ : ∃ k, (k = 0 ∨ k = 1) ∧ c = bN b s + k := ⟨c - bN b s, by omega, by omega⟩
    rw [C.adj_anc hk, mem_bFrom]
    constructor
    · rintro ⟨d1, d2, d3, rfl, rfl⟩
      obtain ⟨m1, m2⟩ := C.bq_mem d1 d2
      obtain ⟨w, w1, w2⟩ := (C.ancL_pos d1 d2).1 d3
      have hw := (C.cons.adj_vertex m1 w1).1
      have ha := C.cons.adj_symm m1 w1
      refine ⟨by omega, ⟨w, _, hw, ?_, ha, C.φ_bq d1 d2⟩, ?_⟩
      · rw [C.φ_out w2, C.out_part hw w2 ha]
      · rw [C.bS_symm, C.bS_anc d1 d2]
    · rintro ⟨hne, ⟨v, w, hv, v1, hw, w1⟩, rfl⟩
      obtain ⟨v2, v3⟩ := C.φ_anc hv (by omega) v1
      have hvw := (C.cons.adj_vertex hv hw).1
      have e3 := C.out_part hv v2 hw
      by_cases k2 : s.idx.get w = -1
      · rw [C.φ_out k2] at w1; omega
      · obtain ⟨j1, j2, j3⟩ := C.idx_in hvw k2
        rw [C.φ_in k2] at w1
        rw [w1] at j1 j2 j3
        have ha : 0 < ancL b s d := (C.ancL_pos j1 j2).2 ⟨v, by rw [j3]; exact C.cons.adj_symm hv hw, v2⟩
        have hpd : b.part (bq b s d) = k := by rw [j3]; omega
        refine ⟨j1, j2, ha, hpd, ?_⟩
        rw [C.bS_symm, ← hpd, C.bS_anc j1 j2]

theorem BdCtx.adj_pos (C : BdCtx b vlvl s) {c d l : Int} (c1 : b.s.baseval ≤ c) (h : (d, l) ∈ bAdj b s c) : 0 < l := by
  unfold bAdj at h
  by_cases k : c < bN b s
  · obtain ⟨m1, m2⟩ := C.bq_mem c1 k
    rw [if_pos k, List.mem_append, C.mem_bIn c1 k] at h
    rcases h with ⟨d1, d2, ⟨e, e1, e2, e3⟩, rfl⟩ | h
    · rw [← e3, wgt_arc C.cons m1 e1 e2]; exact C.loaded _ e m1 e1 e2
    · by_cases ha : 0 < ancL b s c
      · rw [if_pos ha, List.mem_singleton, Prod.mk.injEq] at h; omega
      · rw [if_neg ha] at h; cases h
  · rw [if_neg k] at h
    split at h
    · obtain ⟨_, _, h3, _, rfl⟩ := (mem_bFrom _ _ _ _ _).1 h; exact h3
    · rw [List.mem_reverse] at h
      obtain ⟨_, _, h3, _, rfl⟩ := (mem_bFrom _ _ _ _ _).1 h; exact h3

theorem BdCtx.bIn_nodup (C : BdCtx b vlvl s) {u : Int} (u1 : b.s.baseval ≤ u) (u2 : u < bN b s) : ((bIn b s u).map Prod.fst).Nodup := by
  obtain ⟨m1, -⟩ := C.bq_mem u1 u2
  have hr := (C.cons.range _ m1).2
  unfold bIn seg List.Nodup
  rw [List.pairwise_map, List.pairwise_filter, List.pairwise_map]
  refine List.Pairwise.imp_of_mem ?_ List.nodup_range
  intro i j hi hj hij h1 h2 heq
  rw [List.mem_range] at hi hj
  rw [decide_eq_true_eq] at h1 h2
  dsimp only at heq h1 h2
  have di := C.cons.inside _ (b.s.vert (bq b s u) + i) m1 (by omega) (by omega)
  have dj := C.cons.inside _ (b.s.vert (bq b s u) + j) m1 (by omega) (by omega)
  have ki := (C.idx_in di.1 h1).2.2
  have kj := (C.idx_in dj.1 h2).2.2
  rw [heq, kj] at ki
  have := C.cons.simple _ m1 _ _ (by omega) (by omega) (by omega) (by omega) ki
  omega

theorem bFrom_nodup (k lo hi : Int) : ((bFrom b s k lo hi).map Prod.fst).Nodup := by
  unfold bFrom
  rw [List.map_map, show (Prod.fst ∘ fun u => (u, ancL b s u)) = (id : Int → Int) from rfl, List.map_id]
  refine List.Nodup.filter _ ?_
  unfold seg
  rw [List.nodup_iff_pairwise_ne, List.pairwise_map]
  refine List.Pairwise.imp ?_ List.nodup_range
  intro i j hij h
  simp only [id] at h
  omega

theorem BdCtx.adj_nodup (C : BdCtx b vlvl s) {u : Int} (u1 : b.s.baseval ≤ u) : ((bAdj b s u).map Prod.fst).Nodup := by
  unfold bAdj
  by_cases h : u < bN b s
  · rw [if_pos h]
    by_cases ha : 0 < ancL b s u
    · rw [if_pos ha, List.map_append, List.nodup_append]
      refine ⟨C.bIn_nodup u1 h, List.nodup_singleton _, ?_⟩
      intro x hx y hy
      obtain ⟨⟨x', l⟩, hx', rfl⟩ := List.mem_map.1 hx
      have hy := List.mem_singleton.1 hy
      dsimp only at hy ⊢
      have := (C.mem_bIn u1 h).1 hx'
      have := C.part u1 h
      omega
    · rw [if_neg ha, List.append_nil]; exact C.bIn_nodup u1 h
  · rw [if_neg h]
    split
    · exact bFrom_nodup _ _ _
    · rw [List.map_reverse, List.nodup_reverse]; exact bFrom_nodup _ _ _

/-! ## Band graph -/

theorem fib_nonneg {f : Int → Int} (h : ∀ v, b.s.Vertex v → 0 ≤ f v) (c : Int) : 0 ≤ fib b s f c := by
  refine sumI_nonneg fun v v1 v2 => ?_
  split
  · exact h v ⟨v1, v2⟩
  · omega

theorem BdCtx.velo (C : BdCtx b vlvl s) {r : BdBnd} (B : BdBand b s (fib b s b.s.velo (bN b s)) (fib b s b.s.velo (bN b s + 1)) r) {c : Int} (c1 : b.s.baseval ≤ c) (c2 : c < bN b s + 2) : r.graf.velo c = fib b s b.s.velo c := by
  by_cases h : c < bN b s
  · rw [B.velo c c1 h, C.fib_in _ c1 h]
  · by_cases h0 : c = bN b s
    · rw [h0, B.anch.1]
    · rw [show c = bN b s + 1 by omega, B.anch.2]

theorem BdCtx.consistent (C : BdCtx b vlvl s) {r : BdBnd} (B : BdBand b s (fib b s b.s.velo (bN b s)) (fib b s b.s.velo (bN b s + 1)) r) : r.graf.Consistent := by
  obtain ⟨e1, e2, e3, e4⟩ := B.shape
  have hh := C.head_le
  have hvx : ∀ v, r.graf.Vertex v ↔ b.s.baseval ≤ v ∧ v < bN b s + 2 := by
    intro v; unfold Graph.Vertex; rw [e1, e3]
  obtain ⟨lo, L⟩ := B.lists
  refine L.consistent ?_ ?_ ?_ ?_
  · intro v hv w l hw
    obtain ⟨v1, v2⟩ := (hvx v).1 hv
    obtain ⟨h1, ⟨x, y, hx, x1, hxy, y1⟩, h3⟩ := (C.mem_adj v1 v2).1 hw
    have hy := (C.cons.adj_vertex hx hxy).1
    have hr := C.φ_range hy
    rw [y1] at hr
    refine ⟨(hvx w).2 hr, h1, C.adj_pos v1 hw, (C.mem_adj hr.1 hr.2).2 ⟨fun e => h1 e.symm, ⟨y, x, hy, y1, C.cons.adj_symm hx hxy, x1⟩, ?_⟩⟩
    rw [h3, C.bS_symm]
  · intro v hv
    exact C.adj_nodup ((hvx v).1 hv).1
  · intro v hv
    obtain ⟨v1, v2⟩ := (hvx v).1 hv
    rw [C.velo B v1 v2]
    exact fib_nonneg C.cons.velo _
  · rw [e1, e3, e4, C.cons.velosum, C.fib_all b.s.velo, show bN b s + 2 = bN b s + 1 + 1 by omega, sumI_succ (by omega), sumI_succ (by omega), B.anch.1, B.anch.2]
    rw [sumI_congr (f := r.graf.velo) (g := fun u => b.s.velo (bq b s u)) (fun u u1 u2 => B.velo u u1 u2)]

/-- The band graph is the graph whose vertices are merged. -/
theorem BdCtx.quot (C : BdCtx b vlvl s) {r : BdBnd} (B : BdBand b s (fib b s b.s.velo (bN b s)) (fib b s b.s.velo (bN b s + 1)) r) : Coarsen.Quot b.s (bφ b s) r.graf := by
  obtain ⟨e1, e2, e3, e4⟩ := B.shape
  have hvx : ∀ v, r.graf.Vertex v ↔ b.s.baseval ≤ v ∧ v < bN b s + 2 := by
    intro v; unfold Graph.Vertex; rw [e1, e3]
  obtain ⟨lo, L⟩ := B.lists
  refine ⟨fun v hv => (hvx _).2 (C.φ_range hv), ⟨e1, ?_, e4, ?_⟩, C.consistent B⟩
  · intro c hc
    obtain ⟨c1, c2⟩ := (hvx c).1 hc
    exact C.velo B c1 c2
  · intro c d l hc
    obtain ⟨c1, c2⟩ := (hvx c).1 hc
    rw [L.nbrs hc, C.mem_adj c1 c2, C.arcLoad]
    constructor
    · rintro ⟨h1, ⟨v, w, hv, v1, hw, w1⟩, h3⟩
      obtain ⟨p, p1, p2⟩ := (adj_iff v w).1 hw
      exact ⟨h1, ⟨v, p, hv, v1, p1, by rw [p2]; exact w1⟩, h3⟩
    · rintro ⟨h1, ⟨v, p, hv, v1, hp, w1⟩, h3⟩
      exact ⟨h1, ⟨v, p.1, hv, v1, (adj_iff v p.1).2 ⟨p, hp, rfl⟩, w1⟩, h3⟩

theorem BdCtx.loaded' (C : BdCtx b vlvl s) {r : BdBnd} (B : BdBand b s a0 a1 r) : Loaded r.graf := by
  obtain ⟨e1, e2, e3, e4⟩ := B.shape
  obtain ⟨lo, L⟩ := B.lists
  intro v e hv h1 h2
  have hm := nbrs_mk r.graf v h1 h2
  rw [L.nbrs hv] at hm
  exact C.adj_pos (by have := hv.1; omega) hm

end Scotch.Bipart
