import Verif.Graph.LemmasBase
import Verif.HOrder.LemmasCp2
import Verif.Graph.OfLists
import Verif.Mesh.LemmasMetis

/-! # Compressed graphs: description -/

set_option autoImplicit false
set_option linter.unusedSimpArgs false

namespace Scotch.HOrder
open Graph

variable {h : Hgraph} {φ ρ : Int → Int} {K : Int}

/-- All vertices have a class; those of the halo have their own one. -/
structure Cx (h : Hgraph) (φ ρ : Int → Int) (K : Int) : Prop where
  H : CpH h
  cls : Cls h φ ρ h.vnohnnd K
  halo : ∀ v, h.vnohnnd ≤ v → v < h.s.vertnnd → φ v = K + (v - h.vnohnnd)

/-- End of the numbers of compressed vertices. -/
def cnnd (h : Hgraph) (K : Int) : Int := K + (h.s.vertnnd - h.vnohnnd)

/-- Neighbours of a compressed vertex that are not in the halo. -/
def A1 (h : Hgraph) (φ ρ : Int → Int) (c : Int) : List Int := Hash.ins [] (((ends (unhalo h) (ρ c)).map φ).filter (· ≠ c))
/-- Neighbours that are in the halo. -/
def A2 (h : Hgraph) (φ ρ : Int → Int) (c : Int) : List Int := (seg h.s.dest ((unhalo h).vend (ρ c)) (h.s.vend (ρ c))).map φ
/-- Neighbours of a vertex of the halo. -/
def A3 (h : Hgraph) (φ : Int → Int) (K c : Int) : List Int := Hash.ins [] ((ends h.s (c - K + h.vnohnnd)).map φ)
/-- Neighbours of a compressed vertex. -/
def cadj (h : Hgraph) (φ ρ : Int → Int) (K c : Int) : List Int := if c < K then A1 h φ ρ c ++ A2 h φ ρ c else A3 h φ K c

/-- Classes that are not the same and have neighbours. -/
def Near (h : Hgraph) (φ : Int → Int) (c d : Int) : Prop := c ≠ d ∧ ∃ u w, h.s.Vertex u ∧ φ u = c ∧ φ w = d ∧ Adj h.s u w

theorem ins_nodup (l : List Int) : ∀ ks : List Int, ks.Nodup → (Hash.ins ks l).Nodup := by
  induction l with
  | nil => intro ks h; exact h
  | cons a l ih =>
    intro ks h
    rw [show a :: l = [a] ++ l from rfl, Hash.ins_append]
    apply ih
    rw [show [a] = [] ++ [a] from rfl, Hash.ins_snoc, Hash.ins_nil]
    split
    · exact h
    · rename_i hn
      rw [List.nodup_append]
      refine ⟨h, by simp, ?_⟩
      intro x hx y hy
      rw [List.mem_singleton] at hy
      rintro rfl
      rw [hy] at hx
      exact hn hx

theorem ins_grow (l : List Int) : ∀ ks : List Int, ks.length ≤ (Hash.ins ks l).length := by
  induction l with
  | nil => intro ks; exact Nat.le_refl _
  | cons a l ih =>
    intro ks
    rw [show a :: l = [a] ++ l from rfl, Hash.ins_append]
    refine Nat.le_trans ?_ (ih _)
    rw [show [a] = [] ++ [a] from rfl, Hash.ins_snoc, Hash.ins_nil]
    split
    · exact Nat.le_refl _
    · rw [List.length_append]; omega

namespace Cx

theorem u_adj (C : Cx h φ ρ K) {u w : Int} (hu : h.s.baseval ≤ u) (hu' : u < h.vnohnnd) (ha : Adj h.s u w) (hw : w < h.vnohnnd) : Adj (unhalo h) u w := by
  obtain ⟨e, e1, e2, e3⟩ := ha
  refine ⟨e, e1, ?_, e3⟩
  apply Classical.byContradiction
  intro hn
  have := (C.H.cons.ends u ⟨hu, hu'⟩).2 e (by omega) e2
  omega

theorem adj_u (C : Cx h φ ρ K) {u w : Int} (hu : h.s.baseval ≤ u) (hu' : u < h.vnohnnd) (ha : Adj (unhalo h) u w) : Adj h.s u w ∧ h.s.baseval ≤ w ∧ w < h.vnohnnd := by
  have hv := C.H.u.adj_vertex ⟨hu, hu'⟩ ha
  obtain ⟨e, e1, e2, e3⟩ := ha
  have := (C.H.cons.ends u ⟨hu, hu'⟩).1
  exact ⟨⟨e, e1, by omega, e3⟩, hv.1⟩

/-- Halo vertices are only connected to other vertices. -/
theorem halo_adj (C : Cx h φ ρ K) {u w : Int} (hu : h.s.Vertex u) (hu' : h.vnohnnd ≤ u) (ha : Adj h.s u w) : w < h.vnohnnd := by
  obtain ⟨p, p1, rfl⟩ := (adj_iff u w).1 ha
  exact C.H.cons.halo u p hu hu' p1

theorem lt_iff (C : Cx h φ ρ K) {u : Int} (hu : h.s.Vertex u) : φ u < K ↔ u < h.vnohnnd := by
  constructor
  · intro hk
    apply Classical.byContradiction
    intro hn
    have := C.halo u (by omega) hu.2
    omega
  · intro hn
    exact (C.cls.num u hu.1 hn).2

theorem num (C : Cx h φ ρ K) {u : Int} (hu : h.s.Vertex u) : 1 ≤ φ u ∧ φ u < cnnd h K := by
  have hp := C.cls.pos
  have hle := C.H.le
  unfold cnnd
  by_cases hn : u < h.vnohnnd
  · have := C.cls.num u hu.1 hn; omega
  · have := C.halo u (by omega) hu.2
    have := hu.2
    omega

/-- The members of a class that is not in the halo are the first one, and its twins. -/
theorem mem_twin (C : Cx h φ ρ K) {u c : Int} (hu : h.s.Vertex u) (h2 : c < K) (he : φ u = c) : u < h.vnohnnd ∧ Twin h.s u (ρ c) := by
  have hp := C.num hu
  have hn := (C.lt_iff hu).1 (by omega)
  obtain ⟨r1, r2, r3, _⟩ := C.cls.rep c (by omega) h2
  exact ⟨hn, C.cls.twin u (ρ c) hu.1 hn r1 r2 (by omega)⟩

theorem mem_A1 (C : Cx h φ ρ K) {c d : Int} (h1 : 1 ≤ c) (h2 : c < K) : d ∈ A1 h φ ρ c ↔ Near h φ c d ∧ d < K := by
  obtain ⟨r1, r2, r3, _⟩ := C.cls.rep c h1 h2
  have hrv := C.H.vtx r1 r2
  unfold A1
  rw [Hash.mem_ins, List.mem_filter, List.mem_map]
  constructor
  · rintro (hx | ⟨⟨w, hw, rfl⟩, hd⟩)
    · simp at hx
    · rw [mem_ends] at hw
      obtain ⟨a1, a2, a3⟩ := C.adj_u r1 r2 hw
      refine ⟨⟨?_, ρ c, w, hrv, r3, rfl, a1⟩, (C.cls.num w a2 a3).2⟩
      simp at hd
      exact fun he => hd he.symm
  · rintro ⟨⟨hne, u, w, hu, e1, rfl, ha⟩, hd⟩
    right
    obtain ⟨-, ht⟩ := C.mem_twin hu h2 e1
    have hwv := (C.H.w.adj_vertex hu ha).1
    have hwn := (C.lt_iff hwv).1 hd
    refine ⟨⟨w, ?_, rfl⟩, by simp; exact fun he => hne he.symm⟩
    rw [mem_ends]
    rcases (ht w).1 (Or.inr ha) with rfl | hx
    · exact absurd r3.symm hne
    · exact C.u_adj r1 r2 hx hwn

theorem mem_A2 (C : Cx h φ ρ K) {c d : Int} (h1 : 1 ≤ c) (h2 : c < K) : d ∈ A2 h φ ρ c ↔ Near h φ c d ∧ K ≤ d := by
  obtain ⟨r1, r2, r3, _⟩ := C.cls.rep c h1 h2
  have hrv := C.H.vtx r1 r2
  have hend := C.H.cons.ends (ρ c) ⟨r1, r2⟩
  have hvr := (C.H.u.range (ρ c) ⟨r1, r2⟩).2
  unfold A2
  rw [List.mem_map]
  constructor
  · rintro ⟨w, hw, rfl⟩
    obtain ⟨e, e1, e2, e3⟩ := (mem_seg _ _ _ _).1 hw
    have ha : Adj h.s (ρ c) w := ⟨e, by show (unhalo h).vert (ρ c) ≤ e; omega, e2, e3⟩
    have hwN := hend.2 e e1 e2
    rw [e3] at hwN
    have hwv := (C.H.w.adj_vertex hrv ha).1
    have := C.halo w hwN hwv.2
    exact ⟨⟨by omega, ρ c, w, hrv, r3, rfl, ha⟩, by omega⟩
  · rintro ⟨⟨hne, u, w, hu, e1, rfl, ha⟩, hd⟩
    obtain ⟨-, ht⟩ := C.mem_twin hu h2 e1
    have hwv := (C.H.w.adj_vertex hu ha).1
    have hwn : ¬ w < h.vnohnnd := fun hx => by have := (C.lt_iff hwv).2 hx; omega
    refine ⟨w, ?_, rfl⟩
    rcases (ht w).1 (Or.inr ha) with rfl | ⟨e, f1, f2, f3⟩
    · exact absurd r3.symm hne
    · rw [mem_seg]
      refine ⟨e, ?_, f2, f3⟩
      apply Classical.byContradiction
      intro hx
      have := (C.H.u.inside (ρ c) e ⟨r1, r2⟩ f1 (by omega)).1.2
      have : h.s.dest e < h.vnohnnd := this
      omega

/-- The vertex of a class of the halo. -/
theorem halo_vtx (C : Cx h φ ρ K) {c : Int} (h1 : K ≤ c) (h2 : c < cnnd h K) : h.s.Vertex (c - K + h.vnohnnd) ∧ h.vnohnnd ≤ c - K + h.vnohnnd ∧ φ (c - K + h.vnohnnd) = c := by
  unfold cnnd at h2
  have := C.halo (c - K + h.vnohnnd) (by omega) (by omega)
  have := C.H.nnd
  have := C.H.some
  exact ⟨⟨by omega, by omega⟩, by omega, by omega⟩

theorem halo_eq (C : Cx h φ ρ K) {c u : Int} (h1 : K ≤ c) (hu : h.s.Vertex u) (he : φ u = c) : u = c - K + h.vnohnnd := by
  have hn : ¬ u < h.vnohnnd := fun hx => by have := (C.lt_iff hu).2 hx; omega
  have := C.halo u (by omega) hu.2
  omega

theorem mem_A3 (C : Cx h φ ρ K) {c d : Int} (h1 : K ≤ c) (h2 : c < cnnd h K) : d ∈ A3 h φ K c ↔ Near h φ c d := by
  obtain ⟨r1, r2, r3⟩ := C.halo_vtx h1 h2
  unfold A3
  rw [Hash.mem_ins, List.mem_map]
  constructor
  · rintro (hx | ⟨w, hw, rfl⟩)
    · simp at hx
    · rw [mem_ends] at hw
      have hwn := C.halo_adj r1 r2 hw
      have hwv := (C.H.w.adj_vertex r1 hw).1
      have := (C.lt_iff hwv).2 hwn
      exact ⟨by omega, _, w, r1, r3, rfl, hw⟩
  · rintro ⟨hne, u, w, hu, e1, rfl, ha⟩
    right
    refine ⟨w, ?_, rfl⟩
    rw [mem_ends, ← C.halo_eq h1 hu e1]
    exact ha

/-- Classes of the halo are only connected to other ones. -/
theorem near_halo (C : Cx h φ ρ K) {c d : Int} (h1 : K ≤ c) (hn : Near h φ c d) : d < K := by
  obtain ⟨hne, u, w, hu, rfl, rfl, ha⟩ := hn
  have hwv := (C.H.w.adj_vertex hu ha).1
  have hun : ¬ u < h.vnohnnd := fun hx => by have := (C.lt_iff hu).2 hx; omega
  exact (C.lt_iff hwv).2 (C.halo_adj hu (by omega) ha)

theorem near_symm (C : Cx h φ ρ K) {c d : Int} (hn : Near h φ c d) : Near h φ d c := by
  obtain ⟨hne, u, w, hu, e1, e2, ha⟩ := hn
  exact ⟨fun he => hne he.symm, w, u, (C.H.w.adj_vertex hu ha).1, e2, e1, C.H.w.adj_symm hu ha⟩

theorem near_in (C : Cx h φ ρ K) {c d : Int} (hn : Near h φ c d) : 1 ≤ d ∧ d < cnnd h K := by
  obtain ⟨hne, u, w, hu, e1, rfl, ha⟩ := hn
  exact C.num (C.H.w.adj_vertex hu ha).1

theorem mem_cadj (C : Cx h φ ρ K) {c d : Int} (h1 : 1 ≤ c) (h2 : c < cnnd h K) : d ∈ cadj h φ ρ K c ↔ Near h φ c d := by
  unfold cadj
  by_cases hk : c < K
  · rw [if_pos hk, List.mem_append, C.mem_A1 h1 hk, C.mem_A2 h1 hk]
    constructor
    · rintro (⟨a, _⟩ | ⟨a, _⟩) <;> exact a
    · intro a
      by_cases hd : d < K
      · exact Or.inl ⟨a, hd⟩
      · exact Or.inr ⟨a, by omega⟩
  · rw [if_neg hk, C.mem_A3 (by omega) h2]

theorem A2_nodup (C : Cx h φ ρ K) {c : Int} (h1 : 1 ≤ c) (h2 : c < K) : (A2 h φ ρ c).Nodup := by
  obtain ⟨r1, r2, r3, _⟩ := C.cls.rep c h1 h2
  have hrv := C.H.vtx r1 r2
  have hend := C.H.cons.ends (ρ c) ⟨r1, r2⟩
  have hvr := (C.H.u.range (ρ c) ⟨r1, r2⟩).2
  have hb : ∀ e, (unhalo h).vend (ρ c) ≤ e → h.s.vert (ρ c) ≤ e := fun e he => by show (unhalo h).vert (ρ c) ≤ e; omega
  unfold A2
  refine List.Nodup.map_on ?_ (Mesh.seg_nodup.2 (fun i j i1 i2 j1 j2 he => C.H.w.simple (ρ c) hrv i j (hb i i1) i2 (hb j j1) j2 he))
  have key : ∀ x, x ∈ seg h.s.dest ((unhalo h).vend (ρ c)) (h.s.vend (ρ c)) → φ x = K + (x - h.vnohnnd) := by
    intro x hx
    obtain ⟨e, e1, e2, e3⟩ := (mem_seg _ _ _ _).1 hx
    have := hend.2 e e1 e2
    have hxv := (C.H.w.inside (ρ c) e hrv (hb e e1) e2).1
    rw [e3] at this hxv
    exact C.halo x this hxv.2
  intro x hx y hy he
  rw [key x hx, key y hy] at he
  omega

theorem cadj_nodup (C : Cx h φ ρ K) {c : Int} (h1 : 1 ≤ c) : (cadj h φ ρ K c).Nodup := by
  unfold cadj
  by_cases hk : c < K
  · rw [if_pos hk, List.nodup_append]
    refine ⟨ins_nodup _ [] List.nodup_nil, C.A2_nodup h1 hk, ?_⟩
    intro x hx y hy
    have := ((C.mem_A1 h1 hk).1 hx).2
    have := ((C.mem_A2 h1 hk).1 hy).2
    omega
  · rw [if_neg hk]
    exact ins_nodup _ [] List.nodup_nil

/-! ## Sizes -/

end Cx

/-- Number of vertices of a class. -/
def csize (h : Hgraph) (φ : Int → Int) (c : Int) : Int := sumI h.s.baseval h.s.vertnnd (fun u => if φ u = c then 1 else 0)

/-- Load of a class. -/
def cload (h : Hgraph) (φ : Int → Int) (c : Int) : Int := sumI h.s.baseval h.s.vertnnd (fun u => if φ u = c then h.s.velo u else 0)

/-- Sums over classes. -/
theorem class_sum {a b lo hi : Int} (f : Int → Int) (hφ : ∀ u, a ≤ u → u < b → lo ≤ φ u ∧ φ u < hi) : sumI lo hi (fun c => sumI a b (fun u => if φ u = c then f u else 0)) = sumI a b f := by
  rw [sumI_comm]
  apply sumI_congr
  intro u u1 u2
  have := sumI_single (hφ u u1 u2).1 (hφ u u1 u2).2 (fun _ => f u)
  refine Eq.trans (sumI_congr ?_) this
  intro c _ _
  by_cases e : φ u = c
  · rw [if_pos e, if_pos e.symm]
  · rw [if_neg e, if_neg (fun x => e x.symm)]

namespace Cx

/-- Sum over the members of a class that is not in the halo. -/
theorem low_sum (C : Cx h φ ρ K) {c : Int} (h2 : c < K) (f : Int → Int) : sumI h.s.baseval h.s.vertnnd (fun u => if φ u = c then f u else 0) = sumI h.s.baseval h.vnohnnd (fun u => if φ u = c then f u else 0) := by
  have hle := C.H.le
  have hn := C.H.nnd
  have := C.H.some
  rw [sumI_split (lo := h.s.baseval) (mid := h.vnohnnd) (hi := h.s.vertnnd) (by omega) hle, sumI_eq_zero (lo := h.vnohnnd), Int.add_zero]
  intro i i1 i2
  have := C.halo i i1 i2
  rw [if_neg (by omega)]

/-- Sum over the only member of a class of the halo. -/
theorem high_sum (C : Cx h φ ρ K) {c : Int} (h1 : K ≤ c) (h2 : c < cnnd h K) (f : Int → Int) : sumI h.s.baseval h.s.vertnnd (fun u => if φ u = c then f u else 0) = f (c - K + h.vnohnnd) := by
  obtain ⟨r1, r2, r3⟩ := C.halo_vtx h1 h2
  rw [← sumI_single r1.1 r1.2 f]
  apply sumI_congr
  intro u u1 u2
  by_cases e : φ u = c
  · rw [if_pos e, if_pos (C.halo_eq h1 ⟨u1, u2⟩ e)]
  · rw [if_neg e, if_neg (fun hx => e (by rw [hx]; exact r3))]

/-- The twins of the first vertex of a class are found among its neighbours. -/
theorem csize_arcs (C : Cx h φ ρ K) {c : Int} (h1 : 1 ≤ c) (h2 : c < K) : csize h φ c = 1 + sumI ((unhalo h).vert (ρ c)) ((unhalo h).vend (ρ c)) (fun e => if φ (h.s.dest e) = c then 1 else 0) := by
  obtain ⟨r1, r2, r3, _⟩ := C.cls.rep c h1 h2
  have hrv : (unhalo h).Vertex (ρ c) := ⟨r1, r2⟩
  have hedlo : ∀ e, (unhalo h).edlo e = 1 := by
    intro e
    show (match h.s.edlotax with | none => (1 : Int) | some a => a.get e) = 1
    rw [C.H.cons.edlo]
  have ha := arc_sum C.H.u hrv (fun w => if φ w = c then 1 else 0)
  have e1 : sumI ((unhalo h).vert (ρ c)) ((unhalo h).vend (ρ c)) (fun e => if φ (h.s.dest e) = c then 1 else 0) = sumI h.s.baseval h.vnohnnd (fun w => (unhalo h).wgt (ρ c) w * if φ w = c then 1 else 0) := by
    refine Eq.trans (sumI_congr ?_) ha
    intro e _ _
    rw [hedlo, Int.one_mul]
    rfl
  have e2 : sumI h.s.baseval h.vnohnnd (fun w => (unhalo h).wgt (ρ c) w * if φ w = c then 1 else 0) = sumI h.s.baseval h.vnohnnd (fun w => (if φ w = c then 1 else 0) - if w = ρ c then 1 else 0) := by
    apply sumI_congr
    intro w w1 w2
    by_cases ew : φ w = c
    · rw [if_pos ew, Int.mul_one]
      by_cases e : w = ρ c
      · rw [if_pos e, e, wgt_self C.H.u hrv]; rfl
      · rw [if_neg e]
        have ht := C.cls.twin w (ρ c) w1 w2 r1 r2 (by omega)
        have hadj : Adj h.s (ρ c) w := by
          rcases (ht w).1 (Or.inl rfl) with hx | hx
          · exact absurd hx e
          · exact hx
        obtain ⟨f, f1, f2, f3⟩ := C.u_adj r1 r2 hadj w2
        have := wgt_arc C.H.u hrv f1 f2
        rw [f3, hedlo] at this
        rw [this]; rfl
    · have e : w ≠ ρ c := fun hx => ew (by rw [hx]; exact r3)
      rw [if_neg ew, if_neg e, Int.mul_zero]; rfl
  rw [e1, e2, sumI_sub_dist, sumI_single r1 r2 (fun _ => (1 : Int))]
  unfold csize
  rw [C.low_sum h2 (fun _ => 1)]
  omega

theorem length_filter_seg (P : Int → Bool) (f : Int → Int) {lo hi : Int} (hle : lo ≤ hi) : (((seg f lo hi).filter P).length : Int) = hi - lo - sumI lo hi (fun e => if P (f e) = true then 0 else 1) := by
  obtain ⟨n, rfl⟩ : ∃ n : Nat, hi = lo + n := ⟨(hi - lo).toNat, by omega⟩
  clear hle
  induction n with
  | zero => rw [seg_empty _ (by omega), sumI_empty (by omega)]; simp
  | succ n ih =>
    rw [show lo + ((n + 1 : Nat) : Int) = lo + n + 1 by omega, seg_succ _ (by omega), sumI_succ (by omega), List.filter_append, List.length_append]
    push_cast
    rw [ih]
    by_cases hp : P (f (lo + n)) = true
    · rw [if_pos hp, List.filter_cons_of_pos hp]; simp; omega
    · rw [if_neg hp, List.filter_cons_of_neg hp]; simp; omega

theorem A1_length (C : Cx h φ ρ K) {c : Int} (h1 : 1 ≤ c) (h2 : c < K) : ((A1 h φ ρ c).length : Int) + csize h φ c ≤ (unhalo h).vend (ρ c) - (unhalo h).vert (ρ c) + 1 := by
  obtain ⟨r1, r2, r3, _⟩ := C.cls.rep c h1 h2
  have hr := (C.H.u.range (ρ c) ⟨r1, r2⟩).2
  rw [C.csize_arcs h1 h2]
  unfold A1 ends
  have hl := Hash.ins_length [] (((seg (unhalo h).dest ((unhalo h).vert (ρ c)) ((unhalo h).vend (ρ c))).map φ).filter (· ≠ c))
  rw [seg_map] at hl ⊢
  have h3 := length_filter_seg (fun x => decide (x ≠ c)) (fun e => φ ((unhalo h).dest e)) hr
  have h4 : sumI ((unhalo h).vert (ρ c)) ((unhalo h).vend (ρ c)) (fun e => if decide (φ ((unhalo h).dest e) ≠ c) = true then (0 : Int) else 1) = sumI ((unhalo h).vert (ρ c)) ((unhalo h).vend (ρ c)) (fun e => if φ (h.s.dest e) = c then 1 else 0) := by
    apply sumI_congr
    intro e _ _
    show (if decide (φ (h.s.dest e) ≠ c) = true then (0 : Int) else 1) = _
    by_cases he : φ (h.s.dest e) = c
    · simp [he]
    · simp [he]
  rw [h4] at h3
  simp only [List.length_nil, Nat.zero_add] at hl
  omega

theorem A2_length (C : Cx h φ ρ K) {c : Int} (h1 : 1 ≤ c) (h2 : c < K) : ((A2 h φ ρ c).length : Int) = h.s.vend (ρ c) - (unhalo h).vend (ρ c) := by
  obtain ⟨r1, r2, r3, _⟩ := C.cls.rep c h1 h2
  unfold A2
  rw [List.length_map, seg_length _ (C.H.cons.ends (ρ c) ⟨r1, r2⟩).1]

theorem A3_length (C : Cx h φ ρ K) {c : Int} (h1 : K ≤ c) (h2 : c < cnnd h K) : ((A3 h φ K c).length : Int) ≤ deg h.s (c - K + h.vnohnnd) := by
  obtain ⟨r1, r2, r3⟩ := C.halo_vtx h1 h2
  have hl := Hash.ins_length [] ((ends h.s (c - K + h.vnohnnd)).map φ)
  have := seg_length h.s.dest (C.H.w.range _ r1).2
  unfold A3 deg
  rw [List.length_map] at hl
  unfold ends at hl ⊢
  simp only [List.length_nil, Nat.zero_add] at hl
  omega

theorem csize_pos (C : Cx h φ ρ K) {c : Int} (h1 : 1 ≤ c) (h2 : c < cnnd h K) : 1 ≤ csize h φ c := by
  by_cases hk : c < K
  · rw [C.csize_arcs h1 hk]
    have := sumI_nonneg (lo := (unhalo h).vert (ρ c)) (hi := (unhalo h).vend (ρ c)) (f := fun e => if φ (h.s.dest e) = c then (1 : Int) else 0) (fun e _ _ => by split <;> omega)
    omega
  · unfold csize
    rw [C.high_sum (by omega) h2 (fun _ => 1)]

theorem low_deg (C : Cx h φ ρ K) {c : Int} (h1 : 1 ≤ c) (h2 : c < K) : ((cadj h φ ρ K c).length : Int) + csize h φ c ≤ deg h.s (ρ c) + 1 := by
  unfold cadj deg
  rw [if_pos h2, List.length_append]
  have a1 := C.A1_length h1 h2
  have a2 := C.A2_length h1 h2
  have a3 : (unhalo h).vert (ρ c) = h.s.vert (ρ c) := rfl
  push_cast
  omega

/-- Degrees do not grow. -/
theorem cadj_deg (C : Cx h φ ρ K) {c : Int} (h1 : 1 ≤ c) (h2 : c < cnnd h K) : ((cadj h φ ρ K c).length : Int) ≤ h.s.degrmax := by
  by_cases hk : c < K
  · have := C.low_deg h1 hk
    have := C.csize_pos h1 h2
    obtain ⟨r1, r2, r3, _⟩ := C.cls.rep c h1 hk
    have := C.H.w.degrmax.2 (ρ c) (C.H.vtx r1 r2)
    unfold deg at *
    omega
  · have := C.A3_length (by omega) h2
    have := C.H.w.degrmax.2 _ (C.halo_vtx (by omega) h2).1
    unfold cadj
    rw [if_neg hk]
    unfold deg at *
    omega

theorem csize_sum (C : Cx h φ ρ K) : sumI 1 K (csize h φ) = h.vnohnnd - h.s.baseval := by
  have hn := C.H.nnd
  have := C.H.some
  have e : sumI 1 K (csize h φ) = sumI 1 K (fun c => sumI h.s.baseval h.vnohnnd (fun u => if φ u = c then (fun _ => (1 : Int)) u else 0)) := sumI_congr (fun c _ c2 => C.low_sum c2 (fun _ => 1))
  rw [e, class_sum _ (fun u u1 u2 => C.cls.num u u1 u2), sumI_const (by omega)]
  omega

/-- The array of arcs is large enough. -/
theorem room (C : Cx h φ ρ K) {enbr : Int} (hen : enbr = h.s.edgenbr - sumI h.s.baseval h.vnohnnd (fun u => deg h.s u + 1) + sumI 1 K (fun c => deg h.s (ρ c) + 1)) :
    sumI 1 (cnnd h K) (fun c => ((cadj h φ ρ K c).length : Int)) ≤ enbr := by
  have hn := C.H.nnd
  have hs := C.H.some
  have hle := C.H.le
  have hp := C.cls.pos
  have hK : K ≤ cnnd h K := by unfold cnnd; omega
  rw [sumI_split hp hK]
  have b1 : sumI 1 K (fun c => ((cadj h φ ρ K c).length : Int) + csize h φ c) ≤ sumI 1 K (fun c => deg h.s (ρ c) + 1) := sumI_mono (fun c c1 c2 => C.low_deg c1 c2)
  rw [sumI_add_dist, C.csize_sum] at b1
  have b2 : sumI K (cnnd h K) (fun c => ((cadj h φ ρ K c).length : Int)) ≤ sumI K (cnnd h K) (fun c => deg h.s (c - K + h.vnohnnd)) := by
    apply sumI_mono
    intro c c1 c2
    unfold cadj
    rw [if_neg (by omega)]
    exact C.A3_length c1 c2
  have b3 : sumI K (cnnd h K) (fun c => deg h.s (c - K + h.vnohnnd)) = sumI h.vnohnnd h.s.vertnnd (deg h.s) := by
    have := sumI_shift K (cnnd h K) (h.vnohnnd - K) (deg h.s)
    rw [show K + (h.vnohnnd - K) = h.vnohnnd by omega, show cnnd h K + (h.vnohnnd - K) = h.s.vertnnd by unfold cnnd; omega] at this
    rw [this]
    exact sumI_congr (fun c _ _ => by congr 1; omega)
  have b4 : h.s.edgenbr = sumI h.s.baseval h.s.vertnnd (deg h.s) := C.H.w.edgenbr
  rw [sumI_split (lo := h.s.baseval) (mid := h.vnohnnd) (hi := h.s.vertnnd) (by omega) hle] at b4
  have b5 : sumI h.s.baseval h.vnohnnd (fun u => deg h.s u + 1) = sumI h.s.baseval h.vnohnnd (deg h.s) + (h.vnohnnd - h.s.baseval) := by
    rw [sumI_add_dist, sumI_const (by omega)]
    omega
  omega

end Cx

end Scotch.HOrder
