import Verif.Graph.LemmasInduce
import Verif.Graph.LemmasCheck

/-! # Induced subgraphs: the result -/

set_option autoImplicit false
set_option linter.unusedSimpArgs false

namespace Scotch.Graph
variable {g : Graph} {n : Int} {L idx : Int → Int}

theorem pos_base (g : Graph) (L idx : Int → Int) : g.pos L idx g.baseval = g.baseval := by
  unfold pos; rw [sumI_empty (Int.le_refl _)]; omega

theorem pos_ge (g : Graph) (L idx : Int → Int) {i : Int} (h : g.baseval ≤ i) : g.baseval ≤ g.pos L idx i := by
  have := pos_mono g L idx (Int.le_refl g.baseval) h
  rw [pos_base] at this
  exact this

/-- Invariant of the loop on vertices. -/
structure VInv (g : Graph) (n : Int) (L idx : Int → Int) (P off : Int) (b0 : Arr Int) (i : Int) (s : IndVSt) : Prop where
  num : s.arcs.num = g.pos L idx i
  esum : s.arcs.edlosum = sumI g.baseval i (fun j => g.lsum (g.sub L idx j))
  lo : s.arcs.blk.lo = b0.lo
  hi : s.arcs.blk.hi = b0.hi
  index : ∀ v, g.Vertex v → s.arcs.blk.get (v + P) = idx v
  segs : ∀ j, g.baseval ≤ j → j < i →
    seg (fun x => (s.arcs.blk.get x, g.ld off s.arcs.blk x)) (g.pos L idx j) (g.pos L idx (j + 1)) = g.sub L idx j
  vlo : s.verttax.lo = g.baseval
  vhi : s.verttax.hi = g.baseval + n + 1
  vert : ∀ j, g.baseval ≤ j → j < i → s.verttax.get j = g.pos L idx j
  velo : (g.velotax = none ∧ s.velotax = none) ∨ ∃ a b, g.velotax = some a ∧ s.velotax = some b ∧ b.lo = g.baseval ∧
    b.hi = g.baseval + n ∧ ∀ j, g.baseval ≤ j → j < i → b.get j = a.get (L j)
  vsum : s.velosum = (if g.velotax = none then n else 0) + sumI g.baseval i (fun j => g.vlo0 (L j))

theorem induceVert_holds (h : IndPre g n L idx) {P off T : Int} {b0 : Arr Int}
    (hT : g.pos L idx (g.baseval + n) = g.baseval + T) (hl : Layout g T P off b0) {vnumtax : Arr Int}
    (hvn : vnumtax.lo = g.baseval ∧ vnumtax.hi = g.baseval + n ∧
      ∀ i, g.baseval ≤ i → i < g.baseval + n → vnumtax.get i = L i)
    {i : Int} {s : IndVSt} (i1 : g.baseval ≤ i) (i2 : i < g.baseval + n) (hI : VInv g n L idx P off b0 i s) :
    Holds (induceVert g P off vnumtax i s) (VInv g n L idx P off b0 (i + 1)) := by
  obtain ⟨q1, q2, q3, q4, q5, q6, q7, q8, q9, q10, q11⟩ := hI
  have hv := h.vert i i1 i2
  unfold induceVert
  rw [Holds_bind, Holds_rd]
  refine ⟨⟨by omega, by omega⟩, ?_⟩
  rw [hvn.2.2 i i1 i2, Holds_bind, Holds_wr]
  refine ⟨⟨by omega, by omega⟩, ?_⟩
  have hvelo : Holds (induceVelo g i (L i) { s with verttax := s.verttax.set i s.arcs.num }) (fun s' =>
      s'.arcs = s.arcs ∧ s'.verttax = s.verttax.set i s.arcs.num ∧
      ((g.velotax = none ∧ s'.velotax = none) ∨ ∃ a b, g.velotax = some a ∧ s'.velotax = some b ∧ b.lo = g.baseval ∧
        b.hi = g.baseval + n ∧ ∀ j, g.baseval ≤ j → j < i + 1 → b.get j = a.get (L j)) ∧
      s'.velosum = s.velosum + g.vlo0 (L i)) := by
    unfold induceVelo
    rcases q10 with ⟨ha, hb⟩ | ⟨a, b, ha, hb, b1, b2, b3⟩
    · simp only [ha, hb]
      rw [Holds_pure]
      refine ⟨rfl, rfl, Or.inl ⟨by trivial, by trivial⟩, ?_⟩
      simp [vlo0, lo0, ha]
    · have haa := h.alloc.velo a ha
      obtain ⟨v1, v2⟩ := hv
      simp only [ha, hb]
      rw [Holds_bind, Holds_rd]
      refine ⟨⟨by omega, by omega⟩, ?_⟩
      rw [Holds_bind, Holds_wr]
      refine ⟨⟨by omega, by omega⟩, ?_⟩
      rw [Holds_pure]
      refine ⟨rfl, rfl, Or.inr ⟨a, _, by trivial, rfl, b1, b2, ?_⟩, by simp [vlo0, lo0, ha]⟩
      intro j j1 j2
      by_cases hj : j = i
      · subst hj; simp
      · rw [Arr.set_get_ne _ _ hj]; exact b3 j j1 (by omega)
  rw [Holds_bind]
  refine hvelo.mono ?_
  rintro s' ⟨r1, r2, r3, r4⟩
  rw [Holds_bind, rdVend_holds h.alloc hv, Holds_bind, rdVert_holds h.alloc hv, Holds_bind]
  have hl' : Layout g T P off s'.arcs.blk := by
    rw [r1]
    exact ⟨by rw [q3]; exact hl.lo, by rw [q4]; exact hl.hi, hl.T0, hl.TP, hl.off0⟩
  have harc := induceArcs_holds h hT hl' i1 i2 s'.arcs.edlosum (by rw [r1]; exact q5)
  have hst : (⟨s'.arcs.blk, s'.arcs.edlosum, g.pos L idx i⟩ : IndSt) = s'.arcs := by
    rw [r1, ← q1]
  rw [hst] at harc
  refine harc.mono ?_
  rintro t ⟨t1, t2, ⟨t3, t4, t5, t6⟩, t7⟩
  rw [Holds_pure]
  refine ⟨t1, ?_, ?_, ?_, t6, ?_, ?_, ?_, ?_, r3, ?_⟩
  · show t.edlosum = _
    rw [t2, r1, q2, sumI_succ i1]
  · show t.blk.lo = _
    rw [t3, r1, q3]
  · show t.blk.hi = _
    rw [t4, r1, q4]
  · intro j j1 j2
    by_cases hj : j = i
    · subst hj; exact t7
    · rw [← q6 j j1 (by omega), ← r1]
      apply seg_congr
      intro x x1 x2
      have hx1 := pos_ge g L idx j1
      have hx2 := pos_mono g L idx (i := j + 1) (j := i) (by omega) (by omega)
      have := t5 x (by omega) (by omega)
      show (t.blk.get x, g.ld off t.blk x) = _
      rw [this.1, this.2]
  · show s'.verttax.lo = _
    rw [r2]; exact q7
  · show s'.verttax.hi = _
    rw [r2]; exact q8
  · intro j j1 j2
    show s'.verttax.get j = _
    rw [r2]
    by_cases hj : j = i
    · subst hj; rw [Arr.set_get_same, q1]
    · rw [Arr.set_get_ne _ _ hj]; exact q9 j j1 (by omega)
  · show s'.velosum = _
    rw [r4, q11, sumI_succ i1]
    omega

/-- The subgraph, in terms of the functions `L` and `idx`. -/
structure IndPost (g : Graph) (n : Int) (L idx : Int → Int) (g' : Graph) : Prop where
  baseval : g'.baseval = g.baseval
  vertnbr : g'.vertnbr = n
  vertnnd : g'.vertnnd = g.baseval + n
  nbrs : ∀ i, g.baseval ≤ i → i < g.baseval + n → g'.nbrs i = g.sub L idx i
  vert : ∀ i, g.baseval ≤ i → i < g.baseval + n → g.baseval ≤ g'.vert i ∧ g'.vert i ≤ g'.vend i
  velo : ∀ i, g.baseval ≤ i → i < g.baseval + n → g'.velo i = g.velo (L i)
  velosum : g'.velosum = sumI g.baseval (g.baseval + n) (fun i => g.velo (L i))
  edgenbr : g'.edgenbr = sumI g.baseval (g.baseval + n) (fun i => (g.sub L idx i).length)
  edlosum : g'.edlosum = sumI g.baseval (g.baseval + n) (fun i => ((g.sub L idx i).map Prod.snd).sum)
  degrmax : g'.degrmax = g.degrmax
  vnum : ∃ a, g'.vnumtax = some a ∧ ∀ i, g.baseval ≤ i → i < g.baseval + n →
    a.get i = match g.vnumtax with | none => L i | some b => b.get (L i)
  loads : g'.velotax.isSome = g.velotax.isSome ∧ g'.edlotax.isSome = g.edlotax.isSome
  alloc : Allocated g'

theorem IndPost.cons (h : IndPre g n L idx) {g' : Graph} (p : IndPost g n L idx g') : Consistent g' := by
  have hc := consE_iff.1 h.cons
  have hV : ∀ v, g'.Vertex v ↔ g.baseval ≤ v ∧ v < g.baseval + n := by
    intro v; unfold Vertex; rw [p.baseval, p.vertnnd]
  refine ⟨by rw [p.vertnbr]; exact h.n0, by rw [p.vertnnd, p.baseval, p.vertnbr], ?_, ?_, ?_, ?_, ?_, ?_, ?_, ?_, ?_, ?_⟩
  · intro v hv
    rw [hV] at hv
    rw [p.baseval]
    exact p.vert v hv.1 hv.2
  · rintro v ⟨j, l⟩ hv hp
    rw [hV] at hv
    rw [p.nbrs v hv.1 hv.2, mem_sub h hv.1 hv.2] at hp
    rw [hV]
    refine ⟨⟨hp.1, hp.2.1⟩, ?_⟩
    rintro rfl
    exact (hc.inside _ _ (h.vert _ hv.1 hv.2) hp.2.2).2 rfl
  · rintro v ⟨j, l⟩ hv hp
    rw [hV] at hv
    rw [p.nbrs v hv.1 hv.2, mem_sub h hv.1 hv.2] at hp
    dsimp only
    rw [p.nbrs j hp.1 hp.2.1, mem_sub h hp.1 hp.2.1]
    exact ⟨hv.1, hv.2, hc.symm _ _ (h.vert _ hv.1 hv.2) hp.2.2⟩
  · intro v hv
    rw [hV] at hv
    rw [p.nbrs v hv.1 hv.2]
    exact sub_nodup h hv.1 hv.2
  · rw [p.edgenbr, p.baseval, p.vertnnd]
    exact sumI_congr (fun i h1 h2 => by rw [p.nbrs i h1 h2])
  · intro v hv
    rw [hV] at hv
    rw [p.velo v hv.1 hv.2]
    exact hc.velo _ (h.vert v hv.1 hv.2)
  · rw [p.velosum, p.baseval, p.vertnnd]
    exact sumI_congr (fun i h1 h2 => by rw [p.velo i h1 h2])
  · rintro v ⟨j, l⟩ hv hp
    rw [hV] at hv
    rw [p.nbrs v hv.1 hv.2, mem_sub h hv.1 hv.2] at hp
    exact hc.edlo _ (L j, l) (h.vert v hv.1 hv.2) hp.2.2
  · rw [p.edlosum, p.baseval, p.vertnnd]
    exact sumI_congr (fun i h1 h2 => by rw [p.nbrs i h1 h2])
  · rw [p.degrmax]
    refine ⟨hc.degrmax.1, fun v hv => ?_⟩
    rw [hV] at hv
    rw [p.nbrs v hv.1 hv.2]
    have h1 := sub_length_le h hv.1 hv.2
    have h2 := h.cons.degrmax.2 _ (h.vert v hv.1 hv.2)
    omega

theorem lsum_none (h : IndPre g n L idx) (hed : g.edlotax = none) {i : Int} (i1 : g.baseval ≤ i) (i2 : i < g.baseval + n) :
    ((g.sub L idx i).map Prod.snd).sum = (g.sub L idx i).length := by
  have : ∀ p ∈ g.sub L idx i, p.2 = 1 := by
    rintro ⟨j, l⟩ hp
    rw [mem_sub h i1 i2, mem_nbrs] at hp
    obtain ⟨-, -, e, -, -, -, he⟩ := hp
    unfold edlo at he
    rw [hed] at he
    exact he.symm
  generalize g.sub L idx i = l at this
  induction l with
  | nil => rfl
  | cons p l ih =>
    rw [List.map_cons, List.sum_cons, ih (fun q hq => this q (List.mem_cons_of_mem _ hq)), this p List.mem_cons_self]
    simp
    omega

theorem induceVnum_holds (h : IndPre g n L idx) {vnumtax : Arr Int}
    (hvn : vnumtax.lo = g.baseval ∧ vnumtax.hi = g.baseval + n ∧
      ∀ i, g.baseval ≤ i → i < g.baseval + n → vnumtax.get i = L i) :
    Holds (induceVnum g vnumtax (n + g.baseval)) (fun a => a.lo = g.baseval ∧ a.hi = g.baseval + n ∧
      ∀ i, g.baseval ≤ i → i < g.baseval + n →
        a.get i = match g.vnumtax with | none => L i | some b => b.get (L i)) := by
  unfold induceVnum
  cases hv : g.vnumtax with
  | none => dsimp only; rw [Holds_pure]; exact hvn
  | some b =>
    have hba := h.alloc.vnum b hv
    dsimp only
    obtain ⟨q1, q2, q3⟩ := hvn
    apply Holds_forUp (fun i a => a.lo = g.baseval ∧ a.hi = g.baseval + n ∧
      ∀ j, g.baseval ≤ j → j < g.baseval + n → a.get j = if j < i then b.get (L j) else L j)
      (by have := h.n0; omega)
    · refine ⟨q1, q2, fun j j1 j2 => ?_⟩
      rw [if_neg (by omega)]
      exact q3 j j1 j2
    · rintro i a i1 i2 ⟨c1, c2, c3⟩
      have hi := c3 i i1 (by omega)
      rw [if_neg (by omega)] at hi
      have hv := h.vert i i1 (by omega)
      obtain ⟨v1, v2⟩ := hv
      rw [Holds_bind, Holds_rd]
      refine ⟨⟨by omega, by omega⟩, ?_⟩
      rw [hi, Holds_bind, Holds_rd]
      refine ⟨⟨by omega, by omega⟩, ?_⟩
      rw [Holds_wr]
      refine ⟨⟨by omega, by omega⟩, c1, c2, ?_⟩
      intro j j1 j2
      by_cases hj : j = i
      · subst hj; rw [Arr.set_get_same, if_pos (by omega)]
      · rw [Arr.set_get_ne _ _ hj, c3 j j1 j2]
        by_cases hlt : j < i
        · rw [if_pos hlt, if_pos (by omega)]
        · rw [if_neg hlt, if_neg (by omega)]
    · rintro a ⟨c1, c2, c3⟩
      refine ⟨c1, c2, fun j j1 j2 => ?_⟩
      rw [c3 j j1 j2, if_pos (by omega)]

theorem induce3_holds (h : IndPre g n L idx) {al : Int} (hal : al = 1 ∨ al = 2) (m : IndMem) {vnumtax blk : Arr Int}
    (hlo : blk.lo = g.baseval) (hhi : blk.hi = g.baseval + pad al (g.induceSize n) + g.vertnbr)
    (hidx : ∀ v, g.Vertex v → blk.get (v + pad al (g.induceSize n)) = idx v)
    (hvn : vnumtax.lo = g.baseval ∧ vnumtax.hi = g.baseval + n ∧
      ∀ i, g.baseval ≤ i → i < g.baseval + n → vnumtax.get i = L i) :
    Holds (induce3 al g (pad al (g.induceSize n)) n (degs g L n) (g.induceVertArr m n) vnumtax (g.induceVeloArr m n) blk)
      (IndPost g n L idx) := by
  have hl := layout h hal blk hlo hhi
  have hn := h.n0
  have hT : g.pos L idx (g.baseval + n) = g.baseval + (g.pos L idx (g.baseval + n) - g.baseval) := by omega
  have hvelN : (g.induceVeloArr m n).isNone = decide (g.velotax = none) := by
    unfold induceVeloArr
    cases g.velotax <;> simp
  unfold induce3
  dsimp only
  rw [Holds_bind]
  apply Holds_forUp (VInv g n L idx (pad al (g.induceSize n)) (pad al (degs g L n)) blk) (by omega)
  · refine ⟨(pos_base g L idx).symm, by rw [sumI_empty (Int.le_refl _)], rfl, rfl, hidx, fun j _ _ => by omega, rfl, rfl,
      fun j _ _ => by omega, ?_, ?_⟩
    · unfold induceVeloArr
      cases hv : g.velotax with
      | none => left; simp
      | some a =>
        right
        exact ⟨a, _, rfl, by simp; rfl, rfl, rfl, fun j _ _ => by omega⟩
    · rw [sumI_empty (Int.le_refl _)]
      dsimp only
      rw [hvelN]
      simp
  · intro i s i1 i2 hI
    exact induceVert_holds h hT hl hvn i1 (by omega) hI
  · rintro s ⟨q1, q2, q3, q4, q5, q6, q7, q8, q9, q10, q11⟩
    rw [show n + g.baseval = g.baseval + n by omega] at q1 q2 q6 q9 q10 q11 ⊢
    rw [Holds_bind, Holds_wr]
    refine ⟨⟨by omega, by omega⟩, ?_⟩
    rw [Holds_bind]
    have hvnum := induceVnum_holds h hvn
    rw [show n + g.baseval = g.baseval + n by omega] at hvnum
    refine hvnum.mono ?_
    rintro a ⟨a1, a2, a3⟩
    rw [Holds_pure]
    have hvert : ∀ j, g.baseval ≤ j → j < g.baseval + n + 1 →
        (s.verttax.set (g.baseval + n) s.arcs.num).get j = g.pos L idx j := by
      intro j j1 j2
      by_cases hj : j = g.baseval + n
      · subst hj; rw [Arr.set_get_same]; exact q1
      · rw [Arr.set_get_ne _ _ hj]; exact q9 j j1 (by omega)
    have hisS : ∀ o : Option (Arr Int), o ≠ none → o.isSome = true := by
      intro o ho; cases o with
      | none => exact absurd rfl ho
      | some _ => rfl
    have hnbrs : ∀ g' : Graph, (g'.verttax = s.verttax.set (g.baseval + n) s.arcs.num) → g'.vendtax = none →
        (∀ x, g'.dest x = s.arcs.blk.get x) → (∀ x, g'.edlo x = g.ld (pad al (degs g L n)) s.arcs.blk x) →
        ∀ i, g.baseval ≤ i → i < g.baseval + n → g'.vert i = g.pos L idx i ∧ g'.vend i = g.pos L idx (i + 1) ∧
          g'.nbrs i = g.sub L idx i := by
      intro g' e1 e2 e3 e4 i i1 i2
      have k1 : g'.vert i = g.pos L idx i := by
        unfold vert; rw [e1, hvert i i1 (by omega)]
      have k2 : g'.vend i = g.pos L idx (i + 1) := by
        unfold vend; rw [e2]; dsimp only; rw [e1, hvert (i + 1) (by omega) (by omega)]
      refine ⟨k1, k2, ?_⟩
      rw [nbrs_seg, k1, k2, ← q6 i i1 i2]
      apply seg_congr
      intro x _ _
      rw [e3, e4]
    have hfin : ∀ x, (if g.edlotax.isSome then some ⟨g.baseval, g.baseval + (s.arcs.num - g.baseval),
        fun e => s.arcs.blk.get (e + pad al (degs g L n))⟩ else none : Option (Arr Int)) = x →
        (∀ e, (match x with | none => 1 | some a => a.get e) = g.ld (pad al (degs g L n)) s.arcs.blk e) := by
      rintro x rfl e
      unfold ld
      cases g.edlotax <;> rfl
    have hN := hnbrs ⟨g.baseval, n, g.baseval + n, s.verttax.set (g.baseval + n) s.arcs.num, none, s.velotax,
      s.velosum, some a, none, s.arcs.num - g.baseval, ⟨g.baseval, g.baseval + (s.arcs.num - g.baseval), s.arcs.blk.get⟩,
      if g.edlotax.isSome then some ⟨g.baseval, g.baseval + (s.arcs.num - g.baseval),
        fun e => s.arcs.blk.get (e + pad al (degs g L n))⟩ else none,
      if g.edlotax.isSome then s.arcs.edlosum else s.arcs.num - g.baseval,
      g.degrmax⟩ rfl rfl (fun _ => rfl) (hfin _ rfl)
    have hen : s.arcs.num - g.baseval = sumI g.baseval (g.baseval + n) (fun i => ((g.sub L idx i).length : Int)) := by
      rw [q1]; unfold pos; omega
    refine ⟨rfl, rfl, rfl, fun i i1 i2 => (hN i i1 i2).2.2, ?_, ?_, ?_, hen, ?_, rfl, ⟨a, rfl, a3⟩, ⟨?_, ?_⟩, ?_⟩
    · intro i i1 i2
      rw [(hN i i1 i2).1, (hN i i1 i2).2.1]
      exact ⟨pos_ge g L idx i1, pos_mono g L idx i1 (by omega)⟩
    · intro i i1 i2
      unfold velo
      rcases q10 with ⟨ha, hb⟩ | ⟨a, b, ha, hb, b1, b2, b3⟩
      · simp only [ha, hb]
      · simp only [ha, hb]
        exact b3 i i1 i2
    · show s.velosum = _
      rw [q11]
      by_cases hv : g.velotax = none
      · rw [if_pos hv, sumI_congr (g := fun _ => 0) (f := fun j => g.vlo0 (L j))
          (fun j _ _ => by simp [vlo0, lo0, hv]), sumI_congr (g := fun _ => 1) (f := fun j => g.velo (L j))
          (fun j _ _ => by simp [Graph.velo, hv]), sumI_const (by omega), sumI_const (by omega)]
        simp
      · rw [if_neg hv, Int.zero_add]
        apply sumI_congr
        intro j _ _
        rw [vlo0_eq, if_neg hv]
    · show (if g.edlotax.isSome then s.arcs.edlosum else s.arcs.num - g.baseval) = _
      by_cases hed : g.edlotax = none
      · rw [hed]
        simp only [Option.isSome_none, Bool.false_eq_true, if_false]
        rw [hen]
        exact sumI_congr (fun i i1 i2 => (lsum_none h hed i1 i2).symm)
      · rw [if_pos (hisS _ hed), q2]
        apply sumI_congr
        intro i _ _
        unfold lsum
        rw [if_pos (hisS _ hed)]
    · show s.velotax.isSome = _
      rcases q10 with ⟨ha, hb⟩ | ⟨a, b, ha, hb, -⟩
      · rw [ha, hb]
      · rw [ha, hb]; rfl
    · show (if g.edlotax.isSome then some _ else none).isSome = _
      cases g.edlotax <;> rfl
    · refine ⟨?_, ?_, ?_, ?_, ?_, ?_, ?_, ?_, ?_⟩
      · show s.verttax.lo ≤ g.baseval
        omega
      · show g.baseval + n ≤ s.verttax.hi
        omega
      · intro _
        show g.baseval + n + 1 ≤ s.verttax.hi
        omega
      · intro b hb; cases hb
      · intro b hb
        have hb : s.velotax = some b := hb
        rcases q10 with ⟨-, hb'⟩ | ⟨a, b', -, hb', b1, b2, -⟩
        · rw [hb'] at hb; cases hb
        · rw [hb'] at hb
          cases hb
          show b.lo ≤ g.baseval ∧ g.baseval + n ≤ b.hi
          omega
      · rintro b ⟨⟩
        show a.lo ≤ g.baseval ∧ g.baseval + n ≤ a.hi
        omega
      · intro b hb; cases hb
      · rintro v ⟨v1, v2⟩ _
        have v1 : g.baseval ≤ v := v1
        have v2 : v < g.baseval + n := v2
        rw [(hN v v1 v2).1, (hN v v1 v2).2.1]
        have := pos_mono g L idx (i := v + 1) (j := g.baseval + n) (by omega) (by omega)
        have := pos_ge g L idx v1
        show g.baseval ≤ _ ∧ _ ≤ g.baseval + (s.arcs.num - g.baseval)
        omega
      · rintro b hb v ⟨v1, v2⟩ _
        have v1 : g.baseval ≤ v := v1
        have v2 : v < g.baseval + n := v2
        rw [(hN v v1 v2).1, (hN v v1 v2).2.1]
        have := pos_mono g L idx (i := v + 1) (j := g.baseval + n) (by omega) (by omega)
        have := pos_ge g L idx v1
        have hb : (if g.edlotax.isSome then some ⟨g.baseval, g.baseval + (s.arcs.num - g.baseval),
          fun e => s.arcs.blk.get (e + pad al (degs g L n))⟩ else none : Option (Arr Int)) = some b := hb
        split at hb
        · cases hb
          show g.baseval ≤ _ ∧ _ ≤ g.baseval + (s.arcs.num - g.baseval)
          omega
        · cases hb

end Scotch.Graph
