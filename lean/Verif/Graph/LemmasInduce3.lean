import Verif.Graph.LemmasInduce2

/-! # Induced subgraphs: lists of vertices, and parts -/

set_option autoImplicit false
set_option linter.unusedSimpArgs false

namespace Scotch.Graph
variable {g : Graph}

/-- Entries of a list, from the base value on. -/
def lfun (g : Graph) (l : List Int) (i : Int) : Int := l.getD (i - g.baseval).toNat 0

/-- Ranks of the vertices in a list. -/
def lidx (g : Graph) (l : List Int) (v : Int) : Int := if v ∈ l then g.baseval + l.idxOf v else -1

theorem lfun_get (l : List Int) {k : Nat} (hk : k < l.length) : g.lfun l (g.baseval + k) = l[k] := by
  unfold lfun
  rw [show (g.baseval + (k : Int) - g.baseval).toNat = k by omega, List.getD_eq_getElem?_getD, List.getElem?_eq_getElem hk]
  rfl

theorem lfun_get' (l : List Int) {i : Int} (h1 : g.baseval ≤ i) (h2 : i < g.baseval + l.length) :
    ∃ (k : Nat) (hk : k < l.length), i = g.baseval + k ∧ g.lfun l i = l[k] := by
  refine ⟨(i - g.baseval).toNat, by omega, by omega, ?_⟩
  have : i = g.baseval + ((i - g.baseval).toNat : Nat) := by omega
  conv_lhs => rw [this]
  exact lfun_get l _

theorem indPre_list (hc : ConsE g) (ha : Allocated g) (hb : 0 ≤ g.baseval) (l : List Int) (hnd : l.Nodup)
    (hl : ∀ v ∈ l, g.Vertex v) : IndPre g l.length (g.lfun l) (g.lidx l) := by
  refine ⟨hc, ha, by omega, hb, ?_, ?_, ?_, ?_⟩
  · intro i h1 h2
    obtain ⟨k, hk, -, e⟩ := lfun_get' l h1 h2
    rw [e]
    exact hl _ (List.getElem_mem hk)
  · intro i j h1 h2 h3 h4 he
    obtain ⟨k, hk, rfl, e⟩ := lfun_get' l h1 h2
    obtain ⟨k', hk', rfl, e'⟩ := lfun_get' l h3 h4
    rw [e, e'] at he
    rw [(List.Nodup.getElem_inj_iff hnd).1 he]
  · intro i h1 h2
    obtain ⟨k, hk, rfl, e⟩ := lfun_get' l h1 h2
    unfold lidx
    rw [e, if_pos (List.getElem_mem hk), hnd.idxOf_getElem]
  · intro v _ hne
    unfold lidx
    rw [if_neg]
    intro hm
    obtain ⟨k, hk, e⟩ := List.getElem_of_mem hm
    exact hne (g.baseval + k) (by omega) (by omega) (by rw [lfun_get l hk, e])

theorem IndPost.induced {l : List Int} {g' : Graph} (hb : 0 ≤ g.baseval)
    (p : IndPost g l.length (g.lfun l) (g.lidx l) g') : InducedBy g l g' := by
  refine ⟨p.baseval, p.vertnbr, ?_, ?_, ?_, p.loads⟩
  · intro i hi
    rw [p.nbrs _ (by omega) (by omega)]
    unfold sub
    rw [lfun_get l hi]
    congr 1
    funext q
    unfold fil lidx
    by_cases hq : q.1 ∈ l
    · rw [if_pos hq, if_pos hq, if_neg (by omega)]
    · rw [if_neg hq, if_neg hq, if_pos rfl]
  · intro i hi
    rw [p.velo _ (by omega) (by omega), lfun_get l hi]
  · obtain ⟨a, h1, h2⟩ := p.vnum
    refine ⟨a, h1, fun i hi => ?_⟩
    rw [h2 _ (by omega) (by omega), lfun_get l hi]
    cases g.vnumtax <;> rfl

theorem induceListLoop_holds {n : Int} {L idx : Int → Int} (h : IndPre g n L idx) {P : Int} (hP : 0 ≤ P)
    {vnumtax blk : Arr Int}
    (hvn : vnumtax.lo = g.baseval ∧ vnumtax.hi = g.baseval + n ∧
      ∀ i, g.baseval ≤ i → i < g.baseval + n → vnumtax.get i = L i)
    (hlo : blk.lo = g.baseval) (hhi : blk.hi = g.baseval + P + g.vertnbr)
    (hini : ∀ v, g.Vertex v → blk.get (v + P) = -1) :
    Holds (induceListLoop g P n vnumtax blk) (fun r => r.1.lo = g.baseval ∧ r.1.hi = g.baseval + P + g.vertnbr ∧
      (∀ v, g.Vertex v → r.1.get (v + P) = idx v) ∧ r.2 = degs g L n) := by
  have hnn := h.cons.vertnnd
  have hn := h.n0
  unfold induceListLoop
  apply Holds_forUp (fun i r => r.1.lo = g.baseval ∧ r.1.hi = g.baseval + P + g.vertnbr ∧
      (∀ v, g.Vertex v → (g.baseval ≤ idx v ∧ idx v < i → r.1.get (v + P) = idx v) ∧
        (¬ (g.baseval ≤ idx v ∧ idx v < i) → r.1.get (v + P) = -1)) ∧
      r.2 = sumI g.baseval i (fun i => g.vend (L i) - g.vert (L i))) (by omega)
  · refine ⟨hlo, hhi, fun v hv => ⟨fun hh => by omega, fun _ => hini v hv⟩, ?_⟩
    rw [sumI_empty (Int.le_refl _)]
  · rintro i ⟨b, d⟩ i1 i2 ⟨c1, c2, c3, c4⟩
    dsimp only at c1 c2 c3 c4 ⊢
    have hv := h.vert i i1 i2
    have hvv := hv
    obtain ⟨v1, v2⟩ := hvv
    rw [Holds_bind, Holds_rd]
    refine ⟨⟨by omega, by omega⟩, ?_⟩
    rw [hvn.2.2 i i1 i2, Holds_bind, Holds_wr]
    refine ⟨⟨by omega, by omega⟩, ?_⟩
    rw [Holds_bind, rdVend_holds h.alloc hv, Holds_bind, rdVert_holds h.alloc hv, Holds_pure]
    refine ⟨c1, c2, ?_, ?_⟩
    · intro v hv'
      by_cases hve : v = L i
      · subst hve
        rw [h.idxL i i1 i2]
        dsimp only
        rw [Arr.set_get_same]
        exact ⟨fun _ => rfl, fun hh => by omega⟩
      · dsimp only
        rw [Arr.set_get_ne _ _ (by omega)]
        have hne : idx v ≠ i := by
          intro he
          rcases h.idx_cases hv' with hx | ⟨-, -, hx⟩
          · have := h.b0; omega
          · rw [he] at hx; exact hve hx.symm
        have := c3 v hv'
        exact ⟨fun hh => this.1 ⟨hh.1, by omega⟩, fun hh => this.2 (fun hx => hh ⟨hx.1, by omega⟩)⟩
    · dsimp only
      rw [c4, sumI_succ i1]
  · rintro ⟨b, d⟩ ⟨c1, c2, c3, c4⟩
    dsimp only at c1 c2 c3 c4 ⊢
    refine ⟨c1, c2, ?_, c4⟩
    intro v hv
    rcases h.idx_cases hv with hx | ⟨x1, x2, -⟩
    · rw [(c3 v hv).2 (fun hh => by have := h.b0; omega), hx]
    · exact (c3 v hv).1 ⟨x1, x2⟩

theorem pad_nonneg {al n : Int} (hal : al = 1 ∨ al = 2) (hn : 0 ≤ n) : 0 ≤ pad al n := by
  unfold pad
  rcases hal with rfl | rfl <;> omega

theorem induceSize_nonneg (hc : ConsE g) {n : Int} (hn : 0 ≤ n) : 0 ≤ g.induceSize n := by
  have h1 : 0 ≤ g.edgenbr := by
    rw [hc.edgenbr]
    apply sumI_nonneg
    intro v v1 v2
    have := (hc.range v ⟨v1, v2⟩).2
    omega
  have h2 : 0 ≤ n * g.degrmax := Int.mul_nonneg hn hc.degrmax.1
  unfold induceSize
  dsimp only
  split <;> split <;> omega

theorem induceList_holds (hc : Consistent g) (ha : Allocated g) (hb : 0 ≤ g.baseval) {al : Int} (hal : al = 1 ∨ al = 2)
    (m : IndMem) (l : List Int) (hnd : l.Nodup) (hl : ∀ v ∈ l, g.Vertex v) :
    Holds (induceList al g m l.length (Arr.ofList 0 l)) (fun g' => InducedBy g l g' ∧ Consistent g' ∧ Allocated g') := by
  have hc' := consE_iff.2 hc
  have h := indPre_list hc' ha hb l hnd hl
  have hP : 0 ≤ pad al (g.induceSize l.length) := pad_nonneg hal (induceSize_nonneg hc' (by omega))
  have hnn := hc.vertnnd
  have hn := hc.vertnbr
  have hoflo : (Arr.ofList 0 l).lo = 0 := rfl
  have hofhi : (Arr.ofList 0 l).hi = 0 + l.length := rfl
  unfold induceList
  dsimp only
  rw [Holds_bind]
  apply Holds_forUp (fun i (t : Arr Int) => t.lo = g.baseval ∧ t.hi = g.baseval + l.length ∧
    ∀ j, g.baseval ≤ j → j < g.baseval + i → t.get j = g.lfun l j) (by omega)
  · exact ⟨rfl, rfl, fun j _ _ => by omega⟩
  · rintro i t i1 i2 ⟨c1, c2, c3⟩
    rw [Holds_bind, Holds_rd]
    refine ⟨⟨by omega, by omega⟩, ?_⟩
    rw [Holds_wr]
    refine ⟨⟨by omega, by omega⟩, c1, c2, ?_⟩
    intro j j1 j2
    by_cases hj : j = i + g.baseval
    · subst hj
      rw [Arr.set_get_same]
      unfold lfun Arr.ofList
      simp only [show i + g.baseval - g.baseval = i by omega]
      try rw [show i - 0 = i by omega]
      rw [if_neg (by omega), List.getD_eq_getElem?_getD]
      rfl
    · rw [Arr.set_get_ne _ _ hj]
      exact c3 j j1 (by omega)
  · rintro vnumtax hvn
    rw [Holds_bind]
    apply Holds_forUp (fun i (t : Arr Int) => t.lo = g.baseval ∧
      t.hi = g.baseval + pad al (g.induceSize l.length) + g.vertnbr ∧
      ∀ v, g.baseval ≤ v → v < g.baseval + i → t.get (v + pad al (g.induceSize l.length)) = -1) (by omega)
    · exact ⟨rfl, rfl, fun j _ _ => by omega⟩
    · rintro i t i1 i2 ⟨c1, c2, c3⟩
      rw [Holds_wr]
      refine ⟨⟨by omega, by omega⟩, c1, c2, ?_⟩
      intro v v1 v2
      by_cases hv : v = i + g.baseval
      · subst hv; rw [Arr.set_get_same]
      · rw [Arr.set_get_ne _ _ (by omega)]; exact c3 v v1 (by omega)
    · rintro blk ⟨c1, c2, c3⟩
      rw [Holds_bind]
      refine (induceListLoop_holds h hP hvn c1 c2 (fun v hv => c3 v hv.1 (by have := hv.2; omega))).mono ?_
      rintro ⟨blk, d⟩ ⟨d1, d2, d3, d4⟩
      dsimp only at d1 d2 d3 d4 ⊢
      rw [d4]
      refine (induce3_holds h hal m d1 d2 d3 hvn).mono ?_
      intro g' hp
      exact ⟨hp.induced hb, hp.cons h, hp.alloc⟩

/-- Vertices of a part, in ascending order. -/
def partList (g : Graph) (parttax : Arr Int) (partval : Int) : List Int :=
  (seg id g.baseval g.vertnnd).filter (fun v => decide (parttax.get v = partval))

theorem nodup_seg_id (lo hi : Int) : (seg id lo hi).Nodup := by
  unfold seg
  apply List.Nodup.map _ List.nodup_range
  intro a b hab
  simpa using hab

theorem filter_seg_lt (p : Int → Bool) {lo i hi : Int} (h1 : lo ≤ i) (h2 : i < hi) (hp : p i = true) :
    ((seg id lo i).filter p).length < ((seg id lo hi).filter p).length ∧
    ((seg id lo hi).filter p)[((seg id lo i).filter p).length]? = some i ∧
    ((seg id lo hi).filter p).idxOf i = ((seg id lo i).filter p).length := by
  have e : (seg id lo hi).filter p = (seg id lo i).filter p ++ i :: (seg id (i + 1) hi).filter p := by
    rw [seg_append id h1 (by omega : i ≤ hi), List.filter_append, seg_cons id h2, List.filter_cons]
    simp [hp]
  rw [e]
  refine ⟨by simp, by simp, ?_⟩
  rw [List.idxOf_append, if_neg]
  · simp
  · intro hm
    rw [List.mem_filter, mem_seg] at hm
    obtain ⟨⟨j, j1, j2, j3⟩, -⟩ := hm
    simp at j3
    omega

theorem partList_mem (parttax : Arr Int) (partval v : Int) :
    v ∈ partList g parttax partval ↔ g.Vertex v ∧ parttax.get v = partval := by
  unfold partList
  rw [List.mem_filter, mem_seg]
  simp [Vertex, and_assoc]

theorem inducePartLoop_holds (hc : ConsE g) (ha : Allocated g) (hb : 0 ≤ g.baseval) {P : Int} (hP : 0 ≤ P)
    {parttax : Arr Int} (hpt : parttax.lo ≤ g.baseval ∧ g.vertnnd ≤ parttax.hi) {partval : Int}
    {vnumtax blk : Arr Int}
    (hv1 : vnumtax.lo = g.baseval) (hv2 : vnumtax.hi = g.baseval + (partList g parttax partval).length)
    (hlo : blk.lo = g.baseval) (hhi : blk.hi = g.baseval + P + g.vertnbr) :
    Holds (inducePartLoop g P parttax partval vnumtax blk) (fun r =>
      r.blk.lo = g.baseval ∧ r.blk.hi = g.baseval + P + g.vertnbr ∧
      (∀ v, g.Vertex v → r.blk.get (v + P) = g.lidx (partList g parttax partval) v) ∧
      r.vnumtax.lo = g.baseval ∧ r.vnumtax.hi = g.baseval + (partList g parttax partval).length ∧
      (∀ i, g.baseval ≤ i → i < g.baseval + (partList g parttax partval).length →
        r.vnumtax.get i = g.lfun (partList g parttax partval) i) ∧
      r.edgenbr = degs g (g.lfun (partList g parttax partval)) (partList g parttax partval).length) := by
  have hnn := hc.vertnnd
  have hn := hc.vertnbr
  unfold inducePartLoop
  apply Holds_forUp (fun i (r : IndPSt) =>
      r.blk.lo = g.baseval ∧ r.blk.hi = g.baseval + P + g.vertnbr ∧
      (∀ v, g.baseval ≤ v → v < i → r.blk.get (v + P) = g.lidx (partList g parttax partval) v) ∧
      r.vnumtax.lo = g.baseval ∧ r.vnumtax.hi = g.baseval + (partList g parttax partval).length ∧
      r.num = g.baseval + ((seg id g.baseval i).filter (fun v => decide (parttax.get v = partval))).length ∧
      (∀ j, g.baseval ≤ j → j < r.num → r.vnumtax.get j = g.lfun (partList g parttax partval) j) ∧
      r.edgenbr = sumI g.baseval r.num (fun j => g.vend (g.lfun (partList g parttax partval) j) -
        g.vert (g.lfun (partList g parttax partval) j))) (by omega)
  · refine ⟨hlo, hhi, fun v _ _ => by omega, hv1, hv2, ?_, fun j _ _ => ?_, ?_⟩
    · rw [seg_empty _ (Int.le_refl _)]; simp
    · dsimp only at *; omega
    · rw [sumI_empty (Int.le_refl _)]
  · rintro i r i1 i2 ⟨c1, c2, c3, c4, c5, c6, c7, c8⟩
    have hv : g.Vertex i := ⟨i1, i2⟩
    rw [Holds_bind, Holds_rd]
    refine ⟨⟨by omega, by omega⟩, ?_⟩
    by_cases hp : parttax.get i = partval
    · rw [if_pos hp]
      obtain ⟨f1, f2, f3⟩ := filter_seg_lt (fun v => decide (parttax.get v = partval)) i1 i2 (by simpa using hp)
      change _ < (partList g parttax partval).length at f1
      change (partList g parttax partval)[_]? = _ at f2
      change (partList g parttax partval).idxOf i = _ at f3
      have hfun : g.lfun (partList g parttax partval) r.num = i := by
        unfold lfun
        rw [c6, show ∀ k : Nat, (g.baseval + (k : Int) - g.baseval).toNat = k by intros; omega,
          List.getD_eq_getElem?_getD, f2]
        rfl
      have hidx : g.lidx (partList g parttax partval) i = r.num := by
        unfold lidx
        rw [if_pos ((partList_mem parttax partval i).2 ⟨hv, hp⟩), f3, c6]
      rw [Holds_bind, Holds_wr]
      refine ⟨⟨by omega, by omega⟩, ?_⟩
      rw [Holds_bind, Holds_wr]
      refine ⟨⟨by omega, by omega⟩, ?_⟩
      rw [Holds_bind, rdVend_holds ha hv, Holds_bind, rdVert_holds ha hv, Holds_pure]
      dsimp only
      refine ⟨c1, c2, ?_, c4, c5, ?_, ?_, ?_⟩
      · intro v v1 v2
        by_cases hve : v = i
        · subst hve; rw [Arr.set_get_same, hidx]
        · rw [Arr.set_get_ne _ _ (by omega)]; exact c3 v v1 (by omega)
      · rw [seg_succ _ i1, List.filter_append, List.length_append, c6]
        simp [hp]
        omega
      · intro j j1 j2
        by_cases hj : j = r.num
        · subst hj; rw [Arr.set_get_same, hfun]
        · rw [Arr.set_get_ne _ _ hj]; exact c7 j j1 (by omega)
      · rw [sumI_succ (by omega), c8, hfun]
    · rw [if_neg hp, Holds_bind, Holds_wr]
      refine ⟨⟨by omega, by omega⟩, ?_⟩
      rw [Holds_pure]
      dsimp only
      refine ⟨c1, c2, ?_, c4, c5, ?_, c7, c8⟩
      · intro v v1 v2
        by_cases hve : v = i
        · subst hve
          rw [Arr.set_get_same]
          unfold lidx
          rw [if_neg]
          intro hm
          exact hp ((partList_mem parttax partval v).1 hm).2
        · rw [Arr.set_get_ne _ _ (by omega)]; exact c3 v v1 (by omega)
      · rw [seg_succ _ i1, List.filter_append, List.length_append, c6]
        simp [hp]
  · rintro r ⟨c1, c2, c3, c4, c5, c6, c7, c8⟩
    have c6 : r.num = g.baseval + (partList g parttax partval).length := c6
    rw [c6] at c7 c8
    exact ⟨c1, c2, fun v hv => c3 v hv.1 hv.2, c4, c5, c7, c8⟩

theorem inducePart_holds (hc : Consistent g) (ha : Allocated g) (hb : 0 ≤ g.baseval) {al : Int} (hal : al = 1 ∨ al = 2)
    (m : IndMem) (parttax : Arr Int) (hpt : parttax.lo ≤ g.baseval ∧ g.vertnnd ≤ parttax.hi) (partval : Int) :
    Holds (inducePart al g m parttax (partList g parttax partval).length partval)
      (fun g' => InducedBy g (partList g parttax partval) g' ∧ Consistent g' ∧ Allocated g') := by
  have hc' := consE_iff.2 hc
  have h := indPre_list hc' ha hb (partList g parttax partval)
    ((nodup_seg_id _ _).filter _) (fun v hv => ((partList_mem parttax partval v).1 hv).1)
  have hP : 0 ≤ pad al (g.induceSize (partList g parttax partval).length) :=
    pad_nonneg hal (induceSize_nonneg hc' (by omega))
  unfold inducePart
  dsimp only
  rw [Holds_bind]
  refine (inducePartLoop_holds hc' ha hb hP hpt rfl rfl rfl rfl).mono ?_
  rintro r ⟨d1, d2, d3, d4, d5, d6, d7⟩
  rw [d7]
  refine (induce3_holds h hal m d1 d2 d3 ⟨d4, d5, d6⟩).mono ?_
  intro g' hp
  exact ⟨hp.induced hb, hp.cons h, hp.alloc⟩

end Scotch.Graph
