import Verif.Graph.Lemmas
import Verif.Graph.LemmasEven
import Verif.Graph.Induce
import Verif.Seg

/-! # Induced subgraphs: the construction loop -/

set_option autoImplicit false
set_option linter.unusedSimpArgs false

namespace Scotch.Graph
variable {g : Graph}

theorem nbrs_seg (g : Graph) (v : Int) : g.nbrs v = seg (fun e => (g.dest e, g.edlo e)) (g.vert v) (g.vend v) := by
  unfold nbrs arcs seg
  rw [List.map_map]
  rfl

/-- Selection and renumbering of a neighbour. -/
def fil (idx : Int → Int) (p : Int × Int) : Option (Int × Int) := if idx p.1 = -1 then none else some (idx p.1, p.2)

/-- Neighbours in the subgraph. -/
def sub (g : Graph) (L idx : Int → Int) (i : Int) : List (Int × Int) := (g.nbrs (L i)).filterMap (fil idx)

/-- Place of the arcs of a vertex of the subgraph. -/
def pos (g : Graph) (L idx : Int → Int) (i : Int) : Int := g.baseval + sumI g.baseval i (fun j => (g.sub L idx j).length)

/-- What is known at the beginning of the construction of the subgraph. -/
structure IndPre (g : Graph) (n : Int) (L idx : Int → Int) : Prop where
  cons : ConsE g
  alloc : Allocated g
  n0 : 0 ≤ n
  b0 : 0 ≤ g.baseval
  vert : ∀ i, g.baseval ≤ i → i < g.baseval + n → g.Vertex (L i)
  inj : ∀ i j, g.baseval ≤ i → i < g.baseval + n → g.baseval ≤ j → j < g.baseval + n → L i = L j → i = j
  idxL : ∀ i, g.baseval ≤ i → i < g.baseval + n → idx (L i) = i
  idxN : ∀ v, g.Vertex v → (∀ i, g.baseval ≤ i → i < g.baseval + n → L i ≠ v) → idx v = -1

variable {n : Int} {L idx : Int → Int}

theorem IndPre.idx_cases (h : IndPre g n L idx) {v : Int} (hv : g.Vertex v) :
    idx v = -1 ∨ (g.baseval ≤ idx v ∧ idx v < g.baseval + n ∧ L (idx v) = v) := by
  by_cases hc : ∀ i, g.baseval ≤ i → i < g.baseval + n → L i ≠ v
  · exact Or.inl (h.idxN v hv hc)
  · right
    push Not at hc
    obtain ⟨i, h1, h2, h3⟩ := hc
    have := h.idxL i h1 h2
    rw [h3] at this
    rw [this]
    exact ⟨h1, h2, h3⟩

theorem sub_length_le (h : IndPre g n L idx) {i : Int} (h1 : g.baseval ≤ i) (h2 : i < g.baseval + n) :
    ((g.sub L idx i).length : Int) ≤ g.vend (L i) - g.vert (L i) := by
  rw [← length_nbrs g _ (h.cons.range _ (h.vert i h1 h2)).2]
  have := List.length_filterMap_le (fil idx) (g.nbrs (L i))
  unfold sub
  omega

theorem pos_succ (g : Graph) (L idx : Int → Int) {i : Int} (h : g.baseval ≤ i) :
    g.pos L idx (i + 1) = g.pos L idx i + (g.sub L idx i).length := by
  unfold pos
  rw [sumI_succ h]
  omega

theorem pos_mono (g : Graph) (L idx : Int → Int) {i j : Int} (h : g.baseval ≤ i) (hij : i ≤ j) :
    g.pos L idx i ≤ g.pos L idx j := by
  unfold pos
  rw [sumI_split h hij]
  have := sumI_nonneg (lo := i) (hi := j) (f := fun j => ((g.sub L idx j).length : Int)) (fun j _ _ => by omega)
  omega

/-- Sum of the degrees of the selected vertices. -/
def degs (g : Graph) (L : Int → Int) (n : Int) : Int :=
  sumI g.baseval (g.baseval + n) (fun i => g.vend (L i) - g.vert (L i))

theorem pos_end_le (h : IndPre g n L idx) : g.pos L idx (g.baseval + n) ≤ g.baseval + degs g L n := by
  unfold pos degs
  have := sumI_mono (lo := g.baseval) (hi := g.baseval + n) (f := fun j => ((g.sub L idx j).length : Int))
    (g := fun i => g.vend (L i) - g.vert (L i)) (fun i h1 h2 => sub_length_le h h1 h2)
  omega

theorem degs_le_edgenbr (h : IndPre g n L idx) : degs g L n ≤ g.edgenbr := by
  rw [h.cons.edgenbr]
  unfold degs sumI
  rw [← Finset.sum_image (s := Finset.Ico g.baseval (g.baseval + n)) (g := L)
    (f := fun v => g.vend v - g.vert v)]
  · apply Finset.sum_le_sum_of_subset_of_nonneg
    · intro v hv
      rw [Finset.mem_image] at hv
      obtain ⟨i, hi, rfl⟩ := hv
      rw [Finset.mem_Ico] at hi ⊢
      exact h.vert i hi.1 hi.2
    · intro v hv _
      rw [Finset.mem_Ico] at hv
      have := (h.cons.range v hv).2
      omega
  · intro i hi j hj he
    simp only [Finset.coe_Ico, Set.mem_Ico] at hi hj
    exact h.inj i j hi.1 hi.2 hj.1 hj.2 he

theorem degs_le_degrmax (h : IndPre g n L idx) : degs g L n ≤ n * g.degrmax := by
  have := sumI_mono (lo := g.baseval) (hi := g.baseval + n) (f := fun i => g.vend (L i) - g.vert (L i))
    (g := fun _ => g.degrmax) (fun i h1 h2 => h.cons.degrmax.2 _ (h.vert i h1 h2))
  rw [sumI_const (by have := h.n0; omega)] at this
  unfold degs
  rw [show g.baseval + n - g.baseval = n by omega] at this
  exact this

theorem degs_nonneg (h : IndPre g n L idx) : 0 ≤ degs g L n := by
  apply sumI_nonneg
  intro i h1 h2
  have := (h.cons.range _ (h.vert i h1 h2)).2
  omega

/-- Membership in the list of neighbours in the subgraph. -/
theorem mem_sub (h : IndPre g n L idx) {i j l : Int} (h1 : g.baseval ≤ i) (h2 : i < g.baseval + n) :
    (j, l) ∈ g.sub L idx i ↔ g.baseval ≤ j ∧ j < g.baseval + n ∧ (L j, l) ∈ g.nbrs (L i) := by
  have hc := consE_iff.1 h.cons
  unfold sub
  rw [List.mem_filterMap]
  constructor
  · rintro ⟨⟨w, l'⟩, hp, hf⟩
    have hw := (hc.inside _ _ (h.vert i h1 h2) hp).1
    unfold fil at hf
    dsimp only at hf hw
    split at hf
    · cases hf
    · rename_i hne
      cases hf
      rcases h.idx_cases hw with hx | ⟨a, b, c⟩
      · exact absurd hx hne
      · rw [c]; exact ⟨a, b, hp⟩
  · rintro ⟨a, b, hp⟩
    refine ⟨_, hp, ?_⟩
    unfold fil
    dsimp only
    have hb := h.b0
    rw [h.idxL j a b, if_neg (by omega)]

theorem sub_nodup (h : IndPre g n L idx) {i : Int} (h1 : g.baseval ≤ i) (h2 : i < g.baseval + n) :
    ((g.sub L idx i).map Prod.fst).Nodup := by
  have hc := consE_iff.1 h.cons
  have hs := hc.simple _ (h.vert i h1 h2)
  have hin : ∀ p ∈ g.nbrs (L i), g.Vertex p.1 := fun p hp => (hc.inside _ _ (h.vert i h1 h2) hp).1
  unfold sub
  generalize g.nbrs (L i) = l at hs hin
  induction l with
  | nil => simp
  | cons p l ih =>
    rw [List.map_cons, List.nodup_cons] at hs
    have ih := ih hs.2 (fun q hq => hin q (List.mem_cons_of_mem _ hq))
    rw [List.filterMap_cons]
    unfold fil at *
    split
    · exact ih
    · rename_i q hq
      rw [List.map_cons, List.nodup_cons]
      refine ⟨?_, ih⟩
      intro hm
      split at hq
      · cases hq
      · rename_i hne
        cases hq
        rw [List.mem_map] at hm
        obtain ⟨q', hq', he⟩ := hm
        rw [List.mem_filterMap] at hq'
        obtain ⟨r, hr, hf⟩ := hq'
        split at hf
        · cases hf
        · rename_i hne'
          cases hf
          dsimp only at he
          apply hs.1
          rw [List.mem_map]
          refine ⟨r, hr, ?_⟩
          rcases h.idx_cases (hin r (List.mem_cons_of_mem _ hr)) with hx | ⟨-, -, c⟩
          · exact absurd hx hne'
          · rcases h.idx_cases (hin p List.mem_cons_self) with hx | ⟨-, -, c'⟩
            · exact absurd hx hne
            · rw [← c, ← c', he]

open Classical in
theorem list_length_indicator (l : List Int) (lo hi : Int) (hin : ∀ x ∈ l, lo ≤ x ∧ x < hi) (hnd : l.Nodup) :
    (l.length : Int) = sumI lo hi (fun j => if j ∈ l then 1 else 0) := by
  induction l with
  | nil =>
    rw [sumI_congr (g := fun _ => 0)]
    · by_cases h : lo ≤ hi
      · rw [sumI_const h]; simp
      · rw [sumI_empty (by omega)]; rfl
    · intro j _ _; simp
  | cons x l ih =>
    rw [List.nodup_cons] at hnd
    have hx := hin x List.mem_cons_self
    have ih := ih (fun y hy => hin y (List.mem_cons_of_mem _ hy)) hnd.2
    have e : sumI lo hi (fun j => if j ∈ x :: l then 1 else 0) =
        sumI lo hi (fun j => (if j ∈ l then 1 else 0) + (if j = x then 1 else 0)) := by
      apply sumI_congr
      intro j _ _
      by_cases hj : j = x
      · subst hj; simp [hnd.1]
      · simp [hj]
    rw [e, sumI_add_dist, ← ih, sumI_indicator lo hi (fun j => j = x) (by intro i j _ _ _ _ hi hj; rw [hi, hj])]
    rw [if_pos ⟨x, hx.1, hx.2, rfl⟩]
    simp

open Classical in
theorem pos_end_even (h : IndPre g n L idx) : (g.pos L idx (g.baseval + n) - g.baseval) % 2 = 0 := by
  have hn := h.n0
  have e : g.pos L idx (g.baseval + n) - g.baseval = sumI g.baseval (g.baseval + n) (fun i =>
      sumI g.baseval (g.baseval + n) (fun j => if j ∈ (g.sub L idx i).map Prod.fst then 1 else 0)) := by
    unfold pos
    rw [show ∀ a b : Int, a + b - a = b by intros; omega]
    apply sumI_congr
    intro i h1 h2
    rw [← list_length_indicator _ _ _ ?_ (sub_nodup h h1 h2), List.length_map]
    intro x hx
    rw [List.mem_map] at hx
    obtain ⟨⟨a, b⟩, hp, rfl⟩ := hx
    have := (mem_sub h h1 h2).1 hp
    exact ⟨this.1, this.2.1⟩
  have hc := consE_iff.1 h.cons
  rw [e, show g.baseval + n = g.baseval + ((n.toNat : Nat) : Int) by omega]
  apply even_symm_sum
  · intro v w v1 v2 w1 w2
    have key : ∀ v w, g.baseval ≤ v → v < g.baseval + (n.toNat : Int) → g.baseval ≤ w → w < g.baseval + (n.toNat : Int) →
        w ∈ (g.sub L idx v).map Prod.fst → v ∈ (g.sub L idx w).map Prod.fst := by
      intro v w v1 v2 w1 w2 hm
      rw [List.mem_map] at hm ⊢
      obtain ⟨⟨a, l⟩, hp, rfl⟩ := hm
      have hq := (mem_sub h v1 (by omega)).1 hp
      have hs := hc.symm _ _ (h.vert v v1 (by omega)) hq.2.2
      exact ⟨(v, l), (mem_sub h w1 (by omega)).2 ⟨v1, by omega, hs⟩, rfl⟩
    congr 1
    apply propext
    exact ⟨key v w v1 v2 w1 w2, key w v w1 w2 v1 v2⟩
  · intro v v1 v2
    rw [if_neg]
    intro hm
    rw [List.mem_map] at hm
    obtain ⟨⟨a, l⟩, hp, rfl⟩ := hm
    have hq := (mem_sub h v1 (by omega)).1 hp
    exact (hc.inside _ _ (h.vert _ v1 (by omega)) hq.2.2).2 rfl

/-- What has to be known about the layout of the block. -/
structure Layout (g : Graph) (T P off : Int) (blk : Arr Int) : Prop where
  lo : blk.lo = g.baseval
  hi : blk.hi = g.baseval + P + g.vertnbr
  T0 : 0 ≤ T
  TP : T ≤ P
  off0 : g.edlotax ≠ none → T ≤ off ∧ off + T ≤ P

/-- The layout of the block is right. -/
theorem layout (h : IndPre g n L idx) {al : Int} (hal : al = 1 ∨ al = 2) (blk : Arr Int) (hlo : blk.lo = g.baseval)
    (hhi : blk.hi = g.baseval + pad al (g.induceSize n) + g.vertnbr) :
    Layout g (g.pos L idx (g.baseval + n) - g.baseval) (pad al (g.induceSize n)) (pad al (degs g L n)) blk := by
  have h1 := pos_end_le h
  have h2 := degs_le_edgenbr h
  have h3 := degs_le_degrmax h
  have h4 := pos_end_even h
  have h5 := pos_mono g L idx (i := g.baseval) (j := g.baseval + n) (Int.le_refl _) (by have := h.n0; omega)
  have h6 : g.pos L idx g.baseval = g.baseval := by unfold pos; rw [sumI_empty (Int.le_refl _)]; omega
  have hS : (if g.edlotax.isSome then 2 * degs g L n else degs g L n) ≤ g.induceSize n := by
    unfold induceSize
    dsimp only
    split <;> split <;> omega
  generalize g.pos L idx (g.baseval + n) = p at *
  generalize g.induceSize n = S at *
  generalize degs g L n = D at *
  refine ⟨hlo, hhi, by omega, ?_, ?_⟩
  · unfold pad
    split at hS <;> rcases hal with rfl | rfl <;> omega
  · intro hne
    have : g.edlotax.isSome = true := by
      cases hx : g.edlotax with
      | none => exact absurd hx hne
      | some _ => rfl
    rw [if_pos this] at hS
    unfold pad
    rcases hal with rfl | rfl <;> constructor <;> omega

/-- Load of an arc, from the block. -/
def ld (g : Graph) (off : Int) (blk : Arr Int) (x : Int) : Int :=
  match g.edlotax with | none => 1 | some _ => blk.get (x + off)

/-- Cells of the block that must not change. -/
structure Keep (g : Graph) (P off num : Int) (idx : Int → Int) (b0 blk : Arr Int) : Prop where
  lo : blk.lo = b0.lo
  hi : blk.hi = b0.hi
  edge : ∀ x, g.baseval ≤ x → x < num → blk.get x = b0.get x ∧ g.ld off blk x = g.ld off b0 x
  index : ∀ v, g.Vertex v → blk.get (v + P) = idx v

/-- Sum of loads, when there are loads. -/
def lsum (g : Graph) (l : List (Int × Int)) : Int := if g.edlotax.isSome then (l.map Prod.snd).sum else 0

theorem lsum_append (l l' : List (Int × Int)) : g.lsum (l ++ l') = g.lsum l + g.lsum l' := by
  unfold lsum
  split <;> simp

theorem induceArcs_holds (h : IndPre g n L idx) {P off T : Int} {b0 : Arr Int}
    (hT : g.pos L idx (g.baseval + n) = g.baseval + T)
    (hl : Layout g T P off b0) {i : Int} (i1 : g.baseval ≤ i) (i2 : i < g.baseval + n) (es : Int)
    (hk : ∀ v, g.Vertex v → b0.get (v + P) = idx v) :
    Holds (forUp (g.vert (L i)) (g.vend (L i)) ⟨b0, es, g.pos L idx i⟩ (induceArc g P off)) (fun s =>
      s.num = g.pos L idx (i + 1) ∧ s.edlosum = es + g.lsum (g.sub L idx i) ∧
      Keep g P off (g.pos L idx i) idx b0 s.blk ∧
      seg (fun x => (s.blk.get x, g.ld off s.blk x)) (g.pos L idx i) (g.pos L idx (i + 1)) = g.sub L idx i) := by
  have hv := h.vert i i1 i2
  have hr := h.cons.range _ hv
  have hp0 : g.baseval ≤ g.pos L idx i := by
    have := pos_mono g L idx (Int.le_refl g.baseval) i1
    have h6 : g.pos L idx g.baseval = g.baseval := by unfold pos; rw [sumI_empty (Int.le_refl _)]; omega
    omega
  have hp1 : g.pos L idx (i + 1) ≤ g.baseval + T := by
    rw [← hT]; exact pos_mono g L idx (by omega) (by omega)
  have hsub : g.sub L idx i = (seg (fun e => (g.dest e, g.edlo e)) (g.vert (L i)) (g.vend (L i))).filterMap (fil idx) := by
    unfold sub; rw [nbrs_seg]
  apply Holds_forUp (fun e s =>
    s.num = g.pos L idx i + ((seg (fun e => (g.dest e, g.edlo e)) (g.vert (L i)) e).filterMap (fil idx)).length ∧
    s.edlosum = es + g.lsum ((seg (fun e => (g.dest e, g.edlo e)) (g.vert (L i)) e).filterMap (fil idx)) ∧
    Keep g P off (g.pos L idx i) idx b0 s.blk ∧
    seg (fun x => (s.blk.get x, g.ld off s.blk x)) (g.pos L idx i) s.num =
      (seg (fun e => (g.dest e, g.edlo e)) (g.vert (L i)) e).filterMap (fil idx)) hr.2
  · rw [seg_empty _ (Int.le_refl _), seg_empty _ (Int.le_refl _)]
    refine ⟨by simp, by simp [lsum], ⟨rfl, rfl, fun x _ _ => ⟨rfl, rfl⟩, hk⟩, rfl⟩
  · rintro e ⟨blk, es', num⟩ e1 e2 ⟨c1, c2, c3, c4⟩
    dsimp only at c1 c2 c3 c4
    have hae := h.alloc.edge _ hv (by omega)
    have hw := (h.cons.inside _ e hv e1 e2).1
    have hnn := h.cons.vertnnd
    have hlen : ((seg (fun e => (g.dest e, g.edlo e)) (g.vert (L i)) (e + 1)).filterMap (fil idx)).length ≤
        (g.sub L idx i).length := by
      rw [hsub, seg_append (fun e => (g.dest e, g.edlo e)) (lo := g.vert (L i)) (mid := e + 1) (hi := g.vend (L i)) (by omega) (by omega),
        List.filterMap_append, List.length_append]
      omega
    have hps := pos_succ g L idx i1
    rw [seg_succ _ e1, List.filterMap_append] at hlen ⊢
    obtain ⟨k1, k2, k3, k4⟩ := c3
    have hidx := k4 _ hw
    have hl1 := hl.lo
    have hl2 := hl.hi
    unfold induceArc
    rw [Holds_bind, Holds_rd]
    refine ⟨⟨by omega, by omega⟩, ?_⟩
    rw [Holds_bind, Holds_rd]
    obtain ⟨hw1, hw2⟩ := hw
    have hTP := hl.TP
    have hT0 := hl.T0
    unfold dest at hw1 hw2 hidx
    dsimp only
    refine ⟨⟨by omega, by omega⟩, ?_⟩
    rw [hidx]
    by_cases hx : idx (g.edgetax.get e) = -1
    · rw [if_neg (by simpa using hx), Holds_pure]
      have : List.filterMap (fil idx) [(g.dest e, g.edlo e)] = [] := by
        simp [fil, dest, hx]
      rw [this, List.append_nil]
      exact ⟨c1, c2, ⟨k1, k2, k3, k4⟩, c4⟩
    · rw [if_pos hx]
      have hsing : List.filterMap (fil idx) [(g.dest e, g.edlo e)] = [(idx (g.edgetax.get e), g.edlo e)] := by
        simp [fil, dest, hx]
      rw [hsing] at hlen ⊢
      simp only [List.length_append, List.length_cons, List.length_nil] at hlen ⊢
      have hnum : num < g.baseval + T := by omega
      cases hed : g.edlotax with
      | none =>
        have hld : ∀ b x, g.ld off b x = 1 := by intro b x; unfold ld; rw [hed]
        have hedl : g.edlo e = 1 := by unfold edlo; rw [hed]
        dsimp only
        rw [Holds_bind, Holds_rd]
        refine ⟨⟨by omega, by omega⟩, ?_⟩
        rw [hidx, Holds_bind, Holds_wr]
        refine ⟨⟨by omega, by omega⟩, ?_⟩
        rw [Holds_pure]
        dsimp only
        refine ⟨by omega, ?_, ⟨k1, k2, ?_, ?_⟩, ?_⟩
        · rw [lsum_append, c2]
          simp [lsum, hed]
        · intro x x1 x2
          rw [Arr.set_get_ne _ _ (by omega), hld, hld]
          exact ⟨(k3 x x1 x2).1, rfl⟩
        · intro v hv
          rw [Arr.set_get_ne _ _ (by obtain ⟨v1, v2⟩ := hv; omega)]
          exact k4 v hv
        · rw [seg_succ _ (by omega)]
          simp only [hld, Arr.set_get_same, hedl]
          congr 1
          rw [← c4]
          apply seg_congr
          intro x x1 x2
          rw [Arr.set_get_ne _ _ (by omega), hld]
      | some a =>
        have hld : ∀ b x, g.ld off b x = b.get (x + off) := by intro b x; unfold ld; rw [hed]
        have hedl : g.edlo e = a.get e := by unfold edlo; rw [hed]
        have hoff := hl.off0 (by rw [hed]; simp)
        have hal := h.alloc.edlo a hed _ hv (by omega)
        dsimp only
        rw [Holds_bind, Holds_rd]
        refine ⟨⟨by omega, by omega⟩, ?_⟩
        rw [Holds_bind, Holds_wr]
        refine ⟨⟨by omega, by omega⟩, ?_⟩
        rw [Holds_bind, Holds_rd]
        refine ⟨⟨by show blk.lo ≤ _; omega, by show _ < blk.hi; omega⟩, ?_⟩
        rw [Arr.set_get_ne _ _ (by omega), hidx, Holds_bind, Holds_wr]
        refine ⟨⟨by show blk.lo ≤ _; omega, by show _ < blk.hi; omega⟩, ?_⟩
        rw [Holds_pure]
        dsimp only
        refine ⟨by omega, ?_, ⟨k1, k2, ?_, ?_⟩, ?_⟩
        · rw [lsum_append, c2]
          simp [lsum, hed, hedl]
          omega
        · intro x x1 x2
          have := k3 x x1 x2
          rw [hld, hld] at this ⊢
          rw [Arr.set_get_ne _ _ (by omega), Arr.set_get_ne _ _ (by omega), Arr.set_get_ne _ _ (by omega),
            Arr.set_get_ne _ _ (by omega)]
          exact this
        · intro v hv
          have hvv := hv
          obtain ⟨v1, v2⟩ := hv
          rw [Arr.set_get_ne _ _ (by omega), Arr.set_get_ne _ _ (by omega)]
          exact k4 v hvv
        · rw [seg_succ _ (by omega)]
          simp only [hld, hedl]
          rw [Arr.set_get_same, Arr.set_get_ne _ _ (by omega), Arr.set_get_same]
          congr 1
          rw [← c4]
          apply seg_congr
          intro x x1 x2
          rw [hld, Arr.set_get_ne _ _ (by omega), Arr.set_get_ne _ _ (by omega), Arr.set_get_ne _ _ (by omega),
            Arr.set_get_ne _ _ (by omega)]
  · rintro s ⟨c1, c2, c3, c4⟩
    rw [← hsub] at c1 c2 c4
    have hps := pos_succ g L idx i1
    rw [hps, ← c1]
    exact ⟨rfl, c2, c3, c4⟩

end Scotch.Graph
