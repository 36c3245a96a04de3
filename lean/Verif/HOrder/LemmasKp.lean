import Verif.HOrder.LemmasSi
import Verif.Rand.Props

/-! # Ordering of graphs by parts and by blocks: lemmas -/

set_option autoImplicit false
set_option linter.unusedSimpArgs false

namespace Scotch.HOrder
open Graph Cblk
variable {h : Hgraph}

/-! ## Flat block trees -/

theorem flat_sum : ∀ (l : List Int), vnodsum (l.map leafBlock) = l.sum
  | [] => rfl
  | x :: l => by rw [List.map_cons, vnodsum, flat_sum l, List.sum_cons]; rfl

theorem flat_coherent : ∀ (l : List Int), (∀ x ∈ l, 1 ≤ x) → CoherentL (l.map leafBlock)
  | [], _ => by rw [List.map_nil, CoherentL]; trivial
  | x :: l, hl => by
    rw [List.map_cons, CoherentL]
    refine ⟨?_, flat_coherent l (fun y hy => hl y (List.mem_cons_of_mem _ hy))⟩
    unfold leafBlock Coherent
    exact ⟨rfl, hl x (List.mem_cons_self ..), rfl⟩

theorem flat_alloc : ∀ (l : List Int), AllocL (l.map leafBlock)
  | [] => by rw [List.map_nil, AllocL]; trivial
  | x :: l => by
    rw [List.map_cons, AllocL]
    refine ⟨?_, flat_alloc l⟩
    unfold leafBlock Alloc
    trivial

theorem flat_nodes : ∀ (l : List Int), nodesL (l.map leafBlock) = l.length
  | [] => by rw [List.map_nil, nodesL]; rfl
  | x :: l => by
    rw [List.map_cons, nodesL, flat_nodes l, List.length_cons]
    unfold leafBlock nodes
    omega

theorem flat_leaves : ∀ (l : List Int), leavesL (l.map leafBlock) = l
  | [] => by rw [List.map_nil, leavesL]
  | x :: l => by
    rw [List.map_cons, leavesL, flat_leaves l]
    unfold leafBlock leaves
    rfl

theorem flat_separates (A : Int → Int → Prop) : ∀ (l : List Int) (off : Int), SeparatesL A (l.map leafBlock) off
  | [], off => by rw [List.map_nil, SeparatesL]; trivial
  | x :: l, off => by
    rw [List.map_cons, SeparatesL]
    refine ⟨?_, flat_separates A l _⟩
    unfold leafBlock Separates
    trivial

theorem sum_ge_length : ∀ (l : List Int), (∀ x ∈ l, 1 ≤ x) → (l.length : Int) ≤ l.sum
  | [], _ => by rw [List.sum_nil, List.length_nil]; omega
  | x :: l, hl => by
    rw [List.length_cons, List.sum_cons]
    have := sum_ge_length l (fun y hy => hl y (List.mem_cons_of_mem _ hy))
    have := hl x (List.mem_cons_self ..)
    omega

/-- Sequences of blocks. -/
theorem placed_flat {ordenum : Int} {o o' : Ord} {π : Int → Int} {sizes : List Int} (hn : 1 ≤ h.vnohnbr) (hb : o'.peritab.lo = o.peritab.lo ∧ o'.peritab.hi = o.peritab.hi)
    (hf : ∀ i, (i < ordenum ∨ ordenum + h.vnohnbr ≤ i) → o'.peritab.get i = o.peritab.get i) (hv : ∀ i, 0 ≤ i → i < h.vnohnbr → (unhalo h).Vertex (π i))
    (hinj : ∀ i j, 0 ≤ i → i < h.vnohnbr → 0 ≤ j → j < h.vnohnbr → π i = π j → i = j) (hp : ∀ i, 0 ≤ i → i < h.vnohnbr → o'.peritab.get (ordenum + i) = onum h.s (π i))
    (hs : ∀ x ∈ sizes, 1 ≤ x) (hsum : sizes.sum = h.vnohnbr)
    (ht : o'.treenbr = o.treenbr + sizes.length) (hk : o'.cblknbr = o.cblknbr + (sizes.length - 1)) :
    Placed h ordenum o o' (.node ORDERCBLKSEQU h.vnohnbr sizes.length (sizes.map leafBlock)) π := by
  have hlen : 1 ≤ (sizes.length : Int) := by
    cases sizes with
    | nil => rw [List.sum_nil] at hsum; omega
    | cons x l => rw [List.length_cons]; omega
  refine ⟨hb, hf, hv, hinj, hp, rfl, ?_, ?_, ?_, ?_, ?_⟩
  · unfold Coherent
    exact ⟨Or.inr (Or.inr rfl), hn, hlen, (fun hx => absurd hx (by decide)), by rw [flat_sum, hsum], flat_coherent _ hs⟩
  · unfold Alloc
    exact ⟨by rw [List.length_map], flat_alloc _⟩
  · unfold nodes
    rw [flat_nodes]; omega
  · unfold width leaves
    rw [flat_leaves]; omega
  · unfold Separates
    exact ⟨fun hx => absurd hx (by decide), fun hx => absurd hx (by decide), flat_separates _ _ _⟩

/-! ## Counting -/

/-- Number of vertices of a part, up to a vertex. -/
def kcnt (f : Int → Int) (b p v : Int) : Int := sumI b v (fun u => if f u = p then 1 else 0)

/-- Position of the first vertex of a part. -/
def kstart (f : Int → Int) (b nnd p : Int) : Int := sumI 0 p (fun q => kcnt f b q nnd)

/-- Position of a vertex. -/
def kpos (f : Int → Int) (b nnd v : Int) : Int := kstart f b nnd (f v) + kcnt f b (f v) v

variable {f : Int → Int} {b nnd K : Int}

theorem kcnt_succ {p v : Int} (hv : b ≤ v) : kcnt f b p (v + 1) = kcnt f b p v + if f v = p then 1 else 0 := sumI_succ hv _

theorem kcnt_mono {p u v : Int} (h1 : b ≤ u) (h2 : u ≤ v) : kcnt f b p u ≤ kcnt f b p v := by
  unfold kcnt
  rw [sumI_split h1 h2]
  have : 0 ≤ sumI u v (fun u => if f u = p then (1 : Int) else 0) := sumI_nonneg (fun i _ _ => by split <;> omega)
  omega

theorem kcnt_nonneg {p v : Int} : 0 ≤ kcnt f b p v := sumI_nonneg (fun i _ _ => by split <;> omega)

theorem kstart_mono {p q : Int} (h1 : 0 ≤ p) (h2 : p ≤ q) : kstart f b nnd p ≤ kstart f b nnd q := by
  unfold kstart
  rw [sumI_split h1 h2]
  have : 0 ≤ sumI p q (fun q => kcnt f b q nnd) := sumI_nonneg (fun i _ _ => kcnt_nonneg)
  omega

theorem kstart_succ {p : Int} (h1 : 0 ≤ p) : kstart f b nnd (p + 1) = kstart f b nnd p + kcnt f b p nnd := sumI_succ h1 _

theorem kstart_all (hb : b ≤ nnd) (hf : ∀ v, b ≤ v → v < nnd → 0 ≤ f v ∧ f v < K) : kstart f b nnd K = nnd - b := by
  unfold kstart kcnt
  rw [sumI_comm 0 K b nnd (fun q u => if f u = q then 1 else 0), sumI_congr (g := fun _ => 1), sumI_const hb]
  · omega
  intro u u1 u2
  have := hf u u1 u2
  have he := sumI_single (lo := 0) (hi := K) this.1 this.2 (fun _ => 1)
  refine Eq.trans (sumI_congr ?_) he
  intro q _ _
  by_cases hq : f u = q
  · rw [if_pos hq, if_pos hq.symm]
  · rw [if_neg hq, if_neg (fun hx => hq hx.symm)]

theorem kpos_lt {v : Int} (h1 : b ≤ v) (h2 : v < nnd) (hf : 0 ≤ f v) : kpos f b nnd v < kstart f b nnd (f v + 1) := by
  rw [kstart_succ hf]
  unfold kpos
  have h := kcnt_succ (f := f) (p := f v) h1
  rw [if_pos rfl] at h
  have := kcnt_mono (f := f) (p := f v) (u := v + 1) (v := nnd) (by omega : b ≤ v + 1) (by omega)
  omega

theorem kpos_inj (hf : ∀ v, b ≤ v → v < nnd → 0 ≤ f v ∧ f v < K) {u v : Int} (u1 : b ≤ u) (u2 : u < nnd) (v1 : b ≤ v) (v2 : v < nnd) (he : kpos f b nnd u = kpos f b nnd v) : u = v := by
  have key : ∀ u v, b ≤ u → u < nnd → b ≤ v → v < nnd → f u < f v → kpos f b nnd u < kpos f b nnd v := by
    intro u v u1 u2 v1 v2 hl
    have h1 := kpos_lt (f := f) u1 u2 (hf u u1 u2).1
    have h2 := kstart_mono (f := f) (b := b) (nnd := nnd) (p := f u + 1) (q := f v) (by have := (hf u u1 u2).1; omega) (by omega)
    have h3 := kcnt_nonneg (f := f) (b := b) (p := f v) (v := v)
    unfold kpos at h1 ⊢
    omega
  have key2 : ∀ u v, b ≤ u → u < v → f u = f v → kpos f b nnd u < kpos f b nnd v := by
    intro u v u1 hl hfe
    unfold kpos
    rw [hfe]
    have h := kcnt_succ (f := f) (p := f v) u1
    rw [if_pos hfe] at h
    have := kcnt_mono (f := f) (p := f v) (u := u + 1) (v := v) (by omega : b ≤ u + 1) (by omega)
    omega
  rcases Int.lt_trichotomy (f u) (f v) with hx | hx | hx
  · have := key u v u1 u2 v1 v2 hx; omega
  · rcases Int.lt_trichotomy u v with hy | hy | hy
    · have := key2 u v u1 hy hx; omega
    · exact hy
    · have := key2 v u v1 hy hx.symm; omega
  · have := key v u v1 v2 u1 u2 hx; omega

theorem kpos_range (hb : b ≤ nnd) (hf : ∀ v, b ≤ v → v < nnd → 0 ≤ f v ∧ f v < K) {v : Int} (v1 : b ≤ v) (v2 : v < nnd) : 0 ≤ kpos f b nnd v ∧ kpos f b nnd v < nnd - b := by
  obtain ⟨f1, f2⟩ := hf v v1 v2
  constructor
  · have h1 := kcnt_nonneg (f := f) (b := b) (p := f v) (v := v)
    have h2 := kstart_mono (f := f) (b := b) (nnd := nnd) (p := 0) (q := f v) (Int.le_refl _) f1
    unfold kstart at h2
    rw [sumI_empty (Int.le_refl 0)] at h2
    unfold kpos kstart
    omega
  · have h1 := kpos_lt (f := f) v1 v2 f1
    have h2 := kstart_mono (f := f) (b := b) (nnd := nnd) (p := f v + 1) (q := K) (by omega) (by omega)
    rw [kstart_all hb hf] at h2
    omega

/-- A numbering has an inverse. -/
theorem exists_inverse {n : Int} {pos : Int → Int} (hr : ∀ v, b ≤ v → v < b + n → 0 ≤ pos v ∧ pos v < n)
    (hi : ∀ u v, b ≤ u → u < b + n → b ≤ v → v < b + n → pos u = pos v → u = v) : ∃ π : Int → Int, ∀ i, 0 ≤ i → i < n → (b ≤ π i ∧ π i < b + n) ∧ pos (π i) = i := by
  have I : IsInj b 0 n pos := ⟨fun v v1 v2 => by have := hr v v1 v2; omega, hi⟩
  have key : ∀ i, ∃ v, 0 ≤ i → i < n → (b ≤ v ∧ v < b + n) ∧ pos v = i := by
    intro i
    by_cases h1 : 0 ≤ i
    · by_cases h2 : i < n
      · obtain ⟨v, v1, v2, v3⟩ := I.surj i h1 (by omega)
        exact ⟨v, fun _ _ => ⟨⟨v1, v2⟩, v3⟩⟩
      · exact ⟨0, fun _ hx => absurd hx h2⟩
    · exact ⟨0, fun hx => absurd hx h1⟩
  obtain ⟨π, hπ⟩ := Classical.skolem.1 key
  exact ⟨π, hπ⟩

/-! ## `hgraphOrderKp` -/

theorem kpCount_holds {part : Arr Int} (hb : b ≤ nnd) (h1 : part.lo ≤ b) (h2 : nnd ≤ part.hi) (hp : ∀ v, b ≤ v → v < nnd → 0 ≤ part.get v ∧ part.get v < K) :
    Holds (forUp b nnd (Arr.const 0 K (0 : Int)) fun v a => do
        let p ← part.rd v
        a.wr p ((← a.rd p) + 1)) (fun a => a.lo = 0 ∧ a.hi = K ∧ ∀ p, 0 ≤ p → p < K → a.get p = kcnt part.get b p nnd) := by
  refine Holds_forUp (fun v (a : Arr Int) => a.lo = 0 ∧ a.hi = K ∧ ∀ p, 0 ≤ p → p < K → a.get p = kcnt part.get b p v) hb ?_ ?_ (fun a ha => ha)
  · exact ⟨rfl, rfl, fun p _ _ => by unfold kcnt; rw [sumI_empty (Int.le_refl b)]; rfl⟩
  · rintro v a v1 v2 ⟨a1, a2, a3⟩
    have hv := hp v v1 v2
    rw [Arr.rd_ok _ (by omega) (by omega), ok_bind, Arr.rd_ok _ (by omega) (by omega), ok_bind, Arr.wr_ok _ _ (by omega) (by omega), Holds_ok]
    refine ⟨a1, a2, ?_⟩
    intro p p1 p2
    rw [kcnt_succ v1, Arr.set_get]
    by_cases he : p = part.get v
    · rw [if_pos he, if_pos he.symm, he, a3 _ hv.1 hv.2]
    · rw [if_neg he, if_neg (fun hx => he hx.symm), a3 p p1 p2]; omega

theorem kpBlocks_holds {cnt : Arr Int} {c : Int → Int} {ordenum : Int} (hK : 0 ≤ K) (h1 : cnt.lo = 0) (h2 : cnt.hi = K) (hc : ∀ p, 0 ≤ p → p < K → cnt.get p = c p) (hc0 : ∀ p, 0 ≤ c p) :
    Holds (forUp 0 K (cnt, ordenum, []) (kpBlock K)) (fun s => s.1.lo = 0 ∧ s.1.hi = K ∧ (∀ p, 0 ≤ p → p < K → s.1.get p = ordenum + sumI 0 p c) ∧
      (∀ x ∈ s.2.2, 1 ≤ x) ∧ s.2.2.sum = sumI 0 K c) := by
  refine Holds_forUp (fun p (s : Arr Int × Int × List Int) => s.1.lo = 0 ∧ s.1.hi = K ∧ (∀ q, 0 ≤ q → q < p → s.1.get q = ordenum + sumI 0 q c) ∧ (∀ q, p ≤ q → q < K → s.1.get q = c q) ∧
    s.2.1 = ordenum + sumI 0 p c ∧ (∀ x ∈ s.2.2, 1 ≤ x) ∧ s.2.2.sum = sumI 0 p c ∧ (s.2.2.length : Int) ≤ p) hK ?_ ?_ ?_
  · refine ⟨h1, h2, fun q q1 q2 => by omega, hc, ?_, (fun x hx => by cases hx), ?_, Int.le_refl _⟩
    · rw [sumI_empty (Int.le_refl 0)]; dsimp only; omega
    · rw [sumI_empty (Int.le_refl 0)]; rfl
  · rintro p ⟨a, adj, l⟩ p1 p2 ⟨a1, a2, a3, a4, a5, a6, a7, a8⟩
    dsimp only at a1 a2 a3 a4 a5 a6 a7 a8
    have hs := sumI_succ p1 c
    unfold kpBlock
    dsimp only
    rw [Arr.rd_ok _ (by omega) (by omega), ok_bind, Arr.wr_ok _ _ (by omega) (by omega), ok_bind, a4 p (Int.le_refl _) p2]
    have b3 : ∀ q, 0 ≤ q → q < p + 1 → (a.set p adj).get q = ordenum + sumI 0 q c := by
      intro q q1 q2
      by_cases hq : q = p
      · rw [hq, Arr.set_get_same, a5]
      · rw [Arr.set_get_ne _ _ hq]; exact a3 q q1 (by omega)
    have b4 : ∀ q, p + 1 ≤ q → q < K → (a.set p adj).get q = c q := by
      intro q q1 q2
      rw [Arr.set_get_ne _ _ (by omega)]; exact a4 q (by omega) q2
    by_cases hz : c p ≠ 0
    · rw [if_pos hz, if_pos (by omega), Holds_pure]
      refine ⟨a1, a2, b3, b4, by dsimp only; omega, ?_, ?_, ?_⟩
      · intro x hx
        dsimp only at hx
        rw [List.mem_append, List.mem_singleton] at hx
        rcases hx with hx | hx
        · exact a6 x hx
        · have := hc0 p; omega
      · dsimp only
        rw [List.sum_append, List.sum_singleton]; omega
      · dsimp only
        rw [List.length_append, List.length_singleton]; omega
    · rw [if_neg hz, Holds_pure]
      refine ⟨a1, a2, b3, b4, by dsimp only; omega, a6, ?_, ?_⟩
      · dsimp only; omega
      · dsimp only; omega
  · rintro ⟨a, adj, l⟩ ⟨a1, a2, a3, a4, a5, a6, a7, a8⟩
    exact ⟨a1, a2, a3, a6, a7⟩

theorem kpVerts_holds {part tab peri : Arr Int} {ordenum : Int} (hc : HCons h) (ha : HAlloc h) (h1 : part.lo ≤ h.s.baseval) (h2 : h.vnohnnd ≤ part.hi)
    (hp : ∀ v, h.s.baseval ≤ v → v < h.vnohnnd → 0 ≤ part.get v ∧ part.get v < K) (t1 : tab.lo = 0) (t2 : tab.hi = K)
    (ht : ∀ p, 0 ≤ p → p < K → tab.get p = ordenum + kstart part.get h.s.baseval h.vnohnnd p) (q1 : peri.lo ≤ ordenum) (q2 : ordenum + h.vnohnbr ≤ peri.hi) :
    Holds (forUp h.s.baseval h.vnohnnd (tab, peri) (kpVert h part)) (fun s => (s.2.lo = peri.lo ∧ s.2.hi = peri.hi) ∧
      (∀ i, (i < ordenum ∨ ordenum + h.vnohnbr ≤ i) → s.2.get i = peri.get i) ∧
      ∀ v, h.s.baseval ≤ v → v < h.vnohnnd → s.2.get (ordenum + kpos part.get h.s.baseval h.vnohnnd v) = onum h.s v) := by
  have hnn : h.vnohnnd = h.s.baseval + h.vnohnbr := hc.part.vertnnd
  have hn0 := hc.nbr.1
  refine Holds_forUp (fun v (s : Arr Int × Arr Int) => s.1.lo = 0 ∧ s.1.hi = K ∧ (∀ p, 0 ≤ p → p < K → s.1.get p = ordenum + kstart part.get h.s.baseval h.vnohnnd p + kcnt part.get h.s.baseval p v) ∧
    (s.2.lo = peri.lo ∧ s.2.hi = peri.hi) ∧ (∀ i, (i < ordenum ∨ ordenum + h.vnohnbr ≤ i) → s.2.get i = peri.get i) ∧
      ∀ u, h.s.baseval ≤ u → u < v → s.2.get (ordenum + kpos part.get h.s.baseval h.vnohnnd u) = onum h.s u) (by omega) ?_ ?_ ?_
  · refine ⟨t1, t2, ?_, ⟨rfl, rfl⟩, fun i _ => rfl, fun u u1 u2 => by omega⟩
    intro p p1 p2
    unfold kcnt
    rw [sumI_empty (Int.le_refl _), ht p p1 p2]; omega
  · rintro v ⟨a, q⟩ v1 v2 ⟨a1, a2, a3, ⟨b1, b2⟩, a5, a6⟩
    dsimp only at a1 a2 a3 b1 b2 a5 a6
    obtain ⟨f1, f2⟩ := hp v v1 v2
    have hr := kpos_range (f := part.get) (by omega : h.s.baseval ≤ h.vnohnnd) hp v1 v2
    have hi : a.get (part.get v) = ordenum + kpos part.get h.s.baseval h.vnohnnd v := by
      rw [a3 _ f1 f2]; unfold kpos; omega
    unfold kpVert
    dsimp only
    rw [Arr.rd_ok _ (by omega) (by omega), ok_bind, Arr.rd_ok _ (by omega) (by omega), ok_bind, rdOnum_eq ha.whole (vertex_of_unhalo hc ⟨v1, v2⟩), ok_bind, hi,
      Arr.wr_ok _ _ (by omega) (by omega), ok_bind, Arr.wr_ok _ _ (by omega) (by omega), ok_bind, Holds_pure]
    refine ⟨a1, a2, ?_, ⟨b1, b2⟩, ?_, ?_⟩
    · intro p p1 p2
      dsimp only
      rw [kcnt_succ v1, Arr.set_get]
      by_cases he : p = part.get v
      · rw [if_pos he, if_pos he.symm, he]; unfold kpos; omega
      · rw [if_neg he, if_neg (fun hx => he hx.symm), a3 p p1 p2]; omega
    · intro i hi'
      dsimp only
      rw [Arr.set_get_ne _ _ (by omega)]
      exact a5 i hi'
    · intro u u1 u2
      dsimp only
      by_cases hu : u = v
      · rw [hu, Arr.set_get_same]
      · rw [Arr.set_get_ne]
        · exact a6 u u1 (by omega)
        · intro he
          exact hu (kpos_inj hp u1 (by omega) v1 v2 (by omega))
  · rintro ⟨a, q⟩ ⟨_, _, _, a4, a5, a6⟩
    exact ⟨a4, a5, a6⟩

theorem orderKp_orders {cls : Graph → Prop} {tot sure : Bool} (top : Bool) (partsiz : Int) {part : Parter} (hpt : PartOk cls tot sure part) : Orders cls tot sure top (orderKp partsiz part) := by
  intro h ordenum o hc ha hb hn h1 h2 ht hcls
  have hnn : h.vnohnnd = h.s.baseval + h.vnohnbr := hc.part.vertnnd
  unfold orderKp
  by_cases hsm : partsiz < 1 ∨ h.vnohnbr.tdiv partsiz ≤ 1
  · rw [if_pos hsm]
    exact orderSi_orders cls tot sure top h ordenum o hc ha hb hn h1 h2 ht hcls
  rw [if_neg hsm]
  have hk : h.vnohnbr.tdiv partsiz ≤ h.vnohnbr := by
    rw [Int.tdiv_eq_ediv_of_nonneg (by omega)]
    exact Int.ediv_le_self _ (by omega)
  have hk2 : 2 ≤ h.vnohnbr.tdiv partsiz := by omega
  generalize h.vnohnbr.tdiv partsiz = K at hk hk2
  have hgc : ({ unhalo h with vnumtax := none } : Graph).Consistent := by
    have := hc.part
    exact ⟨this.vertnbr, this.vertnnd, this.range, this.inside, this.symm, this.simple, this.edgenbr, this.velo, this.velosum, this.edlo, this.edlosum, this.degrmax⟩
  have hga : ({ unhalo h with vnumtax := none } : Graph).Allocated := by
    have := ha.part
    exact ⟨this.vlo, this.vhi, this.vhi', this.ends, this.velo, (fun a h => by cases h), (fun a h => by cases h), this.edge, this.edlo⟩
  dsimp only
  rw [Meets_bind]
  refine Meets.mono (hpt o.tick _ K hgc hga hk2 hk ⟨(unhalo h).vnumtax, hcls⟩) ?_
  rintro r ⟨hs, hr⟩
  cases r with
  | none =>
    dsimp only
    rw [Meets_pure]
    exact ⟨fun hx => absurd rfl (hs hx), fun hx => by dsimp only at hx; omega⟩
  | some part =>
    obtain ⟨p1, p2, p3⟩ := hr part rfl
    replace p1 : part.lo ≤ h.s.baseval := p1
    replace p2 : h.vnohnnd ≤ part.hi := p2
    replace p3 : ∀ v, h.s.baseval ≤ v → v < h.vnohnnd → 0 ≤ part.get v ∧ part.get v < K := fun v v1 v2 => p3 v ⟨v1, v2⟩
    dsimp only
    refine Meets.of_holds ?_
    rw [Holds_bind]
    refine (kpCount_holds (by omega) p1 p2 p3).mono ?_
    rintro cnt ⟨c1, c2, c3⟩
    rw [Holds_bind]
    refine (kpBlocks_holds (ordenum := ordenum) (by omega) c1 c2 c3 (fun p => kcnt_nonneg)).mono ?_
    rintro ⟨tab, adj, sizes⟩ ⟨d1, d2, d3, d4, d5⟩
    dsimp only at d1 d2 d3 d4 d5 ⊢
    rw [Holds_bind]
    refine (kpVerts_holds hc ha p1 p2 p3 d1 d2 d3 h1 h2).mono ?_
    rintro ⟨tab', peri⟩ ⟨e1, e2, e3⟩
    dsimp only at e1 e2 e3 ⊢
    rw [Holds_pure]
    have hall : kstart part.get h.s.baseval h.vnohnnd K = h.vnohnbr := by
      rw [kstart_all (by omega) p3]; omega
    obtain ⟨π, hπ⟩ := exists_inverse (b := h.s.baseval) (n := h.vnohnbr) (pos := kpos part.get h.s.baseval h.vnohnnd)
      (fun v v1 v2 => by have := kpos_range (f := part.get) (by omega : h.s.baseval ≤ h.vnohnnd) p3 v1 (by omega); omega)
      (fun u v u1 u2 v1 v2 he => kpos_inj p3 u1 (by omega) v1 (by omega) he)
    refine ⟨fun _ => rfl, fun _ => ⟨π, ?_⟩⟩
    refine placed_flat hn e1 e2 ?_ ?_ ?_ d4 (d5.trans hall) rfl rfl
    · intro i i1 i2
      have := (hπ i i1 i2).1
      exact ⟨this.1, by show _ < h.vnohnnd; omega⟩
    · intro i j i1 i2 j1 j2 he
      have a := (hπ i i1 i2).2
      rw [he, (hπ j j1 j2).2] at a
      exact a.symm
    · intro i i1 i2
      obtain ⟨⟨a, a'⟩, c⟩ := hπ i i1 i2
      have := e3 (π i) a (by omega)
      rw [c] at this
      exact this

/-! ## `hgraphOrderBl` -/

theorem dataSizes_holds {n p : Int} (hp : 1 ≤ p) (hle : p ≤ n) :
    ∃ l : List Int, ((List.range p.toNat).mapM fun k => Rand.dataSize n p (k : Nat)) = .ok l ∧ (l.length : Int) = p ∧ (∀ x ∈ l, 1 ≤ x) ∧ l.sum = n := by
  obtain ⟨size, start, h1, h2, h3, h4, h5, h6, _⟩ := C05_distribution n p (by omega) (by omega)
  refine ⟨(List.range p.toNat).map (fun k => size (k : Nat)), ?_, ?_, ?_, ?_⟩
  · apply mapM_ok
    intro i hi
    rw [List.mem_range] at hi
    exact h1 i (by omega) (by omega)
  · rw [List.length_map, List.length_range]; omega
  · intro x hx
    rw [List.mem_map] at hx
    obtain ⟨i, hi, rfl⟩ := hx
    rw [List.mem_range] at hi
    have := h1 i (by omega) (by omega)
    unfold Rand.dataSize Rand.cdiv at this
    rw [if_neg (by omega), Int.tdiv_eq_ediv_of_nonneg (by omega)] at this
    injection this with this
    rw [← this]
    exact (Int.le_ediv_iff_mul_le (by omega)).2 (by omega)
  · have key : ∀ k : Nat, (k : Int) ≤ p → ((List.range k).map (fun k => size (k : Nat))).sum = start k := by
      intro k
      induction k with
      | zero => intro _; exact h3.symm
      | succ k ih =>
        intro hk
        rw [List.range_succ, List.map_append, List.sum_append, ih (by omega), List.map_singleton, List.sum_singleton]
        have := h5 k (by omega) (by omega)
        push_cast
        exact this.symm
    rw [key _ (by omega), show ((p.toNat : Nat) : Int) = p by omega, h4]

theorem orderBl_orders {cls : Graph → Prop} {tot sure top : Bool} {sub : Method} {m : Int} (fuel : Nat) (hm : sure = true → 1 ≤ m) (hs : Orders cls tot sure top sub) (hk : KeepsBlock sub) (hcl : ∀ g, cls g → g.velotax = none) :
    Orders cls tot sure top (orderBl fuel m sub) := by
  intro h ordenum o hc ha hb hn h1 h2 ht hcls
  unfold orderBl blGo
  by_cases hm0 : m ≤ 0
  · rw [if_pos hm0, Meets_pure]
    refine ⟨fun hx => by have := hm hx; omega, fun hx => by dsimp only at hx; omega⟩
  rw [if_neg hm0, Meets_bind]
  refine Meets.mono (Meets.eqn (hs h ordenum o hc ha hb hn h1 h2 ht hcls)) ?_
  rintro ⟨r, o', c⟩ ⟨he, hr1, hr2⟩
  have hce := hk _ _ _ _ _ he
  dsimp only at hce hr1 hr2 ⊢
  by_cases hr : r ≠ 0
  · rw [if_pos hr, Meets_pure]
    exact ⟨fun hx => absurd (hr1 hx) hr, fun hx => by dsimp only at hx; omega⟩
  rw [if_neg hr]
  have hr : r = 0 := by omega
  obtain ⟨π, P⟩ := hr2 hr
  subst hce
  unfold leafBlock
  dsimp only
  by_cases hsm : h.vnohnbr ≤ 1 ∨ h.vnlosum < 2 * m
  · rw [if_pos hsm, Meets_pure]
    exact ⟨fun _ => rfl, fun _ => ⟨π, P⟩⟩
  rw [if_neg hsm]
  have hv : h.s.velotax = none := hcl (unhalo h) hcls
  have hnn : h.vnohnnd = h.s.baseval + h.vnohnbr := hc.part.vertnnd
  have hsum : h.vnlosum = h.vnohnbr := by
    have := hc.part.velosum
    replace this : h.vnlosum = sumI h.s.baseval h.vnohnnd (unhalo h).velo := this
    rw [this, sumI_congr (g := fun _ => 1), sumI_const (by omega)]
    · omega
    · intro i _ _
      unfold Graph.velo
      rw [show (unhalo h).velotax = none from hv]
  have hd : h.vnlosum.tdiv m = h.vnohnbr / m := by rw [hsum, Int.tdiv_eq_ediv_of_nonneg (by omega)]
  have hle : h.vnohnbr / m ≤ h.vnohnbr := Int.ediv_le_self _ (by omega)
  have hge : 1 ≤ h.vnohnbr / m := (Int.le_ediv_iff_mul_le (by omega)).2 (by omega)
  obtain ⟨l, l1, l2, l3, l4⟩ := dataSizes_holds hge hle
  have hbl : blSizes h o'.peritab m = .ok (h.vnohnbr / m, l) := by
    unfold blSizes Rand.cdiv
    rw [if_neg (by omega), hd, ok_bind, hv]
    dsimp only
    rw [show min (h.vnohnbr / m) h.vnohnbr = h.vnohnbr / m by omega, hsum, l1]
    rfl
  rw [hbl]
  show Meets tot (pure _) _
  rw [Meets_pure]
  refine ⟨fun _ => rfl, fun _ => ⟨π, ?_⟩⟩
  dsimp only
  rw [← l2]
  have t := P.tree
  have k := P.cblk
  unfold leafBlock nodes at t
  unfold leafBlock width leaves at k
  rw [List.length_singleton] at k
  refine placed_flat hn P.bnd P.frame P.vertex P.inj P.peri l3 l4 ?_ ?_
  · dsimp only; omega
  · dsimp only; omega

end Scotch.HOrder
