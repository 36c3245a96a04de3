import Verif.Band.SpecDiam
import Verif.Graph.Weight
import Verif.Bipart.Spec

/-! # Pseudo-diameter: proofs -/

set_option autoImplicit false
set_option linter.unusedSimpArgs false

namespace Scotch.Diam
open Graph
variable {g : Graph} {K r : Int}

theorem load_nonneg (hc : ConsE g) {v : Int} (hv : g.Vertex v) : 0 ≤ load g v ∧ load g v ≤ g.velo v := by
  have := hc.velo v hv
  unfold load
  unfold velo at *
  split
  · rename_i h; rw [h] at this ⊢; exact ⟨Int.le_refl _, (by dsimp only; omega)⟩
  · rename_i a h; rw [h] at this ⊢; exact ⟨this, Int.le_refl _⟩

theorem Walk.arc {u d e : Int} (h : Walk g r u d) (h1 : g.vert u ≤ e) (h2 : e < g.vend u) : Walk g r (g.dest e) (d + load g u + g.edlo e) :=
  Walk.snoc (p := (g.dest e, g.edlo e)) h (nbrs_mk g u h1 h2)

theorem walk_ind {P : Int → Int → Prop} (h0 : P r 0) (h1 : ∀ u d e, Walk g r u d → P u d → g.vert u ≤ e → e < g.vend u → P (g.dest e) (d + load g u + g.edlo e))
    {v d : Int} (h : Walk g r v d) : P v d := by
  induction h with
  | nil => exact h0
  | snoc hw hp ih =>
    obtain ⟨e, k1, k2, k3, k4⟩ := (mem_nbrs g _ _).1 hp
    have := h1 _ _ e hw ih k1 k2
    rw [k3, k4] at this
    exact this

theorem walk_vertex (hc : ConsE g) (hr : g.Vertex r) {v d : Int} (h : Walk g r v d) : g.Vertex v ∧ 0 ≤ d := by
  refine walk_ind (P := fun v d => g.Vertex v ∧ 0 ≤ d) ⟨hr, Int.le_refl _⟩ ?_ h
  rintro u d e _ ⟨i1, i2⟩ k1 k2
  have := (load_nonneg hc i1).1
  have := hc.edlo u e i1 k1 k2
  exact ⟨(hc.inside u e i1 k1 k2).1, by omega⟩

theorem walk_trans {u v d d' : Int} (h : Walk g r u d) (h' : Walk g u v d') : Walk g r v (d + d') := by
  refine walk_ind (P := fun v d' => Walk g r v (d + d')) (by rw [Int.add_zero]; exact h) ?_ h'
  intro x y e _ i k1 k2
  have := i.arc k1 k2
  rw [show d + y + load g x + g.edlo e = d + (y + load g x + g.edlo e) by omega] at this
  exact this

theorem walk_symm (hc : ConsE g) (hr : g.Vertex r) {v d : Int} (h : Walk g r v d) : ∃ d', Walk g v r d' := by
  have : g.Vertex v ∧ ∃ d', Walk g v r d' := by
    refine walk_ind (P := fun v _ => g.Vertex v ∧ ∃ d', Walk g v r d') ⟨hr, 0, .nil⟩ ?_ h
    rintro u d e _ ⟨i1, d', i2⟩ k1 k2
    obtain ⟨e', a1, a2, a3, a4⟩ := hc.symm u e i1 k1 k2
    have hx := (Walk.nil (g := g) (r := g.dest e)).arc a1 a2
    rw [a3] at hx
    exact ⟨(hc.inside u e i1 k1 k2).1, _, walk_trans hx i2⟩
  exact this.2

/-- Cost of a vertex and of its arcs. -/
def cost (g : Graph) (v : Int) : Int := load g v + sumI (g.vert v) (g.vend v) g.edlo

/-- Cost of the vertices whose distances are known. -/
def known (g : Graph) (dist : Int → Int) : Int := Bipart.over g dist (-1) (cost g)

theorem cost_nonneg (hc : ConsE g) {v : Int} (hv : g.Vertex v) : 0 ≤ cost g v := by
  have := (load_nonneg hc hv).1
  have : 0 ≤ sumI (g.vert v) (g.vend v) g.edlo := sumI_nonneg fun e h1 h2 => hc.edlo v e hv h1 h2
  unfold cost; omega

theorem edlo_le (hc : ConsE g) {v e : Int} (hv : g.Vertex v) (h1 : g.vert v ≤ e) (h2 : e < g.vend v) : load g v + g.edlo e ≤ cost g v := by
  unfold cost
  rw [sumI_split (show g.vert v ≤ e + 1 by omega) (show e + 1 ≤ g.vend v by omega), sumI_succ h1]
  have a1 : 0 ≤ sumI (g.vert v) e g.edlo := sumI_nonneg fun i k1 k2 => hc.edlo v i hv k1 (by omega)
  have a2 : 0 ≤ sumI (e + 1) (g.vend v) g.edlo := sumI_nonneg fun i k1 k2 => hc.edlo v i hv (by omega) k2
  omega

theorem known_le (hc : ConsE g) (dist : Int → Int) : known g dist ≤ g.velosum + g.edlosum := by
  rw [hc.velosum, hc.edlosum, ← sumI_add_dist]
  apply sumI_mono
  intro v h1 h2
  have := cost_nonneg hc ⟨h1, h2⟩
  have := (load_nonneg hc (v := v) ⟨h1, h2⟩).2
  split
  · unfold cost; omega
  · unfold cost at *
    have : 0 ≤ sumI (g.vert v) (g.vend v) g.edlo := sumI_nonneg fun e k1 k2 => hc.edlo v e ⟨h1, h2⟩ k1 k2
    have := hc.velo v ⟨h1, h2⟩
    omega

/-- State of a sweep, except for the arcs that are `todo`. `D` gives the distances that are known. -/
structure Inv (g : Graph) (K r : Int) (todo : Int → Int → Prop) (D : Int → Int) (s : Sw) : Prop where
  bnd : s.dist.lo = g.baseval ∧ s.dist.hi = g.vertnnd
  mem : ∀ v, v ∈ s.heap ↔ g.Vertex v ∧ 0 ≤ s.dist.get v ∧ s.dist.get v < K
  vals : ∀ v, g.Vertex v → s.dist.get v = -1 ∨ (0 ≤ s.dist.get v ∧ s.dist.get v ≤ K)
  walk : ∀ v, v ∈ s.heap → Walk g r v (s.dist.get v) ∧ s.dist.get v ≤ known g s.dist.get
  opt : ∀ v, g.Vertex v → s.dist.get v = -1 → Dist g r v (D v)
  edge : ∀ v i, g.Vertex v → s.dist.get v = -1 → g.vert v ≤ i → i < g.vend v → ¬ todo v i →
    s.dist.get (g.dest i) = -1 ∨ s.dist.get (g.dest i) ≤ D v + load g v + g.edlo i
  root : s.dist.get r = -1 ∨ s.dist.get r = 0

theorem addChk_ok {a b : Int} (h1 : 0 ≤ a) (h2 : 0 ≤ b) (h3 : a + b ≤ K) : addChk K a b = .ok (a + b) := by
  unfold addChk
  rw [if_pos (by omega)]

theorem relax_arcs (hc : ConsE g) (ha : Allocated g) (hK : g.velosum + g.edlosum < K) (hr : g.Vertex r) {D : Int → Int} {s : Sw} {v d : Int} (hv : g.Vertex v)
    (hd : s.dist.get v = -1) (hD : d = D v + load g v) (hbd : D v + cost g v ≤ known g s.dist.get) (h : Inv g K r (fun u _ => u = v) D s) :
    Holds (g.forArcs v s (relax g K d)) (fun t => Inv g K r (fun _ _ => False) D t ∧ (∀ u, t.dist.get u = -1 ↔ s.dist.get u = -1) ∧
      t.vertnbr = s.vertnbr ∧ t.diammax = s.diammax ∧ t.rootnum = s.rootnum) := by
  refine Holds_forArcs ha hv (hc.range v hv).2 (fun e t => Inv g K r (fun u i => u = v ∧ e ≤ i) D t ∧ (∀ u, t.dist.get u = -1 ↔ s.dist.get u = -1) ∧
    t.vertnbr = s.vertnbr ∧ t.diammax = s.diammax ∧ t.rootnum = s.rootnum) ?_ ?_ ?_
  · obtain ⟨h1, h2, h3, h4, h5, h6, h7⟩ := h
    refine ⟨⟨h1, h2, h3, h4, h5, ?_, h7⟩, fun _ => Iff.rfl, rfl, rfl, rfl⟩
    intro u i k1 k2 k3 k4 k5
    refine h6 u i k1 k2 k3 k4 ?_
    rintro rfl
    exact k5 ⟨rfl, k3⟩
  · rintro e t k1 k2 ⟨i1, i2, i3, i4, i5⟩
    have hin := hc.inside v e hv k1 k2
    have hdv : Dist g r v (D v) := i1.opt v hv ((i2 v).2 hd)
    have hD0 := (walk_vertex hc hr hdv.1).2
    have hl := (load_nonneg hc hv).1
    have he := hc.edlo v e hv k1 k2
    have hle := edlo_le hc hv k1 k2
    have hkn : known g t.dist.get = known g s.dist.get := by
      apply sumI_congr
      intro u _ _
      by_cases hu : s.dist.get u = -1
      · rw [if_pos hu, if_pos ((i2 u).2 hu)]
      · rw [if_neg hu, if_neg (fun h => hu ((i2 u).1 h))]
    have hkle := known_le hc t.dist.get
    have hwk : Walk g r (g.dest e) (d + g.edlo e) := by rw [hD]; exact hdv.1.arc k1 k2
    unfold relax
    rw [rdEdlo_eq ha hv k1 k2, ok_bind, addChk_ok (by omega) he (by omega), ok_bind]
    generalize hx : g.dest e = x at hin hwk
    have x1 := hin.1.1
    have x2 := hin.1.2
    have hb := i1.bnd
    rw [Arr.rd_ok _ (by omega) (by omega), ok_bind]
    have hvx := i1.vals x hin.1
    by_cases hlt : d + g.edlo e < t.dist.get x
    · rw [if_pos hlt, Arr.wr_ok _ _ (by omega) (by omega), ok_bind]
      have hkn2 : ∀ u, (t.dist.set x (d + g.edlo e)).get u = -1 ↔ t.dist.get u = -1 := by
        intro u
        rw [Arr.set_get]
        split
        · rename_i hu; rw [hu]; omega
        · exact Iff.rfl
      have hkn3 : known g (t.dist.set x (d + g.edlo e)).get = known g t.dist.get := by
        apply sumI_congr
        intro u _ _
        by_cases hu : t.dist.get u = -1
        · rw [if_pos hu, if_pos ((hkn2 u).2 hu)]
        · rw [if_neg hu, if_neg (fun h => hu ((hkn2 u).1 h))]
      have key : ∀ heap : List Int, (∀ u, u ∈ heap ↔ u ∈ t.heap ∨ u = x) →
          Inv g K r (fun u i => u = v ∧ e + 1 ≤ i) D { t with dist := t.dist.set x (d + g.edlo e), heap := heap } ∧
          (∀ u, (t.dist.set x (d + g.edlo e)).get u = -1 ↔ s.dist.get u = -1) ∧ t.vertnbr = s.vertnbr ∧ t.diammax = s.diammax ∧ t.rootnum = s.rootnum := by
        intro heap hm
        refine ⟨⟨hb, ?_, ?_, ?_, ?_, ?_, ?_⟩, fun u => (hkn2 u).trans (i2 u), i3, i4, i5⟩
        · intro u
          dsimp only
          rw [hm, i1.mem, Arr.set_get]
          by_cases hu : u = x
          · rw [if_pos hu, hu]; exact ⟨fun _ => ⟨hin.1, by omega, by omega⟩, fun _ => Or.inr rfl⟩
          · rw [if_neg hu]; exact ⟨fun h => h.resolve_right hu, Or.inl⟩
        · intro u hu
          dsimp only
          rw [Arr.set_get]
          split
          · right; omega
          · exact i1.vals u hu
        · intro u hu
          dsimp only at hu ⊢
          rw [hkn3, Arr.set_get]
          split
          · rename_i hux
            rw [hux]
            exact ⟨hwk, by omega⟩
          · rename_i hux
            rw [hm] at hu
            exact i1.walk u (hu.resolve_right hux)
        · intro u hu h1
          dsimp only at h1
          exact i1.opt u hu ((hkn2 u).1 h1)
        · intro u i u1 u2 u3 u4 u5
          dsimp only at u2 ⊢
          rw [hkn2] at u2 ⊢
          rw [Arr.set_get]
          split
          · rename_i hux
            by_cases hcur : u = v ∧ i = e
            · right; rw [hcur.1, hcur.2]; omega
            · have := i1.edge u i u1 u2 u3 u4 (fun h => u5 ⟨h.1, by
                have : i ≠ e := fun hi => hcur ⟨h.1, hi⟩
                omega⟩)
              rw [hux] at this
              rcases this with h | h
              · left; rw [hux]; exact h
              · right; omega
          · rename_i hux
            refine i1.edge u i u1 u2 u3 u4 (fun h => u5 ⟨h.1, ?_⟩)
            have : i ≠ e := by
              rintro rfl
              exact hux hx
            omega
        · dsimp only
          rw [Arr.set_get]
          split
          · rename_i hrx
            right
            have := i1.root
            rw [hrx] at this
            omega
          · exact i1.root
      by_cases hmax : t.dist.get x = K
      · rw [if_pos hmax]
        unfold heapAdd
        have hnot : x ∉ t.heap := by rw [i1.mem]; rintro ⟨_, _, h⟩; omega
        rw [if_neg hnot, Holds_pure]
        exact key _ (fun u => by rw [List.mem_cons]; exact Or.comm)
      · rw [if_neg hmax]
        unfold heapDecrease
        have hin' : x ∈ t.heap := by rw [i1.mem]; exact ⟨hin.1, by omega, by omega⟩
        rw [if_pos hin', Holds_pure]
        exact key _ (fun u => ⟨Or.inl, fun h => h.elim id (fun h => h ▸ hin')⟩)
    · rw [if_neg hlt, Holds_pure]
      obtain ⟨h1, h2, h3, h4, h5, h6, h7⟩ := i1
      refine ⟨⟨h1, h2, h3, h4, h5, ?_, h7⟩, i2, i3, i4, i5⟩
      intro u i u1 u2 u3 u4 u5
      by_cases hcur : u = v ∧ i = e
      · rw [hcur.1, hcur.2, hx]; right; omega
      · refine h6 u i u1 u2 u3 u4 (fun h => u5 ⟨h.1, ?_⟩)
        have : i ≠ e := fun hi => hcur ⟨h.1, hi⟩
        omega
  · rintro t ⟨i1, i2, i3, i4, i5⟩
    obtain ⟨h1, h2, h3, h4, h5, h6, h7⟩ := i1
    refine ⟨⟨h1, h2, h3, h4, h5, ?_, h7⟩, i2, i3, i4, i5⟩
    intro u i u1 u2 u3 u4 _
    refine h6 u i u1 u2 u3 u4 ?_
    rintro ⟨rfl, h⟩
    omega

theorem exists_min (f : Int → Int) : ∀ l : List Int, l ≠ [] → ∃ x ∈ l, ∀ y ∈ l, f x ≤ f y := by
  intro l
  induction l with
  | nil => intro h; exact absurd rfl h
  | cons a l ih =>
    intro _
    by_cases hl : l = []
    · rw [hl]; exact ⟨a, List.mem_cons_self .., fun y hy => by rw [List.mem_singleton] at hy; rw [hy]⟩
    · obtain ⟨x, hx, hm⟩ := ih hl
      by_cases h : f a ≤ f x
      · refine ⟨a, List.mem_cons_self .., ?_⟩
        intro y hy
        rcases List.mem_cons.1 hy with rfl | hy
        · exact Int.le_refl _
        · have := hm y hy; omega
      · refine ⟨x, List.mem_cons_of_mem _ hx, ?_⟩
        intro y hy
        rcases List.mem_cons.1 hy with rfl | hy
        · omega
        · exact hm y hy

theorem heapMin_spec (pick : Nat → Int) (s : Sw) :
    (heapMin pick s = none ∧ s.heap = []) ∨ ∃ v, heapMin pick s = some v ∧ v ∈ s.heap ∧ ∀ y ∈ s.heap, s.dist.get v ≤ s.dist.get y := by
  have hmin : ∀ x, minimal s.dist s.heap x = true ↔ ∀ y ∈ s.heap, s.dist.get x ≤ s.dist.get y := by
    intro x
    unfold minimal
    rw [List.all_eq_true]
    exact ⟨fun h y hy => of_decide_eq_true (h y hy), fun h y hy => decide_eq_true (h y hy)⟩
  unfold heapMin
  by_cases h : pick s.tick ∈ s.heap ∧ minimal s.dist s.heap (pick s.tick) = true
  · rw [if_pos h]
    exact Or.inr ⟨_, rfl, h.1, (hmin _).1 h.2⟩
  · rw [if_neg h]
    cases hf : s.heap.find? (minimal s.dist s.heap) with
    | none =>
      left
      refine ⟨rfl, Classical.byContradiction fun hne => ?_⟩
      obtain ⟨x, hx, hm⟩ := exists_min s.dist.get s.heap hne
      exact List.find?_eq_none.1 hf x hx ((hmin x).2 hm)
    | some v => exact Or.inr ⟨v, rfl, List.mem_of_find?_eq_some hf, (hmin v).1 (List.find?_some hf)⟩

/-- The vertex of smallest key is at this distance. -/
theorem Inv.settle (hc : ConsE g) (hr : g.Vertex r) {D : Int → Int} {s : Sw} (hK : 0 < K) (h : Inv g K r (fun _ _ => False) D s) {v : Int} (hv : v ∈ s.heap)
    (hm : ∀ y ∈ s.heap, s.dist.get v ≤ s.dist.get y) : Dist g r v (s.dist.get v) := by
  refine ⟨(h.walk v hv).1, ?_⟩
  intro d' hd'
  have hvv := (h.mem v).1 hv
  have key : (s.dist.get v = -1 → True) ∧ g.Vertex v ∧ (s.dist.get v ≠ -1 → s.dist.get v ≤ d') := by
    have := walk_ind (g := g) (r := r) (P := fun x d' => (s.dist.get x = -1 → D x ≤ d') ∧ g.Vertex x ∧ 0 ≤ d' ∧ (s.dist.get x ≠ -1 → s.dist.get v ≤ d')) ?_ ?_ hd'
    · exact ⟨fun _ => trivial, this.2.1, this.2.2.2⟩
    · refine ⟨fun h1 => (h.opt r hr h1).2 0 .nil, hr, Int.le_refl _, fun h1 => ?_⟩
      have h0 := h.root.resolve_left h1
      have := hm r ((h.mem r).2 ⟨hr, by omega, by omega⟩)
      omega
    · rintro u d e hw ⟨i1, i2, i3, i4⟩ k1 k2
      have hin := hc.inside u e i2 k1 k2
      have hl := (load_nonneg hc i2).1
      have he := hc.edlo u e i2 k1 k2
      refine ⟨fun h1 => (h.opt _ hin.1 h1).2 _ (hw.arc k1 k2), hin.1, by omega, fun h1 => ?_⟩
      by_cases hu : s.dist.get u = -1
      · have h2 := (h.edge u e i2 hu k1 k2 id).resolve_left h1
        have h3 := i1 hu
        rcases h.vals _ hin.1 with h4 | h4
        · exact absurd h4 h1
        · by_cases h5 : s.dist.get (g.dest e) < K
          · have := hm _ ((h.mem _).2 ⟨hin.1, h4.1, h5⟩)
            omega
          · omega
      · have := i4 hu
        omega
  exact key.2.2 (by omega)

/-- Number of vertices whose distances are known. -/
def cnt (g : Graph) (s : Sw) : Int := Bipart.over g s.dist.get (-1) (fun _ => 1)

theorem over_mark {p q : Int → Int} {v : Int} (hv : g.Vertex v) (h1 : q v = -1) (h2 : p v ≠ -1) (h3 : ∀ u, u ≠ v → (q u = -1 ↔ p u = -1)) (f : Int → Int) :
    Bipart.over g q (-1) f = Bipart.over g p (-1) f + f v := by
  unfold Bipart.over
  rw [sumI_congr (g := fun u => if u = v then f v else (if p u = -1 then f u else 0)), sumI_update hv.1 hv.2, if_neg h2]
  · omega
  · intro u _ _
    by_cases hu : u = v
    · rw [if_pos hu, hu, if_pos h1]
    · rw [if_neg hu]
      by_cases hp : p u = -1
      · rw [if_pos hp, if_pos ((h3 u hu).2 hp)]
      · rw [if_neg hp, if_neg (fun h => hp ((h3 u hu).1 h))]

/-- Sweep, with the largest distance so far. -/
structure Full (g : Graph) (K r diamold rootold : Int) (D : Int → Int) (s : Sw) : Prop where
  inv : Inv g K r (fun _ _ => False) D s
  nbr : s.vertnbr = cnt g s
  big : diamold ≤ s.diammax ∧ ∀ v, g.Vertex v → s.dist.get v = -1 → D v ≤ s.diammax
  src : (s.diammax = diamold ∧ s.rootnum = rootold) ∨ (g.Vertex s.rootnum ∧ Dist g r s.rootnum s.diammax)
  sum : 0 ≤ s.diammax ∧ s.diammax < K
  low : ∀ v, g.Vertex v → s.dist.get v = -1 → D v + cost g v ≤ known g s.dist.get

theorem step_holds (hc : ConsE g) (ha : Allocated g) (hK : g.velosum + g.edlosum < K) (hr : g.Vertex r) (pick : Nat → Int) {diamold rootold : Int} {D : Int → Int} {s : Sw}
    (h : Full g K r diamold rootold D s) :
    Holds (step g K pick s) (Loop.Sat (fun t => (∃ D', Full g K r diamold rootold D' t) ∧ cnt g t = cnt g s + 1) (fun t => t = s ∧ s.heap = [])) := by
  have hKs := known_le hc s.dist.get
  have hk0 : 0 ≤ known g s.dist.get := by
    unfold known Bipart.over
    exact sumI_nonneg fun v h1 h2 => by
      split
      · exact cost_nonneg hc ⟨h1, h2⟩
      · exact Int.le_refl _
  unfold step
  rcases heapMin_spec pick s with ⟨e, hh⟩ | ⟨v, e, hv, hm⟩
  · rw [e]
    dsimp only
    rw [Holds_pure]
    exact ⟨rfl, hh⟩
  · rw [e]
    dsimp only
    have hinv := h.inv
    have hvv := (hinv.mem v).1 hv
    have v1 := hvv.1.1
    have v2 := hvv.1.2
    have hb := hinv.bnd
    unfold heapDel
    dsimp only
    rw [if_pos hv, pure_bind]
    dsimp only
    rw [Arr.rd_ok _ (by omega) (by omega), ok_bind, Arr.wr_ok _ _ (by omega) (by omega), ok_bind, Holds_bind]
    have hset := hinv.settle hc hr (by omega) hv hm
    have hl := load_nonneg hc hvv.1
    have hwb := (hinv.walk v hv).2
    have hsetget : ∀ u, (s.dist.set v (-1)).get u = if u = v then -1 else s.dist.get u := fun u => Arr.set_get ..
    have hmark : known g (s.dist.set v (-1)).get = known g s.dist.get + cost g v := by
      refine over_mark hvv.1 (Arr.set_get_same _ _ _) (by omega) (fun u hu => ?_) _
      rw [Arr.set_get_ne _ _ hu]
    have hkle2 := known_le hc (s.dist.set v (-1)).get
    have hcostv : load g v ≤ cost g v := by
      unfold cost
      have : 0 ≤ sumI (g.vert v) (g.vend v) g.edlo := sumI_nonneg fun e k1 k2 => hc.edlo v e hvv.1 k1 k2
      omega
    have hav : Holds (addVelo g K v (s.dist.get v)) (fun d => d = s.dist.get v + load g v) := by
      unfold addVelo load
      cases hvel : g.velotax with
      | none => dsimp only; rw [Holds_pure]; omega
      | some a =>
        dsimp only
        have hrd := rdVelo_eq ha hvv.1
        unfold rdVelo at hrd
        rw [hvel] at hrd
        dsimp only at hrd
        have e1 : g.velo v = load g v := by unfold velo load; rw [hvel]
        rw [hrd, ok_bind, addChk_ok (by omega) (by omega) (by omega), Holds_ok, e1]
        unfold load
        rw [hvel]
    refine hav.mono ?_
    rintro d rfl
    rw [Holds_bind]
    -- distances that are known now
    have hI : Inv g K r (fun u _ => u = v) (fun u => if u = v then s.dist.get v else D u)
        (better v (s.dist.get v) { s with dist := s.dist.set v (-1), heap := s.heap.filter (fun x => decide (x ≠ v)), vertnbr := s.vertnbr + 1, tick := s.tick + 1 }) := by
      have gen : ∀ t : Sw, t.dist = s.dist.set v (-1) → t.heap = s.heap.filter (fun x => decide (x ≠ v)) → Inv g K r (fun u _ => u = v) (fun u => if u = v then s.dist.get v else D u) t := by
        intro t e1 e2
        refine ⟨by rw [e1]; exact hb, ?_, ?_, ?_, ?_, ?_, ?_⟩
        · intro u
          rw [e1, e2, hsetget, List.mem_filter, hinv.mem]
          by_cases hu : u = v
          · simp [hu]
          · simp [hu]
        · intro u hu
          rw [e1, hsetget]
          split
          · exact Or.inl rfl
          · exact hinv.vals u hu
        · intro u hu
          rw [e2, List.mem_filter] at hu
          have hne : u ≠ v := of_decide_eq_true hu.2
          rw [e1, hsetget, if_neg hne]
          have := hinv.walk u hu.1
          have := cost_nonneg hc hvv.1
          exact ⟨(hinv.walk u hu.1).1, by omega⟩
        · intro u hu h1
          rw [e1, hsetget] at h1
          by_cases hne : u = v
          · rw [if_pos hne, hne]; exact hset
          · rw [if_neg hne] at h1 ⊢; exact hinv.opt u hu h1
        · intro u i u1 u2 u3 u4 u5
          rw [e1] at u2 ⊢
          rw [hsetget, if_neg u5] at u2
          rw [hsetget, if_neg u5]
          split
          · exact Or.inl rfl
          · exact hinv.edge u i u1 u2 u3 u4 id
        · rw [e1, hsetget]
          split
          · exact Or.inl rfl
          · exact hinv.root
      unfold better
      split
      · exact gen _ rfl rfl
      · exact gen _ rfl rfl
    have hdist : (better v (s.dist.get v) { s with dist := s.dist.set v (-1), heap := s.heap.filter (fun x => decide (x ≠ v)), vertnbr := s.vertnbr + 1, tick := s.tick + 1 }).dist = s.dist.set v (-1) := by
      unfold better; split <;> rfl
    have hnbr : (better v (s.dist.get v) { s with dist := s.dist.set v (-1), heap := s.heap.filter (fun x => decide (x ≠ v)), vertnbr := s.vertnbr + 1, tick := s.tick + 1 }).vertnbr = s.vertnbr + 1 := by
      unfold better; split <;> rfl
    have hbig : (better v (s.dist.get v) { s with dist := s.dist.set v (-1), heap := s.heap.filter (fun x => decide (x ≠ v)), vertnbr := s.vertnbr + 1, tick := s.tick + 1 }).diammax = s.diammax ∧
        (better v (s.dist.get v) { s with dist := s.dist.set v (-1), heap := s.heap.filter (fun x => decide (x ≠ v)), vertnbr := s.vertnbr + 1, tick := s.tick + 1 }).rootnum = s.rootnum ∧ s.dist.get v ≤ s.diammax ∨
        (better v (s.dist.get v) { s with dist := s.dist.set v (-1), heap := s.heap.filter (fun x => decide (x ≠ v)), vertnbr := s.vertnbr + 1, tick := s.tick + 1 }).diammax = s.dist.get v ∧
        (better v (s.dist.get v) { s with dist := s.dist.set v (-1), heap := s.heap.filter (fun x => decide (x ≠ v)), vertnbr := s.vertnbr + 1, tick := s.tick + 1 }).rootnum = v ∧ s.diammax < s.dist.get v := by
      unfold better
      split
      · rename_i hlt; exact Or.inr ⟨rfl, rfl, hlt⟩
      · rename_i hlt; exact Or.inl ⟨rfl, rfl, by dsimp only at hlt; omega⟩
    generalize better v (s.dist.get v) { s with dist := s.dist.set v (-1), heap := s.heap.filter (fun x => decide (x ≠ v)), vertnbr := s.vertnbr + 1, tick := s.tick + 1 } = s' at hI hdist hnbr hbig ⊢
    have hgv : s'.dist.get v = -1 := by rw [hdist, Arr.set_get_same]
    refine (relax_arcs hc ha hK hr (D := fun u => if u = v then s.dist.get v else D u) hvv.1 hgv (by simp) (by
      rw [hdist, hmark]
      simp
      exact hwb) hI).mono ?_
    rintro t ⟨t1, t2, t3, t4, t5⟩
    rw [Holds_pure]
    have hcnt : cnt g t = cnt g s + 1 := by
      refine over_mark hvv.1 ((t2 v).2 hgv) (by omega) (fun u hu => ?_) _
      rw [t2, hdist, Arr.set_get_ne _ _ hu]
    have hknt : known g t.dist.get = known g s.dist.get + cost g v := by
      refine over_mark hvv.1 ((t2 v).2 hgv) (by omega) (fun u hu => ?_) _
      rw [t2, hdist, Arr.set_get_ne _ _ hu]
    refine ⟨⟨_, t1, ?_, ?_, ?_, ?_, ?_⟩, hcnt⟩
    · rw [hcnt, t3, hnbr, h.nbr]
    · have h1 := h.big
      refine ⟨by omega, ?_⟩
      intro u hu hx
      rw [t2, hdist, hsetget] at hx
      by_cases hne : u = v
      · rw [if_pos hne]; omega
      · rw [if_neg hne] at hx ⊢
        have := h1.2 u hu hx
        omega
    · rcases hbig with ⟨b1, b2, _⟩ | ⟨b1, b2, _⟩
      · rw [t4, t5, b1, b2]; exact h.src
      · rw [t4, t5, b1, b2]; exact Or.inr ⟨hvv.1, hset⟩
    · have := h.sum
      omega
    · intro u hu hx
      rw [t2, hdist, hsetget] at hx
      rw [hknt]
      by_cases hne : u = v
      · rw [if_pos hne, hne]; omega
      · rw [if_neg hne] at hx ⊢
        have := h.low u hu hx
        have := cost_nonneg hc hvv.1
        omega

theorem over_le (hc : ConsE g) (p : Int → Int) : Bipart.over g p (-1) (fun _ => 1) ≤ g.vertnbr := by
  have e : sumI g.baseval g.vertnnd (fun _ => 1) = g.vertnbr := by
    have := hc.vertnnd
    have := hc.vertnbr
    rw [sumI_const (by omega)]
    omega
  rw [← e]
  exact sumI_mono fun _ _ _ => by dsimp only; split <;> omega

/-- When all vertices are marked. -/
theorem over_full (hc : ConsE g) {p : Int → Int} (h : Bipart.over g p (-1) (fun _ => 1) = g.vertnbr) {v : Int} (hv : g.Vertex v) : p v = -1 := by
  refine Classical.byContradiction fun hne => ?_
  have h1 := over_mark (g := g) (p := p) (q := fun u => if u = v then -1 else p u) hv (by simp) hne (fun u hu => by simp [hu]) (fun _ => 1)
  have h2 := over_le hc (fun u => if u = v then -1 else p u)
  omega

/-- What is known of the largest distance so far: it is 0, or the distance of the root of the next sweep to some vertex. -/
def Known (g : Graph) (root diam : Int) : Prop := ∃ r, g.Vertex r ∧ Dist g r root diam ∧ (diam ≠ 0 → ∀ w d, Dist g r w d → d ≤ diam)

theorem dist_self (hc : ConsE g) (hr : g.Vertex r) : Dist g r r 0 := ⟨.nil, fun _ h => (walk_vertex hc hr h).2⟩

theorem diam_holds (hc : ConsE g) (ha : Allocated g) (hK : g.velosum + g.edlosum < K) (pick : Nat → Int) {root : Int} (hroot : 0 < g.vertnbr → 0 ≤ root ∧ root < g.vertnbr) :
    Holds (diamPV g K pick root) (fun d => (g.vertnbr = 0 ∧ d = 0) ∨ (¬ Connected g ∧ d = K) ∨
      (Connected g ∧ ∃ u v, g.Vertex u ∧ g.Vertex v ∧ Dist g u v d ∧ ∀ w d', (Dist g u w d' → d' ≤ d) ∧ (Dist g v w d' → d' ≤ d))) := by
  have hn := hc.vertnbr
  have hnn := hc.vertnnd
  unfold diamPV
  by_cases h0 : g.vertnbr ≤ 0
  · rw [if_pos h0, Holds_pure]; exact Or.inl ⟨by omega, rfl⟩
  rw [if_neg h0]
  have hrt := hroot (by omega)
  have hvs : 0 ≤ g.velosum + g.edlosum := by
    have := known_le hc (fun _ => 0)
    have : known g (fun _ => 0) = 0 := sumI_eq_zero fun v _ _ => if_neg (by dsimp only; omega)
    omega
  refine Holds_loopM (fun (s : Int × Int × Nat) => g.Vertex s.2.1 ∧ 0 ≤ s.1 ∧ s.1 < K ∧ Known g s.2.1 s.1) (fun s => (K - s.1).toNat) ?_ _ _ ?_ (by dsimp only; omega)
  · rintro ⟨diam, r, tick⟩ ⟨i1, i2, i3, i4⟩
    dsimp only at i1 i2 i3 i4
    unfold sweep
    dsimp only
    rw [Holds_bind]
    refine Holds_forUp (fun i (a : Arr Int) => a.lo = g.baseval ∧ a.hi = g.vertnnd ∧ ∀ v, g.baseval ≤ v → v < i → a.get v = K) (by omega) ?_ ?_ ?_
    · exact ⟨rfl, hnn.symm, fun v h1 h2 => by omega⟩
    · rintro i a k1 k2 ⟨a1, a2, a3⟩
      rw [Arr.wr_ok _ _ (by omega) (by omega), Holds_ok]
      refine ⟨a1, a2, fun v v1 v2 => ?_⟩
      rw [Arr.set_get]
      split
      · rfl
      · exact a3 v v1 (by omega)
    · rintro dist ⟨a1, a2, a3⟩
      have r1 := i1.1
      have r2 := i1.2
      rw [Arr.wr_ok _ _ (by omega) (by omega), ok_bind]
      unfold heapAdd
      rw [if_neg (by simp), pure_bind, Holds_bind]
      have hget : ∀ v, g.Vertex v → (dist.set r 0).get v = if v = r then 0 else K := by
        intro v hv
        rw [Arr.set_get]
        split
        · rfl
        · exact a3 v hv.1 hv.2
      have hz : ∀ v, g.Vertex v → (dist.set r 0).get v ≠ -1 := by
        intro v hv
        rw [hget v hv]
        split <;> omega
      have hk0 : ∀ f, Bipart.over g (dist.set r 0).get (-1) f = 0 := fun f => sumI_eq_zero fun v k1 k2 => if_neg (hz v ⟨k1, k2⟩)
      have hF : Full g K r diam r (fun _ => 0) ⟨dist.set r 0, [r], tick, 0, diam, r⟩ := by
        refine ⟨⟨⟨a1, a2⟩, ?_, ?_, ?_, ?_, ?_, ?_⟩, ?_, ⟨Int.le_refl _, ?_⟩, Or.inl ⟨rfl, rfl⟩, ⟨i2, i3⟩, fun v hv h1 => absurd h1 (hz v hv)⟩
        · intro v
          dsimp only
          rw [List.mem_singleton]
          constructor
          · rintro rfl; rw [hget _ i1, if_pos rfl]; exact ⟨i1, by omega, by omega⟩
          · rintro ⟨k1, k2, k3⟩
            rw [hget v k1] at k3
            refine Classical.byContradiction fun hne => ?_
            rw [if_neg hne] at k3
            omega
        · intro v hv
          dsimp only
          rw [hget v hv]
          split <;> omega
        · intro v hv
          dsimp only at hv ⊢
          rw [List.mem_singleton] at hv
          rw [hv, Arr.set_get_same]
          exact ⟨.nil, by unfold known; rw [hk0]⟩
        · intro v hv h1; exact absurd h1 (hz v hv)
        · intro v i hv h1; exact absurd h1 (hz v hv)
        · exact Or.inr (Arr.set_get_same _ _ _)
        · exact (hk0 _).symm
        · intro v hv h1; exact absurd h1 (hz v hv)
      refine (Holds_loopM (step := step g K pick) (fun s => ∃ D, Full g K r diam r D s) (fun s => (g.vertnbr - cnt g s).toNat) (Q := fun t => (∃ D, Full g K r diam r D t) ∧ t.heap = []) ?_ _ _ ⟨_, hF⟩ ?_).mono ?_
      · rintro s ⟨D, hs⟩
        refine (step_holds hc ha hK i1 pick hs).mono ?_
        rintro (t | t) ht
        · obtain ⟨k1, k2⟩ := ht
          refine ⟨k1, ?_⟩
          have := over_le hc t.dist.get
          have : cnt g t ≤ g.vertnbr := this
          omega
        · obtain ⟨k1, k2⟩ := ht
          rw [k1]
          exact ⟨⟨D, hs⟩, k2⟩
      · have : cnt g ⟨dist.set r 0, [r], tick, 0, diam, r⟩ = 0 := hk0 _
        omega
      · rintro t ⟨⟨D, hs⟩, hempty⟩
        have hcn := hs.nbr
        have hclosed : ∀ v d, Walk g r v d → g.Vertex v ∧ t.dist.get v = -1 := by
          intro v d hw
          have hnoth : ∀ v, g.Vertex v → t.dist.get v = -1 ∨ t.dist.get v = K := by
            intro v hv
            have hnm : ¬ (v ∈ t.heap) := by rw [hempty]; exact fun h => (by cases h)
            rw [hs.inv.mem] at hnm
            rcases hs.inv.vals v hv with h | h
            · exact Or.inl h
            · right
              have : ¬ t.dist.get v < K := fun h' => hnm ⟨hv, h.1, h'⟩
              omega
          refine walk_ind (P := fun v _ => g.Vertex v ∧ t.dist.get v = -1) ?_ ?_ hw
          · refine ⟨i1, ?_⟩
            have := hs.inv.root
            have := hnoth r i1
            omega
          · rintro u d e _ ⟨k1, k2⟩ k3 k4
            have hin := (hc.inside u e k1 k3 k4).1
            refine ⟨hin, ?_⟩
            rcases hs.inv.edge u e k1 k2 k3 k4 id with h | h
            · exact h
            · have hD := hs.inv.opt u k1 k2
              have hkn := hs.big.2 u k1 k2
              -- a bound on the distance
              rcases hnoth _ hin with h' | h'
              · exact h'
              · exfalso
                have h1 := hs.low u k1 k2
                have h2 := known_le hc t.dist.get
                have h3 := edlo_le hc k1 k3 k4
                omega
        by_cases hall : t.vertnbr ≠ g.vertnbr
        · rw [if_pos hall, Holds_pure]
          refine Or.inr (Or.inl ⟨?_, rfl⟩)
          intro hcon
          apply hall
          rw [hcn]
          have e : sumI g.baseval g.vertnnd (fun _ => 1) = g.vertnbr := by
            rw [sumI_const (by omega)]; omega
          rw [← e]
          apply sumI_congr
          intro v k1 k2
          obtain ⟨d, hd⟩ := hcon r v i1 ⟨k1, k2⟩
          rw [if_pos (hclosed v d hd).2]
        · rw [if_neg hall]
          have hall' : ∀ v, g.Vertex v → t.dist.get v = -1 := fun v hv => over_full hc (by
            have : cnt g t = g.vertnbr := by omega
            exact this) hv
          have hcon : Connected g := by
            intro u v hu hv
            obtain ⟨d, hd⟩ := walk_symm hc i1 (hs.inv.opt u hu (hall' u hu)).1
            exact ⟨_, walk_trans hd (hs.inv.opt v hv (hall' v hv)).1⟩
          have hmax : ∀ w d, Dist g r w d → d ≤ t.diammax := by
            intro w d hd
            have hw := (walk_vertex hc i1 hd.1).1
            have h1 := hs.inv.opt w hw (hall' w hw)
            have h2 := hs.big.2 w hw (hall' w hw)
            have := hd.2 _ h1.1
            omega
          have hbig := hs.big.1
          have hsum := hs.sum
          by_cases hlt : diam < t.diammax
          · rw [if_pos hlt, Holds_pure]
            rcases hs.src with ⟨h1, _⟩ | ⟨h1, h2⟩
            · omega
            · exact ⟨⟨h1, hsum.1, hsum.2, r, i1, h2, fun _ => hmax⟩, by dsimp only; omega⟩
          · rw [if_neg hlt, Holds_pure]
            refine Or.inr (Or.inr ⟨hcon, ?_⟩)
            have he : t.diammax = diam := by omega
            obtain ⟨u, u1, u2, u3⟩ := i4
            rw [he] at hmax ⊢
            by_cases hd0 : diam = 0
            · refine ⟨r, r, i1, i1, by rw [hd0]; exact dist_self hc i1, fun w d' => ⟨hmax w d', hmax w d'⟩⟩
            · exact ⟨u, r, u1, i1, u2, fun w d' => ⟨u3 hd0 w d', hmax w d'⟩⟩
  · have hv : g.Vertex (root + g.baseval) := ⟨by omega, by omega⟩
    exact ⟨hv, Int.le_refl _, by dsimp only; omega, root + g.baseval, hv, dist_self hc hv, fun h => absurd rfl h⟩

end Scotch.Diam
