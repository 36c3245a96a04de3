import Verif.Graph.Lemmas

/-! # Changing the base of graphs -/

set_option autoImplicit false
set_option linter.unusedSimpArgs false

namespace Scotch
open Classical

/-- Array in which some cells have been shifted by a constant. -/
noncomputable def Arr.bump (a : Arr Int) (k : Int) (p : Int → Prop) : Arr Int :=
  ⟨a.lo, a.hi, fun i => if p i then a.get i + k else a.get i⟩

theorem Arr.bump_none (a : Arr Int) (k : Int) (p : Int → Prop) (h : ∀ i, ¬ p i) : a.bump k p = a := by
  unfold Arr.bump
  simp only [h, if_false]

theorem Arr.bump_congr (a : Arr Int) (k : Int) {p q : Int → Prop} (h : ∀ i, p i ↔ q i) : a.bump k p = a.bump k q := by
  unfold Arr.bump
  simp only [h]

theorem Arr.bump_set (a : Arr Int) (k i : Int) (p : Int → Prop) (h : ¬ p i) :
    (a.bump k p).set i (a.get i + k) = a.bump k (fun j => p j ∨ j = i) := by
  unfold Arr.bump Arr.set
  simp only [Arr.mk.injEq, true_and]
  funext j
  by_cases hj : j = i
  · subst hj; simp
  · simp [hj]

theorem Arr.bump_bump (a : Arr Int) (k : Int) (p q : Int → Prop) (h : ∀ i, p i → q i → False) :
    (a.bump k p).bump k q = a.bump k (fun i => p i ∨ q i) := by
  unfold Arr.bump
  simp only [Arr.mk.injEq, true_and]
  funext j
  by_cases h1 : p j <;> by_cases h2 : q j <;> simp [h1, h2]
  exact (h j h1 h2).elim

/-- Loop that shifts the cells of a range. -/
theorem bumpLoop (a : Arr Int) (k lo hi : Int) (h : lo < hi → a.lo ≤ lo ∧ hi ≤ a.hi) :
    forUp lo hi a (fun e t => do t.wr e ((← t.rd e) + k)) = .ok (a.bump k (fun i => lo ≤ i ∧ i < hi)) := by
  suffices Holds (forUp lo hi a (fun e t => do t.wr e ((← t.rd e) + k)))
      (fun r => r = a.bump k (fun i => lo ≤ i ∧ i < hi)) by
    obtain ⟨r, e, rfl⟩ := Holds_iff_exists.1 this
    exact e
  by_cases hlt : lo < hi
  · apply Holds_forUp (fun i t => t = a.bump k (fun j => lo ≤ j ∧ j < i)) (by omega)
    · rw [Arr.bump_none]; intro i; omega
    · rintro i t i1 i2 rfl
      rw [Holds_bind, Holds_rd]
      refine ⟨⟨by show a.lo ≤ i; omega, by show i < a.hi; omega⟩, ?_⟩
      rw [Holds_wr]
      refine ⟨⟨by show a.lo ≤ i; omega, by show i < a.hi; omega⟩, ?_⟩
      have : (a.bump k (fun j => lo ≤ j ∧ j < i)).get i = a.get i := by
        unfold Arr.bump
        simp
      rw [this, Arr.bump_set _ _ _ _ (by omega)]
      apply Arr.bump_congr
      intro j
      omega
    · rintro t rfl; rfl
  · rw [forUp_empty (by omega), Holds_ok, Arr.bump_none]
    intro i; omega

attribute [ext] Graph

namespace Graph
variable {g : Graph}

/-- Indices of the arcs of the vertices of a range. -/
def ArcBelow (g : Graph) (i e : Int) : Prop := ∃ v, g.baseval ≤ v ∧ v < i ∧ g.vert v ≤ e ∧ e < g.vend v

theorem baseLoop_spec (k : Int) (hn : g.baseval ≤ g.vertnnd) (ha : Allocated g) (hd : Disjoint g) :
    g.baseLoop k = .ok (g.edgetax.bump k (g.ArcBelow g.vertnnd), g.verttax.bump k g.Vertex) := by
  suffices Holds (g.baseLoop k) (fun r => r = (g.edgetax.bump k (g.ArcBelow g.vertnnd),
      g.verttax.bump k g.Vertex)) by
    obtain ⟨r, e, rfl⟩ := Holds_iff_exists.1 this
    exact e
  unfold baseLoop
  apply Holds_forUp (fun i s => s = (g.edgetax.bump k (g.ArcBelow i),
    g.verttax.bump k (fun v => g.baseval ≤ v ∧ v < i))) hn
  · rw [Arr.bump_none, Arr.bump_none]
    · intro i; omega
    · rintro i ⟨v, _, _, _⟩; omega
  · rintro i s i1 i2 rfl
    have hi : g.Vertex i := ⟨i1, i2⟩
    have hlo := ha.vlo
    have hhi := ha.vhi
    dsimp only
    rw [Holds_bind, Holds_rd]
    refine ⟨⟨by show g.verttax.lo ≤ i; omega, by show i < g.verttax.hi; omega⟩, ?_⟩
    have e1 : (g.verttax.bump k (fun v => g.baseval ≤ v ∧ v < i)).get i = g.vert i := by
      unfold Arr.bump vert; simp
    rw [e1]
    have cont : Holds (do
        let edgetax ← forUp (g.vert i) (g.vend i) (g.edgetax.bump k (g.ArcBelow i))
          (fun e t => do t.wr e ((← t.rd e) + k))
        return (edgetax, ← (g.verttax.bump k (fun v => g.baseval ≤ v ∧ v < i)).wr i (g.vert i + k)))
        (fun s => s = (g.edgetax.bump k (g.ArcBelow (i + 1)),
          g.verttax.bump k (fun v => g.baseval ≤ v ∧ v < i + 1))) := by
      rw [bumpLoop]
      · rw [Holds_bind]
        show Holds (do return (_, ← (g.verttax.bump k (fun v => g.baseval ≤ v ∧ v < i)).wr i (g.vert i + k))) _
        rw [Holds_bind, Holds_wr]
        refine ⟨⟨by show g.verttax.lo ≤ i; omega, by show i < g.verttax.hi; omega⟩, ?_⟩
        rw [Holds_pure, Arr.bump_bump]
        · unfold vert
          rw [Arr.bump_set _ _ _ _ (by omega)]
          congr 1
          · apply Arr.bump_congr
            intro e
            constructor
            · rintro (⟨v, a, b, c⟩ | h)
              · exact ⟨v, a, by omega, c⟩
              · exact ⟨i, i1, by omega, h⟩
            · rintro ⟨v, a, b, c⟩
              by_cases hv : v = i
              · subst hv; exact Or.inr c
              · exact Or.inl ⟨v, a, by omega, c⟩
          · apply Arr.bump_congr
            intro e
            omega
        · rintro e ⟨v, a, b, c⟩ h
          have := hd v i e ⟨a, by omega⟩ hi ((mem_arcs _ _ _).2 c) ((mem_arcs _ _ _).2 h)
          omega
      · intro hlt
        exact ha.edge i hi hlt
    cases hv : g.vendtax with
    | none =>
      have e2 : (g.verttax.bump k (fun v => g.baseval ≤ v ∧ v < i)).get (i + 1) = g.vend i := by
        unfold Arr.bump vend
        rw [hv]
        simp
      have := ha.vhi' hv
      dsimp only
      rw [Holds_bind, Holds_rd]
      refine ⟨⟨by show g.verttax.lo ≤ i + 1; omega, by show i + 1 < g.verttax.hi; omega⟩, ?_⟩
      rw [e2]
      exact cont
    | some a =>
      have e2 : a.get i = g.vend i := by unfold vend; rw [hv]
      have := ha.ends a hv
      dsimp only
      rw [Holds_bind, Holds_rd]
      refine ⟨⟨by omega, by omega⟩, ?_⟩
      rw [e2]
      exact cont
  · rintro s rfl
    rfl

/-- The graph of base `b`, in closed form. -/
noncomputable def rebased (g : Graph) (k : Int) : Graph :=
  { g with
    baseval := g.baseval + k
    vertnnd := g.vertnnd + k
    verttax := (g.verttax.bump k (fun v => g.Vertex v ∨ (g.vendtax = none ∧ v = g.vertnnd))).shift k
    vendtax := g.vendtax.map (fun a => (a.bump k g.Vertex).shift k)
    velotax := g.velotax.map (·.shift k)
    vnumtax := g.vnumtax.map (·.shift k)
    vlbltax := g.vlbltax.map (·.shift k)
    edgetax := (g.edgetax.bump k (g.ArcBelow g.vertnnd)).shift k
    edlotax := g.edlotax.map (·.shift k) }

theorem base_spec (b : Int) (hb : b ≠ g.baseval) (hn : g.baseval ≤ g.vertnnd) (ha : Allocated g) (hd : Disjoint g) :
    g.base b = .ok (g.rebased (b - g.baseval), g.baseval) := by
  unfold base
  rw [if_neg (fun h => hb h.symm)]
  dsimp only
  rw [baseLoop_spec _ hn ha hd]
  simp only [bind, Except.bind]
  unfold baseEnds
  have hlo := ha.vlo
  cases hv : g.vendtax with
  | some a =>
    have hae := ha.ends a hv
    dsimp only
    rw [bumpLoop _ _ _ _ (fun _ => hae)]
    simp only [bind, Except.bind, pure, Except.pure]
    unfold rebased
    simp only [hv, reduceCtorEq, false_and, or_false, Option.map_some]
    rw [show g.baseval + (b - g.baseval) = b by omega]
    rfl
  | none =>
    have hae := ha.vhi' hv
    dsimp only
    have e1 : (g.verttax.bump (b - g.baseval) g.Vertex).get g.vertnnd = g.verttax.get g.vertnnd := by
      unfold Arr.bump Vertex; simp
    rw [Arr.rd_ok _ (by show g.verttax.lo ≤ _; omega) (by show _ < g.verttax.hi; omega)]
    simp only [bind, Except.bind, pure, Except.pure]
    rw [e1, Arr.wr_ok _ _ (by show g.verttax.lo ≤ _; omega) (by show _ < g.verttax.hi; omega)]
    rw [Arr.bump_set _ _ _ _ (by unfold Vertex; omega)]
    unfold rebased
    simp only [hv, true_and, Option.map_none]
    rw [show g.baseval + (b - g.baseval) = b by omega]

variable {k : Int}

theorem rebased_Vertex (v : Int) : (g.rebased k).Vertex v ↔ g.Vertex (v - k) := by
  unfold Vertex rebased
  dsimp only
  omega

theorem rebased_vert {v : Int} (hv : g.Vertex v) : (g.rebased k).vert (v + k) = g.vert v + k := by
  unfold vert rebased Arr.shift Arr.bump
  dsimp only
  rw [show v + k - k = v by omega, if_pos (Or.inl hv)]

theorem rebased_vend {v : Int} (hv : g.Vertex v) : (g.rebased k).vend (v + k) = g.vend v + k := by
  unfold vend rebased Arr.shift Arr.bump
  cases he : g.vendtax with
  | none =>
    dsimp only [Option.map_none]
    rw [show v + k + 1 - k = v + 1 by omega, if_pos]
    simp only [true_and, Vertex] at *
    omega
  | some a =>
    dsimp only [Option.map_some]
    rw [show v + k - k = v by omega, if_pos hv]

theorem rebased_dest {v e : Int} (hv : g.Vertex v) (h1 : g.vert v ≤ e) (h2 : e < g.vend v) :
    (g.rebased k).dest (e + k) = g.dest e + k := by
  unfold dest rebased Arr.shift Arr.bump
  dsimp only
  rw [show e + k - k = e by omega, if_pos ⟨v, hv.1, hv.2, h1, h2⟩]

theorem map_shift_get (o : Option (Arr Int)) (d : Int) (e : Int) :
    (match o.map (·.shift k) with | none => d | some a => a.get (e + k)) =
      (match o with | none => d | some a => a.get e) := by
  cases o with
  | none => rfl
  | some a =>
    show a.get (e + k - k) = a.get e
    rw [show e + k - k = e by omega]

theorem rebased_edlo (e : Int) : (g.rebased k).edlo (e + k) = g.edlo e := map_shift_get g.edlotax 1 e
theorem rebased_velo (e : Int) : (g.rebased k).velo (e + k) = g.velo e := map_shift_get g.velotax 1 e

theorem rebased_arcs {v : Int} (hv : g.Vertex v) : (g.rebased k).arcs (v + k) = (g.arcs v).map (· + k) := by
  unfold arcs
  rw [rebased_vert hv, rebased_vend hv, List.map_map]
  rw [show g.vend v + k - (g.vert v + k) = g.vend v - g.vert v by omega]
  apply List.map_congr_left
  intro j _
  simp only [Function.comp]
  omega

theorem rebased_nbrs {v : Int} (hv : g.Vertex v) :
    (g.rebased k).nbrs (v + k) = (g.nbrs v).map (fun p => (p.1 + k, p.2)) := by
  unfold nbrs
  rw [rebased_arcs hv, List.map_map, List.map_map]
  apply List.map_congr_left
  intro e he
  rw [mem_arcs] at he
  simp only [Function.comp]
  rw [rebased_dest hv he.1 he.2, rebased_edlo]

theorem sumI_shift (lo hi d : Int) (f : Int → Int) : sumI (lo + d) (hi + d) f = sumI lo hi (fun i => f (i + d)) := by
  by_cases h : lo ≤ hi
  · obtain ⟨n, rfl⟩ : ∃ n : Nat, hi = lo + n := ⟨(hi - lo).toNat, by omega⟩
    clear h
    induction n with
    | zero => rw [sumI_empty (by omega), sumI_empty (by omega)]
    | succ n ih =>
      rw [show lo + ((n + 1 : Nat) : Int) = lo + n + 1 by omega, sumI_succ (by omega),
        show lo + (n : Int) + 1 + d = lo + n + d + 1 by omega, sumI_succ (by omega), ih]
  · rw [sumI_empty (by omega), sumI_empty (by omega)]

theorem rebased_cons (h : Consistent g) : Consistent (g.rebased k) := by
  have hV : ∀ v, (g.rebased k).Vertex v → ∃ w, v = w + k ∧ g.Vertex w := fun v hv =>
    ⟨v - k, by omega, (rebased_Vertex v).1 hv⟩
  have hV' : ∀ w, g.Vertex w → (g.rebased k).Vertex (w + k) := by
    intro w hw
    rw [rebased_Vertex, show w + k - k = w by omega]; exact hw
  refine ⟨h.vertnbr, ?_, ?_, ?_, ?_, ?_, ?_, ?_, ?_, ?_, ?_, h.degrmax.1, ?_⟩
  · have := h.vertnnd
    unfold rebased
    dsimp only
    omega
  · intro v hv
    obtain ⟨w, rfl, hw⟩ := hV v hv
    have := h.range w hw
    rw [rebased_vert hw, rebased_vend hw]
    show g.baseval + k ≤ _ ∧ _
    omega
  · intro v p hv hp
    obtain ⟨w, rfl, hw⟩ := hV v hv
    rw [rebased_nbrs hw, List.mem_map] at hp
    obtain ⟨q, hq, rfl⟩ := hp
    have := h.inside w q hw hq
    exact ⟨hV' _ this.1, fun he => this.2 (by dsimp only at he; omega)⟩
  · intro v p hv hp
    obtain ⟨w, rfl, hw⟩ := hV v hv
    rw [rebased_nbrs hw, List.mem_map] at hp
    obtain ⟨q, hq, rfl⟩ := hp
    have h1 := h.symm w q hw hq
    dsimp only
    rw [rebased_nbrs (h.inside w q hw hq).1, List.mem_map]
    exact ⟨_, h1, rfl⟩
  · intro v hv
    obtain ⟨w, rfl, hw⟩ := hV v hv
    rw [rebased_nbrs hw, List.map_map]
    have : (Prod.fst ∘ fun p : Int × Int => (p.1 + k, p.2)) = (fun x => x + k) ∘ Prod.fst := rfl
    rw [this, ← List.map_map]
    apply List.Nodup.map _ (h.simple w hw)
    intro a b hab
    simpa using hab
  · show g.edgenbr = sumI (g.baseval + k) (g.vertnnd + k) _
    rw [h.edgenbr, sumI_shift]
    apply sumI_congr
    intro v v1 v2
    rw [rebased_nbrs ⟨v1, v2⟩, List.length_map]
  · intro v hv
    obtain ⟨w, rfl, hw⟩ := hV v hv
    rw [rebased_velo]
    exact h.velo w hw
  · show g.velosum = sumI (g.baseval + k) (g.vertnnd + k) _
    rw [h.velosum, sumI_shift]
    apply sumI_congr
    intro v v1 v2
    rw [rebased_velo]
  · intro v p hv hp
    obtain ⟨w, rfl, hw⟩ := hV v hv
    rw [rebased_nbrs hw, List.mem_map] at hp
    obtain ⟨q, hq, rfl⟩ := hp
    exact h.edlo w q hw hq
  · show g.edlosum = sumI (g.baseval + k) (g.vertnnd + k) _
    rw [h.edlosum, sumI_shift]
    apply sumI_congr
    intro v v1 v2
    rw [rebased_nbrs ⟨v1, v2⟩, List.map_map]
    rfl
  · intro v hv
    obtain ⟨w, rfl, hw⟩ := hV v hv
    rw [rebased_nbrs hw, List.length_map]
    exact h.degrmax.2 w hw

theorem rebased_alloc (ha : Allocated g) : Allocated (g.rebased k) := by
  have hm : ∀ (o : Option (Arr Int)), (∀ a, o = some a → a.lo ≤ g.baseval ∧ g.vertnnd ≤ a.hi) →
      ∀ a, o.map (·.shift k) = some a → a.lo ≤ g.baseval + k ∧ g.vertnnd + k ≤ a.hi := by
    intro o ho a he
    cases o with
    | none => cases he
    | some b =>
      cases he
      have := ho b rfl
      show b.lo + k ≤ _ ∧ _ ≤ b.hi + k
      omega
  refine ⟨?_, ?_, ?_, ?_, hm _ ha.velo, hm _ ha.vnum, hm _ ha.vlbl, ?_, ?_⟩
  · have := ha.vlo
    show g.verttax.lo + k ≤ g.baseval + k
    omega
  · have := ha.vhi
    show g.vertnnd + k ≤ g.verttax.hi + k
    omega
  · intro he
    have := ha.vhi' (by unfold rebased at he; simpa using he)
    show g.vertnnd + k + 1 ≤ g.verttax.hi + k
    omega
  · intro a he
    unfold rebased at he
    dsimp only at he
    cases hv : g.vendtax with
    | none => rw [hv] at he; cases he
    | some b =>
      rw [hv] at he
      cases he
      have := ha.ends b hv
      show b.lo + k ≤ g.baseval + k ∧ g.vertnnd + k ≤ b.hi + k
      omega
  · intro v hv hlt
    obtain ⟨w, rfl, hw⟩ : ∃ w, v = w + k ∧ g.Vertex w := ⟨v - k, by omega, (rebased_Vertex v).1 hv⟩
    rw [rebased_vert hw, rebased_vend hw] at hlt ⊢
    have := ha.edge w hw (by omega)
    show g.edgetax.lo + k ≤ _ ∧ _ ≤ g.edgetax.hi + k
    omega
  · intro a he v hv hlt
    obtain ⟨w, rfl, hw⟩ : ∃ w, v = w + k ∧ g.Vertex w := ⟨v - k, by omega, (rebased_Vertex v).1 hv⟩
    rw [rebased_vert hw, rebased_vend hw] at hlt ⊢
    unfold rebased at he
    dsimp only at he
    cases hv : g.edlotax with
    | none => rw [hv] at he; cases he
    | some b =>
      rw [hv] at he
      cases he
      have := ha.edlo b hv w hw (by omega)
      show b.lo + k ≤ _ ∧ _ ≤ b.hi + k
      omega

theorem rebased_disj (hd : Disjoint g) : Disjoint (g.rebased k) := by
  intro v w e hv hw h1 h2
  obtain ⟨v, rfl, hv'⟩ : ∃ w, v = w + k ∧ g.Vertex w := ⟨v - k, by omega, (rebased_Vertex v).1 hv⟩
  obtain ⟨w, rfl, hw'⟩ : ∃ v, w = v + k ∧ g.Vertex v := ⟨w - k, by omega, (rebased_Vertex w).1 hw⟩
  rw [rebased_arcs hv', List.mem_map] at h1
  rw [rebased_arcs hw', List.mem_map] at h2
  obtain ⟨a, ha, rfl⟩ := h1
  obtain ⟨b, hb, he⟩ := h2
  have : b = a := by omega
  subst this
  rw [hd v w b hv' hw' ha hb]

theorem map_shift_shift (o : Option (Arr Int)) : (o.map (·.shift k)).map (·.shift (-k)) = o := by
  cases o with
  | none => rfl
  | some a =>
    unfold Arr.shift
    obtain ⟨lo, hi, f⟩ := a
    simp only [Option.map_some, Option.some.injEq, Arr.mk.injEq]
    refine ⟨by omega, by omega, ?_⟩
    funext i
    rw [show i - -k - k = i by omega]

theorem bump_shift_back (a : Arr Int) (p q : Int → Prop) (h : ∀ i, p i ↔ q (i + k)) :
    (((a.bump k p).shift k).bump (-k) q).shift (-k) = a := by
  unfold Arr.shift Arr.bump
  obtain ⟨lo, hi, f⟩ := a
  simp only [Arr.mk.injEq]
  refine ⟨by omega, by omega, ?_⟩
  funext i
  rw [show i - -k = i + k by omega, show i + k - k = i by omega]
  by_cases hp : p i
  · rw [if_pos hp, if_pos ((h i).1 hp)]; omega
  · rw [if_neg hp, if_neg (fun hq => hp ((h i).2 hq))]

theorem rebased_back : (g.rebased k).rebased (-k) = g := by
  have hV : ∀ i, g.Vertex i ↔ (g.rebased k).Vertex (i + k) := by
    intro i
    rw [rebased_Vertex, show i + k - k = i by omega]
  have hA : ∀ e, g.ArcBelow g.vertnnd e ↔ (g.rebased k).ArcBelow (g.rebased k).vertnnd (e + k) := by
    intro e
    constructor
    · rintro ⟨v, h1, h2, h3, h4⟩
      refine ⟨v + k, ?_, ?_, ?_, ?_⟩
      · exact ((hV v).1 ⟨h1, h2⟩).1
      · exact ((hV v).1 ⟨h1, h2⟩).2
      · rw [rebased_vert ⟨h1, h2⟩]; omega
      · rw [rebased_vend ⟨h1, h2⟩]; omega
    · rintro ⟨v, h1, h2, h3, h4⟩
      obtain ⟨v, rfl, hv⟩ : ∃ w, v = w + k ∧ g.Vertex w := ⟨v - k, by omega, (rebased_Vertex v).1 ⟨h1, h2⟩⟩
      rw [rebased_vert hv] at h3
      rw [rebased_vend hv] at h4
      exact ⟨v, hv.1, hv.2, by omega, by omega⟩
  have e1 : (g.rebased k).vertnnd = g.vertnnd + k := rfl
  have e2 : (g.rebased k).vendtax = none ↔ g.vendtax = none := by
    unfold rebased; simp
  apply Graph.ext
  · show g.baseval + k + -k = g.baseval; omega
  · rfl
  · show g.vertnnd + k + -k = g.vertnnd; omega
  · refine bump_shift_back g.verttax _ _ ?_
    intro i
    rw [← hV, e2, e1]
    have : i = g.vertnnd ↔ i + k = g.vertnnd + k := by omega
    rw [this]
  · show ((g.vendtax.map (fun a => (a.bump k g.Vertex).shift k)).map
      (fun a => (a.bump (-k) (g.rebased k).Vertex).shift (-k))) = g.vendtax
    cases g.vendtax with
    | none => rfl
    | some a =>
      simp only [Option.map_some, Option.some.injEq]
      exact bump_shift_back a _ _ hV
  · exact map_shift_shift g.velotax
  · rfl
  · exact map_shift_shift g.vnumtax
  · exact map_shift_shift g.vlbltax
  · rfl
  · exact bump_shift_back g.edgetax _ _ hA
  · exact map_shift_shift g.edlotax
  · rfl
  · rfl

end Graph
end Scotch
