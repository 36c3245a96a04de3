import Verif.Kmap.LemmasMerge
import Verif.Kmap.LemmasCost

/-! # Static mapping: the method as a whole -/

set_option autoImplicit false
set_option linter.unusedSimpArgs false

namespace Scotch.Kmap

open Graph (ConsE consE_iff)
open Bipart (over Frontier)

variable {D : Type} {o : ArchOps D} {n : Int} {w : Int → Int} {Valid : D → Prop} {Has : D → Int → Prop}

theorem arch_pos (hA : ArchLaws o n w Valid Has) : 1 ≤ n := by
  obtain ⟨d, -, d1, -⟩ := Holds_iff_exists.1 hA.frst
  obtain ⟨k, -, hk⟩ := Holds_iff_exists.1 (hA.num d d1)
  have := hA.within d k d1 hk
  omega

theorem tl_frst (hA : ArchLaws o n w Valid Has) {d : D} (h : ∀ k, 0 ≤ k → k < n → Has d k) : tl n Has d = n := by
  have := arch_pos hA
  unfold tl
  rw [tally_congr (Q := fun _ => True) (fun k k1 k2 => ⟨fun _ => trivial, fun _ => h k k1 k2⟩)]
  unfold tally
  simp only [if_true]
  rw [sumI_const (by omega)]; omega

/-- There are not more parts than processors. -/
theorem Done.bound (hA : ArchLaws o n w Valid Has) {lo hi : Int} {free : Int → Prop} {domnorg : D} {log : List (Cut D)} {m : Mapping D} (h : Done Valid Has lo hi free domnorg log m) : m.domnnbr ≤ n := by
  have hn := arch_pos hA
  have h0 := h.nbr.1
  classical
  let q : Int → Int := fun i => if hi : 0 ≤ i ∧ i < m.domnnbr then Classical.choose (h.dom i hi.1 hi.2).2 else 0
  have hq : ∀ i, 0 ≤ i → i < m.domnnbr → Has (m.domntab.get i) (q i) := by
    intro i i1 i2
    have := Classical.choose_spec (h.dom i i1 i2).2
    have e : q i = Classical.choose (h.dom i i1 i2).2 := dif_pos ⟨i1, i2⟩
    rw [e]
    exact (this _).2 rfl
  have hcard : (Finset.Ico (0 : Int) m.domnnbr).card ≤ (Finset.Ico (0 : Int) n).card := by
    refine Finset.card_le_card_of_injOn q ?_ ?_
    · intro i hi
      rw [Finset.mem_coe, Finset.mem_Ico] at hi ⊢
      exact hA.within _ _ (h.dom i hi.1 hi.2).1 (hq i hi.1 hi.2)
    · intro i hi j hj e
      rw [Finset.mem_coe, Finset.mem_Ico] at hi hj
      apply Classical.byContradiction
      intro hij
      refine h.disj i j hi.1 hi.2 hj.1 hj.2 hij (q i) ⟨hq i hi.1 hi.2, ?_⟩
      have := hq j hj.1 hj.2
      rwa [← show q i = q j from e] at this
  rw [Int.card_Ico, Int.card_Ico] at hcard
  omega

/-- A mapping onto terminal domains. -/
structure Final (Valid : D → Prop) (Has : D → Int → Prop) (g : Graph) (proc : Int → Int) (m : Mapping D) : Prop where
  usable : Usable g m
  dhi : m.domntab.hi = m.domnmax
  valid : ∀ i, 0 ≤ i → i < m.domnnbr → Valid (m.domntab.get i) ∧ ∃ k, ∀ j, Has (m.domntab.get i) j ↔ j = k
  disj : ∀ i j, 0 ≤ i → i < m.domnnbr → 0 ≤ j → j < m.domnnbr → i ≠ j → ∀ k, ¬ (Has (m.domntab.get i) k ∧ Has (m.domntab.get j) k)
  dom : ∀ v, g.Vertex v → ∀ j, Has (m.domntab.get (m.parttax.get v)) j ↔ j = proc v

theorem Final.same {g : Graph} {proc : Int → Int} {m : Mapping D} (h : Final Valid Has g proc m) {v x : Int} (hv : g.Vertex v) (hx : g.Vertex x) : m.parttax.get v = m.parttax.get x ↔ proc v = proc x := by
  constructor
  · intro e
    have := (h.dom v hv (proc v)).2 rfl
    rw [e] at this
    exact (h.dom x hx _).1 this
  · intro e
    apply Classical.byContradiction
    intro hne
    obtain ⟨v1, v2⟩ := h.usable.part v hv
    obtain ⟨x1, x2⟩ := h.usable.part x hx
    refine h.disj _ _ v1 v2 x1 x2 hne (proc v) ⟨(h.dom v hv _).2 rfl, ?_⟩
    rw [e]
    exact (h.dom x hx _).2 rfl

/-- Sum over arcs and sum over pairs of vertices. -/
theorem cost_pairs {g : Graph} (hc : ConsE g) {f : Int → Int → Int} {p proc : Int → Int} {F : Int → Int → Int} (hs : ∀ v x, g.Vertex v → g.Vertex x → (p v = p x ↔ proc v = proc x))
    (hF : ∀ v x, g.Vertex v → g.Vertex x → p v ≠ p x → F (p v) (p x) = f (proc v) (proc x)) (h0 : ∀ v, g.Vertex v → f (proc v) (proc v) = 0) :
    sumI g.baseval g.vertnnd (fun v => sumI (g.vert v) (g.vend v) (arcCost g p F v)) = commCost g f proc := by
  unfold commCost
  apply sumI_congr
  intro v v1 v2
  have hv : g.Vertex v := ⟨v1, v2⟩
  rw [sumI_congr (f := arcCost g p F v) (g := fun e => g.edlo e * (fun x => if x < v ∧ p x ≠ p v then F (p v) (p x) else 0) (g.dest e)), Graph.arc_sum hc hv (fun x => if x < v ∧ p x ≠ p v then F (p v) (p x) else 0)]
  · rw [sumI_split (mid := v) v1 (by omega)]
    have e2 : sumI v g.vertnnd (fun x => g.wgt v x * (if x < v ∧ p x ≠ p v then F (p v) (p x) else 0)) = 0 := by
      apply sumI_eq_zero
      intro x x1 x2
      rw [if_neg (by omega), Int.mul_zero]
    rw [e2, Int.add_zero]
    apply sumI_congr
    intro x x1 x2
    have hx : g.Vertex x := ⟨x1, by omega⟩
    by_cases c : p x = p v
    · rw [if_neg (fun h => h.2 c), ← (hs x v hx hv).1 c, h0 x hx]
    · rw [if_pos ⟨x2, c⟩, hF v x hv hx (fun e => c e.symm)]
  · intro e e1 e2
    dsimp only
    unfold arcCost
    split
    · rw [Int.mul_comm]
    · rw [Int.mul_zero]

theorem dist_final (hA : ArchLaws o n w Valid Has) {f : Int → Int → Int} (hD : DistLaw o n f) {d0 d1 : D} (v0 : Valid d0) (v1 : Valid d1) {a b : Int} (ha : ∀ j, Has d0 j ↔ j = a) (hb : ∀ j, Has d1 j ↔ j = b) :
    o.dist d0 d1 = .ok (f a b) := by
  have hka := hA.within d0 a v0 ((ha a).2 rfl)
  have hkb := hA.within d1 b v1 ((hb b).2 rfl)
  obtain ⟨da, db, e1, e2, e3⟩ := hD a b hka.1 hka.2 hkb.1 hkb.2
  have h1 := hA.term a hka.1 hka.2
  have h2 := hA.term b hkb.1 hkb.2
  rw [e1, Holds_ok] at h1
  rw [e2, Holds_ok] at h2
  obtain ⟨d, hd, -, -, hu⟩ := h1
  obtain ⟨d', hd', -, -, hu'⟩ := h2
  injection hd with hd
  injection hd' with hd'
  rw [hu d0 v0 ha, hu' d1 v1 hb, ← hd, ← hd']
  exact e3

/-- Frontier and cost of a mapping onto terminal domains. -/
theorem final_holds (hA : ArchLaws o n w Valid Has) {f : Int → Int → Int} (hD : DistLaw o n f) (h00 : ∀ k, 0 ≤ k → k < n → f k k = 0) {g : Graph} (hc : g.Consistent) (ha : g.Allocated) {proc : Int → Int} {m : Mapping D} (h : Final Valid Has g proc m)
    (avg junk : Int → Int) : Holds (do
      let (frontab, fronnbr) ← kgraphFron g m ⟨0, g.vertnbr, junk⟩
      let (commload, a, d) ← kgraphCost o avg g m ⟨0, m.domnmax, junk⟩ ⟨0, m.domnmax, junk⟩
      return (⟨m, frontab, fronnbr, a, d, commload⟩ : Kgraph D)) fun k => k.m = m ∧ Exact Has f g avg proc k := by
  have hE := consE_iff.2 hc
  have U := h.usable
  have hdh := h.dhi
  have hdn := U.dhi
  classical
  -- processor of each part
  let q : Int → Int := fun i => if hi : 0 ≤ i ∧ i < m.domnnbr then Classical.choose (h.valid i hi.1 hi.2).2 else 0
  have hq : ∀ i, 0 ≤ i → i < m.domnnbr → ∀ j, Has (m.domntab.get i) j ↔ j = q i := by
    intro i i1 i2
    have e : q i = Classical.choose (h.valid i i1 i2).2 := dif_pos ⟨i1, i2⟩
    rw [e]
    exact Classical.choose_spec (h.valid i i1 i2).2
  have hqp : ∀ v, g.Vertex v → q (m.parttax.get v) = proc v := by
    intro v hv
    obtain ⟨p1, p2⟩ := U.part v hv
    exact (h.dom v hv _).1 ((hq _ p1 p2 _).2 rfl)
  rw [Holds_bind]
  refine (kgraphFron_holds hE ha U (frontab := ⟨0, g.vertnbr, junk⟩) (Int.le_refl 0) (Int.le_refl _)).mono ?_
  rintro ⟨fr, fn⟩ hfr
  dsimp only at hfr ⊢
  rw [Holds_bind]
  refine (kgraphCost_holds (o := o) hE ha U (F := fun i j => f (q i) (q j)) ?_ avg (la := ⟨0, m.domnmax, junk⟩) (ld := ⟨0, m.domnmax, junk⟩) rfl (by show _ ≤ m.domnmax; omega) rfl (by show _ ≤ m.domnmax; omega)).mono ?_
  · intro i j i1 i2 j1 j2 hij
    rw [dist_final hA hD (h.valid i i1 i2).1 (h.valid j j1 j2).1 (hq i i1 i2) (hq j j1 j2), Holds_ok]
  · rintro ⟨c, a, d⟩ ⟨r1, r2⟩
    dsimp only at r1 r2 ⊢
    rw [Holds_pure]
    refine ⟨rfl, U.part, h.dom, fun v x hv hx => h.same hv hx, ?_, ?_, r2⟩
    · show c = _
      rw [r1]
      refine cost_pairs hE (fun v x hv hx => h.same hv hx) ?_ ?_
      · intro v x hv hx _
        rw [hqp v hv, hqp x hx]
      · intro v hv
        obtain ⟨p1, p2⟩ := U.part v hv
        have := hA.within _ _ (h.valid _ p1 p2).1 ((h.dom v hv _).2 rfl)
        exact h00 _ this.1 this.2
    · refine hfr.congr (fun v => ?_)
      unfold Frontier
      constructor
      · rintro ⟨hv, p, p1, p2⟩
        exact ⟨hv, p, p1, fun e => p2 ((h.same (hc.inside v p hv p1).1 hv).2 e)⟩
      · rintro ⟨hv, p, p1, p2⟩
        exact ⟨hv, p, p1, fun e => p2 ((h.same (hc.inside v p hv p1).1 hv).1 e)⟩

/-! ## Recursive bipartitioning -/

theorem rb_holds (hA : ArchLaws o n w Valid Has) {env : Env D} (he : env.Ok) {fl : Flags} {apart : Bool} (hfl : TieOk fl apart n) {fuel : Nat} (hf : 4 * n ≤ fuel) {g h : Graph} (hc : g.Consistent) (hh : Proper h)
    (hin : ∀ v, Verts h v → g.Vertex v) {domnorg : D} (hd : Valid domnorg) (hd2 : ∀ k, 0 ≤ k → k < n → Has domnorg k) {m : Mapping D} (h1 : m.domntab.lo = 0) (h2 : m.domntab.hi = m.domnmax) (h3 : 1 ≤ m.domnmax)
    (h4 : m.parttax.lo ≤ g.baseval) (h5 : g.vertnnd ≤ m.parttax.hi) :
    Holds (if apart then rbPart o env fuel h domnorg m else rbMap o env fl fuel g h domnorg m) fun r => r.1 = 0 ∧ Done Valid Has m.parttax.lo m.parttax.hi (Verts h) domnorg r.2.2 r.2.1 := by
  have hn := arch_pos hA
  have ht := tl_frst hA hd2
  cases apart with
  | true =>
    rw [if_pos rfl]
    exact rbPart_holds hA he hh hd (by unfold tl at ht; omega) h1 h2 (by omega) (fun v hv => by have := hin v hv; unfold Graph.Vertex at this; omega)
  | false =>
    rw [if_neg (by decide)]
    refine rbMap_holds hA he fl hc hh hd ?_ (by omega) h1 h2 h3 h4 h5 hin
    rcases hfl with h | h | h
    · cases h
    · exact Or.inl h
    · exact Or.inr ⟨h.1, by omega⟩

/-- Only processor allowed by the cuts. -/
theorem Done.follows (hA : ArchLaws o n w Valid Has) {lo hi : Int} {free : Int → Prop} {domnorg : D} (hd : Valid domnorg) (hd2 : ∀ k, 0 ≤ k → k < n → Has domnorg k) {log : List (Cut D)} {m : Mapping D} (h : Done Valid Has lo hi free domnorg log m)
    {v : Int} (hv : free v) : ∃ k, 0 ≤ k ∧ k < n ∧ Follows Has n log v k ∧ ∀ j, Has (m.domntab.get (m.parttax.get v)) j ↔ j = k := by
  obtain ⟨p1, p2, p3⟩ := h.part v hv
  obtain ⟨v1, k, hk⟩ := h.dom _ p1 p2
  have hin := hA.within _ k v1 ((hk k).2 rfl)
  refine ⟨k, hin.1, hin.2, ?_, hk⟩
  intro j
  rw [← hk j, p3 j]
  constructor
  · rintro ⟨j1, j2, j3⟩; exact ⟨hd2 j j1 j2, j3⟩
  · rintro ⟨j1, j2⟩
    have := hA.within _ j hd j1
    exact ⟨this.1, this.2, j2⟩

/-- `kgraphMapRb` without fixed vertices. -/
theorem mapRb_free (hA : ArchLaws o n w Valid Has) {f : Int → Int → Int} (hD : DistLaw o n f) (h00 : ∀ k, 0 ≤ k → k < n → f k k = 0) {env : Env D} (he : env.Ok) {fl : Flags} {apart : Bool} (hfl : TieOk fl apart n) {fuel : Nat}
    (hf : 4 * n ≤ fuel) {g : Graph} (hc : g.Consistent) (ha : g.Allocated) (hb : 0 ≤ g.baseval) (hvn : g.vnumtax = none) {domnorg : D} (hd : Valid domnorg) (hd2 : ∀ k, 0 ≤ k → k < n → Has domnorg k) (junk avg : Int → Int) :
    Holds (mapRb o env fl apart fuel junk avg g domnorg 0 none) fun r => r.1 = 0 ∧ ∃ proc, Exact Has f g avg proc r.2.1 ∧ Final Valid Has g proc r.2.1.m ∧ ∀ v, g.Vertex v → 0 ≤ proc v ∧ proc v < n ∧ Follows Has n r.2.2 v (proc v) := by
  have hn := arch_pos hA
  have hnn := hc.vertnnd
  have horg : ∀ x, org g x = x := fun x => by unfold org; rw [hvn]
  have hg : Proper g := ⟨hc, ha, hb, fun x y _ _ e => by rw [horg, horg] at e; exact e⟩
  have hverts : ∀ v, Verts g v ↔ g.Vertex v := fun v => by
    unfold Verts
    constructor
    · rintro ⟨x, x1, x2⟩; rw [horg] at x2; rw [← x2]; exact x1
    · intro h; exact ⟨v, h, horg v⟩
  unfold mapRb
  rw [Holds_bind]
  refine (hA.size domnorg hd).mono ?_
  intro z hz
  have hz : z = n := by rw [hz]; exact tl_frst hA hd2
  subst hz
  dsimp only
  unfold rbGraph
  dsimp only
  rw [pure_bind]
  dsimp only
  have hrb := rb_holds hA he hfl hf hc hg (fun v hv => (hverts v).1 hv) hd hd2 (m := (⟨⟨g.baseval, g.baseval + g.vertnbr, junk⟩, ⟨0, z + 1, env.junk⟩, 0, z + 1⟩ : Mapping D)) rfl rfl (by show 1 ≤ z + 1; omega) (Int.le_refl _) (by show g.vertnnd ≤ g.baseval + g.vertnbr; omega)
  have hfin : ∀ (r : Int × Mapping D × List (Cut D)), r.1 = 0 ∧ Done Valid Has g.baseval (g.baseval + g.vertnbr) (Verts g) domnorg r.2.2 r.2.1 → Holds (do
      let m ← rbMerge o env g none 0 r.2.1
      let (frontab, fronnbr) ← kgraphFron g m ⟨0, g.vertnbr, junk⟩
      let (commload, a, d) ← kgraphCost o avg g m ⟨0, m.domnmax, junk⟩ ⟨0, m.domnmax, junk⟩
      return (r.1, (⟨m, frontab, fronnbr, a, d, commload⟩ : Kgraph D), r.2.2)) fun r => r.1 = 0 ∧ ∃ proc, Exact Has f g avg proc r.2.1 ∧ Final Valid Has g proc r.2.1.m ∧ ∀ v, g.Vertex v → 0 ≤ proc v ∧ proc v < z ∧ Follows Has z r.2.2 v (proc v) := by
    rintro ⟨c, m, log⟩ ⟨e, hm⟩
    dsimp only at e hm ⊢
    subst e
    unfold rbMerge
    dsimp only
    rw [pure_bind]
    classical
    have hex := fun v (hv : Verts g v) => hm.follows hA hd hd2 hv
    let proc : Int → Int := fun v => if hv : Verts g v then Classical.choose (hex v hv) else 0
    have hp : ∀ v, g.Vertex v → 0 ≤ proc v ∧ proc v < z ∧ Follows Has z log v (proc v) ∧ ∀ j, Has (m.domntab.get (m.parttax.get v)) j ↔ j = proc v := by
      intro v hv
      have hv' := (hverts v).2 hv
      have e : proc v = Classical.choose (hex v hv') := dif_pos hv'
      rw [e]
      exact Classical.choose_spec (hex v hv')
    have F : Final Valid Has g proc m := by
      refine ⟨⟨by rw [hm.plo], by rw [hm.phi]; omega, hm.dlo, by rw [hm.dhi]; exact hm.nbr.2, hm.nbr.1, fun v hv => ?_⟩, hm.dhi, hm.dom, hm.disj, fun v hv => (hp v hv).2.2.2⟩
      have := hm.part v ((hverts v).2 hv)
      exact ⟨this.1, this.2.1⟩
    have hx := final_holds hA hD h00 hc ha F avg junk
    rw [Holds_bind] at hx ⊢
    refine hx.mono ?_
    rintro ⟨fr, fn⟩ hx
    dsimp only at hx ⊢
    rw [Holds_bind] at hx ⊢
    refine hx.mono ?_
    rintro ⟨cm, a, d⟩ hx
    dsimp only at hx ⊢
    rw [Holds_pure] at hx ⊢
    exact ⟨rfl, proc, hx.2, F, fun v hv => ⟨(hp v hv).1, (hp v hv).2.1, (hp v hv).2.2.1⟩⟩
  by_cases c : apart = true
  · rw [if_pos c] at hrb ⊢
    rw [Holds_bind]
    exact hrb.mono hfin
  · rw [if_neg c] at hrb ⊢
    rw [Holds_bind]
    exact hrb.mono hfin

/-- `kgraphMapRb` with fixed vertices. -/
theorem mapRb_fixed (hA : ArchLaws o n w Valid Has) (hn27 : n < 2 ^ 27) {f : Int → Int → Int} (hD : DistLaw o n f) (h00 : ∀ k, 0 ≤ k → k < n → f k k = 0) {env : Env D} (he : env.Ok) {fl : Flags} {apart : Bool} (hfl : TieOk fl apart n) {fuel : Nat}
    (hf : 4 * n ≤ fuel) {g : Graph} (hc : g.Consistent) (ha : g.Allocated) (hb : 0 ≤ g.baseval) (hvn : g.vnumtax = none) {domnorg : D} (hd : Valid domnorg) (hd2 : ∀ k, 0 ≤ k → k < n → Has domnorg k) (junk avg : Int → Int)
    {pfix : Arr Int} (p1 : pfix.lo ≤ g.baseval) (p2 : g.vertnnd ≤ pfix.hi) (hp : ∀ v, g.Vertex v → pfix.get v < n) (hld : ∃ v, g.Vertex v ∧ 0 ≤ pfix.get v ∧ g.velo v ≠ 0) :
    Holds (mapRb o env fl apart fuel junk avg g domnorg (fixedNbr g pfix.get) (some pfix)) fun r => r.1 = 0 ∧ ∃ proc, Exact Has f g avg proc r.2.1 ∧ Final Valid Has g proc r.2.1.m ∧
      (∀ v, g.Vertex v → pfix.get v < 0 → 0 ≤ proc v ∧ proc v < n ∧ Follows Has n r.2.2 v (proc v)) ∧ ∀ v, g.Vertex v → 0 ≤ pfix.get v → proc v = pfix.get v := by
  have hn := arch_pos hA
  have hnn := hc.vertnnd
  have horg : ∀ x, org g x = x := fun x => by unfold org; rw [hvn]
  have hg : Proper g := ⟨hc, ha, hb, fun x y _ _ e => by rw [horg, horg] at e; exact e⟩
  unfold mapRb
  rw [Holds_bind]
  refine (hA.size domnorg hd).mono ?_
  intro z hz
  have hz : z = n := by rw [hz]; exact tl_frst hA hd2
  subst hz
  dsimp only
  rw [Holds_bind]
  unfold rbGraph
  dsimp only
  rw [Holds_bind]
  refine (vfloBuild_holds hA (by omega) (by omega) he junk hg p1 p2 hp rfl).mono ?_
  rintro ⟨h, vflonbr, t1, t2⟩ ⟨hh, hverts, keys, k1, k2, k3⟩
  dsimp only at hh hverts k3 ⊢
  rw [if_pos hld] at k3
  rw [Holds_pure]
  dsimp only
  have hverts : ∀ v, Verts h v ↔ g.Vertex v ∧ pfix.get v < 0 := by
    intro v
    rw [hverts]
    constructor
    · rintro ⟨x, x1, x2, x3⟩; rw [horg] at x2; rw [← x2]; exact ⟨x1, x3⟩
    · rintro ⟨h1, h2⟩; exact ⟨v, h1, horg v, h2⟩
  have hkz : (keys.length : Int) ≤ z := by
    refine nodup_bound k1 (by omega) ?_
    intro k hk
    obtain ⟨q1, v, q2, q3⟩ := (k2 k).1 hk
    exact ⟨q1, by rw [← q3]; exact hp v q2⟩
  have hrb := rb_holds hA he hfl hf hc hh (fun v hv => ((hverts v).1 hv).1) hd hd2 (m := (⟨⟨g.baseval, g.baseval + g.vertnbr, junk⟩, ⟨0, z + 1, env.junk⟩, 0, z + 1⟩ : Mapping D)) rfl rfl (by show 1 ≤ z + 1; omega) (Int.le_refl _) (by show g.vertnnd ≤ g.baseval + g.vertnbr; omega)
  have hfin : ∀ (r : Int × Mapping D × List (Cut D)), r.1 = 0 ∧ Done Valid Has g.baseval (g.baseval + g.vertnbr) (Verts h) domnorg r.2.2 r.2.1 → Holds (do
      let m ← rbMerge o env g (some pfix) vflonbr r.2.1
      let (frontab, fronnbr) ← kgraphFron g m ⟨0, g.vertnbr, junk⟩
      let (commload, a, d) ← kgraphCost o avg g m ⟨0, m.domnmax, junk⟩ ⟨0, m.domnmax, junk⟩
      return (r.1, (⟨m, frontab, fronnbr, a, d, commload⟩ : Kgraph D), r.2.2)) fun r => r.1 = 0 ∧ ∃ proc, Exact Has f g avg proc r.2.1 ∧ Final Valid Has g proc r.2.1.m ∧
      (∀ v, g.Vertex v → pfix.get v < 0 → 0 ≤ proc v ∧ proc v < z ∧ Follows Has z r.2.2 v (proc v)) ∧ ∀ v, g.Vertex v → 0 ≤ pfix.get v → proc v = pfix.get v := by
    rintro ⟨c, m, log⟩ ⟨e, hm⟩
    dsimp only at e hm ⊢
    subst e
    unfold rbMerge
    dsimp only
    have hmb := hm.bound hA
    rw [Holds_bind]
    refine (vfloMerge_holds hA env.junk hc p1 p2 hm (Int.le_refl _) (by omega) hp (F := keys) (fun v hv h0 => (k2 _).2 ⟨h0, v, hv, rfl⟩) k3 (by omega)).mono ?_
    intro m' hm'
    classical
    have hex := fun v (hv : Verts h v) => hm.follows hA hd hd2 hv
    let proc : Int → Int := fun v => if hv : Verts h v then Classical.choose (hex v hv) else pfix.get v
    have hpf : ∀ v, g.Vertex v → pfix.get v < 0 → 0 ≤ proc v ∧ proc v < z ∧ Follows Has z log v (proc v) ∧ ∀ j, Has (m.domntab.get (m.parttax.get v)) j ↔ j = proc v := by
      intro v hv h0
      have hv' := (hverts v).2 ⟨hv, h0⟩
      have e : proc v = Classical.choose (hex v hv') := dif_pos hv'
      rw [e]
      exact Classical.choose_spec (hex v hv')
    have hpx : ∀ v, g.Vertex v → 0 ≤ pfix.get v → proc v = pfix.get v := fun v hv h0 => dif_neg (fun hx => by have := ((hverts v).1 hx).2; omega)
    have hfr : ∀ v, g.Vertex v → pfix.get v < 0 → m'.parttax.get v = m.parttax.get v ∧ 0 ≤ m.parttax.get v ∧ m.parttax.get v < m.domnnbr := by
      intro v hv h0
      have := hm.part v ((hverts v).2 ⟨hv, h0⟩)
      exact ⟨hm'.free v (fun hx => by omega), this.1, this.2.1⟩
    have hmn := hm'.nbr
    have F : Final Valid Has g proc m' := by
      refine ⟨⟨by rw [hm'.plo, hm.plo], by rw [hm'.phi, hm.phi]; omega, hm'.dlo, by rw [hm'.dhi]; exact hmn.2, by have := hm.nbr; omega, fun v hv => ?_⟩, hm'.dhi, hm'.dom, hm'.disj, fun v hv => ?_⟩
      · by_cases c : 0 ≤ pfix.get v
        · have := hm'.fixed v hv c
          exact ⟨this.1, this.2.1⟩
        · obtain ⟨q1, q2, q3⟩ := hfr v hv (by omega)
          rw [q1]; omega
      · by_cases c : 0 ≤ pfix.get v
        · rw [hpx v hv c]
          exact (hm'.fixed v hv c).2.2
        · obtain ⟨q1, q2, q3⟩ := hfr v hv (by omega)
          rw [q1, hm'.keep _ q2 q3]
          exact (hpf v hv (by omega)).2.2.2
    have hx := final_holds hA hD h00 hc ha F avg junk
    rw [Holds_bind] at hx ⊢
    refine hx.mono ?_
    rintro ⟨fr, fn⟩ hx
    dsimp only at hx ⊢
    rw [Holds_bind] at hx ⊢
    refine hx.mono ?_
    rintro ⟨cm, a, d⟩ hx
    dsimp only at hx ⊢
    rw [Holds_pure] at hx ⊢
    exact ⟨rfl, proc, hx.2, F, fun v hv h0 => ⟨(hpf v hv h0).1, (hpf v hv h0).2.1, (hpf v hv h0).2.2.1⟩, hpx⟩
  by_cases c : apart = true
  · rw [if_pos c] at hrb ⊢
    rw [Holds_bind]
    exact hrb.mono hfin
  · rw [if_neg c] at hrb ⊢
    rw [Holds_bind]
    exact hrb.mono hfin

/-- Numbers of the processors. -/
theorem mapTerm_final (hA : ArchLaws o n w Valid Has) {g : Graph} (hc : g.Consistent) {proc : Int → Int} {m : Mapping D} (h : Final Valid Has g proc m) {a : Arr Int} (a1 : a.lo ≤ g.baseval) (a2 : g.vertnnd ≤ a.hi) :
    Holds (mapTerm o g m a) fun a' => a'.lo = a.lo ∧ a'.hi = a.hi ∧ (∀ v, g.Vertex v → a'.get v = proc v) ∧ ∀ v, ¬ g.Vertex v → a'.get v = a.get v := by
  refine mapTerm_holds (consE_iff.2 hc) h.usable ?_ a1 a2
  intro v hv
  obtain ⟨q1, q2⟩ := h.usable.part v hv
  refine (hA.num _ (h.valid _ q1 q2).1).mono ?_
  intro k hk
  exact (h.dom v hv k).1 hk

end Scotch.Kmap
