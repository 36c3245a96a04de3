import Verif.Graph.Clone
import Verif.Graph.Decide
import Verif.TextIO.Pairs

/-!
# C48 — cloning of graphs

The clone of a consistent graph, whose edge arrays are allocated from the base value on, has the same contents as its original, in memory of its own.

Cloning fails for an empty graph that has an array of end indices and base value 1 (`C48_empty_fails`), and reads memory outside of arrays for graphs with isolated vertices whose (unused) indices are large (`C48_isolated_oob`).
-/

set_option autoImplicit false
set_option linter.unusedSimpArgs false

namespace Scotch.Graph

/-- Optional arrays have the same contents on a range. -/
def SameOpt (lo hi : Int) (a a' : Option (Arr Int)) : Prop :=
  (a = none ∧ a' = none) ∨ ∃ x x', a = some x ∧ a' = some x' ∧ ∀ i, lo ≤ i → i < hi → x'.get i = x.get i

/-- `g'` has the same contents as `g`. -/
structure CloneOf (g g' : Graph) : Prop where
  baseval : g'.baseval = g.baseval
  vertnbr : g'.vertnbr = g.vertnbr
  vertnnd : g'.vertnnd = g.vertnnd
  vert : ∀ v, g.Vertex v → g'.vert v = g.vert v
  vend : ∀ v, g.Vertex v → g'.vend v = g.vend v
  compact : g'.vendtax = none ↔ g.vendtax = none
  velo : SameOpt g.baseval g.vertnnd g.velotax g'.velotax
  vnum : SameOpt g.baseval g.vertnnd g.vnumtax g'.vnumtax
  vlbl : SameOpt g.baseval g.vertnnd g.vlbltax g'.vlbltax
  edge : ∀ v, g.Vertex v → ∀ e, g.vert v ≤ e → e < g.vend v → g'.edgetax.get e = g.edgetax.get e
  edlo : (g.edlotax = none ∧ g'.edlotax = none) ∨ ∃ x x', g.edlotax = some x ∧ g'.edlotax = some x' ∧ ∀ v, g.Vertex v → ∀ e, g.vert v ≤ e → e < g.vend v → x'.get e = x.get e
  velosum : g'.velosum = g.velosum
  edgenbr : g'.edgenbr = g.edgenbr
  edlosum : g'.edlosum = g.edlosum
  degrmax : g'.degrmax = g.degrmax

/-- Edge arrays are allocated from the base value up to the largest end index. -/
structure EdgesFrom (g : Graph) : Prop where
  lo : g.edgetax.lo ≤ g.baseval
  hi : ∀ v, g.Vertex v → g.vend v ≤ g.edgetax.hi
  edlo : ∀ a, g.edlotax = some a → a.lo ≤ g.baseval ∧ ∀ v, g.Vertex v → g.vend v ≤ a.hi

variable {g : Graph}

theorem copyTo_holds {blk : Arr Int} {off : Int} {src : Arr Int} {fst n : Int} (hn : 0 ≤ n) (h1 : blk.lo ≤ off) (h2 : off + n ≤ blk.hi) (h3 : 0 < n → src.lo ≤ fst ∧ fst + n ≤ src.hi) :
    Holds (copyTo blk off src fst n) (fun b => b.lo = blk.lo ∧ b.hi = blk.hi ∧ (∀ i, 0 ≤ i → i < n → b.get (off + i) = src.get (fst + i)) ∧ ∀ j, j < off ∨ off + n ≤ j → b.get j = blk.get j) := by
  unfold copyTo
  rw [if_neg (by omega)]
  apply Holds_forUp (fun k b => b.lo = blk.lo ∧ b.hi = blk.hi ∧ (∀ i, 0 ≤ i → i < k → b.get (off + i) = src.get (fst + i)) ∧ ∀ j, j < off ∨ off + k ≤ j → b.get j = blk.get j) hn
  · exact ⟨rfl, rfl, fun i a b => by omega, fun j _ => rfl⟩
  · rintro i b i0 i1 ⟨k1, k2, k3, k4⟩
    have := h3 (by omega)
    rw [Arr.rd_ok _ (by omega) (by omega), ok_bind, Arr.wr_ok _ _ (by omega) (by omega), Holds_ok]
    refine ⟨k1, k2, ?_, ?_⟩
    · intro j j0 j1
      rw [Arr.set_get]
      by_cases c : j = i
      · rw [if_pos (by omega), c]
      · rw [if_neg (by omega)]
        exact k3 j j0 (by omega)
    · intro j hj
      rw [Arr.set_get, if_neg (by omega)]
      exact k4 j (by omega)
  · exact fun b h => h

theorem optSize_nonneg {a : Option (Arr Int)} {n : Int} (hn : 0 ≤ n) : 0 ≤ optSize a n := by
  unfold optSize
  split <;> omega

/-- What has been copied. -/
def Copied (B : Arr Int) (base n : Int) (src : Option (Arr Int)) (pos : Option Int) : Prop :=
  (src = none ∧ pos = none) ∨ ∃ a o, src = some a ∧ pos = some o ∧ 0 ≤ o ∧ o + n ≤ B.hi ∧ ∀ i, 0 ≤ i → i < n → B.get (o + i) = a.get (base + i)

theorem cloneOpt_holds {base n : Int} {src : Option (Arr Int)} {s : Arr Int × Int} (hn : 0 ≤ n) (h1 : s.1.lo = 0) (h2 : 0 ≤ s.2) (h3 : s.2 + optSize src n ≤ s.1.hi) (ha : ∀ a, src = some a → a.lo ≤ base ∧ base + n ≤ a.hi) :
    Holds (cloneOpt base n src s) (fun r => r.1.1.lo = 0 ∧ r.1.1.hi = s.1.hi ∧ r.1.2 = s.2 + optSize src n ∧ (∀ j, j < s.2 → r.1.1.get j = s.1.get j) ∧
      ((src = none ∧ r.2 = none) ∨ ∃ a, src = some a ∧ r.2 = some s.2 ∧ s.2 + n = r.1.2 ∧ ∀ i, 0 ≤ i → i < n → r.1.1.get (s.2 + i) = a.get (base + i))) := by
  unfold cloneOpt
  cases src with
  | none =>
    dsimp only
    rw [Holds_pure]
    refine ⟨h1, rfl, ?_, fun j _ => rfl, Or.inl ⟨rfl, rfl⟩⟩
    show s.2 = s.2 + 0
    omega
  | some a =>
    have := ha a rfl
    have e : optSize (some a) n = n := rfl
    rw [e] at h3
    dsimp only
    rw [Holds_bind]
    refine (copyTo_holds hn (by omega) h3 (fun _ => this)).mono ?_
    rintro b ⟨b1, b2, b3, b4⟩
    rw [Holds_pure, e]
    exact ⟨b1.trans h1, b2, rfl, fun j hj => b4 j (by omega), Or.inr ⟨a, rfl, rfl, rfl, b3⟩⟩

theorem cloneEnds_holds (hc : g.Consistent) (ha : g.Allocated) {blk : Arr Int} (h1 : blk.lo = 0) (h2 : g.vertnbr + (if g.vendtax.isSome then g.vertnbr else 1) ≤ blk.hi) :
    Holds (cloneEnds g blk) (fun r => r.1.1.lo = 0 ∧ r.1.1.hi = blk.hi ∧ r.1.2 = g.vertnbr + (if g.vendtax.isSome then g.vertnbr else 1) ∧
      (∀ j, j < g.vertnbr → r.1.1.get j = blk.get j) ∧
      (r.2.1 = if g.vendtax.isSome then some g.vertnbr else none) ∧
      (∀ i, 0 ≤ i → i < g.vertnbr → g.vendtax.isSome → r.1.1.get (g.vertnbr + i) = g.vend (g.baseval + i)) ∧
      (g.vendtax = none → r.1.1.get g.vertnbr = g.verttax.get g.vertnnd ∧ r.2.2 = g.verttax.get g.vertnnd) ∧
      (∀ a, g.vendtax = some a → (∀ i, 0 ≤ i → i < g.vertnbr → g.vend (g.baseval + i) ≤ r.2.2) ∧ (r.2.2 = 0 ∨ ∃ i, 0 ≤ i ∧ i < g.vertnbr ∧ r.2.2 = g.vend (g.baseval + i)))) := by
  have hn := hc.vertnbr
  have hnnd := hc.vertnnd
  unfold cloneEnds
  cases hv : g.vendtax with
  | none =>
    rw [hv] at h2
    simp only [Option.isSome_none, Bool.false_eq_true, if_false] at h2 ⊢
    have := ha.vlo
    have := ha.vhi' hv
    rw [show g.vertnbr + g.baseval = g.vertnnd by omega, Arr.rd_ok _ (by omega) (by omega), ok_bind, Arr.wr_ok _ _ (by omega) (by omega), ok_bind, Holds_pure]
    refine ⟨h1, rfl, rfl, ?_, rfl, fun i _ _ h => (by cases h), fun _ => ⟨Arr.set_get_same _ _ _, rfl⟩, fun a h => (by cases h)⟩
    intro j hj
    exact Arr.set_get_ne _ _ (by omega)
  | some a =>
    rw [hv] at h2
    simp only [Option.isSome_some, if_true] at h2 ⊢
    have hal := ha.ends a hv
    have hvend : ∀ v, g.vend v = a.get v := fun v => by unfold vend; rw [hv]
    rw [Holds_bind]
    apply Holds_forUp (fun k s => s.1.lo = 0 ∧ s.1.hi = blk.hi ∧ (∀ j, j < g.vertnbr → s.1.get j = blk.get j) ∧ (∀ i, 0 ≤ i → i < k → s.1.get (g.vertnbr + i) = a.get (g.baseval + i)) ∧
      (∀ i, 0 ≤ i → i < k → a.get (g.baseval + i) ≤ s.2) ∧ (s.2 = 0 ∨ ∃ i, 0 ≤ i ∧ i < k ∧ s.2 = a.get (g.baseval + i))) hn
    · exact ⟨h1, rfl, fun _ _ => rfl, fun i a b => by omega, fun i a b => by omega, Or.inl rfl⟩
    · rintro i ⟨b, m⟩ i0 i1 ⟨k1, k2, k3, k4, k5, k6⟩
      dsimp only at k1 k2 k3 k4 k5 k6 ⊢
      rw [Arr.rd_ok _ (by omega) (by omega), ok_bind, Arr.wr_ok _ _ (by omega) (by omega), ok_bind, Holds_pure]
      refine ⟨k1, k2, ?_, ?_, ?_, ?_⟩
      · intro j hj
        dsimp only
        rw [Arr.set_get_ne _ _ (by omega)]
        exact k3 j hj
      · intro j j0 j1
        dsimp only
        rw [Arr.set_get]
        by_cases c : j = i
        · rw [if_pos (by omega), c]
        · rw [if_neg (by omega)]
          exact k4 j j0 (by omega)
      · intro j j0 j1
        dsimp only
        by_cases c : j = i
        · rw [c]
          split <;> omega
        · have := k5 j j0 (by omega)
          split <;> omega
      · dsimp only
        split
        · exact Or.inr ⟨i, i0, by omega, rfl⟩
        · rcases k6 with e | ⟨j, j0, j1, e⟩
          · exact Or.inl e
          · exact Or.inr ⟨j, j0, by omega, e⟩
    · rintro ⟨b, m⟩ ⟨k1, k2, k3, k4, k5, k6⟩
      dsimp only at k1 k2 k3 k4 k5 k6 ⊢
      rw [Holds_pure]
      refine ⟨k1, k2, rfl, k3, rfl, ?_, (by intro h; cases h), ?_⟩
      · intro i i0 i1 _
        rw [hvend]
        exact k4 i i0 i1
      · intro a' _
        simp only [hvend]
        exact ⟨k5, k6⟩

theorem cloneEdges_holds {E : Int} (hE : 0 ≤ E) (h1 : 0 < E → g.edgetax.lo ≤ g.baseval ∧ g.baseval + E ≤ g.edgetax.hi) (h2 : ∀ a, g.edlotax = some a → 0 < E → a.lo ≤ g.baseval ∧ g.baseval + E ≤ a.hi) (junk : Int → Int) :
    Holds (cloneEdges g E junk) (fun r => r.1.lo = 0 ∧ r.1.hi = E + optSize g.edlotax E ∧ (∀ i, 0 ≤ i → i < E → r.1.get i = g.edgetax.get (g.baseval + i)) ∧
      ((g.edlotax = none ∧ r.2 = none) ∨ ∃ a, g.edlotax = some a ∧ r.2 = some E ∧ ∀ i, 0 ≤ i → i < E → r.1.get (E + i) = a.get (g.baseval + i))) := by
  unfold cloneEdges
  have := optSize_nonneg (a := g.edlotax) hE
  rw [Holds_bind]
  refine (copyTo_holds hE (Int.le_refl _) (by dsimp only; omega) h1).mono ?_
  rintro b ⟨b1, b2, b3, b4⟩
  cases he : g.edlotax with
  | none =>
    dsimp only
    rw [Holds_pure]
    rw [he] at b2
    refine ⟨b1, b2, ?_, Or.inl ⟨rfl, rfl⟩⟩
    intro i i0 i1
    have := b3 i i0 i1
    rwa [Int.zero_add] at this
  | some a =>
    dsimp only
    have hs : optSize (some a) E = E := rfl
    rw [he, hs] at b2
    dsimp only at b1 b2
    rw [Holds_bind]
    refine (copyTo_holds hE (by omega) (by omega) (h2 a he)).mono ?_
    rintro c ⟨c1, c2, c3, c4⟩
    rw [Holds_pure, hs]
    refine ⟨by dsimp only; omega, by dsimp only; omega, ?_, Or.inr ⟨a, rfl, rfl, c3⟩⟩
    intro i i0 i1
    dsimp only
    rw [c4 i (by omega)]
    have := b3 i i0 i1
    rwa [Int.zero_add] at this

/-- In compact form, all indices are smaller than the last one. -/
theorem compact_le (hc : g.Consistent) (hv : g.vendtax = none) : ∀ (k : Nat) v, g.Vertex v → v + k + 1 = g.vertnnd → g.vend v ≤ g.verttax.get g.vertnnd := by
  intro k
  induction k with
  | zero =>
    intro v _ e
    unfold vend
    rw [hv]
    dsimp only
    rw [show v + 1 = g.vertnnd by omega]
  | succ k ih =>
    intro v h e
    have h' : g.Vertex (v + 1) := ⟨by have := h.1; omega, by omega⟩
    have := ih (v + 1) h' (by omega)
    have r := (hc.range (v + 1) h').2
    have : g.vend v = g.vert (v + 1) := by unfold vend; rw [hv]; rfl
    omega

theorem clone_holds (hc : g.Consistent) (ha : g.Allocated) (he : g.EdgesFrom) (hb : 0 ≤ g.baseval) (hpos : 0 < g.vertnbr) (j1 j2 : Int → Int) :
    Holds (clone g j1 j2) (fun r => ∃ g', r = some g' ∧ CloneOf g g' ∧ g'.Allocated) := by
  have hn := hc.vertnbr
  have hnnd := hc.vertnnd
  unfold clone
  dsimp only
  have o1 := optSize_nonneg (a := g.velotax) hn
  have o2 := optSize_nonneg (a := g.vnumtax) hn
  have o3 := optSize_nonneg (a := g.vlbltax) hn
  have o4 : 0 ≤ (if g.vendtax.isSome then g.vertnbr else 1) := by split <;> omega
  rw [if_neg (by omega), Holds_bind]
  have al := ha.vlo
  have ah := ha.vhi
  refine (copyTo_holds hn (Int.le_refl _) (by dsimp only; omega) (fun _ => ⟨al, by omega⟩)).mono ?_
  rintro blk ⟨b1, b2, b3, _⟩
  dsimp only at b1 b2
  rw [Holds_bind]
  refine (cloneEnds_holds hc ha b1 (by omega)).mono ?_
  rintro ⟨s, vend, E⟩ ⟨e1, e2, e3, e4, e5, e6, e7, e8⟩
  dsimp only at e1 e2 e3 e4 e5 e6 e7 e8 ⊢
  rw [Holds_bind]
  refine (cloneOpt_holds hn e1 (by omega) (by omega) (fun a h => by have := ha.velo a h; omega)).mono ?_
  rintro ⟨s1, velo⟩ ⟨f1, f2, f3, f4, f5⟩
  dsimp only at f1 f2 f3 f4 f5 ⊢
  rw [Holds_bind]
  refine (cloneOpt_holds hn f1 (by omega) (by omega) (fun a h => by have := ha.vnum a h; omega)).mono ?_
  rintro ⟨s2, vnum⟩ ⟨g1, g2, g3, g4, g5⟩
  dsimp only at g1 g2 g3 g4 g5 ⊢
  rw [Holds_bind]
  refine (cloneOpt_holds hn g1 (by omega) (by omega) (fun a h => by have := ha.vlbl a h; omega)).mono ?_
  rintro ⟨s3, vlbl⟩ ⟨i1, i2, i3, i4, i5⟩
  dsimp only at i1 i2 i3 i4 i5 ⊢
  -- end of the edge array
  have hE : ∀ v, g.Vertex v → g.vend v ≤ E := by
    intro v hv
    cases hvend : g.vendtax with
    | none =>
      rw [(e7 hvend).2]
      exact compact_le hc hvend (g.vertnnd - 1 - v).toNat v hv (by have := hv.2; omega)
    | some a =>
      have := (e8 a hvend).1 (v - g.baseval) (by have := hv.1; omega) (by have := hv.2; omega)
      rwa [show g.baseval + (v - g.baseval) = v by omega] at this
  have hbase : g.Vertex g.baseval := ⟨Int.le_refl _, by omega⟩
  have hE0 : g.baseval ≤ E := by
    have := hc.range _ hbase
    have := hE _ hbase
    omega
  have hEx : E = g.baseval ∨ ∃ v, g.Vertex v ∧ E = g.vend v := by
    cases hvend : g.vendtax with
    | none =>
      refine Or.inr ⟨g.vertnnd - 1, ⟨by omega, by omega⟩, ?_⟩
      rw [(e7 hvend).2]
      unfold Graph.vend
      rw [hvend]
      dsimp only
      rw [show g.vertnnd - 1 + 1 = g.vertnnd by omega]
    | some a =>
      rcases (e8 a hvend).2 with e | ⟨i, i0, i1, e⟩
      · have h1 := hE _ hbase
        have h2 := hc.range _ hbase
        exact Or.inl (by omega)
      · exact Or.inr ⟨_, ⟨by omega, by omega⟩, e⟩
  have hE1 : 0 < E - g.baseval → g.edgetax.lo ≤ g.baseval ∧ g.baseval + (E - g.baseval) ≤ g.edgetax.hi := by
    intro h
    rcases hEx with e | ⟨v, hv, e⟩
    · omega
    · exact ⟨he.lo, by have := he.hi v hv; omega⟩
  have hE2 : ∀ a, g.edlotax = some a → 0 < E - g.baseval → a.lo ≤ g.baseval ∧ g.baseval + (E - g.baseval) ≤ a.hi := by
    intro a h hlt
    rcases hEx with e | ⟨v, hv, e⟩
    · omega
    · exact ⟨(he.edlo a h).1, by have := (he.edlo a h).2 v hv; omega⟩
  have o5 := optSize_nonneg (a := g.edlotax) (show 0 ≤ E - g.baseval by omega)
  rw [if_neg (by omega), Holds_bind]
  refine (cloneEdges_holds (by omega) hE1 hE2 j2).mono ?_
  rintro ⟨B, edlo⟩ ⟨k1, k2, k3, k4⟩
  dsimp only at k1 k2 k3 k4 ⊢
  rw [Holds_pure]
  -- contents of the block of vertices
  have keep1 : ∀ j, j < s.2 → s3.1.get j = s.1.get j := fun j hj => by rw [i4 j (by omega), g4 j (by omega), f4 j (by omega)]
  have cvert : ∀ i, 0 ≤ i → i < g.vertnbr → s3.1.get i = g.verttax.get (g.baseval + i) := by
    intro i a b
    rw [keep1 i (by omega), e4 i b]
    have := b3 i a b
    rwa [Int.zero_add] at this
  have shift : ∀ (o v : Int), (s3.1.shift (g.baseval - o)).get v = s3.1.get (o + (v - g.baseval)) := by
    intro o v
    unfold Arr.shift
    dsimp only
    congr 1
    omega
  have shift0 : ∀ v, (s3.1.shift g.baseval).get v = s3.1.get (v - g.baseval) := fun v => rfl
  have hvert : ∀ v, g.Vertex v → (s3.1.shift g.baseval).get v = g.verttax.get v := by
    intro v hv
    rw [shift0, cvert _ (by have := hv.1; omega) (by have := hv.2; omega), show g.baseval + (v - g.baseval) = v by omega]
  have hvend : ∀ v, g.Vertex v → (match vend.map (fun o => s3.1.shift (g.baseval - o)) with | none => (s3.1.shift g.baseval).get (v + 1) | some a => a.get v) = g.vend v := by
    intro v hv
    have v1 := hv.1
    have v2 := hv.2
    cases hvd : g.vendtax with
    | none =>
      rw [hvd] at e5 e3
      simp only [Option.isSome_none, Bool.false_eq_true, if_false] at e5 e3
      rw [e5]
      dsimp only [Option.map_none]
      unfold Graph.vend
      rw [hvd]
      dsimp only
      by_cases c : v + 1 = g.vertnnd
      · rw [c, shift0, show g.vertnnd - g.baseval = g.vertnbr by omega, keep1 _ (by omega)]
        exact (e7 hvd).1
      · exact hvert (v + 1) ⟨by omega, by omega⟩
    | some a =>
      have hs : g.vendtax.isSome := by rw [hvd]; rfl
      rw [if_pos hs] at e5 e3
      rw [e5]
      dsimp only [Option.map_some]
      rw [shift, keep1 _ (by omega), e6 _ (by omega) (by omega) hs, show g.baseval + (v - g.baseval) = v by omega]
  have same : ∀ (src : Option (Arr Int)) (pos : Option Int) (off : Int),
      ((src = none ∧ pos = none) ∨ ∃ a, src = some a ∧ pos = some off ∧ ∀ i, 0 ≤ i → i < g.vertnbr → s3.1.get (off + i) = a.get (g.baseval + i)) →
      SameOpt g.baseval g.vertnnd src (pos.map fun o => s3.1.shift (g.baseval - o)) := by
    rintro src pos off (⟨x, y⟩ | ⟨a, x, y, z⟩)
    · exact Or.inl ⟨x, by rw [y]; rfl⟩
    · refine Or.inr ⟨a, _, x, by rw [y]; rfl, ?_⟩
      intro v v1 v2
      rw [shift, z _ (by omega) (by omega), show g.baseval + (v - g.baseval) = v by omega]
  have hvelo := same g.velotax velo s.2 (by
    rcases f5 with x | ⟨a, x, y, w, z⟩
    · exact Or.inl x
    · refine Or.inr ⟨a, x, y, fun i i0 i1 => ?_⟩
      rw [i4 _ (by omega), g4 _ (by omega)]
      exact z i i0 i1)
  have hvnum := same g.vnumtax vnum s1.2 (by
    rcases g5 with x | ⟨a, x, y, w, z⟩
    · exact Or.inl x
    · refine Or.inr ⟨a, x, y, fun i i0 i1 => ?_⟩
      rw [i4 _ (by omega)]
      exact z i i0 i1)
  have hvlbl := same g.vlbltax vlbl s2.2 (by
    rcases i5 with x | ⟨a, x, y, w, z⟩
    · exact Or.inl x
    · exact Or.inr ⟨a, x, y, z⟩)
  have hedge : ∀ v, g.Vertex v → ∀ e, g.vert v ≤ e → e < g.vend v → (B.shift g.baseval).get e = g.edgetax.get e := by
    intro v hv e a b
    have := hE v hv
    have := hc.range v hv
    show B.get (e - g.baseval) = _
    rw [k3 _ (by omega) (by omega), show g.baseval + (e - g.baseval) = e by omega]
  refine ⟨_, rfl, ⟨rfl, rfl, by dsimp only; omega, hvert, hvend, ?_, hvelo, hvnum, hvlbl, hedge, ?_, rfl, rfl, rfl, rfl⟩, ?_⟩
  · dsimp only
    rw [e5]
    cases g.vendtax <;> simp
  · rcases k4 with ⟨x, y⟩ | ⟨a, x, y, z⟩
    · exact Or.inl ⟨x, by dsimp only; rw [y]; rfl⟩
    · refine Or.inr ⟨a, _, x, by dsimp only; rw [y]; rfl, ?_⟩
      intro v hv e a1 a2
      have := hE v hv
      have := hc.range v hv
      show B.get (e - (g.baseval - (E - g.baseval))) = _
      rw [show e - (g.baseval - (E - g.baseval)) = (E - g.baseval) + (e - g.baseval) by omega, z _ (by omega) (by omega), show g.baseval + (e - g.baseval) = e by omega]
  · have bnd : ∀ (pos : Option Int) (off : Int), (pos = none ∨ (pos = some off ∧ 0 ≤ off ∧ off + g.vertnbr ≤ s3.1.hi)) →
        ∀ x, pos.map (fun o => s3.1.shift (g.baseval - o)) = some x → x.lo ≤ g.baseval ∧ g.vertnbr + g.baseval ≤ x.hi := by
      rintro pos off (x | ⟨x, y, z⟩) a h
      · rw [x] at h; cases h
      · rw [x] at h
        obtain rfl := Option.some.inj h
        unfold Arr.shift
        dsimp only
        omega
    have hhi : s3.1.hi = blk.hi := by rw [i2, g2, f2, e2]
    refine ⟨?_, ?_, ?_, ?_, ?_, ?_, ?_, ?_, ?_⟩
    · unfold Arr.shift; dsimp only; omega
    · unfold Arr.shift; dsimp only; omega
    · intro hnone
      unfold Arr.shift
      dsimp only
      have : 1 ≤ (if g.vendtax.isSome then g.vertnbr else 1) := by split <;> omega
      omega
    · refine bnd vend g.vertnbr ?_
      rw [e5]
      cases hvd : g.vendtax with
      | none => exact Or.inl rfl
      | some a =>
        have : (if g.vendtax.isSome then g.vertnbr else 1) = g.vertnbr := by rw [hvd]; rfl
        exact Or.inr ⟨rfl, hn, by omega⟩
    · refine bnd velo s.2 ?_
      rcases f5 with x | ⟨a, x, y, w, z⟩
      · exact Or.inl x.2
      · exact Or.inr ⟨y, by omega, by omega⟩
    · refine bnd vnum s1.2 ?_
      rcases g5 with x | ⟨a, x, y, w, z⟩
      · exact Or.inl x.2
      · exact Or.inr ⟨y, by omega, by omega⟩
    · refine bnd vlbl s2.2 ?_
      rcases i5 with x | ⟨a, x, y, w, z⟩
      · exact Or.inl x.2
      · exact Or.inr ⟨y, by omega, by omega⟩
    · intro v hv hlt
      have hv' : g.Vertex v := ⟨hv.1, by have := hv.2; dsimp only at this; omega⟩
      have r0 := hE v hv'
      have r1 := (hc.range v hv').1
      refine ⟨?_, ?_⟩
      · refine Int.le_trans ?_ (Int.le_of_eq (hvert v hv').symm)
        show B.lo + g.baseval ≤ g.vert v
        omega
      · refine Int.le_trans (Int.le_of_eq (hvend v hv')) ?_
        show g.vend v ≤ B.hi + g.baseval
        omega
    · intro a h v hv hlt
      have hv' : g.Vertex v := ⟨hv.1, by have := hv.2; dsimp only at this; omega⟩
      have r0 := hE v hv'
      have r1 := (hc.range v hv').1
      dsimp only at h
      rcases k4 with ⟨x, y⟩ | ⟨a', x, y, z⟩
      · rw [y] at h; cases h
      · rw [y] at h
        obtain rfl := Option.some.inj h
        have hs : optSize g.edlotax (E - g.baseval) = E - g.baseval := by rw [x]; rfl
        refine ⟨?_, ?_⟩
        · refine Int.le_trans ?_ (Int.le_of_eq (hvert v hv').symm)
          show B.lo + (g.baseval - (E - g.baseval)) ≤ g.vert v
          omega
        · refine Int.le_trans (Int.le_of_eq (hvend v hv')) ?_
          show g.vend v ≤ B.hi + (g.baseval - (E - g.baseval))
          omega

/-! ## Consequences -/

theorem CloneOf.arcs {g' : Graph} (h : CloneOf g g') {v : Int} (hv : g.Vertex v) : g'.arcs v = g.arcs v := by
  unfold Graph.arcs
  rw [h.vert v hv, h.vend v hv]

theorem CloneOf.nbrs {g' : Graph} (h : CloneOf g g') {v : Int} (hv : g.Vertex v) : g'.nbrs v = g.nbrs v := by
  unfold Graph.nbrs
  rw [h.arcs hv]
  apply List.map_congr_left
  intro e he
  unfold Graph.arcs at he
  obtain ⟨k, hk, rfl⟩ := List.mem_map.1 he
  have hk := List.mem_range.1 hk
  have e1 := h.edge v hv (g.vert v + (k : Nat)) (by omega) (by omega)
  have e2 : g'.edlo (g.vert v + (k : Nat)) = g.edlo (g.vert v + (k : Nat)) := by
    unfold Graph.edlo
    rcases h.edlo with ⟨a, b⟩ | ⟨x, x', a, b, c⟩
    · rw [a, b]
    · rw [a, b]
      exact c v hv _ (by omega) (by omega)
  unfold Graph.dest
  rw [e1, e2]

theorem CloneOf.load {g' : Graph} (h : CloneOf g g') {v : Int} (hv : g.Vertex v) : g'.velo v = g.velo v := by
  unfold Graph.velo
  rcases h.velo with ⟨a, b⟩ | ⟨x, x', a, b, c⟩
  · rw [a, b]
  · rw [a, b]
    exact c v hv.1 hv.2

theorem CloneOf.vertex {g' : Graph} (h : CloneOf g g') (v : Int) : g'.Vertex v ↔ g.Vertex v := by
  unfold Graph.Vertex
  rw [h.baseval, h.vertnnd]

theorem CloneOf.consistent {g' : Graph} (h : CloneOf g g') (hc : g.Consistent) : g'.Consistent := by
  refine ⟨?_, ?_, ?_, ?_, ?_, ?_, ?_, ?_, ?_, ?_, ?_, ?_⟩
  · rw [h.vertnbr]; exact hc.vertnbr
  · rw [h.vertnbr, h.vertnnd, h.baseval]; exact hc.vertnnd
  · intro v hv
    have hv := (h.vertex v).1 hv
    rw [h.baseval, h.vert v hv, h.vend v hv]
    exact hc.range v hv
  · intro v p hv hp
    have hv := (h.vertex v).1 hv
    rw [h.nbrs hv] at hp
    rw [h.vertex]
    exact hc.inside v p hv hp
  · intro v p hv hp
    have hv := (h.vertex v).1 hv
    rw [h.nbrs hv] at hp
    rw [h.nbrs (hc.inside v p hv hp).1]
    exact hc.symm v p hv hp
  · intro v hv
    have hv := (h.vertex v).1 hv
    rw [h.nbrs hv]
    exact hc.simple v hv
  · rw [h.edgenbr, hc.edgenbr, h.baseval, h.vertnnd]
    exact sumI_congr (fun v v1 v2 => by rw [h.nbrs ⟨v1, v2⟩])
  · intro v hv
    have hv := (h.vertex v).1 hv
    rw [h.load hv]
    exact hc.velo v hv
  · rw [h.velosum, hc.velosum, h.baseval, h.vertnnd]
    exact sumI_congr (fun v v1 v2 => by rw [h.load ⟨v1, v2⟩])
  · intro v p hv hp
    have hv := (h.vertex v).1 hv
    rw [h.nbrs hv] at hp
    exact hc.edlo v p hv hp
  · rw [h.edlosum, hc.edlosum, h.baseval, h.vertnnd]
    exact sumI_congr (fun v v1 v2 => by rw [h.nbrs ⟨v1, v2⟩])
  · rw [h.degrmax]
    refine ⟨hc.degrmax.1, ?_⟩
    intro v hv
    have hv := (h.vertex v).1 hv
    rw [h.nbrs hv]
    exact hc.degrmax.2 v hv

/-- **C48**, for graphs that have vertices: the clone has the same contents, is consistent, and has enough memory. -/
theorem C48_clone_partial (g : Graph) (hc : g.Consistent) (ha : g.Allocated) (he : g.EdgesFrom) (hb : 0 ≤ g.baseval) (hpos : 0 < g.vertnbr) (j1 j2 : Int → Int) :
    ∃ g', clone g j1 j2 = .ok (some g') ∧ CloneOf g g' ∧ (∀ v, g.Vertex v → g'.nbrs v = g.nbrs v) ∧ g'.Consistent ∧ g'.Allocated := by
  obtain ⟨r, e, g', rfl, h1, h2⟩ := Holds_iff_exists.1 (clone_holds hc ha he hb hpos j1 j2)
  exact ⟨g', e, h1, fun v hv => h1.nbrs hv, h1.consistent hc, h2⟩

/-! ## Cases -/

/-- A path of three vertices, with an array of end indices, a hole in the edge array, and loads. -/
def exClone : Graph :=
  { baseval := 1, vertnbr := 3, vertnnd := 4, verttax := Arr.ofList 1 [5, 2, 1], vendtax := some (Arr.ofList 1 [6, 4, 2]), velotax := some (Arr.ofList 1 [7, 8, 9]), velosum := 24,
    vnumtax := none, vlbltax := some (Arr.ofList 1 [10, 20, 30]), edgenbr := 4, edgetax := Arr.ofList 1 [2, 1, 3, 77, 2], edlotax := some (Arr.ofList 1 [4, 3, 4, 99, 3]), edlosum := 14, degrmax := 2 }

example : exClone.Consistent ∧ exClone.Allocated ∧ exClone.EdgesFrom ∧ 0 ≤ exClone.baseval ∧ 0 < exClone.vertnbr := by
  refine ⟨consB_sound (by decide +kernel), allocB_sound (by decide +kernel), ⟨by decide, ?_, ?_⟩, by decide, by decide⟩
  · intro v hv
    have h1 : 1 ≤ v := hv.1
    have h2 : v < 4 := hv.2
    obtain rfl | rfl | rfl : v = 1 ∨ v = 2 ∨ v = 3 := by omega
    all_goals decide
  · intro a h
    obtain rfl := Option.some.inj h
    refine ⟨by decide, ?_⟩
    intro v hv
    have h1 : 1 ≤ v := hv.1
    have h2 : v < 4 := hv.2
    obtain rfl | rfl | rfl : v = 1 ∨ v = 2 ∨ v = 3 := by omega
    all_goals decide

example : (clone exClone (fun _ => 55) (fun _ => 66)).map (fun r => r.map fun g => [g.verttax.toList, g.edgetax.toList]) =
    .ok (some [[5, 2, 1, 6, 4, 2, 7, 8, 9, 10, 20, 30], [2, 1, 3, 77, 2, 4, 3, 4, 99, 3]]) := by decide +kernel

/-! ## Disagreements -/

/-- An empty graph, with an array of end indices. -/
def emptyGraph : Graph :=
  { baseval := 1, vertnbr := 0, vertnnd := 1, verttax := ⟨1, 1, fun _ => 0⟩, vendtax := some ⟨1, 1, fun _ => 0⟩, velotax := none, velosum := 0,
    vnumtax := none, vlbltax := none, edgenbr := 0, edgetax := ⟨1, 1, fun _ => 0⟩, edlotax := none, edlosum := 0, degrmax := 0 }

/-- Empty graphs may not be cloned. -/
theorem C48_empty_fails : emptyGraph.Consistent ∧ emptyGraph.Allocated ∧ emptyGraph.EdgesFrom ∧ ∀ j1 j2, clone emptyGraph j1 j2 = .ok none :=
  ⟨consB_sound (by decide +kernel), allocB_sound (by decide +kernel), ⟨by decide, fun v hv => by have h1 : 1 ≤ v := hv.1; have h2 : v < 1 := hv.2; omega, fun a h => (by cases h)⟩, fun _ _ => rfl⟩

/-- A vertex without arcs, whose indices are not those of cells of the edge array. -/
def isolGraph : Graph :=
  { baseval := 0, vertnbr := 1, vertnnd := 1, verttax := Arr.ofList 0 [3], vendtax := some (Arr.ofList 0 [3]), velotax := none, velosum := 1,
    vnumtax := none, vlbltax := none, edgenbr := 0, edgetax := ⟨0, 0, fun _ => 0⟩, edlotax := none, edlosum := 0, degrmax := 0 }

/-- Memory is read outside of the edge array of a graph that the checker accepts. -/
theorem C48_isolated_oob : isolGraph.Consistent ∧ isolGraph.Allocated ∧ check 2147483647 isolGraph = .ok true ∧ ∀ j1 j2, clone isolGraph j1 j2 = .error .oob :=
  ⟨consB_sound (by decide +kernel), allocB_sound (by decide +kernel), by decide +kernel, fun _ _ => rfl⟩

end Scotch.Graph
