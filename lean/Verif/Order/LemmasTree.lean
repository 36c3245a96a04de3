import Verif.Order.Lemmas

/-! # Orderings: helper lemmas on ranges and elimination trees -/

set_option linter.unusedSimpArgs false

namespace Scotch
open Cblk

/-! ## orderRang2 -/

/-- Effect of `orderRang2` on its state for the given list of leaf sizes. -/
def RangPost (s : RangState) (l : List Int) (r : RangState) : Prop :=
  r.rangtab.lo = s.rangtab.lo ∧ r.rangtab.hi = s.rangtab.hi ∧
  r.rangidx = s.rangidx + l.length ∧ r.ordenum = s.ordenum + l.sum ∧
  (∀ k : Nat, k < l.length → r.rangtab.get (s.rangidx + k) = s.ordenum + (l.take k).sum) ∧
  (∀ i, (i < s.rangidx ∨ s.rangidx + l.length ≤ i) → r.rangtab.get i = s.rangtab.get i)

mutual
theorem orderRang2_holds : ∀ (c : Cblk) (s : RangState), c.Alloc →
    s.rangtab.lo ≤ s.rangidx → s.rangidx + c.leaves.length ≤ s.rangtab.hi →
    Holds (orderRang2 c s) (RangPost s c.leaves)
  | .leaf t v c, s, _, h1, h2 => by
    simp only [leaves, List.length_singleton] at h2
    unfold orderRang2
    msimp
    refine ⟨by omega, rfl, rfl, by simp [leaves], by simp [leaves], ?_, ?_⟩
    · intro k hk
      simp only [leaves, List.length_singleton] at hk
      have : k = 0 := by omega
      subst this
      simp
    · intro i hi
      simp only [leaves, List.length_singleton] at hi
      exact Arr.set_get_ne _ _ (by omega)
  | .node t v c sons, s, ha, h1, h2 => by
    simp only [Alloc] at ha
    simp only [leaves] at h2 ⊢
    unfold orderRang2
    have : c.toNat = sons.length := by omega
    rw [this]
    exact orderRang2Sons_holds sons s ha.2 h1 h2
theorem orderRang2Sons_holds : ∀ (l : List Cblk) (s : RangState), AllocL l →
    s.rangtab.lo ≤ s.rangidx → s.rangidx + (leavesL l).length ≤ s.rangtab.hi →
    Holds (orderRang2Sons l l.length s) (RangPost s (leavesL l))
  | [], s, _, _, _ => by
    simp [orderRang2Sons, RangPost, leavesL]
  | c :: r, s, ha, h1, h2 => by
    simp only [AllocL] at ha
    simp only [leavesL, List.length_append] at h2
    simp only [List.length_cons, orderRang2Sons]
    msimp
    refine (orderRang2_holds c s ha.1 h1 (by omega)).mono ?_
    rintro s1 ⟨a1, a2, a3, a4, a5, a6⟩
    refine (orderRang2Sons_holds r s1 ha.2 (by omega) (by omega)).mono ?_
    rintro s2 ⟨b1, b2, b3, b4, b5, b6⟩
    refine ⟨by omega, by omega, ?_, ?_, ?_, ?_⟩
    · simp only [leavesL, List.length_append]; push_cast; omega
    · simp only [leavesL, List.sum_append]; omega
    · intro k hk
      simp only [leavesL, List.length_append] at hk
      by_cases hk' : k < c.leaves.length
      · rw [b6 _ (by omega), a5 k hk', leavesL, List.take_append_of_le_length (by omega)]
      · obtain ⟨m, rfl⟩ : ∃ m, k = c.leaves.length + m := ⟨k - c.leaves.length, by omega⟩
        have := b5 m (by omega)
        rw [leavesL, List.take_length_add_append, List.sum_append, ← add_assoc, ← a4, ← this, a3]
        congr 1; push_cast; omega
    · intro i hi
      simp only [leavesL, List.length_append] at hi
      rw [b6 i (by omega), a6 i (by omega)]
end

/-! ## Elimination trees: facts about father tables -/

/-- Fathers of the blocks of `[a,b)` are inside and higher, or the exit value `cb`; the last
block has the exit value. -/
structure Seg (fa : Int → Int) (a b cb : Int) : Prop where
  step : ∀ k, a ≤ k → k < b → fa k = cb ∨ (k < fa k ∧ fa k < b)
  last : fa (b - 1) = cb

/-- The table is increasing on `[a, top)`. -/
def Incr (fa : Int → Int) (a top : Int) : Prop :=
  ∀ j, a ≤ j → j < top → fa j = -1 ∨ (j < fa j ∧ fa j < top)

theorem Anc.trans {fa : Int → Int} {a b c : Int} (h1 : Anc fa a b) (h2 : Anc fa b c) :
    Anc fa a c := by
  induction h2 with
  | father h => exact Anc.up _ _ h1 h
  | up j _ h ih => exact Anc.up _ _ ih h

theorem Seg.reach {fa : Int → Int} {a b cb : Int} (h : Seg fa a b cb) (hcb : cb ≠ -1)
    (ha : 0 ≤ a) : ∀ (n : Nat) (k : Int), a ≤ k → k < b → b - k ≤ n → Anc fa k cb := by
  intro n
  induction n with
  | zero => intro k _ h2 h3; omega
  | succ n ih =>
    intro k h1 h2 h3
    rcases h.step k h1 h2 with he | ⟨g1, g2⟩
    · have := Anc.father (fa := fa) k (by rw [he]; exact hcb)
      rwa [he] at this
    · exact (Anc.father (fa := fa) k (by omega)).trans (ih (fa k) (by omega) g2 (by omega))

theorem Incr.anc {fa : Int → Int} {a top k j : Int} (h : Incr fa a top) (h1 : a ≤ k)
    (h2 : k < top) (hj : Anc fa k j) : k < j ∧ j < top := by
  induction hj with
  | father he =>
    rcases h k h1 h2 with h | h
    · exact absurd h he
    · exact h
  | up j _ he ih =>
    rcases h j (by omega) (by omega) with h | h
    · exact absurd h he
    · exact ⟨by omega, h.2⟩

/-- Ancestors of a block of a segment are in the segment or beyond the exit value. -/
theorem Seg.anc {fa : Int → Int} {a b cb e top k j : Int} (h : Seg fa a b cb)
    (hi : Incr fa a top) (hb : b ≤ e) (he : e ≤ top) (hcb : cb = -1 ∨ e ≤ cb)
    (h1 : a ≤ k) (h2 : k < b) (hj : Anc fa k j) : (j < b ∨ e ≤ j) ∧ k < j ∧ j < top := by
  induction hj with
  | father hne =>
    rcases hi k h1 (by omega) with g | g
    · exact absurd g hne
    · rcases h.step k h1 h2 with g' | g'
      · rcases hcb with hcb | hcb
        · exact absurd (g'.trans hcb) hne
        · exact ⟨by omega, g⟩
      · exact ⟨by omega, g⟩
  | up j _ hne ih =>
    rcases hi j (by omega) (by omega) with g | g
    · exact absurd g hne
    · rcases ih.1 with hjb | hje
      · rcases h.step j (by omega) hjb with g' | g'
        · rcases hcb with hcb | hcb
          · exact absurd (g'.trans hcb) hne
          · exact ⟨by omega, by omega, g.2⟩
        · exact ⟨by omega, by omega, g.2⟩
      · exact ⟨by omega, by omega, g.2⟩

theorem Seg.indep {fa : Int → Int} {a b c d cb e top lo : Int} (h : Seg fa a b cb)
    (hi : Incr fa lo top) (hlo : lo ≤ a) (_hac : a ≤ c) (hbc : b ≤ c) (hd : d ≤ e) (he : e ≤ top)
    (hcb : cb = -1 ∨ e ≤ cb) : Indep fa (a, b) (c, d) := by
  intro k j h1 h2 h3 h4
  simp only at h1 h2 h3 h4
  constructor
  · intro hj
    have := h.anc (fun j h1 h2 => hi j (by omega) h2) (by omega) he hcb h1 h2 hj
    omega
  · intro hj
    have := hi.anc (by omega) (by omega) hj
    omega

/-- All sub-blocks have the same exit value. -/
def ParSeg (fa : Int → Int) (cb : Int) : List Cblk → Int → Prop
  | [], _ => True
  | s :: r, first => Seg fa first (first + s.width) cb ∧ ParSeg fa cb r (first + s.width)

/-- Total number of blocks of a list of sub-trees. -/
def widthL (l : List Cblk) : Int := (leavesL l).length

theorem widthL_cons (s : Cblk) (r : List Cblk) : widthL (s :: r) = s.width + widthL r := by
  simp [widthL, leavesL, width]

theorem widthL_nil : widthL [] = 0 := by simp [widthL, leavesL]

theorem width_node (t v c : Int) (sons : List Cblk) : (Cblk.node t v c sons).width = widthL sons := by
  simp [width, leaves, widthL]

theorem width_nonneg (c : Cblk) : 0 ≤ c.width := by simp [width]
theorem widthL_nonneg (l : List Cblk) : 0 ≤ widthL l := by simp [widthL]

theorem ranges_mem {l : List Cblk} {first : Int} {p : BRange} :
    p ∈ ranges l first → first ≤ p.1 ∧ p.1 ≤ p.2 ∧ p.2 ≤ first + widthL l := by
  induction l generalizing first with
  | nil => intro h; simp [ranges] at h
  | cons s r ih =>
    intro h
    have := width_nonneg s
    have := widthL_nonneg r
    rw [widthL_cons]
    simp only [ranges, List.mem_cons] at h
    rcases h with rfl | h
    · exact ⟨by omega, by simp only; omega, by simp only; omega⟩
    · have := ih h; omega

theorem ParSeg.indep {fa : Int → Int} {cb e top lo : Int} :
    ∀ (l : List Cblk) (first : Int), ParSeg fa cb l first → Incr fa lo top → lo ≤ first →
      first + widthL l ≤ e → e ≤ top → (cb = -1 ∨ e ≤ cb) →
      (ranges l first).Pairwise (Indep fa)
  | [], _, _, _, _, _, _, _ => by simp [ranges]
  | s :: r, first, h, hi, hlo, he, htop, hcb => by
    rw [widthL_cons] at he
    have hw := width_nonneg s
    simp only [ranges, List.pairwise_cons]
    refine ⟨?_, ParSeg.indep r _ h.2 hi (by omega) (by omega) htop hcb⟩
    intro q hq
    have := ranges_mem hq
    exact h.1.indep (d := q.2) hi hlo (by omega) (by omega) (by omega) htop hcb

theorem ParSeg.step {fa : Int → Int} {cb : Int} :
    ∀ (l : List Cblk) (first : Int), ParSeg fa cb l first →
      ∀ k, first ≤ k → k < first + widthL l → fa k = cb ∨ (k < fa k ∧ fa k < first + widthL l)
  | [], first, _, k, h1, h2 => by rw [widthL_nil] at h2; omega
  | s :: r, first, h, k, h1, h2 => by
    rw [widthL_cons] at h2 ⊢
    have := widthL_nonneg r
    by_cases hk : k < first + s.width
    · rcases h.1.step k h1 hk with g | g
      · exact Or.inl g
      · exact Or.inr ⟨g.1, by omega⟩
    · rcases ParSeg.step r _ h.2 k (by omega) (by omega) with g | g
      · exact Or.inl g
      · exact Or.inr ⟨g.1, by omega⟩

theorem ParSeg.last {fa : Int → Int} {cb : Int} :
    ∀ (l : List Cblk) (first : Int), ParSeg fa cb l first → l ≠ [] →
      fa (first + widthL l - 1) = cb
  | [], _, _, h => absurd rfl h
  | [s], first, h, _ => by
    rw [widthL_cons, widthL_nil, add_zero]; exact h.1.last
  | s :: s' :: r, first, h, _ => by
    have := ParSeg.last (s' :: r) _ h.2 (by simp)
    rw [widthL_cons, ← this]
    congr 1; omega

/-- The exit value of each sub-block is the last block of the next one. -/
def SeqSeg (fa : Int → Int) (cb : Int) : List Cblk → Int → Prop
  | [], _ => True
  | s :: r, first =>
    Seg fa first (first + s.width)
      (match r with | [] => cb | s' :: _ => first + s.width + s'.width - 1) ∧
    SeqSeg fa cb r (first + s.width)

theorem SeqSeg.step {fa : Int → Int} {cb : Int} :
    ∀ (l : List Cblk) (first : Int), (∀ s ∈ l, 1 ≤ s.width) → SeqSeg fa cb l first →
      ∀ k, first ≤ k → k < first + widthL l → fa k = cb ∨ (k < fa k ∧ fa k < first + widthL l)
  | [], first, _, _, k, h1, h2 => by rw [widthL_nil] at h2; omega
  | s :: r, first, hw, h, k, h1, h2 => by
    rw [widthL_cons] at h2 ⊢
    have := widthL_nonneg r
    by_cases hk : k < first + s.width
    · cases r with
      | nil =>
        rcases h.1.step k h1 hk with g | g
        · exact Or.inl g
        · exact Or.inr ⟨g.1, by omega⟩
      | cons s' r' =>
        have h' := hw s' (by simp)
        rw [widthL_cons]
        have := widthL_nonneg r'
        rcases h.1.step k h1 hk with g | g
        · simp only at g; right; omega
        · exact Or.inr ⟨g.1, by omega⟩
    · rcases SeqSeg.step r _ (fun s hs => hw s (by simp [hs])) h.2 k (by omega) (by omega) with g | g
      · exact Or.inl g
      · exact Or.inr ⟨g.1, by omega⟩

theorem SeqSeg.last {fa : Int → Int} {cb : Int} :
    ∀ (l : List Cblk) (first : Int), SeqSeg fa cb l first → l ≠ [] →
      fa (first + widthL l - 1) = cb
  | [], _, _, h => absurd rfl h
  | [s], first, h, _ => by
    rw [widthL_cons, widthL_nil, add_zero]; exact h.1.last
  | s :: s' :: r, first, h, _ => by
    have := SeqSeg.last (s' :: r) _ h.2 (by simp)
    rw [widthL_cons, ← this]
    congr 1; omega

theorem SeqSeg.dep {fa : Int → Int} {cb : Int} :
    ∀ (l : List Cblk) (first : Int), 0 ≤ first → (∀ s ∈ l, 1 ≤ s.width) → SeqSeg fa cb l first →
      (ranges l first).Pairwise (Dep fa)
  | [], _, _, _, _ => by simp [ranges]
  | [s], first, _, _, _ => by simp [ranges]
  | s :: s' :: r, first, h0, hw, h => by
    have w1 := hw s (by simp)
    have w2 := hw s' (by simp)
    have ih := SeqSeg.dep (s' :: r) (first + s.width) (by omega)
      (fun t ht => hw t (by simp [List.mem_cons] at ht ⊢; exact Or.inr ht)) h.2
    have hd : Dep fa (first, first + s.width)
        (first + s.width, first + s.width + s'.width) := by
      intro k h1 h2
      simp only at h1 h2
      exact h.1.reach (by simp only; omega) h0 (first + s.width - k).toNat k h1 h2 (by omega)
    simp only [ranges, List.pairwise_cons] at ih ⊢
    refine ⟨?_, ih⟩
    intro q hq
    simp only [List.mem_cons] at hq
    rcases hq with rfl | hq
    · exact hd
    · intro k h1 h2
      exact (hd k h1 h2).trans (ih.1 q hq _ (by simp only; omega) (by simp only; omega))

/-! ## orderTree2 -/

/-- `fa` agrees with the array on `[a,b)`. -/
def Agree (fa : Int → Int) (t : Arr Int) (a b : Int) : Prop := ∀ k, a ≤ k → k < b → fa k = t.get k

/-- Frame part of the postcondition of `orderTree2` and its loops, on blocks `[first, first+w)`. -/
def TreeFrame (s : TreeState) (first w : Int) (r : TreeState) : Prop :=
  r.treetax.lo = s.treetax.lo ∧ r.treetax.hi = s.treetax.hi ∧ r.cblanum = first - 1 ∧
  (∀ k, (k < first ∨ first + w ≤ k) → r.treetax.get k = s.treetax.get k)

/-- Conditions under which the table reflects the tree. -/
def Ctx (fa : Int → Int) (first e cb top : Int) : Prop :=
  0 ≤ first ∧ Incr fa first top ∧ e ≤ top ∧ (cb = -1 ∨ e ≤ cb)

theorem TreeFrame.trans {s s1 s2 : TreeState} {first w1 w2 : Int}
    (h1 : TreeFrame s (first + w1) w2 s1) (h2 : TreeFrame s1 first w1 s2)
    (hw1 : 0 ≤ w1) (hw2 : 0 ≤ w2) : TreeFrame s first (w1 + w2) s2 := by
  obtain ⟨a1, a2, a3, a4⟩ := h1
  obtain ⟨b1, b2, b3, b4⟩ := h2
  refine ⟨by omega, by omega, b3, ?_⟩
  intro k hk
  rw [b4 k (by omega), a4 k (by omega)]

theorem Agree.frame {fa : Int → Int} {s1 s2 : TreeState} {first w a b : Int}
    (h : Agree fa s2.treetax a b) (hf : TreeFrame s1 first w s2)
    (hd : b ≤ first ∨ first + w ≤ a) : Agree fa s1.treetax a b := by
  intro k h1 h2
  rw [h k h1 h2, hf.2.2.2 k (by omega)]

theorem CoherentL_width : ∀ {l : List Cblk}, AllocL l → CoherentL l → ∀ s ∈ l, 1 ≤ s.width
  | [], _, _ => by simp
  | s :: r, ha, hc => by
    simp only [AllocL] at ha
    simp only [CoherentL] at hc
    intro t ht
    simp only [List.mem_cons] at ht
    rcases ht with rfl | ht
    · exact width_pos _ ha.1 hc.1
    · exact CoherentL_width ha.2 hc.2 t ht

/-- Postcondition of `orderTree2`. -/
def TreePost (c : Cblk) (first cb : Int) (s r : TreeState) : Prop :=
  TreeFrame s first c.width r ∧
  ∀ fa, Agree fa r.treetax first (first + c.width) →
    Seg fa first (first + c.width) cb ∧
    ∀ top, Ctx fa first (first + c.width) cb top → Reflects fa c first

theorem Ctx.sub {fa : Int → Int} {first e cb top first' e' cb' : Int} (h : Ctx fa first e cb top)
    (h1 : first ≤ first') (h2 : e' ≤ e) (h3 : cb' = cb ∨ e' ≤ cb') : Ctx fa first' e' cb' top := by
  obtain ⟨a, b, c, d⟩ := h
  refine ⟨by omega, fun j hj1 hj2 => b j (by omega) hj2, by omega, by omega⟩

mutual
theorem orderTree2_holds : ∀ (c : Cblk) (s : TreeState) (cb first : Int), c.Alloc → c.Coherent →
    s.cblanum = first + c.width - 1 → s.treetax.lo ≤ first →
    first + c.width ≤ s.treetax.hi →
    Holds (orderTree2 c s cb) (TreePost c first cb s)
  | .leaf t v c, s, cb, first, _, _, h1, h2, h3 => by
    have hw : (Cblk.leaf t v c).width = 1 := by simp [width, leaves]
    rw [hw] at h1 h3
    unfold orderTree2
    msimp
    refine ⟨by omega, ⟨rfl, rfl, by simp only; omega, ?_⟩, ?_⟩
    · intro k hk
      rw [hw] at hk
      exact Arr.set_get_ne _ _ (by omega)
    · intro fa hfa
      rw [hw] at hfa ⊢
      have h : fa first = cb := by
        rw [hfa first (by omega) (by omega)]
        have : s.cblanum = first := by omega
        simp [this]
      refine ⟨⟨?_, ?_⟩, ?_⟩
      · intro k hk1 hk2
        have : k = first := by omega
        subst this; exact Or.inl h
      · have : first + 1 - 1 = first := by omega
        rw [this]; exact h
      · intro _ _; simp [Reflects]
  | .node t v c sons, s, cb, first, ha, hc, h1, h2, h3 => by
    simp only [Alloc] at ha
    simp only [Coherent] at hc
    obtain ⟨ht, _, hc1, hnd, _, hcl⟩ := hc
    have hwid := CoherentL_width ha.2 hcl
    unfold TreePost
    rw [width_node] at h1 h3 ⊢
    have hlen : c.toNat = sons.length := by omega
    have hne : sons ≠ [] := by
      intro h; rw [h] at ha; simp at ha; omega
    unfold orderTree2
    rw [hlen, if_neg (by omega)]
    split
    · -- nested dissection
      rename_i htn
      split
      · -- three sub-blocks
        rename_i hc3
        have hl3 : sons.length = 3 := by omega
        obtain ⟨x, y, z, rfl⟩ : ∃ x y z, sons = [x, y, z] := by
          match sons, hl3 with
          | [x, y, z], _ => exact ⟨x, y, z, rfl⟩
        have wx := hwid x (by simp)
        have wy := hwid y (by simp)
        have wz := hwid z (by simp)
        have hW : widthL [x, y, z] = x.width + y.width + z.width := by
          simp only [widthL_cons, widthL_nil]; omega
        msimp
        refine (orderTree2Nth_holds [x, y, z] 2 s cb (first + x.width + y.width) z (by simp) ha.2 hcl
          (by omega) (by omega) (by omega)).mono ?_
        rintro s1 ⟨f1, g1⟩
        refine (orderTree2Par_holds [x, y, z] 2 s1 s.cblanum first (by simp) ha.2 hcl
          (by have := f1.2.2.1; simp only [List.take_succ_cons, List.take_zero, widthL_cons, widthL_nil]; omega)
          (by have := f1.1; omega)
          (by have := f1.2.1
              simp only [List.take_succ_cons, List.take_zero, widthL_cons, widthL_nil]; omega)).mono ?_
        rintro s2 ⟨f2, g2⟩
        simp only [List.take_succ_cons, List.take_zero, widthL_cons, widthL_nil] at f2 g2
        have f2' : TreeFrame s1 first (x.width + y.width) s2 := by
          have e : x.width + y.width = x.width + (y.width + 0) := by omega
          rw [e]; exact f2
        have f1' : TreeFrame s (first + (x.width + y.width)) z.width s1 := by
          have e : first + (x.width + y.width) = first + x.width + y.width := by omega
          rw [e]; exact f1
        have ff := TreeFrame.trans f1' f2' (by omega) (by omega)
        rw [hW]
        refine ⟨ff, ?_⟩
        intro fa hfa
        have hz := g1 fa (by
          have : Agree fa s2.treetax (first + x.width + y.width) (first + x.width + y.width + z.width) :=
            fun k hk1 hk2 => hfa k (by omega) (by omega)
          exact this.frame f2' (by omega))
        have hxy := g2 fa (fun k hk1 hk2 => hfa k (by omega) (by omega))
        have hxyS := hxy.1
        simp only [ParSeg, and_true] at hxyS
        obtain ⟨hx, hy⟩ := hxyS
        have esc : s.cblanum = first + (x.width + y.width + z.width) - 1 := by omega
        refine ⟨⟨?_, ?_⟩, ?_⟩
        · intro k hk1 hk2
          by_cases c1 : k < first + x.width
          · rcases hx.step k hk1 c1 with g | g
            · right; omega
            · right; omega
          · by_cases c2 : k < first + x.width + y.width
            · rcases hy.step k (by omega) c2 with g | g
              · right; omega
              · right; omega
            · rcases hz.1.step k (by omega) (by omega) with g | g
              · exact Or.inl g
              · right; omega
        · have := hz.1.last
          rw [← this]; congr 1; omega
        · intro top hctx
          have hR : ranges [x, y, z] first = [(first, first + x.width),
              (first + x.width, first + x.width + y.width),
              (first + x.width + y.width, first + x.width + y.width + z.width)] := by
            simp [ranges]
          have hpar := hxy.2 top (hctx.sub (by omega) (by omega) (by omega))
          have hzr := hz.2 top (hctx.sub (by omega) (by omega) (Or.inl rfl))
          obtain ⟨c0, ci, ce, ccb⟩ := hctx
          simp only [Reflects]
          refine ⟨?_, ?_, ?_, ?_, ?_⟩
          · intro h; rw [htn] at h; simp [ORDERCBLKNEDI, ORDERCBLKDICO] at h
          · intro h; rw [htn] at h; simp [ORDERCBLKNEDI, ORDERCBLKSEQU] at h
          · intro _ p q h; rw [hR] at h; simp at h
          · intro _ p q s' h
            rw [hR] at h
            simp only [List.cons.injEq, and_true] at h
            obtain ⟨rfl, rfl, rfl⟩ := h
            refine ⟨?_, ?_, ?_⟩
            · exact hx.indep (e := first + x.width + y.width) ci (by omega) (by omega) (by omega)
                (by omega) (by omega) (by omega)
            · intro k k1 k2
              simp only at k1 k2 ⊢
              have := hx.reach (by omega) c0 (first + x.width - k).toNat k k1 k2 (by omega)
              rw [esc] at this
              convert this using 1; omega
            · intro k k1 k2
              simp only at k1 k2 ⊢
              have := hy.reach (by omega) (by omega) (first + x.width + y.width - k).toNat k k1 k2
                (by omega)
              rw [esc] at this
              convert this using 1; omega
          · simp only [List.take_succ_cons, List.take_zero, ReflectsL, and_true] at hpar
            simp only [ReflectsL, and_true]
            exact ⟨hpar.1, hpar.2, hzr⟩
      · -- two sub-blocks
        rename_i hc3
        have hl2 : sons.length = 2 := by have := hnd htn; omega
        refine (orderTree2Par_holds sons sons.length s cb first (le_refl _) ha.2 hcl
          (by rw [List.take_length]; omega) h2 (by rw [List.take_length]; omega)).mono ?_
        rintro s1 ⟨f1, g1⟩
        rw [List.take_length] at f1 g1
        refine ⟨f1, ?_⟩
        intro fa hfa
        obtain ⟨hp, hr⟩ := g1 fa hfa
        refine ⟨⟨hp.step _ _, hp.last _ _ hne⟩, ?_⟩
        intro top hctx
        have hr := hr top hctx
        have hpw := ParSeg.indep sons first hp hctx.2.1 (le_refl _) (le_refl _) hctx.2.2.1 hctx.2.2.2
        simp only [Reflects]
        refine ⟨fun _ => hpw, ?_, ?_, ?_, hr⟩
        · intro h; rw [htn] at h; simp [ORDERCBLKNEDI, ORDERCBLKSEQU] at h
        · intro _ p q h; rw [h] at hpw; simpa using hpw
        · intro _ p q s' h
          match sons, hl2 with
          | [x, y], _ => simp [ranges] at h
    · rename_i htn
      split
      · -- disconnected components
        rename_i htd
        refine (orderTree2Par_holds sons sons.length s cb first (le_refl _) ha.2 hcl
          (by rw [List.take_length]; omega) h2 (by rw [List.take_length]; omega)).mono ?_
        rintro s1 ⟨f1, g1⟩
        rw [List.take_length] at f1 g1
        refine ⟨f1, ?_⟩
        intro fa hfa
        obtain ⟨hp, hr⟩ := g1 fa hfa
        refine ⟨⟨hp.step _ _, hp.last _ _ hne⟩, ?_⟩
        intro top hctx
        have hr := hr top hctx
        have hpw := ParSeg.indep sons first hp hctx.2.1 (le_refl _) (le_refl _) hctx.2.2.1 hctx.2.2.2
        simp only [Reflects]
        refine ⟨fun _ => hpw, ?_, fun h => absurd h htn, fun h => absurd h htn, hr⟩
        intro h; rw [htd] at h; simp [ORDERCBLKDICO, ORDERCBLKSEQU] at h
      · rename_i htd
        have hts : t = ORDERCBLKSEQU := by
          rcases ht with h | h | h
          · exact absurd h htn
          · exact absurd h htd
          · exact h
        rw [if_pos hts]
        msimp
        refine (orderTree2Seq_holds sons s cb first ha.2 hcl h1 h2 h3).mono ?_
        rintro ⟨s1, cb1⟩ ⟨f1, _, g1⟩
        refine ⟨f1, ?_⟩
        intro fa hfa
        obtain ⟨hp, hr⟩ := g1 fa hfa
        refine ⟨⟨hp.step _ _ hwid, hp.last _ _ hne⟩, ?_⟩
        intro top hctx
        have hr := hr top hctx
        have hpw := hp.dep sons first hctx.1 hwid
        simp only [Reflects]
        refine ⟨fun h => absurd h htd, fun _ => hpw, fun h => absurd h htn, fun h => absurd h htn, hr⟩
theorem orderTree2Nth_holds : ∀ (l : List Cblk) (k : Nat) (s : TreeState) (cb first : Int) (c : Cblk),
    l[k]? = some c → AllocL l → CoherentL l →
    s.cblanum = first + c.width - 1 → s.treetax.lo ≤ first →
    first + c.width ≤ s.treetax.hi →
    Holds (orderTree2Nth l k s cb) (TreePost c first cb s)
  | [], k, _, _, _, _, h, _, _, _, _, _ => by simp at h
  | x :: r, 0, s, cb, first, c, h, ha, hc, h1, h2, h3 => by
    simp only [AllocL] at ha
    simp only [CoherentL] at hc
    simp only [List.getElem?_cons_zero, Option.some.injEq] at h
    subst h
    unfold orderTree2Nth
    exact orderTree2_holds x s cb first ha.1 hc.1 h1 h2 h3
  | x :: r, k + 1, s, cb, first, c, h, ha, hc, h1, h2, h3 => by
    simp only [AllocL] at ha
    simp only [CoherentL] at hc
    simp only [List.getElem?_cons_succ] at h
    unfold orderTree2Nth
    exact orderTree2Nth_holds r k s cb first c h ha.2 hc.2 h1 h2 h3
theorem orderTree2Par_holds : ∀ (l : List Cblk) (n : Nat) (s : TreeState) (cb first : Int),
    n ≤ l.length → AllocL l → CoherentL l →
    s.cblanum = first + widthL (l.take n) - 1 → s.treetax.lo ≤ first →
    first + widthL (l.take n) ≤ s.treetax.hi →
    Holds (orderTree2Par l n s cb) (fun r =>
      TreeFrame s first (widthL (l.take n)) r ∧
      ∀ fa, Agree fa r.treetax first (first + widthL (l.take n)) →
        ParSeg fa cb (l.take n) first ∧
        ∀ top, Ctx fa first (first + widthL (l.take n)) cb top → ReflectsL fa (l.take n) first)
  | l, 0, s, cb, first, _, _, _, h1, _, _ => by
    simp only [List.take_zero, widthL_nil] at *
    have : orderTree2Par l 0 s cb = .ok s := by cases l <;> rfl
    rw [this]
    simp only [Holds_ok, ParSeg, ReflectsL]
    exact ⟨⟨rfl, rfl, by omega, fun _ _ => rfl⟩, fun _ _ => ⟨trivial, fun _ _ => trivial⟩⟩
  | [], n + 1, _, _, _, h, _, _, _, _, _ => by simp at h
  | x :: r, n + 1, s, cb, first, hn, ha, hc, h1, h2, h3 => by
    simp only [AllocL] at ha
    simp only [CoherentL] at hc
    simp only [List.take_succ_cons, widthL_cons] at h1 h3 ⊢
    have wx := width_nonneg x
    have wr := widthL_nonneg (r.take n)
    unfold orderTree2Par
    msimp
    refine (orderTree2Par_holds r n s cb (first + x.width) (by simpa using hn) ha.2 hc.2
      (by omega) (by omega) (by omega)).mono ?_
    rintro s1 ⟨f1, g1⟩
    refine (orderTree2_holds x s1 cb first ha.1 hc.1 (by have := f1.2.2.1; omega)
      (by have := f1.1; omega) (by have := f1.2.1; omega)).mono ?_
    rintro s2 ⟨f2, g2⟩
    refine ⟨f1.trans f2 wx wr, ?_⟩
    intro fa hfa
    have hx := g2 fa (fun k h1 h2 => hfa k h1 (by omega))
    have hr := g1 fa (by
      have : Agree fa s2.treetax (first + x.width) (first + x.width + widthL (r.take n)) :=
        fun k hk1 hk2 => hfa k (by omega) (by omega)
      exact this.frame f2 (by omega))
    refine ⟨⟨hx.1, hr.1⟩, ?_⟩
    intro top hctx
    exact ⟨hx.2 top (hctx.sub (by omega) (by omega) (by omega)),
      hr.2 top (hctx.sub (by omega) (by omega) (by omega))⟩
theorem orderTree2Seq_holds : ∀ (l : List Cblk) (s : TreeState) (cb first : Int),
    AllocL l → CoherentL l →
    s.cblanum = first + widthL l - 1 → s.treetax.lo ≤ first →
    first + widthL l ≤ s.treetax.hi →
    Holds (orderTree2Seq l l.length s cb) (fun r =>
      TreeFrame s first (widthL l) r.1 ∧
      r.2 = (match l with | [] => cb | x :: _ => first + x.width - 1) ∧
      ∀ fa, Agree fa r.1.treetax first (first + widthL l) →
        SeqSeg fa cb l first ∧
        ∀ top, Ctx fa first (first + widthL l) cb top → ReflectsL fa l first)
  | [], s, cb, first, _, _, h1, _, _ => by
    rw [widthL_nil] at *
    simp only [List.length_nil, orderTree2Seq, Holds_ok, SeqSeg, ReflectsL]
    exact ⟨⟨rfl, rfl, by omega, fun _ _ => rfl⟩, trivial, fun _ _ => ⟨trivial, fun _ _ => trivial⟩⟩
  | x :: r, s, cb, first, ha, hc, h1, h2, h3 => by
    simp only [AllocL] at ha
    simp only [CoherentL] at hc
    rw [widthL_cons] at *
    have wx := width_nonneg x
    have wr := widthL_nonneg r
    simp only [List.length_cons, orderTree2Seq]
    msimp
    refine (orderTree2Seq_holds r s cb (first + x.width) ha.2 hc.2
      (by omega) (by omega) (by omega)).mono ?_
    rintro ⟨s1, cb1⟩ ⟨f1, e1, g1⟩
    simp only at f1 e1 g1
    refine (orderTree2_holds x s1 cb1 first ha.1 hc.1 (by have := f1.2.2.1; omega)
      (by have := f1.1; omega) (by have := f1.2.1; omega)).mono ?_
    rintro s2 ⟨f2, g2⟩
    refine ⟨f1.trans f2 wx wr, by have := f1.2.2.1; omega, ?_⟩
    intro fa hfa
    have hx := g2 fa (fun k h1 h2 => hfa k h1 (by omega))
    have hr := g1 fa (by
      have : Agree fa s2.treetax (first + x.width) (first + x.width + widthL r) :=
        fun k hk1 hk2 => hfa k (by omega) (by omega)
      exact this.frame f2 (by omega))
    refine ⟨⟨?_, hr.1⟩, ?_⟩
    · have := hx.1; rw [e1] at this; exact this
    · intro top hctx
      refine ⟨hx.2 top (hctx.sub (by omega) (by omega) ?_),
        hr.2 top (hctx.sub (by omega) (by omega) (by omega))⟩
      rw [e1]
      cases r with
      | nil => exact Or.inl rfl
      | cons y r' =>
        right
        have := width_pos y ha.2.1 hc.2.1
        simp only; omega
end

end Scotch
