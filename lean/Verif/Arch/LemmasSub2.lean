import Verif.Arch.LemmasSub

/-! # Sub-architectures: construction -/

set_option autoImplicit false
set_option linter.unusedSimpArgs false

namespace Scotch.Arch.Sub
open BT

/-- A tree of nodes represents a binary tree, once the nodes that have a single son are skipped. -/
inductive Rep (w : Int → Int) : STree → BT → Prop
  | leaf (t vert : Int) : Rep w (.node 1 (w t) t vert .null .null) (.leaf t)
  | one0 (vert : Int) (s0 : STree) (b : BT) : Rep w s0 b → Rep w (.node b.count (b.wt w) b.low vert s0 .null) b
  | one1 (vert : Int) (s1 : STree) (b : BT) : Rep w s1 b → Rep w (.node b.count (b.wt w) b.low vert .null s1) b
  | two (vert : Int) (s0 s1 : STree) (b0 b1 : BT) : Rep w s0 b0 → Rep w s1 b1 →
      Rep w (.node (b0.node b1).count ((b0.node b1).wt w) (b0.node b1).low vert s0 s1) (b0.node b1)

theorem Rep.get {w : Int → Int} {s : STree} {b : BT} (h : Rep w s b) : s.get = .ok (b.count, b.wt w, b.low) := by
  cases h <;> rfl

theorem Rep.isNull {w : Int → Int} {s : STree} {b : BT} (h : Rep w s b) : s.isNull = false := by
  cases h <;> rfl

theorem get_out (numMax vert : Int) : (STree.node 0 0 numMax vert .null .null).get = .ok (0, 0, numMax) := rfl

theorem sonOf_pos {siz : Int} (t : STree) (h : 1 ≤ siz) : sonOf siz t = t := if_pos (by omega)

theorem sonOf_zero (t : STree) : sonOf 0 t = .null := rfl

theorem updD_ok {dom : Arr Data} {i : Int} (f : Data → Data) (h1 : dom.lo ≤ i) (h2 : i < dom.hi) : updD dom i f = .ok (dom.set i (f (dom.get i))) := by
  unfold updD
  rw [Arr.rd_ok _ h1 h2, ok_bind, Arr.wr_ok _ _ h1 h2]

theorem updT_ok {ter : Arr Term} {i : Int} (f : Term → Term) (h1 : ter.lo ≤ i) (h2 : i < ter.hi) : updT ter i f = .ok (ter.set i (f (ter.get i))) := by
  unfold updT
  rw [Arr.rd_ok _ h1 h2, ok_bind, Arr.wr_ok _ _ h1 h2]

/-- Result of `build3` for the tree `b` put at index `i`, with number `num`. -/
structure Built (w : Int → Int) (b : BT) (num i : Int) (dom : Arr Data) (ter : Arr Term) (r : Int × Arr Data × Arr Term) : Prop where
  next : r.1 = i + b.nodes
  bnd : r.2.1.lo = dom.lo ∧ r.2.1.hi = dom.hi
  tbnd : r.2.2.lo = ter.lo ∧ r.2.2.hi = ter.hi
  laid : Laid w r.2.1 i (dom.get i).fat num b
  frame : ∀ j, (j < i ∨ i + b.nodes ≤ j) → r.2.1.get j = dom.get j
  idx : ∀ x j m, At b i num j m (leaf x) → (r.2.2.get x).idx = j
  tframe : ∀ x, x ∉ b.leaves → r.2.2.get x = ter.get x
  term : ∀ x, (r.2.2.get x).term = (ter.get x).term

theorem build3_holds {w : Int → Int} {s : STree} {b : BT} (h : Rep w s b) : ∀ (num i : Int) (dom : Arr Data) (ter : Arr Term), dom.lo ≤ i → i + b.nodes ≤ dom.hi →
    b.leaves.Nodup → (∀ x ∈ b.leaves, ter.lo ≤ x ∧ x < ter.hi) → Holds (build3 s num i dom ter) (Built w b num i dom ter) := by
  induction h with
  | leaf t vert =>
    intro num i dom ter h1 h2 _ hl
    have ht := hl t (by simp [leaves])
    simp only [nodes] at h2
    rw [build3]
    rw [if_neg (by decide), if_neg (by decide), updD_ok _ h1 (by omega), ok_bind, if_neg (by decide), updD_ok _ (by show dom.lo ≤ i; exact h1) (by show i < dom.hi; omega), ok_bind, updT_ok _ ht.1 ht.2, ok_bind, Holds_pure]
    refine ⟨rfl, ⟨rfl, rfl⟩, ⟨rfl, rfl⟩, ?_, ?_, ?_, ?_, ?_⟩
    · simp only [Laid, Arr.set_get_same]
    · intro j hj
      simp only [nodes] at hj
      dsimp only
      rw [Arr.set_get_ne _ _ (by omega), Arr.set_get_ne _ _ (by omega)]
    · intro x j m hx
      cases hx
      dsimp only
      rw [Arr.set_get_same]
    · intro x hx
      simp only [leaves, List.mem_singleton] at hx
      dsimp only
      rw [Arr.set_get_ne _ _ hx]
    · intro x
      dsimp only
      by_cases hx : x = t
      · subst hx; rw [Arr.set_get_same]
      · rw [Arr.set_get_ne _ _ hx]
  | one0 vert s0 b h ih =>
    intro num i dom ter h1 h2 hn hl
    rw [build3, if_pos ⟨h.isNull, rfl⟩]
    exact ih num i dom ter h1 h2 hn hl
  | one1 vert s1 b h ih =>
    intro num i dom ter h1 h2 hn hl
    rw [build3, if_neg (by intro hh; cases hh.1), if_pos ⟨rfl, h.isNull⟩]
    exact ih num i dom ter h1 h2 hn hl
  | two vert s0 s1 b0 b1 h0 h1 ih0 ih1 =>
    intro num i dom ter k1 k2 hn hl
    rw [leaves, List.nodup_append] at hn
    have hl0 : ∀ x ∈ b0.leaves, ter.lo ≤ x ∧ x < ter.hi := fun x hx => hl x (by rw [leaves, List.mem_append]; exact Or.inl hx)
    have hl1 : ∀ x ∈ b1.leaves, ter.lo ≤ x ∧ x < ter.hi := fun x hx => hl x (by rw [leaves, List.mem_append]; exact Or.inr hx)
    have p0 := b0.nodes_pos
    have p1 := b1.nodes_pos
    have k2' : i + (1 + b0.nodes + b1.nodes) ≤ dom.hi := k2
    rw [build3, if_neg (by rw [h1.isNull]; intro hh; cases hh.2), if_neg (by rw [h0.isNull]; intro hh; cases hh.1), updD_ok _ k1 (by omega), ok_bind, if_pos h0.isNull,
      updD_ok _ (by show dom.lo ≤ _; omega) (by show _ < dom.hi; omega), ok_bind, updD_ok _ (by show dom.lo ≤ _; omega) (by show _ < dom.hi; omega), ok_bind]
    rw [Holds_bind]
    refine (ih0 (num * 2) (i + 1) _ ter (by show dom.lo ≤ _; omega) (by show _ ≤ dom.hi; omega) hn.1 hl0).mono ?_
    rintro ⟨e, dom1, ter1⟩ B0
    have hnx := B0.next
    dsimp only at hnx ⊢
    subst hnx
    obtain ⟨q1, q2⟩ := B0.bnd
    obtain ⟨u1, u2⟩ := B0.tbnd
    dsimp only at q1 q2 u1 u2
    have q1' : dom1.lo = dom.lo := q1
    have q2' : dom1.hi = dom.hi := q2
    rw [updD_ok _ (by omega) (by omega), ok_bind, updD_ok _ (by show dom1.lo ≤ _; omega) (by show _ < dom1.hi; omega), ok_bind]
    refine (ih1 (num * 2 + 1) (i + 1 + b0.nodes) _ ter1 (by show dom1.lo ≤ _; omega) (by show _ ≤ dom1.hi; omega) hn.2.1 (by rw [u1, u2]; exact hl1)).mono ?_
    rintro ⟨e, dom2, ter2⟩ B1
    have f0 := B0.frame
    have f1 := B1.frame
    have l0 := B0.laid
    have l1 := B1.laid
    dsimp only at f0 f1 l0 l1
    -- the node itself
    have hself : dom2.get i = ⟨num, (b0.node b1).count, (b0.node b1).wt w, (b0.node b1).low, (dom.get i).fat, i + 1, i + 1 + b0.nodes⟩ := by
      rw [f1 i (by omega), Arr.set_get_same, Arr.set_get_ne _ _ (by omega), f0 i (by omega), Arr.set_get_same, Arr.set_get_ne _ _ (by omega), Arr.set_get_same]
    refine ⟨?_, ?_, ?_, ?_, ?_, ?_, ?_, ?_⟩
    · rw [B1.next, nodes]; omega
    · exact ⟨by rw [B1.bnd.1]; exact q1, by rw [B1.bnd.2]; exact q2⟩
    · exact ⟨by rw [B1.tbnd.1]; exact u1, by rw [B1.tbnd.2]; exact u2⟩
    · refine ⟨hself, ?_, ?_⟩
      · rw [Arr.set_get_ne _ _ (by omega), Arr.set_get_same] at l0
        refine Laid.congr l0 ?_
        intro j j1 j2
        rw [f1 j (by omega), Arr.set_get_ne _ _ (by omega), Arr.set_get_ne _ _ (by omega)]
      · rw [Arr.set_get_ne _ _ (by omega), Arr.set_get_same] at l1
        exact l1
    · intro j hj
      rw [nodes] at hj
      dsimp only
      rw [f1 j (by omega), Arr.set_get_ne _ _ (by omega), Arr.set_get_ne _ _ (by omega), f0 j (by omega), Arr.set_get_ne _ _ (by omega), Arr.set_get_ne _ _ (by omega), Arr.set_get_ne _ _ (by omega)]
    · intro x j m hx
      dsimp only
      cases hx with
      | left _ _ _ _ _ _ _ hx =>
        have hm := hx.sub x (by simp [leaves])
        have hm' : x ∉ b1.leaves := fun h => hn.2.2 x hm x h rfl
        rw [show ter2.get x = ter1.get x from B1.tframe x hm']
        exact B0.idx x j m hx
      | right _ _ _ _ _ _ _ hx => exact B1.idx x j m hx
    · intro x hx
      rw [leaves, List.mem_append] at hx
      rw [B1.tframe x (fun h => hx (Or.inr h))]
      exact B0.tframe x (fun h => hx (Or.inl h))
    · intro x
      rw [B1.term x]
      exact B0.term x

/-! ## Coarsening -/

def lv : Option BT → List Int
  | none => []
  | some b => b.leaves

/-- A cell of the array of nodes: nothing, or a tree. -/
def Cell (numMax : Int) (w : Int → Int) (s : STree) : Option BT → Prop
  | none => ∃ vert, s = .node 0 0 numMax vert .null .null
  | some b => Rep w s b

/-- The trees of the cells `[0, n)` share out the terminals `[0, q)`. -/
structure Forest (numMax : Int) (w : Int → Int) (q n : Int) (a : Arr STree) (T : Int → Option BT) : Prop where
  bnd : a.lo ≤ 0 ∧ n ≤ a.hi
  cell : ∀ c, 0 ≤ c → c < n → Cell numMax w (a.get c) (T c)
  nodup : ∀ c, 0 ≤ c → c < n → (lv (T c)).Nodup
  within : ∀ c, 0 ≤ c → c < n → ∀ x ∈ lv (T c), 0 ≤ x ∧ x < q
  cover : ∀ x, 0 ≤ x → x < q → ∃ c, 0 ≤ c ∧ c < n ∧ x ∈ lv (T c)
  disj : ∀ c c' x, 0 ≤ c → c < n → 0 ≤ c' → c' < n → x ∈ lv (T c) → x ∈ lv (T c') → c = c'

/-- Tree of a coarse vertex. -/
def join : Option BT → Option BT → Option BT
  | none, t => t
  | t, none => t
  | some a, some b => some (a.node b)

def coarT (T : Int → Option BT) (m : Multi) : Option BT := if m.2 ≠ m.1 then join (T m.1) (T m.2) else T m.1

theorem lv_join (a b : Option BT) : ∀ x, x ∈ lv (join a b) ↔ x ∈ lv a ∨ x ∈ lv b := by
  intro x
  cases a <;> cases b <;> simp [join, lv, leaves]

theorem lv_coar (T : Int → Option BT) (m : Multi) : ∀ x, x ∈ lv (coarT T m) ↔ x ∈ lv (T m.1) ∨ x ∈ lv (T m.2) := by
  intro x
  unfold coarT
  by_cases h : m.2 ≠ m.1
  · rw [if_pos h, lv_join]
  · rw [if_neg h, show m.2 = m.1 by omega, or_self]

theorem coarNode_holds {numMax : Int} {w : Int → Int} {q n : Int} {a : Arr STree} {T : Int → Option BT} (F : Forest numMax w q n a T) (hq : q ≤ numMax) {m : Multi} (c : Int)
    (h1 : 0 ≤ m.1 ∧ m.1 < n) (h2 : 0 ≤ m.2 ∧ m.2 < n) : Holds (coarNode a m c) (fun t => Cell numMax w t (coarT T m)) := by
  have rd1 := Arr.rd_ok a (i := m.1) (by have := F.bnd; omega) (by have := F.bnd; omega)
  have rd2 := Arr.rd_ok a (i := m.2) (by have := F.bnd; omega) (by have := F.bnd; omega)
  have c1 := F.cell m.1 h1.1 h1.2
  have c2 := F.cell m.2 h2.1 h2.2
  unfold coarNode coarT
  rw [rd1, ok_bind]
  have low : ∀ b c, T c = some b → 0 ≤ c → c < n → b.low < numMax := by
    intro b c hb c0 c1
    have := F.within c c0 c1 b.low (by rw [hb]; exact b.low_mem)
    omega
  by_cases hm : m.2 ≠ m.1
  · have e : ∀ {α : Type} (x y : α), (if m.2 ≠ m.1 then x else y) = x := fun x y => if_pos hm
    rw [e]
    cases t1 : T m.1 with
    | none =>
      rw [t1] at c1
      obtain ⟨v1, e1⟩ := c1
      rw [e1]
      rw [get_out, ok_bind, e]
      rw [rd2, ok_bind]
      cases t2 : T m.2 with
      | none =>
        rw [t2] at c2
        obtain ⟨v2, e2⟩ := c2
        rw [e2]
        rw [get_out, ok_bind]
        rw [Holds_pure]
        refine ⟨c, ?_⟩
        simp [sonOf]
      | some b2 =>
        rw [t2] at c2
        have r2 : Rep w (a.get m.2) b2 := c2
        rw [r2.get, ok_bind, Holds_pure]
        have := low b2 m.2 t2 h2.1 h2.2
        have := b2.count_pos
        dsimp only
        rw [if_pos ‹_›, sonOf_zero, sonOf_pos _ b2.count_pos, Int.zero_add, Int.zero_add]
        exact .one1 _ _ _ r2
    | some b1 =>
      rw [t1] at c1
      have r1 : Rep w (a.get m.1) b1 := c1
      have p1 := b1.count_pos
      rw [r1.get, ok_bind, e, rd2, ok_bind]
      cases t2 : T m.2 with
      | none =>
        rw [t2] at c2
        obtain ⟨v2, e2⟩ := c2
        rw [e2]
        rw [get_out, ok_bind]
        rw [Holds_pure]
        have := low b1 m.1 t1 h1.1 h1.2
        dsimp only
        rw [if_neg (by omega), sonOf_zero, sonOf_pos _ p1, Int.add_zero, Int.add_zero]
        exact .one0 _ _ _ r1
      | some b2 =>
        rw [t2] at c2
        have r2 : Rep w (a.get m.2) b2 := c2
        have p2 := b2.count_pos
        rw [r2.get, ok_bind, Holds_pure]
        dsimp only
        rw [sonOf_pos _ p1, sonOf_pos _ p2]
        have hlow : (if b2.low < b1.low then b2.low else b1.low) = (b1.node b2).low := by
          show _ = min b1.low b2.low
          split <;> omega
        rw [hlow]
        exact .two _ _ _ _ _ r1 r2
  · have e : ∀ {α : Type} (x y : α), (if m.2 ≠ m.1 then x else y) = y := fun x y => if_neg hm
    rw [e]
    cases t1 : T m.1 with
    | none =>
      rw [t1] at c1
      obtain ⟨v1, e1⟩ := c1
      rw [e1]
      rw [get_out, ok_bind, e]
      rw [Holds_pure]
      exact ⟨c, by simp [sonOf]⟩
    | some b1 =>
      rw [t1] at c1
      have r1 : Rep w (a.get m.1) b1 := c1
      have p1 := b1.count_pos
      rw [r1.get, ok_bind, e, Holds_pure]
      dsimp only
      rw [sonOf_pos _ p1]
      exact .one0 _ _ _ r1

/-- A matching turns a forest into a forest. -/
theorem Forest.coar {numMax : Int} {w : Int → Int} {q n r : Int} {a a' : Arr STree} {T : Int → Option BT} {mt : Arr Multi} (F : Forest numMax w q n a T) (hM : Matched n r mt)
    (hb : a'.lo ≤ 0 ∧ r ≤ a'.hi) (hc : ∀ c, 0 ≤ c → c < r → Cell numMax w (a'.get c) (coarT T (mt.get c))) :
    Forest numMax w q r a' (fun c => coarT T (mt.get c)) := by
  refine ⟨hb, hc, ?_, ?_, ?_, ?_⟩
  · intro c c0 c1
    obtain ⟨⟨h1, h2⟩, h3, h4⟩ := hM.range c c0 c1
    unfold coarT
    by_cases hm : (mt.get c).2 ≠ (mt.get c).1
    · rw [if_pos hm]
      have d := F.disj (mt.get c).1 (mt.get c).2
      have n1 := F.nodup _ h1 h2
      have n2 := F.nodup _ h3 h4
      cases t1 : T (mt.get c).1 with
      | none => rw [t1] at n1; cases t2 : T (mt.get c).2 with
        | none => simp [join, lv]
        | some b2 => rw [t2] at n2; exact n2
      | some b1 => rw [t1] at n1; cases t2 : T (mt.get c).2 with
        | none => exact n1
        | some b2 =>
          rw [t2] at n2
          show (b1.leaves ++ b2.leaves).Nodup
          rw [List.nodup_append]
          refine ⟨n1, n2, ?_⟩
          intro x hx y hy hxy
          subst hxy
          exact hm (d x h1 h2 h3 h4 (by rw [t1]; exact hx) (by rw [t2]; exact hy)).symm
    · rw [if_neg hm]; exact F.nodup _ h1 h2
  · intro c c0 c1 x hx
    obtain ⟨⟨h1, h2⟩, h3, h4⟩ := hM.range c c0 c1
    rw [lv_coar] at hx
    rcases hx with hx | hx
    · exact F.within _ h1 h2 x hx
    · exact F.within _ h3 h4 x hx
  · intro x x0 x1
    obtain ⟨v, v0, v1, hv⟩ := F.cover x x0 x1
    obtain ⟨c, c0, c1, hc', -⟩ := hM.once v v0 v1
    refine ⟨c, c0, c1, ?_⟩
    rw [lv_coar]
    rcases hc' with h | h
    · exact Or.inl (by rw [h]; exact hv)
    · exact Or.inr (by rw [h]; exact hv)
  · intro c c' x c0 c1 c0' c1' hx hx'
    have key : ∀ c, 0 ≤ c → c < r → x ∈ lv (coarT T (mt.get c)) → ∃ v, 0 ≤ v ∧ v < n ∧ x ∈ lv (T v) ∧ ((mt.get c).1 = v ∨ (mt.get c).2 = v) := by
      intro c c0 c1 hx
      obtain ⟨⟨h1, h2⟩, h3, h4⟩ := hM.range c c0 c1
      rw [lv_coar] at hx
      rcases hx with hx | hx
      · exact ⟨_, h1, h2, hx, Or.inl rfl⟩
      · exact ⟨_, h3, h4, hx, Or.inr rfl⟩
    obtain ⟨v, v0, v1, hv, e⟩ := key c c0 c1 hx
    obtain ⟨v', v0', v1', hv', e'⟩ := key c' c0' c1' hx'
    have := F.disj v v' x v0 v1 v0' v1' hv hv'
    subst this
    obtain ⟨c2, _, _, _, hu⟩ := hM.once v v0 v1
    rw [hu c c0 c1 e, hu c' c0' c1' e']

theorem build2_holds {σ : Type} {mate : σ → M (Int × σ)} {mult : σ → Arr Multi} {Inv : σ → Int → Prop} {μ : σ → Nat} (hM : Matcher mate mult Inv μ) (junk : Int → STree) {numMax : Int} {w : Int → Int} {q : Int} (hq1 : 1 ≤ q) (hq : q ≤ numMax) :
    ∀ (fuel : Nat) (s : σ) (a : Arr STree) (N : Int) (T : Int → Option BT), μ s < fuel → Inv s N → Forest numMax w q N a T →
      Holds (build2 mate mult junk fuel s a N) (fun r => ∃ t b, r = some t ∧ Rep w t b ∧ b.leaves.Nodup ∧ ∀ x, x ∈ b.leaves ↔ 0 ≤ x ∧ x < q)
  | 0, s, a, N, T, h, _, _ => by omega
  | fuel + 1, s, a, N, T, h, I, F => by
    have hN := hM.pos s N I
    rw [build2, Holds_ite]
    constructor
    · intro hle
      have : N = 1 := by omega
      subst this
      rw [Arr.rd_ok _ F.bnd.1 (by have := F.bnd; omega), ok_bind, Holds_pure]
      have hc := F.cell 0 (by omega) (by omega)
      cases t0 : T 0 with
      | none =>
        obtain ⟨c, c0, c1, hc⟩ := F.cover 0 (by omega) (by omega)
        rw [show c = 0 by omega, t0] at hc
        cases hc
      | some b =>
        rw [t0] at hc
        refine ⟨_, b, rfl, hc, ?_, ?_⟩
        · have := F.nodup 0 (by omega) (by omega); rw [t0] at this; exact this
        · intro x
          constructor
          · intro hx; exact F.within 0 (by omega) (by omega) x (by rw [t0]; exact hx)
          · rintro ⟨x0, x1⟩
            obtain ⟨c, c0, c1, hc⟩ := F.cover x x0 x1
            rw [show c = 0 by omega, t0] at hc
            exact hc
    · intro hlt
      rw [Holds_bind]
      have hs := hM.step s N I (by omega)
      obtain ⟨⟨r, s'⟩, e, h1, h2, h3, h4, hb⟩ := Holds_iff_exists.1 hs
      rw [e, Holds_ok]
      have hr := hM.pos s' r h3
      dsimp only at *
      rw [if_neg (by omega), Holds_bind]
      refine Holds_forUp (fun c (a' : Arr STree) => a'.lo = 0 ∧ a'.hi = r ∧ ∀ j, 0 ≤ j → j < c → Cell numMax w (a'.get j) (coarT T ((mult s').get j))) (by omega) ⟨rfl, rfl, fun j j0 j1 => by omega⟩ ?_ ?_
      · rintro c a' c0 c1 ⟨b1, b2, b3⟩
        have hrg := h2.range c c0 c1
        rw [Arr.rd_ok _ (by omega) (by omega), ok_bind, Holds_bind]
        refine (coarNode_holds F hq c hrg.1 hrg.2).mono ?_
        intro t ht
        rw [Arr.wr_ok _ _ (by omega) (by omega), Holds_ok]
        refine ⟨b1, b2, ?_⟩
        intro j j0 j1
        by_cases hj : j = c
        · subst hj; rw [Arr.set_get_same]; exact ht
        · rw [Arr.set_get_ne _ _ hj]; exact b3 j j0 (by omega)
      · rintro a' ⟨b1, b2, b3⟩
        exact build2_holds hM junk hq1 hq fuel s' a' r _ (by omega) h3 (F.coar h2 ⟨by omega, by omega⟩ b3)

end Scotch.Arch.Sub
