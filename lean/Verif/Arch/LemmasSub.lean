import Verif.Arch.ModelSub
import Verif.Arch.SpecMatch
import Verif.Arch.Generic
import Verif.TextIO.Pairs

/-! # Sub-architectures: trees of domains -/

set_option autoImplicit false
set_option linter.unusedSimpArgs false

namespace Scotch.Arch.Sub

/-- Binary trees of terminals. -/
inductive BT
  | leaf (t : Int)
  | node (l r : BT)

namespace BT

def leaves : BT → List Int
  | leaf t => [t]
  | node l r => l.leaves ++ r.leaves

def count : BT → Int
  | leaf _ => 1
  | node l r => l.count + r.count

/-- Number of nodes. -/
def nodes : BT → Int
  | leaf _ => 1
  | node l r => 1 + l.nodes + r.nodes

def wt (w : Int → Int) : BT → Int
  | leaf t => w t
  | node l r => l.wt w + r.wt w

def low : BT → Int
  | leaf t => t
  | node l r => min l.low r.low

theorem count_pos : ∀ t : BT, 1 ≤ t.count
  | leaf _ => by simp [count]
  | node l r => by have := count_pos l; have := count_pos r; simp only [count]; omega

theorem nodes_eq : ∀ t : BT, t.nodes = 2 * t.count - 1
  | leaf _ => by simp [count, nodes]
  | node l r => by have := nodes_eq l; have := nodes_eq r; simp only [count, nodes]; omega

theorem nodes_pos (t : BT) : 1 ≤ t.nodes := by have := t.nodes_eq; have := t.count_pos; omega

theorem count_length : ∀ t : BT, t.count = t.leaves.length
  | leaf _ => by simp [count, leaves]
  | node l r => by rw [count, leaves, List.length_append, count_length l, count_length r]; omega

theorem low_mem : ∀ t : BT, t.low ∈ t.leaves
  | leaf t => by simp [low, leaves]
  | node l r => by
    have := low_mem l; have := low_mem r
    rw [leaves, low, List.mem_append]
    rcases Int.le_total l.low r.low with h | h
    · rw [Int.min_eq_left h]; exact Or.inl ‹_›
    · rw [Int.min_eq_right h]; exact Or.inr ‹_›

end BT

open BT

/-- Layout of a tree in the array of domains, from index `i`: its root has number `num` and father `fat`. -/
def Laid (w : Int → Int) (dom : Arr Data) : Int → Int → Int → BT → Prop
  | i, fat, num, leaf t => dom.get i = ⟨num, 1, w t, t, fat, -1, -1⟩
  | i, fat, num, node l r => dom.get i = ⟨num, (node l r).count, (node l r).wt w, (node l r).low, fat, i + 1, i + 1 + l.nodes⟩ ∧
    Laid w dom (i + 1) i (num * 2) l ∧ Laid w dom (i + 1 + l.nodes) i (num * 2 + 1) r

theorem Laid.congr {w : Int → Int} {dom dom' : Arr Data} : ∀ {t : BT} {i fat num : Int}, Laid w dom i fat num t → (∀ j, i ≤ j → j < i + t.nodes → dom'.get j = dom.get j) → Laid w dom' i fat num t
  | leaf t, i, fat, num, h, he => by
    have := he i (by omega) (by simp only [nodes]; omega)
    simp only [Laid] at h ⊢; rw [this, h]
  | node l r, i, fat, num, h, he => by
    have n1 := l.nodes_pos
    have n2 := r.nodes_pos
    simp only [Laid, nodes] at h he ⊢
    refine ⟨by rw [he i (by omega) (by omega)]; exact h.1, h.2.1.congr ?_, h.2.2.congr ?_⟩
    · intro j j1 j2; exact he j (by omega) (by omega)
    · intro j j1 j2; exact he j (by omega) (by omega)

/-- Changing the father of the root. -/
theorem Laid.refat {w : Int → Int} {dom dom' : Arr Data} : ∀ {t : BT} {i fat num fat' : Int}, Laid w dom i fat num t → (∀ j, i < j → j < i + t.nodes → dom'.get j = dom.get j) → dom'.get i = { dom.get i with fat := fat' } →
    Laid w dom' i fat' num t
  | leaf t, i, fat, num, fat', h, he, hi => by simp only [Laid] at h ⊢; rw [hi, h]
  | node l r, i, fat, num, fat', h, he, hi => by
    have n1 := l.nodes_pos
    have n2 := r.nodes_pos
    simp only [Laid, nodes] at h he ⊢
    refine ⟨by rw [hi, h.1], h.2.1.congr ?_, h.2.2.congr ?_⟩
    · intro j j1 j2; exact he j (by omega) (by omega)
    · intro j j1 j2; exact he j (by omega) (by omega)

/-- `At t i num j m s`: `s` is a subtree of `t`; when `t` is laid from `i` with number `num`, `s` is laid from `j` with number `m`. -/
inductive At : BT → Int → Int → Int → Int → BT → Prop
  | here (t : BT) (i num : Int) : At t i num i num t
  | left (l r s : BT) (i num j m : Int) : At l (i + 1) (num * 2) j m s → At (node l r) i num j m s
  | right (l r s : BT) (i num j m : Int) : At r (i + 1 + l.nodes) (num * 2 + 1) j m s → At (node l r) i num j m s

theorem At.bounds {t s : BT} {i num j m : Int} (h : At t i num j m s) : i ≤ j ∧ j + s.nodes ≤ i + t.nodes := by
  induction h with
  | here => omega
  | left l r s i num j m h ih => have := l.nodes_pos; have := r.nodes_pos; simp only [nodes]; omega
  | right l r s i num j m h ih => have := l.nodes_pos; have := r.nodes_pos; simp only [nodes]; omega

theorem At.unique {t s : BT} {i num j m : Int} (h : At t i num j m s) : ∀ {m' : Int} {s' : BT}, At t i num j m' s' → m' = m ∧ s' = s := by
  induction h with
  | here t i num =>
    intro m' s' h'
    cases h' with
    | here => exact ⟨rfl, rfl⟩
    | left l r s i num j m h => have := h.bounds; omega
    | right l r s i num j m h => have := h.bounds; have := l.nodes_pos; omega
  | left l r s i num j m h ih =>
    intro m' s' h'
    have b := h.bounds
    have := s.nodes_pos
    cases h' with
    | here => omega
    | left _ _ _ _ _ _ _ h' => exact ih h'
    | right _ _ _ _ _ _ _ h' => have := h'.bounds; omega
  | right l r s i num j m h ih =>
    intro m' s' h'
    have b := h.bounds
    have := s'.nodes_pos
    have := l.nodes_pos
    cases h' with
    | here => omega
    | left _ _ _ _ _ _ _ h' => have := h'.bounds; omega
    | right _ _ _ _ _ _ _ h' => exact ih h'

theorem At.trans {t s u : BT} {i num j m k q : Int} (h : At t i num j m s) (h' : At s j m k q u) : At t i num k q u := by
  induction h with
  | here => exact h'
  | left l r s i num j m h ih => exact .left _ _ _ _ _ _ _ (ih h')
  | right l r s i num j m h ih => exact .right _ _ _ _ _ _ _ (ih h')

theorem At.laid {w : Int → Int} {dom : Arr Data} {t s : BT} {i num j m : Int} (h : At t i num j m s) : ∀ {fat : Int}, Laid w dom i fat num t → ∃ fat', Laid w dom j fat' m s := by
  induction h with
  | here => intro fat hl; exact ⟨fat, hl⟩
  | left l r s i num j m h ih => intro fat hl; exact ih hl.2.1
  | right l r s i num j m h ih => intro fat hl; exact ih hl.2.2

theorem At.sub {t s : BT} {i num j m : Int} (h : At t i num j m s) : ∀ x ∈ s.leaves, x ∈ t.leaves := by
  induction h with
  | here => intro x hx; exact hx
  | left l r s i num j m h ih => intro x hx; rw [leaves, List.mem_append]; exact Or.inl (ih x hx)
  | right l r s i num j m h ih => intro x hx; rw [leaves, List.mem_append]; exact Or.inr (ih x hx)

theorem At.nodup {t s : BT} {i num j m : Int} (h : At t i num j m s) : t.leaves.Nodup → s.leaves.Nodup := by
  induction h with
  | here => exact id
  | left l r s i num j m h ih => intro hn; rw [leaves, List.nodup_append] at hn; exact ih hn.1
  | right l r s i num j m h ih => intro hn; rw [leaves, List.nodup_append] at hn; exact ih hn.2.1

theorem at_leaf : ∀ (t : BT) (i num x : Int), x ∈ t.leaves → ∃ j m, At t i num j m (leaf x)
  | leaf t, i, num, x, h => by simp only [leaves, List.mem_singleton] at h; subst h; exact ⟨_, _, .here _ _ _⟩
  | node l r, i, num, x, h => by
    rw [leaves, List.mem_append] at h
    rcases h with h | h
    · obtain ⟨j, m, h'⟩ := at_leaf l (i + 1) (num * 2) x h; exact ⟨j, m, .left _ _ _ _ _ _ _ h'⟩
    · obtain ⟨j, m, h'⟩ := at_leaf r (i + 1 + l.nodes) (num * 2 + 1) x h; exact ⟨j, m, .right _ _ _ _ _ _ _ h'⟩

/-- A single leaf occurs once. -/
theorem leaf_unique : ∀ (t : BT) (i num x j m j' m' : Int), t.leaves.Nodup → At t i num j m (leaf x) → At t i num j' m' (leaf x) → j = j'
  | leaf t, i, num, x, j, m, j', m', _, h, h' => by cases h; cases h'; rfl
  | node l r, i, num, x, j, m, j', m', hn, h, h' => by
    rw [leaves, List.nodup_append] at hn
    have sub := fun (s : BT) (a b c d : Int) (hh : At s a b c d (leaf x)) => hh.sub x (by simp [leaves])
    cases h with
    | left _ _ _ _ _ _ _ h =>
      cases h' with
      | left _ _ _ _ _ _ _ h' => exact leaf_unique l _ _ x _ _ _ _ hn.1 h h'
      | right _ _ _ _ _ _ _ h' => exact absurd rfl (hn.2.2 x (sub _ _ _ _ _ h) x (sub _ _ _ _ _ h'))
    | right _ _ _ _ _ _ _ h =>
      cases h' with
      | left _ _ _ _ _ _ _ h' => exact absurd rfl (hn.2.2 x (sub _ _ _ _ _ h') x (sub _ _ _ _ _ h))
      | right _ _ _ _ _ _ _ h' => exact leaf_unique r _ _ x _ _ _ _ hn.2.1 h h'

/-! ## Numbers of domains -/

/-- `a` is an ancestor of `b`, or `b` itself. -/
def Anc (a b : Int) : Prop := ∃ k : Nat, b / 2 ^ k = a

theorem anc_refl (a : Int) : Anc a a := ⟨0, by simp⟩

theorem div_pow_succ (b : Int) (k : Nat) : b / 2 ^ (k + 1) = b / 2 / 2 ^ k := by
  rw [Int.pow_succ, Int.mul_comm, Int.ediv_ediv_of_nonneg (by omega)]

theorem anc_half {a b : Int} (h : b ≠ a) : Anc a b ↔ Anc a (b / 2) := by
  constructor
  · rintro ⟨k, hk⟩
    cases k with
    | zero => simp at hk; exact absurd hk h
    | succ k => exact ⟨k, by rw [← div_pow_succ]; exact hk⟩
  · rintro ⟨k, hk⟩
    exact ⟨k + 1, by rw [div_pow_succ]; exact hk⟩

theorem div_pow_le {b : Int} (hb : 0 ≤ b) (k : Nat) : b / 2 ^ k ≤ b := by
  induction k generalizing b with
  | zero => simp
  | succ k ih => rw [div_pow_succ]; have := ih (b := b / 2) (by omega); omega

theorem anc_le {a b : Int} (hb : 0 ≤ b) (h : Anc a b) : a ≤ b := by obtain ⟨k, rfl⟩ := h; exact div_pow_le hb k

theorem anc_trans {a b c : Int} (h : Anc a b) (h' : Anc b c) : Anc a c := by
  obtain ⟨k, rfl⟩ := h
  obtain ⟨q, rfl⟩ := h'
  refine ⟨q + k, ?_⟩
  rw [Int.pow_add, Int.ediv_ediv_of_nonneg (Int.le_of_lt (Int.pow_pos (by omega)))]

/-- The two sons have no common descendant. -/
theorem anc_excl {n x : Int} (hn : 1 ≤ n) (h0 : Anc (n * 2) x) (h1 : Anc (n * 2 + 1) x) : False := by
  obtain ⟨a, ha⟩ := h0
  obtain ⟨b, hb⟩ := h1
  rcases Nat.lt_trichotomy a b with h | h | h
  · have : x / 2 ^ b = x / 2 ^ a / 2 / 2 ^ (b - a - 1) := by
      rw [← div_pow_succ, Int.ediv_ediv_of_nonneg (Int.le_of_lt (Int.pow_pos (by omega))), ← Int.pow_add]
      congr 2; omega
    rw [ha, hb] at this
    have := div_pow_le (b := n * 2 / 2) (by omega) (b - a - 1)
    omega
  · subst h; omega
  · have : x / 2 ^ a = x / 2 ^ b / 2 / 2 ^ (a - b - 1) := by
      rw [← div_pow_succ, Int.ediv_ediv_of_nonneg (Int.le_of_lt (Int.pow_pos (by omega))), ← Int.pow_add]
      congr 2; omega
    rw [ha, hb] at this
    have := div_pow_le (b := (n * 2 + 1) / 2) (by omega) (a - b - 1)
    omega

theorem At.anc {t s : BT} {i num j m : Int} (h : At t i num j m s) : 1 ≤ num → 1 ≤ m ∧ Anc num m := by
  induction h with
  | here => intro h; exact ⟨h, anc_refl _⟩
  | left l r s i num j m h ih =>
    intro hn
    have := ih (by omega)
    exact ⟨this.1, anc_trans ⟨1, by simp⟩ this.2⟩
  | right l r s i num j m h ih =>
    intro hn
    have := ih (by omega)
    exact ⟨this.1, anc_trans ⟨1, by simp; omega⟩ this.2⟩

/-- Inclusion of domains, by their numbers. -/
theorem incl_iff : ∀ (t : BT) (i num j0 m0 j1 m1 : Int) (s0 s1 : BT), 1 ≤ num → t.leaves.Nodup → At t i num j0 m0 s0 → At t i num j1 m1 s1 →
    (Anc m0 m1 ↔ ∀ x ∈ s1.leaves, x ∈ s0.leaves)
  | leaf t, i, num, j0, m0, j1, m1, s0, s1, hn, hd, h0, h1 => by
    cases h0; cases h1; exact ⟨fun _ _ hx => hx, fun _ => anc_refl _⟩
  | node l r, i, num, j0, m0, j1, m1, s0, s1, hn, hd, h0, h1 => by
    have hd' := hd
    rw [leaves, List.nodup_append] at hd'
    cases h0 with
    | here => exact ⟨fun _ => h1.sub, fun _ => (h1.anc hn).2⟩
    | left _ _ _ _ _ _ _ h0 =>
      have a0 := h0.anc (by omega)
      have l0 := anc_le (by omega) a0.2
      cases h1 with
      | here =>
        constructor
        · intro h; have := anc_le (by omega) h; omega
        · intro h
          have := h0.sub _ (h _ (by rw [leaves, List.mem_append]; exact Or.inr r.low_mem))
          exact absurd rfl (hd'.2.2 _ this _ r.low_mem)
      | left _ _ _ _ _ _ _ h1 => exact incl_iff l _ _ _ _ _ _ _ _ (by omega) hd'.1 h0 h1
      | right _ _ _ _ _ _ _ h1 =>
        have a1 := h1.anc (by omega)
        constructor
        · intro h; exact (anc_excl hn (anc_trans a0.2 h) a1.2).elim
        · intro h
          have x0 := h _ s1.low_mem
          exact absurd rfl (hd'.2.2 _ (h0.sub _ x0) _ (h1.sub _ s1.low_mem))
    | right _ _ _ _ _ _ _ h0 =>
      have a0 := h0.anc (by omega)
      have l0 := anc_le (by omega) a0.2
      cases h1 with
      | here =>
        constructor
        · intro h; have := anc_le (by omega) h; omega
        · intro h
          have := h0.sub _ (h _ (by rw [leaves, List.mem_append]; exact Or.inl l.low_mem))
          exact absurd rfl (hd'.2.2 _ l.low_mem _ this)
      | left _ _ _ _ _ _ _ h1 =>
        have a1 := h1.anc (by omega)
        constructor
        · intro h; exact (anc_excl hn a1.2 (anc_trans a0.2 h)).elim
        · intro h
          have x0 := h _ s1.low_mem
          exact absurd rfl (hd'.2.2 _ (h1.sub _ s1.low_mem) _ (h0.sub _ x0))
      | right _ _ _ _ _ _ _ h1 => exact incl_iff r _ _ _ _ _ _ _ _ (by omega) hd'.2.1 h0 h1

/-! ## Laws -/

/-- The arrays of a sub-architecture describe a tree of which the leaves are the terminals `[0, n)`. -/
structure Good (a : Arch) (n : Int) (w : Int → Int) (v : Int → Int) (root : BT) : Prop where
  nbr : a.termnbr = n
  dom : a.domntab.lo = 0 ∧ a.domntab.hi = root.nodes
  ter : a.termtab.lo = 0 ∧ a.termtab.hi = n
  laid : Laid w a.domntab 0 (-1) 1 root
  nodup : root.leaves.Nodup
  mem : ∀ x, x ∈ root.leaves ↔ 0 ≤ x ∧ x < n
  idx : ∀ x j m, At root 0 1 j m (leaf x) → (a.termtab.get x).idx = j
  org : ∀ x, 0 ≤ x → x < n → (a.termtab.get x).term = v x

def Valid (root : BT) (d : Int) : Prop := ∃ m s, At root 0 1 d m s
def Has (root : BT) (d k : Int) : Prop := ∃ m s, At root 0 1 d m s ∧ k ∈ s.leaves

theorem has_iff {root : BT} {d m k : Int} {s : BT} (h : At root 0 1 d m s) : Has root d k ↔ k ∈ s.leaves := by
  constructor
  · rintro ⟨m', s', h', hk⟩; rw [← (h.unique h').2]; exact hk
  · intro hk; exact ⟨m, s, h, hk⟩

section
variable {D : Type} {o : ArchOps D} {a : Arch} {n : Int} {w v : Int → Int} {root : BT}

theorem Good.rd (g : Good a n w v root) {d m : Int} {s : BT} (h : At root 0 1 d m s) : a.domntab.rd d = .ok (a.domntab.get d) := by
  have b := h.bounds
  have := s.nodes_pos
  exact Arr.rd_ok _ (by have := g.dom; omega) (by have := g.dom; omega)

theorem Good.fields (g : Good a n w v root) {d m : Int} {s : BT} (h : At root 0 1 d m s) :
    (a.domntab.get d).num = m ∧ (a.domntab.get d).siz = s.count ∧ (a.domntab.get d).wgt = s.wt w ∧ (a.domntab.get d).term = s.low := by
  obtain ⟨fat, hl⟩ := h.laid g.laid
  cases s with
  | leaf t => simp only [Laid] at hl; rw [hl]; exact ⟨rfl, rfl, rfl, rfl⟩
  | node l r => rw [hl.1]; exact ⟨rfl, rfl, rfl, rfl⟩

theorem Good.addLaws (g : Good a n w v root) : AddLaws (ops o a) n w (Valid root) (Has root) (fun d => (a.domntab.get d).siz) (fun d => (a.domntab.get d).wgt) where
  within := by
    rintro d k - ⟨m, s, h, hk⟩
    exact (g.mem k).1 (h.sub k hk)
  frst := by
    show Holds (pure 0) _
    rw [Holds_pure]
    exact ⟨⟨_, _, .here _ _ _⟩, fun k h1 h2 => ⟨_, _, .here _ _ _, (g.mem k).2 ⟨h1, h2⟩⟩⟩
  size := by
    rintro d ⟨m, s, h⟩
    show Holds (do return (← a.domntab.rd d).siz) _
    rw [g.rd h, ok_bind, Holds_pure]
  wght := by
    rintro d ⟨m, s, h⟩
    show Holds (do return (← a.domntab.rd d).wgt) _
    rw [g.rd h, ok_bind, Holds_pure]
  size_pos := by
    rintro d ⟨m, s, h⟩
    rw [(g.fields h).2.1]; exact s.count_pos
  bipart := by
    rintro d ⟨m, s, h⟩
    show Holds (do let x ← a.domntab.rd d; if x.sub0 < 0 then pure none else pure (some (x.sub0, x.sub1))) _
    rw [g.rd h, ok_bind]
    obtain ⟨f1, f2, f3, f4⟩ := g.fields h
    obtain ⟨fat, hl⟩ := h.laid g.laid
    rw [Holds_ite]
    cases s with
    | leaf t =>
      simp only [Laid] at hl
      rw [hl]
      dsimp only
      refine ⟨fun _ => ?_, fun hh => absurd (by decide) hh⟩
      rw [Holds_pure]
      refine ⟨rfl, t, rfl, fun j => ?_⟩
      rw [has_iff h, leaves, List.mem_singleton]
    | node l r =>
      have hb := h.bounds
      have hL : At root 0 1 (d + 1) (m * 2) l := h.trans (.left _ _ _ _ _ _ _ (.here _ _ _))
      have hR : At root 0 1 (d + 1 + l.nodes) (m * 2 + 1) r := h.trans (.right _ _ _ _ _ _ _ (.here _ _ _))
      have e0 := hl.1
      rw [e0]
      dsimp only
      refine ⟨fun hh => by omega, fun _ => ?_⟩
      rw [Holds_pure]
      dsimp only
      have hn := h.nodup g.nodup
      rw [leaves, List.nodup_append] at hn
      refine ⟨⟨_, _, hL⟩, ⟨_, _, hR⟩, ?_, ?_, ?_, ?_⟩
      · rw [(g.fields hL).2.1, (g.fields hR).2.1]; rfl
      · rw [(g.fields hL).2.2.1, (g.fields hR).2.2.1]; rfl
      · intro k; rw [has_iff h, has_iff hL, has_iff hR, leaves, List.mem_append]
      · intro k; rw [has_iff hL, has_iff hR]; rintro ⟨k0, k1⟩; exact hn.2.2 k k0 k k1 rfl
  num := by
    rintro d ⟨m, s, h⟩
    show Holds (do return (← a.domntab.rd d).term) _
    rw [g.rd h, ok_bind, Holds_pure, has_iff h, (g.fields h).2.2.2]
    exact s.low_mem
  term := by
    intro k h1 h2
    show Holds (if a.termnbr ≤ k then pure none else do return some (← a.termtab.rd k).idx) _
    rw [g.nbr, if_neg (by omega), Arr.rd_ok _ (by have := g.ter; omega) (by have := g.ter; omega), ok_bind, Holds_pure]
    obtain ⟨j, m, h⟩ := at_leaf root 0 1 k ((g.mem k).2 ⟨h1, h2⟩)
    rw [g.idx k j m h]
    refine ⟨j, rfl, ⟨m, _, h⟩, fun x => by rw [has_iff h, leaves, List.mem_singleton], ?_⟩
    rintro d' ⟨m', s', h'⟩ hd
    have hs : s' = leaf k := by
      cases s' with
      | leaf t =>
        have := (hd t).1 ((has_iff h').2 (by simp [leaves]))
        rw [this]
      | node l r =>
        exfalso
        have hn := h'.nodup g.nodup
        rw [leaves, List.nodup_append] at hn
        have e1 := (hd l.low).1 ((has_iff h').2 (by rw [leaves, List.mem_append]; exact Or.inl l.low_mem))
        have e2 := (hd r.low).1 ((has_iff h').2 (by rw [leaves, List.mem_append]; exact Or.inr r.low_mem))
        exact hn.2.2 _ l.low_mem _ r.low_mem (by omega)
    subst hs
    exact leaf_unique root 0 1 k _ _ _ _ g.nodup h' h
  term_big := by
    intro k hk
    show Holds (if a.termnbr ≤ k then pure none else _) _
    rw [g.nbr, if_pos hk, Holds_pure]

theorem Good.inclLaw (g : Good a n w v root) : InclLaw (ops o a) (Valid root) (Has root) := by
  rintro d0 d1 ⟨m0, s0, h0⟩ ⟨m1, s1, h1⟩
  show Holds (incl a d0 d1) _
  unfold incl
  rw [g.rd h1, ok_bind, g.rd h0, ok_bind, (g.fields h0).1, (g.fields h1).1]
  have p0 := h0.anc (by omega)
  have p1 := h1.anc (by omega)
  have hi := incl_iff root 0 1 _ _ _ _ _ _ (by omega) g.nodup h0 h1
  have hq : (∀ k, Has root d1 k → Has root d0 k) ↔ Anc m0 m1 := by
    rw [hi]
    constructor
    · intro h x hx; exact (has_iff h0).1 (h x ((has_iff h1).2 hx))
    · intro h x hx; exact (has_iff h0).2 (h x ((has_iff h1).1 hx))
  rw [hq]
  refine Holds_loopM (fun x : Int => 0 ≤ x ∧ (Anc m0 x ↔ Anc m0 m1)) (fun x => x.toNat) ?_ _ _ ⟨by omega, Iff.rfl⟩ (by omega)
  rintro x ⟨x0, hx⟩
  rw [Holds_ite, Holds_ite, Holds_pure, Holds_pure, Holds_pure]
  refine ⟨fun he => ?_, fun he => ⟨fun he' => ?_, fun he' => ⟨⟨by omega, ?_⟩, by omega⟩⟩⟩
  · subst he
    show false = true ↔ _
    rw [← hx]
    constructor
    · intro h; cases h
    · intro h; have := anc_le (Int.le_refl 0) h; omega
  · subst he'
    show true = true ↔ _
    rw [← hx]
    exact ⟨fun _ => anc_refl _, fun _ => rfl⟩
  · rw [← anc_half he']; exact hx

theorem Good.distLaw (g : Good a n w v root) {N : Int} (hv : ∀ x, 0 ≤ x → x < n → 0 ≤ v x ∧ v x < N) {f : Int → Int → Int} (hd : DistLaw o N f) :
    DistLaw (ops o a) n (fun x y => f (v x) (v y)) := by
  intro x y x0 x1 y0 y1
  have key : ∀ z, 0 ≤ z → z < n → ∃ d, (ops o a).term z = .ok (some d) ∧ orgTerm o a d = (do match ← o.term (v z) with | none => .error .null | some d => return d) := by
    intro z z0 z1
    obtain ⟨j, m, h⟩ := at_leaf root 0 1 z ((g.mem z).2 ⟨z0, z1⟩)
    refine ⟨j, ?_, ?_⟩
    · show (if a.termnbr ≤ z then pure none else do return some (← a.termtab.rd z).idx) = _
      rw [g.nbr, if_neg (by omega), Arr.rd_ok _ (by have := g.ter; omega) (by have := g.ter; omega), ok_bind, g.idx z j m h]
      rfl
    · unfold orgTerm
      have : (a.domntab.get j).term = z := (g.fields h).2.2.2
      rw [g.rd h, ok_bind, this, Arr.rd_ok _ (by have := g.ter; omega) (by have := g.ter; omega), ok_bind, g.org z z0 z1]
      rfl
  obtain ⟨da, ea, oa⟩ := key x x0 x1
  obtain ⟨db, eb, ob⟩ := key y y0 y1
  obtain ⟨ca, cb, ta, tb, td⟩ := hd (v x) (v y) (hv x x0 x1).1 (hv x x0 x1).2 (hv y y0 y1).1 (hv y y0 y1).2
  refine ⟨da, db, ea, eb, ?_⟩
  show dist o a da db = _
  unfold dist
  rw [oa, ob, ta, tb]
  exact td

end
end Scotch.Arch.Sub
