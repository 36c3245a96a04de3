import Verif.Arch.LemmasSub3
import Verif.Arch.LemmasMatch

/-! # Sub-architectures: matchings -/

set_option autoImplicit false
set_option linter.unusedSimpArgs false

namespace Scotch.Arch.Sub
open BT

def BT.depth : BT → Nat
  | leaf _ => 0
  | node l r => 1 + max l.depth r.depth

/-- Number of nodes of a tree cut below level `k`. -/
def fcount : Nat → BT → Int
  | 0, _ => 1
  | _ + 1, leaf _ => 1
  | k + 1, node l r => fcount k l + fcount k r

theorem fcount_pos : ∀ (k : Nat) (t : BT), 1 ≤ fcount k t
  | 0, _ => by simp [fcount]
  | _ + 1, leaf _ => by simp [fcount]
  | k + 1, node l r => by have := fcount_pos k l; have := fcount_pos k r; simp only [fcount]; omega

theorem fcount_mono : ∀ (k : Nat) (t : BT), fcount k t ≤ fcount (k + 1) t
  | 0, t => by have := fcount_pos 1 t; simp only [fcount] at *; omega
  | _ + 1, leaf _ => by simp [fcount]
  | k + 1, node l r => by have := fcount_mono k l; have := fcount_mono k r; simp only [fcount] at *; omega

theorem fcount_all : ∀ (k : Nat) (t : BT), BT.depth t ≤ k → fcount k t = t.count
  | 0, leaf _, _ => by simp [fcount, count]
  | 0, node l r, h => by simp only [BT.depth] at h; omega
  | _ + 1, leaf _, _ => by simp [fcount, count]
  | k + 1, node l r, h => by
    simp only [BT.depth] at h
    rw [fcount, count, fcount_all k l (by omega), fcount_all k r (by omega)]

theorem count_le_pow : ∀ t : BT, t.count ≤ 2 ^ (BT.depth t)
  | leaf _ => by simp [count, BT.depth]
  | node l r => by
    have h1 := count_le_pow l
    have h2 := count_le_pow r
    have m1 : (2 : Int) ^ l.depth ≤ 2 ^ (max l.depth r.depth) := by exact_mod_cast Nat.pow_le_pow_right (by omega) (Nat.le_max_left _ _)
    have m2 : (2 : Int) ^ r.depth ≤ 2 ^ (max l.depth r.depth) := by exact_mod_cast Nat.pow_le_pow_right (by omega) (Nat.le_max_right _ _)
    rw [count, BT.depth, Nat.add_comm, Int.pow_succ]
    omega

/-- Numbers of the nodes of level `k`. -/
theorem At.level {t s : BT} {i num j m : Int} (h : At t i num j m s) : ∃ k : Nat, k ≤ BT.depth t ∧ num * 2 ^ k ≤ m ∧ m < (num + 1) * 2 ^ k := by
  induction h with
  | here => exact ⟨0, by omega, by simp, by simp⟩
  | left l r s i num j m h ih =>
    obtain ⟨k, k1, k2, k3⟩ := ih
    have e : ∀ x : Int, x * 2 ^ (k + 1) = x * 2 * 2 ^ k := fun x => by rw [Int.pow_succ, Int.mul_comm (2 ^ k) 2, ← Int.mul_assoc]
    refine ⟨k + 1, by simp only [BT.depth]; omega, by rw [e]; exact k2, ?_⟩
    rw [e]
    refine Int.lt_of_lt_of_le k3 (Int.mul_le_mul_of_nonneg_right (by omega) (Int.le_of_lt (Int.pow_pos (by omega))))
  | right l r s i num j m h ih =>
    obtain ⟨k, k1, k2, k3⟩ := ih
    have e : ∀ x : Int, x * 2 ^ (k + 1) = x * 2 * 2 ^ k := fun x => by rw [Int.pow_succ, Int.mul_comm (2 ^ k) 2, ← Int.mul_assoc]
    refine ⟨k + 1, by simp only [BT.depth]; omega, ?_, ?_⟩
    · rw [e]
      exact Int.le_trans (Int.mul_le_mul_of_nonneg_right (by omega) (Int.le_of_lt (Int.pow_pos (by omega)))) k2
    · rw [e, show (num + 1) * 2 = num * 2 + 1 + 1 by omega]; exact k3

theorem at_deepest : ∀ (t : BT) (i num : Int), ∃ x j m, At t i num j m (leaf x) ∧ num * 2 ^ (BT.depth t) ≤ m
  | leaf t, i, num => ⟨t, i, num, .here _ _ _, by simp [BT.depth]⟩
  | node l r, i, num => by
    have e : ∀ (x : Int) (k : Nat), x * 2 ^ (1 + k) = x * 2 * 2 ^ k := fun x k => by rw [Nat.add_comm, Int.pow_succ, Int.mul_comm (2 ^ k) 2, ← Int.mul_assoc]
    rcases Nat.le_total r.depth l.depth with h | h
    · obtain ⟨x, j, m, a1, a2⟩ := at_deepest l (i + 1) (num * 2)
      refine ⟨x, j, m, .left _ _ _ _ _ _ _ a1, ?_⟩
      rw [BT.depth, Nat.max_eq_left h, e]; exact a2
    · obtain ⟨x, j, m, a1, a2⟩ := at_deepest r (i + 1 + l.nodes) (num * 2 + 1)
      refine ⟨x, j, m, .right _ _ _ _ _ _ _ a1, ?_⟩
      rw [BT.depth, Nat.max_eq_right h, e]
      exact Int.le_trans (Int.mul_le_mul_of_nonneg_right (by omega) (Int.le_of_lt (Int.pow_pos (by omega)))) a2

section
variable {a : Arch} {q : Int} {w v : Int → Int} {root : BT}

/-- Below the first level: coarse vertices made of consecutive vertices. -/
theorem mate2_holds (g : Good a q w v root) {lo hi : Int} : ∀ (lev : Nat) (t : BT) (d m c f : Int) (s : Arr Multi × Int × Int), At root 0 1 d m t → Part lo hi c f s → 0 ≤ c → 0 ≤ f → lo ≤ 0 →
    c + fcount lev t ≤ hi → Holds (mate2 false a.domntab lev d s) (Part lo hi (c + fcount lev t) (f + fcount (lev + 1) t))
  | lev, leaf x, d, m, c, f, s, h, P, c0, f0, hlo, hhi => by
    obtain ⟨fat, hl⟩ := h.laid g.laid
    simp only [Laid] at hl
    have e1 : ∀ k, fcount k (leaf x) = 1 := fun k => by cases k <;> rfl
    have key : Holds (mateOne false (a.domntab.get d) s) (Part lo hi (c + fcount lev (leaf x)) (f + fcount (lev + 1) (leaf x))) := by
      rw [e1, e1]
      rw [e1] at hhi
      have := putOne_holds P f0 c0 (by omega) (by omega)
      exact this
    cases lev with
    | zero => rw [mate2, g.rd h, ok_bind, if_pos (by rw [hl])]; exact key
    | succ lev => rw [mate2, g.rd h, ok_bind, if_pos (by rw [hl])]; exact key
  | 0, node l r, d, m, c, f, s, h, P, c0, f0, hlo, hhi => by
    obtain ⟨fat, hl, -⟩ := h.laid g.laid
    have := h.bounds
    rw [mate2, g.rd h, ok_bind, if_neg (by rw [hl]; dsimp only; omega)]
    have := putTwo_holds P f0 c0 (by omega) (by simp only [fcount] at hhi; omega)
    simp only [fcount]
    exact this
  | lev + 1, node l r, d, m, c, f, s, h, P, c0, f0, hlo, hhi => by
    obtain ⟨fat, hl, -⟩ := h.laid g.laid
    have hb := h.bounds
    have hL : At root 0 1 (d + 1) (m * 2) l := h.trans (.left _ _ _ _ _ _ _ (.here _ _ _))
    have hR : At root 0 1 (d + 1 + l.nodes) (m * 2 + 1) r := h.trans (.right _ _ _ _ _ _ _ (.here _ _ _))
    rw [mate2, g.rd h, ok_bind, if_neg (by rw [hl]; dsimp only; omega), hl, Holds_bind]
    dsimp only
    have p1 := fcount_pos lev l
    have p2 := fcount_pos lev r
    have p3 := fcount_pos (lev + 1) l
    simp only [fcount] at hhi
    refine (mate2_holds g lev l _ _ c f s hL P c0 f0 hlo (by omega)).mono ?_
    intro s' P'
    refine (mate2_holds g lev r _ _ _ _ s' hR P' (by omega) (by omega) hlo (by omega)).mono ?_
    intro s'' P''
    rw [show fcount (lev + 1) (node l r) = fcount lev l + fcount lev r from rfl, show fcount (lev + 1 + 1) (node l r) = fcount (lev + 1) l + fcount (lev + 1) r from rfl, ← Int.add_assoc, ← Int.add_assoc]
    exact P''

/-- First level: the terminals, in the order of the tree. -/
theorem mate2_top (g : Good a q w v root) : ∀ (lev : Nat) (t : BT) (d m : Int) (s : Arr Multi × Int × Int), At root 0 1 d m t → BT.depth t < lev → s.1.lo ≤ s.2.1 → s.2.1 + t.count ≤ s.1.hi →
    Holds (mate2 true a.domntab lev d s) (fun r => r.1.lo = s.1.lo ∧ r.1.hi = s.1.hi ∧ r.2.1 = s.2.1 + t.count ∧ (∀ c, c < s.2.1 → r.1.get c = s.1.get c) ∧
      ∀ k : Nat, (hk : k < t.leaves.length) → r.1.get (s.2.1 + k) = (t.leaves[k], t.leaves[k]))
  | 0, _, _, _, _, _, h, _, _ => by omega
  | lev + 1, leaf x, d, m, s, h, hd, h1, h2 => by
    obtain ⟨fat, hl⟩ := h.laid g.laid
    simp only [Laid] at hl
    simp only [count] at h2
    rw [mate2, g.rd h, ok_bind, if_pos (by rw [hl]), mateOne, if_pos rfl, Arr.wr_ok _ _ h1 (by omega), ok_bind, Holds_pure]
    refine ⟨rfl, rfl, rfl, ?_, ?_⟩
    · intro c hc; dsimp only; rw [Arr.set_get_ne _ _ (by omega)]
    · intro k hk
      simp only [leaves, List.length_singleton] at hk
      have : k = 0 := by omega
      subst this
      dsimp only
      rw [show s.2.1 + ((0 : Nat) : Int) = s.2.1 by omega, Arr.set_get_same, hl]
      rfl
  | lev + 1, node l r, d, m, s, h, hd, h1, h2 => by
    obtain ⟨fat, hl, -⟩ := h.laid g.laid
    have hb := h.bounds
    have hL : At root 0 1 (d + 1) (m * 2) l := h.trans (.left _ _ _ _ _ _ _ (.here _ _ _))
    have hR : At root 0 1 (d + 1 + l.nodes) (m * 2 + 1) r := h.trans (.right _ _ _ _ _ _ _ (.here _ _ _))
    simp only [BT.depth, count] at hd h2
    have p1 := l.count_pos
    have p2 := r.count_pos
    rw [mate2, g.rd h, ok_bind, if_neg (by rw [hl]; dsimp only; omega), hl, Holds_bind]
    dsimp only
    refine (mate2_top g lev l _ _ s hL (by omega) h1 (by omega)).mono ?_
    rintro s1 ⟨a1, a2, a3, a4, a5⟩
    refine (mate2_top g lev r _ _ s1 hR (by omega) (by omega) (by omega)).mono ?_
    rintro s2 ⟨b1, b2, b3, b4, b5⟩
    have hlen := l.count_length
    refine ⟨by omega, by omega, by rw [b3, a3, count]; omega, ?_, ?_⟩
    · intro c hc; rw [b4 c (by omega), a4 c hc]
    · intro k hk
      simp only [leaves, List.length_append] at hk
      by_cases hkl : k < l.leaves.length
      · rw [b4 _ (by omega), a5 k hkl]
        simp only [leaves, List.getElem_append_left hkl]
      · have := b5 (k - l.leaves.length) (by omega)
        rw [show s.2.1 + (k : Int) = s1.2.1 + ((k - l.leaves.length : Nat) : Int) by omega, this]
        simp only [leaves, List.getElem_append_right (show l.leaves.length ≤ k by omega)]

structure MInv (root : BT) (m : Match) (n : Int) : Prop where
  lmax : m.levlmax = BT.depth root + 1
  lev : -1 ≤ m.levlnum ∧ m.levlnum ≤ m.levlmax
  nbr : n = fcount (m.levlnum + 1).toNat root
  lo : m.multtab.lo = 0
  hi : root.count ≤ m.multtab.hi

theorem fcount_le_count : ∀ (k : Nat) (t : BT), fcount k t ≤ t.count
  | 0, t => by have := t.count_pos; simp only [fcount]; omega
  | _ + 1, leaf _ => by simp [fcount, count]
  | k + 1, node l r => by have := fcount_le_count k l; have := fcount_le_count k r; simp only [fcount, count]; omega

theorem matcher (g : Good a q w v root) : Matcher (matchMate a) Match.multtab (MInv root) (fun m => (m.levlnum + 1).toNat) := by
  refine ⟨fun s n I => by rw [I.nbr]; exact fcount_pos _ _, ?_⟩
  intro m n I hn
  have hlev := I.lev
  have hl0 : 0 ≤ m.levlnum := by
    refine Classical.byContradiction fun h => ?_
    have := I.nbr
    rw [show (m.levlnum + 1).toNat = 0 by omega, fcount] at this
    omega
  have e1 : (m.levlnum + 1).toNat = m.levlnum.toNat + 1 := by omega
  have hroot : At root 0 1 0 1 root := .here _ _ _
  unfold matchMate
  rw [if_neg (by omega), Holds_bind]
  by_cases htop : m.levlnum = m.levlmax
  · have hb : (m.levlnum == m.levlmax) = true := by rw [htop]; exact beq_self_eq_true _
    rw [hb]
    have hmax := I.lmax
    have hN : n = root.count := by rw [I.nbr, fcount_all _ _ (by omega)]
    refine (mate2_top g m.levlnum.toNat root 0 1 (m.multtab, 0, 0) hroot (by omega) (by have := I.lo; dsimp only; omega) (by have := I.hi; dsimp only; omega)).mono ?_
    rintro s ⟨b1, b2, b3, b4, b5⟩
    rw [Holds_pure]
    dsimp only at *
    have hs : s.2.1 = n := by rw [b3, hN]; omega
    have hlen := root.count_length
    have hcell : ∀ c, 0 ≤ c → c < n → ∃ (h : c.toNat < root.leaves.length), s.1.get c = (root.leaves[c.toNat], root.leaves[c.toNat]) := by
      intro c c0 c1
      have hk : c.toNat < root.leaves.length := by omega
      refine ⟨hk, ?_⟩
      have := b5 c.toNat hk
      rw [show (0 : Int) + (c.toNat : Int) = c by omega] at this
      exact this
    have hqn : q = n := by
      rw [hN, hlen]
      have h1 : root.leaves.Perm (List.map (fun k : Nat => (k : Int)) (List.range q.toNat)) := by
        rw [List.perm_ext_iff_of_nodup g.nodup]
        · intro x
          rw [g.mem, List.mem_map]
          constructor
          · rintro ⟨x0, x1⟩; exact ⟨x.toNat, by rw [List.mem_range]; omega, by omega⟩
          · rintro ⟨k, hk, rfl⟩; rw [List.mem_range] at hk; omega
        · rw [List.nodup_map_iff (fun x y h => by omega)]; exact List.nodup_range
      have := h1.length_eq
      rw [List.length_map, List.length_range] at this
      have hq : 0 ≤ q := by have := (g.mem _).1 root.low_mem; omega
      omega
    rw [hs]
    refine ⟨Int.le_refl _, ?_, ⟨I.lmax, by dsimp only; omega, ?_, by dsimp only; rw [b1]; exact I.lo, by dsimp only; rw [b2]; exact I.hi⟩, by omega, by have := I.lo; omega, by have := I.hi; omega⟩
    · refine ⟨?_, ?_⟩
      · intro c c0 c1
        obtain ⟨hk, e⟩ := hcell c c0 c1
        rw [e]
        have := (g.mem _).1 (List.getElem_mem hk)
        dsimp only
        omega
      · intro x x0 x1
        obtain ⟨k, hk, hx⟩ := List.getElem_of_mem ((g.mem x).2 ⟨x0, by omega⟩)
        refine ⟨k, by omega, by omega, ?_, ?_⟩
        · obtain ⟨hk', e⟩ := hcell (k : Int) (by omega) (by omega)
          rw [e]
          exact Or.inl (by dsimp only; simpa using hx)
        · intro c' c0 c1 hc
          obtain ⟨hk', e⟩ := hcell c' c0 c1
          rw [e] at hc
          dsimp only at hc
          have : root.leaves[c'.toNat] = root.leaves[k] := by rw [hx]; exact hc.elim id id
          have := (List.getElem_inj g.nodup).1 this
          omega
    · dsimp only
      rw [hN, fcount_all _ _ (by omega)]
  · have hb : (m.levlnum == m.levlmax) = false := beq_false_of_ne htop
    rw [hb]
    have hfc := fcount_le_count m.levlnum.toNat root
    have hmono := fcount_mono m.levlnum.toNat root
    have hhi := I.hi
    have hnbr := I.nbr
    rw [e1] at hnbr
    refine (mate2_holds g (lo := 0) (hi := m.multtab.hi) m.levlnum.toNat root 0 1 0 0 (m.multtab, 0, 0) hroot ⟨⟨I.lo, rfl⟩, rfl, rfl, Matched.empty _, by have := root.count_pos; omega⟩ (by omega) (by omega) (by omega) (by omega)).mono ?_
    intro s P
    rw [Holds_pure]
    have hc := P.coar
    have hm := P.mat
    rw [← hc, Int.zero_add, ← hnbr] at hm
    dsimp only
    refine ⟨by omega, hm, ⟨I.lmax, by dsimp only; omega, ?_, by dsimp only; exact P.bounds.1, by dsimp only; rw [P.bounds.2]; exact hhi⟩, by omega, Int.le_of_eq P.bounds.1, by have := P.bounds.2; have := P.fit; omega⟩
    dsimp only
    rw [hc, Int.zero_add, show (m.levlnum - 1 + 1).toNat = m.levlnum.toNat by omega]

theorem matchInit_inv (g : Good a q w v root) (hd : BT.depth root ≤ 28) (junk : Int → Multi) : Holds (matchInit junk a) (fun m => MInv root m q) := by
  unfold matchInit
  rw [Holds_bind, g.nbr]
  have hq : 0 ≤ q := by have := (g.mem _).1 root.low_mem; omega
  have hterm : ∀ i, 0 ≤ i → i < q → ∃ j m, At root 0 1 j m (leaf i) ∧ (a.termtab.get i).idx = j ∧ (a.domntab.get j).num = m := by
    intro i i0 i1
    obtain ⟨j, m, h⟩ := at_leaf root 0 1 i ((g.mem i).2 ⟨i0, i1⟩)
    exact ⟨j, m, h, g.idx i j m h, (g.fields h).1⟩
  refine Holds_forUp (fun i (x : Int) => 0 ≤ x ∧ x < 2 ^ (BT.depth root + 1) ∧ ∀ j m y, 0 ≤ y → y < i → At root 0 1 j m (leaf y) → m ≤ x) hq ⟨Int.le_refl _, Int.pow_pos (by omega), fun j m y y0 y1 => by omega⟩ ?_ ?_
  · rintro i x i0 i1 ⟨x0, x1, x2⟩
    obtain ⟨j, m, h, e1, e2⟩ := hterm i i0 i1
    rw [Arr.rd_ok _ (by have := g.ter; omega) (by have := g.ter; omega), ok_bind, e1, g.rd h, ok_bind, e2, Holds_pure]
    obtain ⟨k, k1, k2, k3⟩ := h.level
    have hm : m < 2 ^ (BT.depth root + 1) := by
      have : (1 + 1 : Int) * 2 ^ k = 2 ^ (k + 1) := by rw [Int.pow_succ, Int.mul_comm]; rfl
      rw [this] at k3
      refine Int.lt_of_lt_of_le k3 ?_
      exact_mod_cast Nat.pow_le_pow_right (by omega) (by omega)
    have hmx : ∀ j' m' y, 0 ≤ y → y < i + 1 → At root 0 1 j' m' (leaf y) → m' ≤ m ∨ m' ≤ x := by
      intro j' m' y y0 y1 hy
      by_cases he : y = i
      · subst he
        have := leaf_unique root 0 1 y _ _ _ _ g.nodup hy h
        subst this
        exact Or.inl (Int.le_of_eq (h.unique hy).1)
      · exact Or.inr (x2 j' m' y y0 (by omega) hy)
    by_cases hx : x < m
    · rw [if_pos hx]
      refine ⟨by omega, hm, ?_⟩
      intro j' m' y y0 y1 hy
      have := hmx j' m' y y0 y1 hy
      omega
    · rw [if_neg hx]
      refine ⟨x0, x1, ?_⟩
      intro j' m' y y0 y1 hy
      have := hmx j' m' y y0 y1 hy
      omega
  · rintro x ⟨x0, x1, x2⟩
    have hdeep : (2 : Int) ^ (BT.depth root) ≤ x := by
      obtain ⟨y, j, m, h, hm⟩ := at_deepest root 0 1
      have hy := (g.mem y).1 (h.sub y (by simp [leaves]))
      have := x2 j m y hy.1 hy.2 h
      omega
    have hpow : ∀ {k k' : Nat}, k ≤ k' → (2 : Int) ^ k ≤ 2 ^ k' := fun h => by exact_mod_cast Nat.pow_le_pow_right (by omega) h
    rw [Holds_bind]
    refine Holds.mono (Holds_loopM (Q := fun c => c = BT.depth root + 2) (fun s : Nat × Int => 1 ≤ s.1 ∧ s.1 ≤ BT.depth root + 2 ∧ s.2 = x / 2 ^ (s.1 - 1)) (fun s => s.2.toNat) ?_ _ _ ⟨by dsimp only; omega, by dsimp only; omega, by simp⟩ (by dsimp only; omega)) ?_
    · rintro ⟨c, z⟩ ⟨c1, c2, c3⟩
      dsimp only at c1 c2 c3 ⊢
      have hp : (0 : Int) < 2 ^ (c - 1) := Int.pow_pos (by omega)
      rw [Holds_ite, Holds_pure, Holds_pure]
      constructor
      · intro hz
        have hge : (2 : Int) ^ (c - 1) ≤ x := by
          refine Classical.byContradiction fun h => ?_
          rw [Int.ediv_eq_zero_of_lt x0 (by omega)] at c3
          omega
        have hlt : c - 1 < BT.depth root + 1 := by
          refine Classical.byContradiction fun h => ?_
          have := hpow (show BT.depth root + 1 ≤ c - 1 by omega)
          omega
        refine ⟨⟨by dsimp only; omega, by dsimp only; omega, ?_⟩, by dsimp only; omega⟩
        dsimp only
        rw [c3, Int.ediv_ediv_of_nonneg (by omega), ← Int.pow_succ, show (c - 1).succ = c + 1 - 1 by omega]
      · intro hz
        have hlt : x < 2 ^ (c - 1) := by
          refine Classical.byContradiction fun h => ?_
          have : 1 ≤ x / 2 ^ (c - 1) := by
            rw [Int.le_ediv_iff_mul_le hp]; omega
          omega
        have : BT.depth root < c - 1 := by
          refine Classical.byContradiction fun h => ?_
          have := hpow (show c - 1 ≤ BT.depth root by omega)
          omega
        show c = _
        omega
    · rintro c rfl
      unfold Hcub.shl1
      rw [if_pos (by omega), ok_bind, Holds_pure]
      have hcnt := count_le_pow root
      have := hpow (show BT.depth root ≤ BT.depth root + 2 by omega)
      have hqn : q = root.count := by
        rw [root.count_length]
        have h1 : root.leaves.Perm (List.map (fun k : Nat => (k : Int)) (List.range q.toNat)) := by
          rw [List.perm_ext_iff_of_nodup g.nodup]
          · intro x
            rw [g.mem, List.mem_map]
            constructor
            · rintro ⟨x0, x1⟩; exact ⟨x.toNat, by rw [List.mem_range]; omega, by omega⟩
            · rintro ⟨k, hk, rfl⟩; rw [List.mem_range] at hk; omega
          · rw [List.nodup_map_iff (fun x y h => by omega)]; exact List.nodup_range
        have := h1.length_eq
        rw [List.length_map, List.length_range] at this
        omega
      refine ⟨by dsimp only; omega, by dsimp only; omega, ?_, rfl, by dsimp only; omega⟩
      dsimp only
      rw [hqn, fcount_all _ _ (by omega)]

end
end Scotch.Arch.Sub
