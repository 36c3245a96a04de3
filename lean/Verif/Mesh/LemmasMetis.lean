import Verif.Mesh.LemmasDual
import Verif.Mesh.SpecMetis

set_option autoImplicit false
set_option linter.unusedSimpArgs false

namespace Scotch.Mesh.Metis

/-! ## Counts -/

theorem sum_count {lo hi : Int} : ∀ l : List Int, (∀ n ∈ l, lo ≤ n ∧ n < hi) → sumI lo hi (fun n => (l.count n : Int)) = l.length
  | [], _ => by
    rw [sumI_congr (g := fun _ => 0) (fun i _ _ => by simp)]
    by_cases h : lo ≤ hi
    · rw [sumI_const h]; simp
    · rw [sumI_empty (by omega)]; simp
  | a :: l, h => by
    have ha := h a (List.mem_cons_self ..)
    have hl := sum_count l (fun n hn => h n (List.mem_cons_of_mem _ hn))
    rw [sumI_congr (g := fun n => (l.count n : Int) + if n = a then (fun _ => 1) n else 0) (fun i _ _ => by
      rw [List.count_cons]
      by_cases e : a = i
      · rw [if_pos (by simp [e]), if_pos e.symm]; rfl
      · rw [if_neg (by simp [e]), if_neg (fun h => e h.symm)]; rfl), sumI_add_dist, hl, sumI_single ha.1 ha.2, List.length_cons]
    rfl

section

variable {base ne nn : Int} {eptr eind : Arr Int}

theorem Input.le (I : Input base ne nn eptr eind) {v w : Int} (h1 : base ≤ v) (h2 : v ≤ w) (h3 : w ≤ base + ne) : eptr.get v ≤ eptr.get w := by
  obtain ⟨k, rfl⟩ : ∃ k : Nat, w = v + k := ⟨(w - v).toNat, by omega⟩
  clear h2
  induction k with
  | zero => simp
  | succ k ih =>
    have := ih (by push_cast at h3; omega)
    have := I.mono (v + k) (by omega) (by push_cast at h3; omega)
    push_cast
    rw [← Int.add_assoc]
    omega

theorem Input.base_le (I : Input base ne nn eptr eind) {v : Int} (h1 : base ≤ v) (h2 : v ≤ base + ne) : base ≤ eptr.get v := by
  have := I.le (Int.le_refl _) h1 h2
  rw [I.first] at this
  exact this

theorem Input.rd_ptr (I : Input base ne nn eptr eind) {v : Int} (h1 : base ≤ v) (h2 : v ≤ base + ne) : eptr.rd v = .ok (eptr.get v) :=
  Arr.rd_ok _ (by have := I.plo; omega) (by have := I.phi; omega)

theorem Input.rd_ind (I : Input base ne nn eptr eind) {e : Int} (h1 : base ≤ e) (h2 : e < eptr.get (base + ne)) : eind.rd e = .ok (eind.get e) :=
  Arr.rd_ok _ (by have := I.ilo (by omega); omega) (by have := I.ihi (by omega); omega)

/-- Every arc belongs to an element. -/
theorem Input.owner (I : Input base ne nn eptr eind) {e : Int} (h1 : base ≤ e) {w : Int} (hw1 : base ≤ w) (hw : w ≤ base + ne) (h2 : e < eptr.get w) : ∃ v, base ≤ v ∧ v < w ∧ eptr.get v ≤ e ∧ e < eptr.get (v + 1) := by
  obtain ⟨k, rfl⟩ : ∃ k : Nat, w = base + k := ⟨(w - base).toNat, by omega⟩
  clear hw1
  induction k with
  | zero => simp [I.first] at h2; omega
  | succ k ih =>
    push_cast at hw h2
    by_cases h : e < eptr.get (base + k)
    · obtain ⟨v, v1, v2, v3, v4⟩ := ih (by omega) h
      exact ⟨v, v1, by push_cast; omega, v3, v4⟩
    · exact ⟨base + k, by omega, by push_cast; omega, by omega, by rwa [← Int.add_assoc] at h2⟩

theorem Input.node (I : Input base ne nn eptr eind) {e : Int} (h1 : base ≤ e) (h2 : e < eptr.get (base + ne)) : base ≤ eind.get e ∧ eind.get e < base + nn := by
  have := I.ne_nonneg
  obtain ⟨v, v1, v2, v3, v4⟩ := I.owner h1 (by omega) (Int.le_refl _) h2
  exact I.range v v1 v2 _ ((mem_seg _ _ _ _).2 ⟨e, v3, v4, rfl⟩)

/-- Number of elements met by a node before an arc. -/
def cnt (base : Int) (eind : Arr Int) (x n : Int) : Int := ((seg eind.get base x).count n : Int)

theorem cnt_succ {x : Int} (h : base ≤ x) (n : Int) : cnt base eind (x + 1) n = cnt base eind x n + if n = eind.get x then 1 else 0 := by
  unfold cnt
  rw [seg_succ _ h, count_snoc]
  push_cast
  split <;> rfl

theorem cnt_base (n : Int) : cnt base eind base n = 0 := by unfold cnt; rw [seg_empty _ (Int.le_refl _)]; rfl

theorem cnt_nonneg (x n : Int) : 0 ≤ cnt base eind x n := by unfold cnt; omega

theorem cnt_mono {x y : Int} (h1 : base ≤ x) (h2 : x ≤ y) (n : Int) : cnt base eind x n ≤ cnt base eind y n := by
  unfold cnt
  rw [seg_append _ h1 h2, List.count_append]
  omega

/-! ## Counting loop -/

structure CInv (base ne nn : Int) (eptr eind : Arr Int) (x : Int) (vert : Arr Int) : Prop where
  lo : vert.lo = base
  hi : vert.hi = base + (ne + nn + 1)
  get : ∀ n, base ≤ n → n < base + nn → vert.get (ne + n) = cnt base eind x n

theorem countNode_holds (I : Input base ne nn eptr eind) {x : Int} (h1 : base ≤ x) (h2 : x < eptr.get (base + ne)) {vert : Arr Int} (S : CInv base ne nn eptr eind x vert) :
    Holds (countNode ne eind x vert) (CInv base ne nn eptr eind (x + 1)) := by
  have hn := I.node h1 h2
  have h0 := I.ne_nonneg
  unfold countNode
  rw [I.rd_ind h1 h2, Holds_bind, Holds_ok, Holds_bind, Arr.rd_ok _ (by rw [S.lo]; omega) (by rw [S.hi]; omega), Holds_ok, Arr.wr_ok _ _ (by rw [S.lo]; omega) (by rw [S.hi]; omega), Holds_ok]
  refine ⟨S.lo, S.hi, ?_⟩
  intro n n1 n2
  rw [Arr.set_get, cnt_succ h1]
  by_cases e : n = eind.get x
  · rw [if_pos (by rw [e]), if_pos e, S.get _ hn.1 hn.2, e]
  · rw [if_neg (by omega), if_neg e, S.get n n1 n2]; omega

structure CSInv (base ne nn : Int) (eptr eind : Arr Int) (v : Int) (s : CState) : Prop where
  vert : CInv base ne nn eptr eind (eptr.get v) s.vert
  nbr : s.edgenbr = eptr.get v - base
  deg : 0 ≤ s.degrmax ∧ (∀ u, base ≤ u → u < v → eptr.get (u + 1) - eptr.get u ≤ s.degrmax) ∧ ∀ D, 0 ≤ D → (∀ u, base ≤ u → u < v → eptr.get (u + 1) - eptr.get u ≤ D) → s.degrmax ≤ D

theorem countElem_holds (I : Input base ne nn eptr eind) {v : Int} (h1 : base ≤ v) (h2 : v < base + ne) {s : CState} (S : CSInv base ne nn eptr eind v s) :
    Holds (countElem ne eptr eind v s) (CSInv base ne nn eptr eind (v + 1)) := by
  have a1 := I.base_le h1 (by omega)
  have a2 := I.le (v := v + 1) (by omega) (show v + 1 ≤ base + ne by omega) (Int.le_refl _)
  unfold countElem
  rw [I.rd_ptr h1 (by omega), Holds_bind, Holds_ok, Holds_bind, I.rd_ptr (by omega) (by omega), Holds_ok, Holds_bind]
  refine Holds_forUp (fun x vert => CInv base ne nn eptr eind x vert) (I.mono v h1 h2) S.vert (fun x vert x1 x2 h => countNode_holds I (by omega) (by omega) h) ?_
  intro vert hv
  rw [Holds_pure]
  have hd := S.deg.1
  refine ⟨hv, by dsimp only; rw [S.nbr]; omega, by dsimp only; omega, ?_, ?_⟩
  · intro u u1 u2
    dsimp only
    by_cases e : u = v
    · rw [e]; omega
    · have := S.deg.2.1 u u1 (by omega); omega
  · intro D d1 d2
    dsimp only
    have := S.deg.2.2 D d1 (fun u u1 u2 => d2 u u1 (by omega))
    have := d2 v h1 (by omega)
    omega

/-! ## Start indices -/

/-- First arc of a node. -/
def start (base ne : Int) (eptr eind : Arr Int) (n : Int) : Int :=
  eptr.get (base + ne) + sumI base n (fun k => cnt base eind (eptr.get (base + ne)) k)

theorem start_succ {n : Int} (h : base ≤ n) : start base ne eptr eind (n + 1) = start base ne eptr eind n + cnt base eind (eptr.get (base + ne)) n := by
  unfold start
  rw [sumI_succ h]
  omega

theorem start_base : start base ne eptr eind base = eptr.get (base + ne) := by
  unfold start
  rw [sumI_empty (Int.le_refl _)]
  omega

theorem start_mono {a b : Int} (h1 : base ≤ a) (h2 : a ≤ b) : start base ne eptr eind a ≤ start base ne eptr eind b := by
  unfold start
  rw [sumI_split h1 h2]
  have := sumI_nonneg (lo := a) (hi := b) (f := fun k => cnt base eind (eptr.get (base + ne)) k) (fun i _ _ => cnt_nonneg _ _)
  omega

theorem start_last (I : Input base ne nn eptr eind) : start base ne eptr eind (base + nn) = 2 * eptr.get (base + ne) - base := by
  have := I.ne_nonneg
  have hb := I.base_le (v := base + ne) (by omega) (Int.le_refl _)
  unfold start cnt
  rw [sum_count _ (fun n hn => by
    obtain ⟨i, i1, i2, i3⟩ := (mem_seg _ _ _ _).1 hn
    rw [← i3]
    exact I.node i1 i2), seg_length _ hb]
  omega

theorem copyElems_holds (I : Input base ne nn eptr eind) {x : Int} {vert : Arr Int} (S : CInv base ne nn eptr eind x vert) :
    Holds (copyElems base (ne + base) eptr base vert) (fun vert' => CInv base ne nn eptr eind x vert' ∧ ∀ v, base ≤ v → v < base + ne → vert'.get v = eptr.get v) := by
  have h0 := I.ne_nonneg
  have hn := I.nn_pos
  unfold copyElems
  refine Holds_forUp (fun y vert' => CInv base ne nn eptr eind x vert' ∧ ∀ v, base ≤ v → v < y → vert'.get v = eptr.get v) (by omega) ⟨S, fun v v1 v2 => by omega⟩ ?_ (fun s h => ⟨h.1, fun v v1 v2 => h.2 v v1 (by omega)⟩)
  rintro y vert' y1 y2 ⟨S', h⟩
  rw [I.rd_ptr y1 (by omega), Holds_bind, Holds_ok, Arr.wr_ok _ _ (by rw [S'.lo]; omega) (by rw [S'.hi]; omega), Holds_ok, if_pos rfl]
  refine ⟨⟨S'.lo, S'.hi, ?_⟩, ?_⟩
  · intro n n1 n2
    rw [Arr.set_get_ne _ _ (by omega)]
    exact S'.get n n1 n2
  · intro v v1 v2
    rw [Arr.set_get]
    split
    · rename_i e; rw [e]
    · exact h v v1 (by omega)

structure NInv (base ne nn : Int) (eptr eind : Arr Int) (d0 : Int) (v : Int) (s : NState) : Prop where
  lo : s.vert.lo = base
  hi : s.vert.hi = base + (ne + nn + 1)
  elems : ∀ u, base ≤ u → u < base + ne → s.vert.get u = eptr.get u
  done : ∀ n, base ≤ n → n < v - ne → s.vert.get (ne + n) = start base ne eptr eind n
  todo : ∀ n, v - ne ≤ n → n < base + nn → s.vert.get (ne + n) = cnt base eind (eptr.get (base + ne)) n
  num : s.num = start base ne eptr eind (v - ne)
  deg : d0 ≤ s.degrmax ∧ (∀ n, base ≤ n → n < v - ne → cnt base eind (eptr.get (base + ne)) n ≤ s.degrmax) ∧
    ∀ D, d0 ≤ D → (∀ n, base ≤ n → n < v - ne → cnt base eind (eptr.get (base + ne)) n ≤ D) → s.degrmax ≤ D

theorem scanNode_holds (I : Input base ne nn eptr eind) {d0 v : Int} (h1 : ne + base ≤ v) (h2 : v < ne + base + nn) {s : NState} (S : NInv base ne nn eptr eind d0 v s) :
    Holds (scanNode v s) (NInv base ne nn eptr eind d0 (v + 1)) := by
  have h0 := I.ne_nonneg
  have hv : s.vert.get v = cnt base eind (eptr.get (base + ne)) (v - ne) := by
    have := S.todo (v - ne) (Int.le_refl _) (by omega)
    rwa [show ne + (v - ne) = v by omega] at this
  unfold scanNode
  rw [Holds_bind, Arr.rd_ok _ (by rw [S.lo]; omega) (by rw [S.hi]; omega), Holds_ok, Holds_bind, Arr.wr_ok _ _ (by rw [S.lo]; omega) (by rw [S.hi]; omega), Holds_ok, Holds_pure, hv]
  refine ⟨S.lo, S.hi, ?_, ?_, ?_, ?_, ?_⟩
  · intro u u1 u2
    dsimp only
    rw [Arr.set_get_ne _ _ (by omega)]
    exact S.elems u u1 u2
  · intro n n1 n2
    dsimp only
    rw [Arr.set_get]
    split
    · rw [S.num]; congr 1; omega
    · exact S.done n n1 (by omega)
  · intro n n1 n2
    dsimp only
    rw [Arr.set_get_ne _ _ (by omega)]
    exact S.todo n (by omega) n2
  · dsimp only
    rw [show v + 1 - ne = v - ne + 1 by omega, start_succ (by omega), S.num]
  · have hd := S.deg.1
    refine ⟨by dsimp only; omega, ?_, ?_⟩
    · intro n n1 n2
      dsimp only
      by_cases e : n = v - ne
      · rw [e]; omega
      · have := S.deg.2.1 n n1 (by omega); omega
    · intro D d1 d2
      dsimp only
      have := S.deg.2.2 D d1 (fun n n1 n2 => d2 n n1 (by omega))
      have := d2 (v - ne) (by omega) (by omega)
      omega

/-! ## Lists of elements -/

/-- State of the building of lists of elements before arc `x`, in element `v`. -/
structure LInv (base ne nn : Int) (eptr eind : Arr Int) (x : Int) (L : Int → List Int) (s : Arr Int × Arr Int) : Prop where
  lo : s.1.lo = base
  hi : s.1.hi = base + (ne + nn + 1)
  elo : s.2.lo = base
  ehi : s.2.hi = base + (eptr.get (base + ne) - base) * 2
  elems : ∀ u, base ≤ u → u < base + ne → s.1.get u = eptr.get u
  last : s.1.get (ne + base + nn) = start base ne eptr eind (base + nn)
  next : ∀ n, base ≤ n → n < base + nn → s.1.get (ne + n) = start base ne eptr eind n + cnt base eind x n
  arcs : ∀ e, base ≤ e → e < eptr.get (base + ne) → s.2.get e = eind.get e + ne
  len : ∀ n, base ≤ n → n < base + nn → ((L n).length : Int) = cnt base eind x n
  lists : ∀ n, base ≤ n → n < base + nn → seg s.2.get (start base ne eptr eind n) (start base ne eptr eind n + cnt base eind x n) = L n
  mem : ∀ n u, base ≤ n → n < base + nn → (u ∈ L n ↔ base ≤ u ∧ u < base + ne ∧ ∃ e, eptr.get u ≤ e ∧ e < eptr.get (u + 1) ∧ e < x ∧ eind.get e = n)
  nodup : ∀ n, base ≤ n → n < base + nn → (L n).Nodup

theorem addElem_holds (I : Input base ne nn eptr eind) {v x : Int} (v1 : base ≤ v) (v2 : v < base + ne) (h1 : eptr.get v ≤ x) (h2 : x < eptr.get (v + 1)) {s : Arr Int × Arr Int} {L : Int → List Int}
    (S : LInv base ne nn eptr eind x L s) : Holds (addElem ne eind v x s) (fun s' => ∃ L', LInv base ne nn eptr eind (x + 1) L' s') := by
  have h0 := I.ne_nonneg
  have hb := I.base_le v1 (by omega)
  have ht := I.le (v := v + 1) (by omega) (show v + 1 ≤ base + ne by omega) (Int.le_refl _)
  have hn := I.node (e := x) (by omega) (by omega)
  have hc0 := cnt_nonneg (base := base) (eind := eind) x (eind.get x)
  have hc1 := cnt_mono (base := base) (eind := eind) (x := x + 1) (y := eptr.get (base + ne)) (by omega) (by omega) (eind.get x)
  have hs1 := cnt_succ (base := base) (eind := eind) (x := x) (by omega) (eind.get x)
  rw [if_pos rfl] at hs1
  have hst := start_succ (base := base) (ne := ne) (eptr := eptr) (eind := eind) hn.1
  have hsl := start_mono (base := base) (ne := ne) (eptr := eptr) (eind := eind) (a := eind.get x + 1) (b := base + nn) (by omega) (by omega)
  have hsb := start_mono (base := base) (ne := ne) (eptr := eptr) (eind := eind) (a := base) (b := eind.get x) (by omega) (by omega)
  rw [start_base] at hsb
  rw [start_last I] at hsl
  have hnx := S.next _ hn.1 hn.2
  rw [Int.add_comm] at hnx
  unfold addElem
  rw [I.rd_ind (by omega) (by omega), Holds_bind, Holds_ok, Holds_bind, Arr.rd_ok _ (by rw [S.lo]; omega) (by rw [S.hi]; omega), Holds_ok, Holds_bind, Arr.wr_ok _ _ (by rw [S.lo]; omega) (by rw [S.hi]; omega), Holds_ok,
    Holds_bind, hnx, Arr.wr_ok _ _ (by rw [S.elo]; omega) (by rw [S.ehi]; omega), Holds_ok, Holds_pure]
  generalize hk : eind.get x = k at *
  have hout : ∀ n, base ≤ n → n < base + nn → n ≠ k → ∀ i, start base ne eptr eind n ≤ i → i < start base ne eptr eind n + cnt base eind x n → i ≠ start base ne eptr eind k + cnt base eind x k := by
    intro n n1 n2 n3 i i1 i2 e
    have c1 := cnt_mono (base := base) (eind := eind) (x := x) (y := eptr.get (base + ne)) (by omega) (by omega) n
    have c2 := start_succ (base := base) (ne := ne) (eptr := eptr) (eind := eind) n1
    by_cases hlt : n < k
    · have := start_mono (base := base) (ne := ne) (eptr := eptr) (eind := eind) (a := n + 1) (b := k) (by omega) (by omega)
      omega
    · have := start_mono (base := base) (ne := ne) (eptr := eptr) (eind := eind) (a := k + 1) (b := n) (by omega) (by omega)
      omega
  refine ⟨fun n => if n = k then L n ++ [v] else L n, S.lo, S.hi, S.elo, S.ehi, ?_, ?_, ?_, ?_, ?_, ?_, ?_, ?_⟩
  · intro u u1 u2
    dsimp only
    rw [Arr.set_get_ne _ _ (by omega)]
    exact S.elems u u1 u2
  · dsimp only
    rw [Arr.set_get_ne _ _ (by omega)]
    exact S.last
  · intro n n1 n2
    dsimp only
    rw [Arr.set_get, cnt_succ (by omega), hk]
    by_cases e : n = k
    · rw [if_pos (by omega), if_pos e, e]; omega
    · rw [if_neg (by omega), if_neg e, S.next n n1 n2]; omega
  · intro e e1 e2
    dsimp only
    rw [Arr.set_get_ne _ _ (by omega)]
    exact S.arcs e e1 e2
  · intro n n1 n2
    rw [cnt_succ (by omega), hk]
    by_cases e : n = k
    · rw [if_pos e, if_pos e, List.length_append, ← S.len n n1 n2]; simp
    · rw [if_neg e, if_neg e, ← S.len n n1 n2]; simp
  · intro n n1 n2
    dsimp only
    rw [cnt_succ (by omega), hk]
    have hcn := cnt_nonneg (base := base) (eind := eind) x n
    by_cases e : n = k
    · rw [if_pos e, if_pos e, ← Int.add_assoc, seg_succ _ (by omega), ← S.lists n n1 n2]
      congr 1
      · refine seg_congr ?_
        intro i _ i2
        rw [Arr.set_get_ne _ _ (by rw [← e]; omega)]
      · rw [Arr.set_get, if_pos (by rw [e])]
    · rw [if_neg e, if_neg e, Int.add_zero, ← S.lists n n1 n2]
      refine seg_congr ?_
      intro i i1 i2
      rw [Arr.set_get_ne _ _ (hout n n1 n2 e i i1 i2)]
  · intro n u n1 n2
    have := S.mem n u n1 n2
    by_cases e : n = k
    · rw [if_pos e, List.mem_append, List.mem_singleton, this]
      constructor
      · rintro (⟨a1, a2, y, y1, y2, y3, y4⟩ | rfl)
        · exact ⟨a1, a2, y, y1, y2, by omega, y4⟩
        · exact ⟨v1, v2, x, h1, h2, by omega, hk.trans e.symm⟩
      · rintro ⟨a1, a2, y, y1, y2, y3, y4⟩
        by_cases hy : y = x
        · right
          rw [hy] at y1 y2
          apply Classical.byContradiction
          intro hne
          by_cases hlt : u < v
          · have := I.le (v := u + 1) (w := v) (by omega) (by omega) (by omega); omega
          · have := I.le (v := v + 1) (w := u) (by omega) (by omega) (by omega); omega
        · left; exact ⟨a1, a2, y, y1, y2, by omega, y4⟩
    · rw [if_neg e, this]
      constructor
      · rintro ⟨a1, a2, y, y1, y2, y3, y4⟩
        exact ⟨a1, a2, y, y1, y2, by omega, y4⟩
      · rintro ⟨a1, a2, y, y1, y2, y3, y4⟩
        have : y ≠ x := by rintro rfl; exact e (y4.symm.trans hk)
        exact ⟨a1, a2, y, y1, y2, by omega, y4⟩
  · intro n n1 n2
    have hnd := S.nodup n n1 n2
    by_cases e : n = k
    · rw [if_pos e, List.nodup_append]
      refine ⟨hnd, by simp, ?_⟩
      intro a ha b hb
      rw [List.mem_singleton] at hb
      rintro rfl
      rw [hb] at ha
      obtain ⟨-, -, y, y1, y2, y3, y4⟩ := (S.mem n v n1 n2).1 ha
      have hs := I.simple v v1 v2
      unfold nodes at hs
      rw [seg_append _ h1 (by omega), seg_cons _ h2] at hs
      have := (List.nodup_append.1 hs).2.2 n ((mem_seg _ _ _ _).2 ⟨y, y1, y3, y4⟩) n (by rw [hk, e]; exact List.mem_cons_self ..)
      exact this rfl
    · rw [if_neg e]; exact hnd

/-! ## The mesh -/

/-- The mesh that is built. -/
structure Built (base ne nn : Int) (eptr eind : Arr Int) (m : Mesh) : Prop where
  cons : m.Consistent
  alloc : m.Allocated
  bas : m.baseval = base
  elems : m.velmbas = base
  nbr : m.velmnbr = ne
  nnbr : m.vnodnbr = nn
  sum : m.velosum = m.velmnbr
  nodes : ∀ v, m.Elem v → m.nbr v = (Metis.nodes eptr eind v).map (· + ne)
  deg : ∀ D, 0 ≤ D → (∀ v, base ≤ v → v < base + ne → ((Metis.nodes eptr eind v).length : Int) ≤ D) → (∀ n, base ≤ n → n < base + nn → valence base ne eptr eind n ≤ D) → m.degrmax ≤ D

theorem cnt_valence (I : Input base ne nn eptr eind) (n : Int) : cnt base eind (eptr.get (base + ne)) n = valence base ne eptr eind n := by
  have h0 := I.ne_nonneg
  suffices h : ∀ k : Nat, (k : Int) ≤ ne → cnt base eind (eptr.get (base + k)) n = sumI base (base + k) fun v => if n ∈ nodes eptr eind v then 1 else 0 by
    have := h ne.toNat (by omega)
    rwa [show ((ne.toNat : Nat) : Int) = ne by omega] at this
  intro k
  induction k with
  | zero => intro _; simp only [Nat.cast_zero, Int.add_zero, I.first, cnt_base]; rw [sumI_empty (Int.le_refl _)]
  | succ k ih =>
    intro hk
    push_cast at hk ⊢
    have hle := I.mono (base + k) (by omega) (by omega)
    have hb := I.base_le (v := base + k) (by omega) (by omega)
    rw [← Int.add_assoc, sumI_succ (by omega), ← ih (by omega)]
    unfold cnt
    rw [seg_append _ hb hle, List.count_append]
    have hs := I.simple (base + k) (by omega) (by omega)
    have : (seg eind.get (eptr.get (base + k)) (eptr.get (base + k + 1))) = nodes eptr eind (base + k) := rfl
    rw [this]
    by_cases hm : n ∈ nodes eptr eind (base + k)
    · rw [if_pos hm, List.count_eq_one_of_mem hs hm]; push_cast; rfl
    · rw [if_neg hm, List.count_eq_zero.2 hm]; push_cast; rfl

theorem mkMesh_built (I : Input base ne nn eptr eind) {vert edge : Arr Int} {L : Int → List Int} (S : LInv base ne nn eptr eind (eptr.get (base + ne)) L (vert, edge)) {vert' : Arr Int}
    (lo : vert'.lo = base) (hi : vert'.hi = base + (ne + nn + 1)) (hel : ∀ u, base ≤ u → u < base + ne → vert'.get u = eptr.get u)
    (hno : ∀ n, base ≤ n → n ≤ base + nn → vert'.get (ne + n) = start base ne eptr eind n) {D : Int}
    (hD : (∀ v, base ≤ v → v < base + ne → eptr.get (v + 1) - eptr.get v ≤ D) ∧ (∀ n, base ≤ n → n < base + nn → cnt base eind (eptr.get (base + ne)) n ≤ D) ∧ 0 ≤ D)
    (hD' : ∀ D', 0 ≤ D' → (∀ v, base ≤ v → v < base + ne → ((Metis.nodes eptr eind v).length : Int) ≤ D') → (∀ n, base ≤ n → n < base + nn → valence base ne eptr eind n ≤ D') → D ≤ D') :
    Built base ne nn eptr eind (mkMesh base ne nn vert' edge ((eptr.get (base + ne) - base) * 2) D) := by
  have h0 := I.ne_nonneg
  have h1 := I.nn_pos
  generalize hm : mkMesh base ne nn vert' edge ((eptr.get (base + ne) - base) * 2) D = m
  have hE : ∀ v, m.Elem v ↔ base ≤ v ∧ v < base + ne := by
    intro v; rw [← hm]; unfold Elem mkMesh; dsimp only; omega
  have hN : ∀ v, m.Node v ↔ base ≤ v - ne ∧ v - ne < base + nn := by
    intro v; rw [← hm]; unfold Node mkMesh; dsimp only; omega
  have vE : ∀ v, m.Elem v → m.vert v = eptr.get v ∧ m.vend v = eptr.get (v + 1) := by
    intro v hv
    obtain ⟨v1, v2⟩ := (hE v).1 hv
    rw [← hm]
    refine ⟨hel v v1 v2, ?_⟩
    show vert'.get (v + 1) = _
    by_cases e : v + 1 < base + ne
    · exact hel (v + 1) (by omega) e
    · have := hno base (Int.le_refl _) (by omega)
      rw [start_base] at this
      rw [show v + 1 = base + ne by omega, ← this, Int.add_comm]
  have vN : ∀ v, m.Node v → m.vert v = start base ne eptr eind (v - ne) ∧ m.vend v = start base ne eptr eind (v - ne) + cnt base eind (eptr.get (base + ne)) (v - ne) := by
    intro v hv
    obtain ⟨v1, v2⟩ := (hN v).1 hv
    have a1 := hno (v - ne) v1 (by omega)
    have a2 := hno (v - ne + 1) (by omega) (by omega)
    rw [show ne + (v - ne) = v by omega] at a1
    rw [show ne + (v - ne + 1) = v + 1 by omega, start_succ v1] at a2
    rw [← hm]
    exact ⟨a1, a2⟩
  have het : m.edgetax = edge := by rw [← hm]; rfl
  have nE : ∀ v, m.Elem v → m.nbr v = (Metis.nodes eptr eind v).map (· + ne) := by
    intro v hv
    obtain ⟨v1, v2⟩ := (hE v).1 hv
    have hb := I.base_le v1 (by omega)
    have ht := I.le (v := v + 1) (by omega) (show v + 1 ≤ base + ne by omega) (Int.le_refl _)
    unfold Mesh.nbr Metis.nodes
    rw [(vE v hv).1, (vE v hv).2, seg_map, het]
    exact seg_congr fun i i1 i2 => S.arcs i (by omega) (by omega)
  have nN : ∀ v, m.Node v → m.nbr v = L (v - ne) := by
    intro v hv
    obtain ⟨v1, v2⟩ := (hN v).1 hv
    unfold Mesh.nbr
    rw [(vN v hv).1, (vN v hv).2, het]
    exact S.lists _ v1 v2
  have hmem : ∀ n u, base ≤ n → n < base + nn → (u ∈ L n ↔ m.Elem u ∧ n ∈ Metis.nodes eptr eind u) := by
    intro n u n1 n2
    rw [S.mem n u n1 n2, hE]
    unfold Metis.nodes
    rw [mem_seg]
    constructor
    · rintro ⟨a1, a2, y, y1, y2, y3, y4⟩
      exact ⟨⟨a1, a2⟩, y, y1, y2, y4⟩
    · rintro ⟨⟨a1, a2⟩, y, y1, y2, y4⟩
      have := I.le (v := u + 1) (by omega) (show u + 1 ≤ base + ne by omega) (Int.le_refl _)
      exact ⟨a1, a2, y, y1, y2, by omega, y4⟩
  have lE : ∀ v, m.Elem v → ((m.nbr v).length : Int) = eptr.get (v + 1) - eptr.get v := by
    intro v hv
    obtain ⟨v1, v2⟩ := (hE v).1 hv
    rw [nE v hv, List.length_map]
    exact seg_length _ (I.mono v v1 v2)
  have lN : ∀ v, m.Node v → ((m.nbr v).length : Int) = cnt base eind (eptr.get (base + ne)) (v - ne) := by
    intro v hv
    obtain ⟨v1, v2⟩ := (hN v).1 hv
    rw [nN v hv]
    exact S.len _ v1 v2
  have hmemE : ∀ v, m.Elem v → ∀ w, w ∈ m.nbr v ↔ w - ne ∈ Metis.nodes eptr eind v := by
    intro v hv w
    rw [nE v hv, List.mem_map]
    constructor
    · rintro ⟨x, x1, x2⟩; rwa [show w - ne = x by omega]
    · intro h; exact ⟨_, h, by omega⟩
  have e1 : m.velmbas = base := by rw [← hm]; rfl
  have e2 : m.velmnnd = base + ne := by rw [← hm]; exact Int.add_comm _ _
  have e3 : m.vnodbas = base + ne := by rw [← hm]; exact Int.add_comm _ _
  have e4 : m.vnodnnd = base + ne + nn := by rw [← hm]; show nn + (ne + base) = _; omega
  have e5 : m.baseval = base := by rw [← hm]; rfl
  have e6 : m.velmnbr = ne := by rw [← hm]; rfl
  have e7 : m.vnodnbr = nn := by rw [← hm]; rfl
  have hvelo : ∀ v, m.velo v = 1 := by intro v; rw [← hm]; rfl
  have hvnlo : ∀ v, m.vnlo v = 1 := by intro v; rw [← hm]; rfl
  have hb := I.base_le (v := base + ne) (by omega) (Int.le_refl _)
  refine ⟨?_, ?_, e5, e1, e6, e7, by rw [← hm]; rfl, nE, ?_⟩
  · refine ⟨by omega, by omega, by omega, by omega, Or.inl ⟨by omega, by omega⟩, ?_, ?_, ?_, ?_, ?_, fun v _ => by rw [hvelo], ?_, fun v _ => by rw [hvnlo], ?_, ?_⟩
    · rintro v (hv | hv)
      · obtain ⟨v1, v2⟩ := (hE v).1 hv
        rw [(vE v hv).1, (vE v hv).2, e5]
        exact ⟨I.base_le v1 (by omega), I.mono v v1 v2⟩
      · obtain ⟨v1, v2⟩ := (hN v).1 hv
        rw [(vN v hv).1, (vN v hv).2, e5]
        have := start_mono (base := base) (ne := ne) (eptr := eptr) (eind := eind) (Int.le_refl _) v1
        rw [start_base] at this
        have := cnt_nonneg (base := base) (eind := eind) (eptr.get (base + ne)) (v - ne)
        omega
    · intro v hv w hw
      have hw' := (hmemE v hv w).1 hw
      obtain ⟨v1, v2⟩ := (hE v).1 hv
      have hr := I.range v v1 v2 _ hw'
      have hwN : m.Node w := (hN w).2 hr
      refine ⟨hwN, ?_⟩
      rw [nN w hwN, hmem _ _ hr.1 hr.2]
      exact ⟨hv, hw'⟩
    · intro w hw v hv
      obtain ⟨w1, w2⟩ := (hN w).1 hw
      rw [nN w hw, hmem _ _ w1 w2] at hv
      exact ⟨hv.1, (hmemE v hv.1 w).2 hv.2⟩
    · rintro v (hv | hv)
      · obtain ⟨v1, v2⟩ := (hE v).1 hv
        rw [nE v hv]
        exact (I.simple v v1 v2).map (fun a b h => by have h' : a + ne = b + ne := h; omega)
      · obtain ⟨v1, v2⟩ := (hN v).1 hv
        rw [nN v hv]
        exact S.nodup _ v1 v2
    · have a1 : sumI m.velmbas m.velmnnd (fun v => ((m.nbr v).length : Int)) = eptr.get (base + ne) - base := by
        rw [e1, e2, sumI_congr (g := fun v => eptr.get (v + 1) - eptr.get v) (fun i i1 i2 => lE i ((hE i).2 ⟨i1, i2⟩))]
        have : ∀ k : Nat, sumI base (base + k) (fun v => eptr.get (v + 1) - eptr.get v) = eptr.get (base + k) - eptr.get base := by
          intro k
          induction k with
          | zero => rw [sumI_empty (by simp)]; simp
          | succ k ih => push_cast; rw [← Int.add_assoc, sumI_succ (by omega), ih]; omega
        have := this ne.toNat
        rwa [show ((ne.toNat : Nat) : Int) = ne by omega, I.first] at this
      have a2 : sumI m.vnodbas m.vnodnnd (fun v => ((m.nbr v).length : Int)) = eptr.get (base + ne) - base := by
        rw [e3, e4, sumI_congr (g := fun v => cnt base eind (eptr.get (base + ne)) (v - ne)) (fun i i1 i2 => lN i ((hN i).2 ⟨by omega, by omega⟩))]
        have hs : sumI (base + ne) (base + ne + nn) (fun v => cnt base eind (eptr.get (base + ne)) (v - ne)) = sumI base (base + nn) (fun v => cnt base eind (eptr.get (base + ne)) v) := by
          rw [← sum_seg, ← sum_seg, show base + ne + nn = base + nn + ne by omega, seg_shift]
          congr 1
          exact seg_congr fun i _ _ => by rw [show i + ne - ne = i by omega]
        rw [hs]
        have := start_last I
        unfold start at this
        omega
      rw [a1, a2, ← hm]
      show (eptr.get (base + ne) - base) * 2 = _
      omega
    · rw [sumI_congr (g := fun _ => 1) (fun i _ _ => hvelo i), sumI_const (by omega), e1, e2, ← hm]
      show ne = _
      omega
    · rw [sumI_congr (g := fun _ => 1) (fun i _ _ => hvnlo i), sumI_const (by omega), e3, e4, ← hm]
      show nn = _
      omega
    · have hdm : m.degrmax = D := by rw [← hm]; rfl
      rw [hdm]
      refine ⟨hD.2.2, ?_⟩
      rintro v (hv | hv)
      · obtain ⟨v1, v2⟩ := (hE v).1 hv
        rw [lE v hv]; exact hD.1 v v1 v2
      · obtain ⟨v1, v2⟩ := (hN v).1 hv
        rw [lN v hv]; exact hD.2.1 _ v1 v2
  · have ev : m.verttax = vert' := by rw [← hm]; rfl
    refine ⟨by rw [ev]; omega, by rw [ev]; omega, fun _ => by rw [ev]; omega, ?_, ?_, ?_, ?_⟩
    · intro a ha; rw [← hm] at ha; exact absurd ha (by simp [mkMesh])
    · intro a ha; rw [← hm] at ha; exact absurd ha (by simp [mkMesh])
    · intro a ha; rw [← hm] at ha; exact absurd ha (by simp [mkMesh])
    · have s1 : edge.lo = base := S.elo
      have s2 : edge.hi = base + (eptr.get (base + ne) - base) * 2 := S.ehi
      rintro v (hv | hv)
      · obtain ⟨v1, v2⟩ := (hE v).1 hv
        intro _
        rw [(vE v hv).1, (vE v hv).2, het, s1, s2]
        have := I.le (v := v + 1) (by omega) (show v + 1 ≤ base + ne by omega) (Int.le_refl _)
        exact ⟨I.base_le v1 (by omega), by omega⟩
      · obtain ⟨v1, v2⟩ := (hN v).1 hv
        intro _
        rw [(vN v hv).1, (vN v hv).2, het, s1, s2, ← start_succ v1]
        have a1 := start_mono (base := base) (ne := ne) (eptr := eptr) (eind := eind) (Int.le_refl _) v1
        have a2 := start_mono (base := base) (ne := ne) (eptr := eptr) (eind := eind) (a := v - ne + 1) (b := base + nn) (by omega) (by omega)
        rw [start_base] at a1
        rw [start_last I] at a2
        omega
  · intro D' d1 d2 d3
    have hdm : m.degrmax = D := by rw [← hm]; rfl
    rw [hdm]
    exact hD' D' d1 d2 d3

theorem build_holds (I : Input base ne nn eptr eind) (J : Junk) : Holds (build base nn ne eptr eind J) (Built base ne nn eptr eind) := by
  have h0 := I.ne_nonneg
  have h1 := I.nn_pos
  have hb := I.base_le (v := base + ne) (by omega) (Int.le_refl _)
  unfold build
  dsimp only
  rw [Holds_bind]
  refine Holds_forUp (fun v s => CSInv base ne nn eptr eind v s) (by omega) ?_ (fun v s v1 v2 S => countElem_holds I v1 (by omega) S) ?_
  · refine ⟨⟨rfl, rfl, ?_⟩, by show (0 : Int) = _; rw [I.first]; omega, Int.le_refl _, fun u u1 u2 => by omega, fun D d1 _ => d1⟩
    intro n n1 n2
    rw [I.first, cnt_base]
    unfold vert0
    dsimp only
    rw [if_pos (by omega)]
  · intro c C
    rw [show ne + base = base + ne by omega] at C ⊢
    rw [Holds_bind, I.rd_ptr (Int.le_refl _) (by omega), Holds_ok, I.first, Holds_bind]
    have hcp := copyElems_holds I C.vert
    rw [show ne + base = base + ne by omega] at hcp
    refine hcp.mono ?_
    rintro vert ⟨V, hV⟩
    rw [Holds_bind, I.rd_ptr (by omega) (Int.le_refl _), Holds_ok, Holds_bind]
    refine Holds_forUp (fun v s => NInv base ne nn eptr eind c.degrmax v s) (by omega) ?_ (fun v s v1 v2 S => scanNode_holds I (by omega) (by omega) S) ?_
    · refine ⟨V.lo, V.hi, hV, fun n n1 n2 => by omega, ?_, ?_, Int.le_refl _, fun n n1 n2 => by omega, fun D d1 _ => d1⟩
      · intro n n1 n2; exact V.get n (by omega) n2
      · dsimp only; rw [show base + ne - ne = base by omega, start_base]
    · intro s S
      rw [Holds_bind, Arr.wr_ok _ _ (by rw [S.lo]; omega) (by rw [S.hi]; omega), Holds_ok, Holds_bind]
      refine Holds_forUp (fun x (edge : Arr Int) => edge.lo = base ∧ edge.hi = base + c.edgenbr * 2 ∧ ∀ e, base ≤ e → e < x → edge.get e = eind.get e + ne) hb ⟨rfl, rfl, fun e e1 e2 => by omega⟩ ?_ ?_
      · rintro x edge x1 x2 ⟨a1, a2, a3⟩
        have hc := C.nbr
        unfold shiftNode
        rw [I.rd_ind x1 x2, Holds_bind, Holds_ok, Arr.wr_ok _ _ (by omega) (by omega), Holds_ok]
        refine ⟨a1, a2, ?_⟩
        intro e e1 e2
        rw [Arr.set_get]
        split
        · rename_i h; rw [h]
        · exact a3 e e1 (by omega)
      · rintro edge ⟨a1, a2, a3⟩
        rw [C.nbr] at a2
        rw [Holds_bind]
        refine Holds_forUp (fun v s => ∃ L, LInv base ne nn eptr eind (eptr.get v) L s) (by omega) ?_ ?_ ?_
        · refine ⟨fun _ => [], S.lo, S.hi, a1, a2, ?_, ?_, ?_, a3, ?_, ?_, ?_, ?_⟩
          · intro u u1 u2
            dsimp only
            rw [Arr.set_get_ne _ _ (by omega)]
            exact S.elems u u1 u2
          · dsimp only
            rw [Arr.set_get, if_pos (by omega), S.num]
            congr 1
            omega
          · intro n n1 n2
            dsimp only
            rw [Arr.set_get_ne _ _ (by omega), I.first, cnt_base, S.done n n1 (by omega)]
            omega
          · intro n _ _; rw [I.first, cnt_base]; rfl
          · intro n _ _; rw [I.first, cnt_base, seg_empty _ (by omega)]
          · intro n u _ _
            constructor
            · intro h; simp at h
            · rintro ⟨b1, b2, y, y1, y2, y3, y4⟩
              rw [I.first] at y3
              have := I.base_le b1 (by omega)
              omega
          · intro n _ _; exact List.nodup_nil
        · rintro v s' v1 v2 S'
          unfold addElems
          rw [I.rd_ptr v1 (by omega), Holds_bind, Holds_ok, Holds_bind, I.rd_ptr (by omega) (by omega), Holds_ok]
          refine Holds_forUp (fun x s => ∃ L, LInv base ne nn eptr eind x L s) (I.mono v v1 v2) S' ?_ (fun _ h => h)
          rintro x s'' x1 x2 ⟨L, S''⟩
          exact addElem_holds I v1 v2 x1 x2 S''
        · rintro ⟨vert2, edge2⟩ ⟨L, S2⟩
          have l1 : vert2.lo = base := S2.lo
          have l2 : vert2.hi = base + (ne + nn + 1) := S2.hi
          rw [Holds_bind]
          unfold moveUp
          dsimp only
          rw [if_pos (by omega), Holds_ok, Holds_bind, Arr.wr_ok _ _ (by dsimp only; omega) (by dsimp only; omega), Holds_ok, Holds_pure, C.nbr]
          have hz := C.deg.1
          have hd1 := S.deg.1
          have hz' : 0 ≤ s.degrmax := by omega
          generalize hv3 : Arr.set _ (base + ne) (eptr.get (base + ne)) = vert3
          refine mkMesh_built (vert' := vert3) I S2 (by rw [← hv3]; exact l1) (by rw [← hv3]; exact l2) ?_ ?_ ⟨?_, ?_, hz'⟩ ?_
          · intro u u1 u2
            rw [← hv3, Arr.set_get_ne _ _ (by omega)]
            dsimp only
            rw [if_neg (by omega)]
            exact S2.elems u u1 u2
          · intro n n1 n2
            rw [← hv3, Arr.set_get]
            dsimp only
            by_cases e : n = base
            · rw [if_pos (by omega), e, start_base]
            · rw [if_neg (by omega)]
              by_cases e' : n < base + nn
              · rw [if_pos (by omega)]
                have := S2.next (n - 1) (by omega) (by omega)
                dsimp only at this
                rw [show ne + n - 1 = ne + (n - 1) by omega, this, ← start_succ (by omega)]
                congr 1
                omega
              · rw [if_neg (by omega), show ne + n = ne + base + nn by omega, show n = base + nn by omega]
                exact S2.last
          · intro v v1 v2
            have := C.deg.2.1 v v1 v2
            omega
          · intro n n1 n2
            exact S.deg.2.1 n n1 (by omega)
          · intro D' d1 d2 d3
            refine S.deg.2.2 D' (C.deg.2.2 D' d1 ?_) ?_
            · intro u u1 u2
              have := d2 u u1 u2
              unfold Metis.nodes at this
              rw [seg_length _ (I.mono u u1 u2)] at this
              exact this
            · intro n n1 n2
              rw [cnt_valence I]
              exact d3 n n1 (by omega)

/-! ## The dual graph -/

theorem nodes_common (I : Input base ne nn eptr eind) {m : Mesh} (B : Built base ne nn eptr eind m) {v w : Int} (hv : m.Elem v) (hw : m.Elem w) : shared m v w = common eptr eind v w := by
  unfold shared common
  rw [B.nodes v hv, B.nodes w hw, List.filter_map, List.length_map]
  congr 1
  apply List.filter_congr
  intro n _
  dsimp only [Function.comp]
  congr 1
  rw [List.mem_map]
  exact propext ⟨fun ⟨x, x1, x2⟩ => by rwa [show n = x by omega], fun h => ⟨n, h, rfl⟩⟩

theorem meshToDual_holds {numMax : Int} (I : Input base ne nn eptr eind) {D : Int} (hD0 : 0 ≤ D) (hD1 : ∀ v, base ≤ v → v < base + ne → ((Metis.nodes eptr eind v).length : Int) ≤ D)
    (hD2 : ∀ n, base ≤ n → n < base + nn → valence base ne eptr eind n ≤ D) (hD : D * D * 4 ≤ numMax) (hp : (base + ne + nn) * 37 ≤ numMax) (ncommon : Int) (J : Junk) :
    Holds (meshToDual numMax ne nn eptr eind ncommon base J) (fun r => Output base ne r ∧
      ∀ v, base ≤ v → v < base + ne → ∀ w, w ∈ adj r v ↔ base ≤ w ∧ w < base + ne ∧ w ≠ v ∧ threshold eptr eind ncommon v w ≤ common eptr eind v w) := by
  unfold meshToDual
  rw [Holds_bind]
  refine (build_holds I J).mono ?_
  intro m B
  rw [Holds_bind]
  have hdm := B.deg D hD0 hD1 hD2
  have hd0 := B.cons.degrmax.1
  have P : Mesh.Pre numMax m := by
    refine ⟨B.cons, B.alloc, by rw [B.bas]; exact I.base_nonneg, ?_, ?_⟩
    · have : m.degrmax * m.degrmax ≤ D * D := Int.mul_le_mul hdm hdm hd0 hD0
      omega
    · intro v hv
      have := in_range B.cons hv
      rw [B.bas, B.nbr, B.nnbr] at this
      unfold hashPrime
      omega
  refine (toDual_out P ncommon J.dual B.sum).mono ?_
  rintro g ⟨G, ⟨l, L⟩, g1, g2, g3, g4⟩
  have hb : g.baseval = base := G.base.trans B.bas
  have hn : g.vertnbr = ne := G.nbr.trans B.nbr
  have h0 := I.ne_nonneg
  have hbm := B.bas
  have hnnd : g.vertnnd = base + ne := by rw [L.nnd, hb, hn]
  have he0 : 0 ≤ g.edgenbr := by
    have h1 := L.lists.next
    have := Graph.len_nonneg (base := g.baseval) (adj := l) g.vertnnd
    omega
  rw [Holds_bind]
  unfold copyOut
  rw [if_pos (Or.inr ⟨by omega, by omega, by omega⟩), Holds_ok, Holds_bind, if_pos (Or.inr ⟨he0, by omega, by omega⟩), Holds_ok, Holds_pure]
  have hV : ∀ v, g.Vertex v ↔ base ≤ v ∧ v < base + ne := by intro v; unfold Graph.Vertex; rw [hb, hnnd]
  have hE : ∀ v, m.Elem v ↔ base ≤ v ∧ v < base + ne := by
    intro v; have := B.cons.velmnnd; have := B.elems; have := B.nbr; unfold Elem; omega
  have hve : ∀ v, g.vend v = g.verttax.get (v + 1) := by intro v; unfold Graph.vend; rw [L.compact]
  have hadj : ∀ v, g.Vertex v → adj ((⟨g.baseval, g.baseval + (g.vertnbr + 1), g.verttax.get⟩ : Arr Int), (⟨g.baseval, g.baseval + g.edgenbr, g.edgetax.get⟩ : Arr Int)) v = l v := by
    intro v hv
    unfold adj
    dsimp only
    rw [← hve, show g.verttax.get v = g.vert v from rfl, (L.next hv).2]
    exact L.lists.lists v hv.1 hv.2
  have hlast := L.last
  rw [hnnd, hb] at hlast
  refine ⟨⟨hb, by dsimp only; omega, hb, ?_, ?_, ?_, ?_⟩, ?_⟩
  · dsimp only
    by_cases e : ne = 0
    · rw [show g.verttax.get base = g.verttax.get (base + ne) by rw [e, Int.add_zero], hlast]
      have := L.lists.next
      rw [hnnd, hb, e, Int.add_zero, sumI_empty (Int.le_refl _)] at this
      omega
    · have := L.lists.start base (by omega) (by omega)
      rw [this, hb, sumI_empty (Int.le_refl _)]
      omega
  · intro v v1 v2
    dsimp only
    have := (L.next ((hV v).2 ⟨v1, v2⟩)).2
    rw [hve, show g.vert v = g.verttax.get v from rfl] at this
    omega
  · dsimp only; omega
  · intro v v1 v2
    have hv := (hV v).2 ⟨v1, v2⟩
    rw [hadj v hv]
    have := G.consistent.simple v hv
    rwa [L.nbrs hv, List.map_map, show (Prod.fst ∘ fun w : Int => (w, (1 : Int))) = id from rfl, List.map_id] at this
  · intro v v1 v2 w
    have hv := (hV v).2 ⟨v1, v2⟩
    rw [hadj v hv]
    have h1 := L.mem hv w 1
    rw [G.adj v w hv, B.elems, B.bas] at h1
    have h2 : w ∈ l v ↔ w ∈ l v ∧ (1 : Int) = 1 := by simp
    rw [h2, ← h1, hV]
    have hz : ∀ x : Int, x + (base - base) = x := by intro x; omega
    rw [hz, hz]
    constructor
    · rintro ⟨⟨w1, w2⟩, w3, w4⟩
      rw [nodes_common I B ((hE v).2 ⟨v1, v2⟩) ((hE w).2 ⟨w1, w2⟩)] at w4
      unfold Mesh.threshold at w4
      rw [B.nodes v ((hE v).2 ⟨v1, v2⟩), B.nodes w ((hE w).2 ⟨w1, w2⟩), List.length_map, List.length_map] at w4
      exact ⟨w1, w2, w3, w4⟩
    · rintro ⟨w1, w2, w3, w4⟩
      refine ⟨⟨w1, w2⟩, w3, ?_⟩
      rw [nodes_common I B ((hE v).2 ⟨v1, v2⟩) ((hE w).2 ⟨w1, w2⟩)]
      unfold Mesh.threshold
      rw [B.nodes v ((hE v).2 ⟨v1, v2⟩), B.nodes w ((hE w).2 ⟨w1, w2⟩), List.length_map, List.length_map]
      exact w4

end

end Scotch.Mesh.Metis
