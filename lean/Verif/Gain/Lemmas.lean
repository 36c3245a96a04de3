import Verif.Gain.Model

set_option autoImplicit false
set_option linter.unusedSimpArgs false

namespace Scotch.Gain

theorem setF_same {α : Type} (f : Ptr → α) (p : Ptr) (v : α) : setF f p v p = v := by simp [setF]
theorem setF_ne {α : Type} (f : Ptr → α) {p q : Ptr} (v : α) (h : q ≠ p) : setF f p v q = f q := by simp [setF, h]
theorem setI_same (f : Int → Int) (p v : Int) : setI f p v p = v := by simp [setI]
theorem setI_ne (f : Int → Int) {p q : Int} (v : Int) (h : q ≠ p) : setI f p v q = f q := by simp [setI, h]

/-- The list `ls` of links is chained from `p`. -/
def Chain (nx pv : Ptr → Ptr) : Ptr → List Int → Prop
  | p, [] => nx p = .dummy
  | p, l :: ls => nx p = .link l ∧ pv (.link l) = p ∧ Chain nx pv (.link l) ls

theorem Chain.frame {nx pv nx' pv' : Ptr → Ptr} : ∀ {ls : List Int} {p : Ptr}, Chain nx pv p ls →
    nx' p = nx p → (∀ l ∈ ls, nx' (.link l) = nx (.link l)) → (∀ l ∈ ls, pv' (.link l) = pv (.link l)) → Chain nx' pv' p ls := by
  intro ls
  induction ls with
  | nil => intro p h hp _ _; exact hp.trans h
  | cons l ls ih =>
    intro p h hp hn hv
    obtain ⟨h1, h2, h3⟩ := h
    refine ⟨hp.trans h1, (hv l (by simp)).trans h2, ih h3 (hn l (by simp)) ?_ ?_⟩
    · intro x hx; exact hn x (List.mem_cons_of_mem _ hx)
    · intro x hx; exact hv x (List.mem_cons_of_mem _ hx)

/-- Entry of a list: pointer to the first link, or dummy. -/
def headP : List Int → Ptr
  | [] => .dummy
  | l :: _ => .link l

theorem Chain.head {nx pv : Ptr → Ptr} {p : Ptr} {ls : List Int} (h : Chain nx pv p ls) : nx p = headP ls := by
  cases ls with
  | nil => exact h
  | cons l ls => exact h.1

theorem Chain.split {nx pv : Ptr → Ptr} {l : Int} {ys : List Int} : ∀ {xs : List Int} {p : Ptr}, Chain nx pv p (xs ++ l :: ys) →
    Chain nx pv (.link l) ys ∧ (pv (.link l) = p ∧ xs = [] ∨ ∃ x ∈ xs, pv (.link l) = .link x) := by
  intro xs
  induction xs with
  | nil => intro p h; exact ⟨h.2.2, Or.inl ⟨h.2.1, rfl⟩⟩
  | cons x xs ih =>
    intro p h
    obtain ⟨g1, g2⟩ := ih h.2.2
    refine ⟨g1, Or.inr ?_⟩
    rcases g2 with ⟨g2, _⟩ | ⟨y, hy, g2⟩
    · exact ⟨x, by simp, g2⟩
    · exact ⟨y, List.mem_cons_of_mem _ hy, g2⟩

/-- Removal of a link from a list. -/
theorem Chain.remove {nx pv nx' pv' : Ptr → Ptr} {l : Int} {ys : List Int}
    (hnx : nx' = setF nx (pv (.link l)) (nx (.link l))) (hpv : pv' = setF pv (nx (.link l)) (pv (.link l))) :
    ∀ {xs : List Int} {p : Ptr}, Chain nx pv p (xs ++ l :: ys) → (xs ++ l :: ys).Nodup → (∀ x ∈ xs ++ l :: ys, p ≠ .link x) →
      Chain nx' pv' p (xs ++ ys) := by
  intro xs
  induction xs with
  | nil =>
    intro p h hd hp
    obtain ⟨h1, h2, h3⟩ := h
    have hh := h3.head
    rw [h2] at hnx hpv
    rw [hh] at hnx hpv
    have hlys : l ∉ ys := by
      simp only [List.nil_append, List.nodup_cons] at hd; exact hd.1
    cases ys with
    | nil =>
      show nx' p = _
      rw [hnx, setF_same]; rfl
    | cons y ys =>
      have hyn : y ∉ ys := by
        simp only [List.nil_append, List.nodup_cons] at hd; exact hd.2.1
      refine ⟨?_, ?_, ?_⟩
      · rw [hnx, setF_same]; rfl
      · rw [hpv]; show setF pv (.link y) p (.link y) = p; rw [setF_same]
      · refine h3.2.2.frame ?_ ?_ ?_
        · rw [hnx, setF_ne]; exact fun e => hp y (by simp) e.symm
        · intro x hx
          rw [hnx, setF_ne]; exact fun e => hp x (by simp [hx]) e.symm
        · intro x hx
          rw [hpv]
          show setF pv (.link y) p (.link x) = _
          rw [setF_ne]
          intro e; injection e with e; subst e; exact hyn hx
  | cons x xs ih =>
    intro p h hd hp
    have hsp := Chain.split (xs := x :: xs) h
    obtain ⟨h1, h2, h3⟩ := h
    have hxnot : x ∉ xs ++ l :: ys := by
      have : (x :: (xs ++ l :: ys)).Nodup := hd
      exact (List.nodup_cons.1 this).1
    have hd' : (xs ++ l :: ys).Nodup := by
      have : (x :: (xs ++ l :: ys)).Nodup := hd
      exact (List.nodup_cons.1 this).2
    refine ⟨?_, ?_, ih h3 hd' ?_⟩
    · rw [hnx, setF_ne]
      · exact h1
      · rcases hsp.2 with ⟨_, e⟩ | ⟨y, hy, e⟩
        · cases e
        · rw [e]; exact hp y (by simp only [List.mem_append]; exact Or.inl hy)
    · rw [hpv, setF_ne]
      · exact h2
      · rw [hsp.1.head]
        cases ys with
        | nil => exact fun e => by cases e
        | cons y ys =>
          intro e
          have e' : x = y := by injection e
          subst e'
          exact hxnot (by simp)
    · intro y hy e
      injection e with e
      subst e
      exact hxnot hy

/-- Concrete state `t` represents the lists `B`. -/
structure Rep (t : Tabl) (B : Int → List Int) : Prop where
  size : 0 < t.totsize
  tend : t.tend = t.totsize - 1
  chain : ∀ i, 0 ≤ i → i < t.totsize → Chain t.next t.prev (.entr i) (B i)
  tab : ∀ i, 0 ≤ i → i < t.totsize → ∀ l ∈ B i, t.ltab l = i
  nodup : ∀ i, 0 ≤ i → i < t.totsize → (B i).Nodup
  tmin : 0 ≤ t.tmin ∧ t.tmin ≤ t.tend
  tmax : 0 ≤ t.tmax ∧ t.tmax ≤ t.tend
  rng : ∀ i, 0 ≤ i → i < t.totsize → B i ≠ [] → t.tmin ≤ i ∧ i ≤ t.tmax

theorem Rep.empty {t : Tabl} {B : Int → List Int} (h : Rep t B) {i : Int} (h0 : 0 ≤ i) (h1 : i < t.totsize) :
    t.next (.entr i) ≠ .dummy ↔ B i ≠ [] := by
  rw [(h.chain i h0 h1).head]
  cases B i <;> simp [headP]

theorem init_rep {w : Nat} {gainmax : Int} {subbits : Nat} (hw : subbits < w) (next prev : Ptr → Ptr) (ltab : Int → Int) :
    Rep (init w gainmax subbits next prev ltab) (fun _ => []) := by
  have hp : (0 : Int) < 2 ^ (subbits + 1) := Int.pow_pos (by omega)
  have hsz : 0 < (init w gainmax subbits next prev ltab).totsize := by
    show (0 : Int) < if _ then _ else _
    split
    · exact Int.mul_pos (by omega) hp
    · decide
  refine ⟨hsz, rfl, ?_, ?_, ?_, ?_, ?_, ?_⟩
  · intro i h0 h1
    show (if 0 ≤ i ∧ i ≤ (init w gainmax subbits next prev ltab).totsize - 1 then Ptr.dummy else _) = _
    rw [if_pos ⟨h0, by omega⟩]
  · intro i _ _ l hl; simp at hl
  · intro i _ _; simp
  · show 0 ≤ (init w gainmax subbits next prev ltab).totsize - 1 ∧ _
    exact ⟨by omega, by exact Int.le_refl _⟩
  · show (0 : Int) ≤ 0 ∧ 0 ≤ (init w gainmax subbits next prev ltab).totsize - 1
    omega
  · intro i _ _ h; exact absurd rfl h

theorem free_rep {t : Tabl} {B : Int → List Int} (h : Rep t B) : Rep (free t) (fun _ => []) := by
  have hs := h.size
  have he := h.tend
  refine ⟨h.size, h.tend, ?_, ?_, ?_, ?_, ?_, ?_⟩
  · intro i h0 h1
    show (if t.tmin ≤ i ∧ i ≤ t.tmax then Ptr.dummy else t.next (.entr i)) = .dummy
    split
    · rfl
    · rename_i hn
      have hb : B i = [] := by
        apply Classical.byContradiction
        intro hc
        exact hn (h.rng i h0 h1 hc)
      have := h.chain i h0 h1
      rw [hb] at this
      exact this
  · intro i _ _ l hl; simp at hl
  · intro i _ _; simp
  · show 0 ≤ t.tend ∧ t.tend ≤ t.tend
    omega
  · show (0 : Int) ≤ 0 ∧ 0 ≤ t.tend
    omega
  · intro i _ _ h; exact absurd rfl h

/-- Insertion of `l` in list `e`. -/
def insB (B : Int → List Int) (e l : Int) : Int → List Int := fun i => if i = e then l :: B i else B i

theorem addAt_rep {t : Tabl} {B : Int → List Int} (h : Rep t B) {l e : Int} (h0 : 0 ≤ e) (h1 : e < t.totsize)
    (hl : ∀ i, 0 ≤ i → i < t.totsize → l ∉ B i) : Holds (addAt t l e) (fun t' => Rep t' (insB B e l) ∧
      t'.logflag = t.logflag ∧ t'.subbits = t.subbits ∧ t'.submask = t.submask ∧ t'.totsize = t.totsize ∧ t'.tabl = t.tabl) := by
  unfold addAt
  rw [if_pos ⟨h0, h1⟩]
  rw [Holds_ok]
  have hce := h.chain e h0 h1
  have hhd := hce.head
  have hte := h.tend
  refine ⟨⟨h.size, h.tend, ?_, ?_, ?_, ?_, ?_, ?_⟩, rfl, rfl, rfl, rfl, rfl⟩
  · intro i i0 i1
    have hci := h.chain i i0 i1
    have hli := hl i i0 i1
    dsimp only
    by_cases hie : i = e
    · subst hie
      have hB : insB B i l i = l :: B i := by simp [insB]
      rw [hB]
      refine ⟨by rw [setF_same], by rw [setF_same], ?_⟩
      rw [hhd]
      cases hb : B i with
      | nil =>
        show setF _ _ _ (.link l) = Ptr.dummy
        rw [setF_ne _ _ (by simp), setF_same]; rfl
      | cons x xs =>
        rw [hb] at hci hli
        have hnd := h.nodup i i0 i1
        rw [hb] at hnd
        have hxl : x ≠ l := by intro e; subst e; exact hli (by simp)
        have hx := (List.nodup_cons.1 hnd).1
        refine ⟨?_, ?_, ?_⟩
        · rw [setF_ne _ _ (by simp), setF_same]; rfl
        · show setF _ _ _ (.link x) = _
          rw [setF_ne _ _ (by simpa using hxl)]
          show setF t.prev (.link x) (.link l) (.link x) = _
          rw [setF_same]
        · refine hci.2.2.frame ?_ ?_ ?_
          · rw [setF_ne _ _ (by simp), setF_ne _ _ (by simpa using hxl)]
          · intro y hy
            rw [setF_ne _ _ (by simp), setF_ne _ _ (by
              intro e; injection e with e; subst e; exact hli (by simp [hy]))]
          · intro y hy
            rw [setF_ne _ _ (by intro e; injection e with e; subst e; exact hli (by simp [hy]))]
            show setF t.prev (.link x) (.link l) (.link y) = _
            rw [setF_ne _ _ (by intro e; injection e with e; subst e; exact hx hy)]
    · have hB : insB B e l i = B i := by simp [insB, hie]
      rw [hB]
      refine hci.frame ?_ ?_ ?_
      · rw [setF_ne _ _ (by intro e'; injection e' with e'; exact hie e'), setF_ne _ _ (by simp)]
      · intro y hy
        rw [setF_ne _ _ (by simp), setF_ne _ _ (by intro e; injection e with e; subst e; exact hli hy)]
      · intro y hy
        rw [setF_ne _ _ (by intro e; injection e with e; subst e; exact hli hy)]
        rw [hhd, setF_ne]
        intro hc
        cases hb : B e with
        | nil => rw [hb] at hc; cases hc
        | cons x xs =>
          rw [hb] at hc
          injection hc with hc
          subst hc
          have h1' := h.tab e h0 h1 y (by rw [hb]; simp)
          have h2' := h.tab i i0 i1 y hy
          omega
  · intro i i0 i1 x hx
    dsimp only
    by_cases hie : i = e
    · subst hie
      simp only [insB, if_true, List.mem_cons] at hx
      rcases hx with rfl | hx
      · rw [setI_same]
      · rw [setI_ne _ _ (by intro e; subst e; exact hl i i0 i1 hx)]
        exact h.tab i i0 i1 x hx
    · simp only [insB, hie, if_false] at hx
      rw [setI_ne _ _ (by intro e; subst e; exact hl i i0 i1 hx)]
      exact h.tab i i0 i1 x hx
  · intro i i0 i1
    by_cases hie : i = e
    · subst hie
      simp only [insB, if_true]
      exact List.nodup_cons.2 ⟨hl i i0 i1, h.nodup i i0 i1⟩
    · simp only [insB, hie, if_false]; exact h.nodup i i0 i1
  · have := h.tmin
    dsimp only
    split <;> omega
  · have := h.tmax
    dsimp only
    split <;> omega
  · intro i i0 i1 hb
    have hm := h.tmin
    have hM := h.tmax
    dsimp only at i1 ⊢
    by_cases hie : i = e
    · subst hie
      constructor
      · split <;> omega
      · split <;> omega
    · simp only [insB, hie, if_false] at hb
      have := h.rng i i0 i1 hb
      constructor
      · split <;> omega
      · split <;> omega

/-- Removal of `l`. -/
def remB (B : Int → List Int) (l : Int) : Int → List Int := fun i => (B i).filter (· ≠ l)

theorem filter_ne_self {l : Int} : ∀ {xs : List Int}, l ∉ xs → xs.filter (· ≠ l) = xs := by
  intro xs h
  apply List.filter_eq_self.2
  intro x hx
  simp only [ne_eq, decide_not, Bool.not_eq_true', decide_eq_false_iff_not]
  intro e; subst e; exact h hx

theorem del_rep {t : Tabl} {B : Int → List Int} (h : Rep t B) {l e : Int} (h0 : 0 ≤ e) (h1 : e < t.totsize) (hl : l ∈ B e) :
    Rep (del t l) (remB B l) := by
  obtain ⟨xs, ys, hxy⟩ := List.append_of_mem hl
  have hnd := h.nodup e h0 h1
  rw [hxy] at hnd
  have hce := h.chain e h0 h1
  rw [hxy] at hce
  have hsp := hce.split
  have hnodup := List.nodup_append.1 hnd
  have hlx : l ∉ xs := fun hm => hnodup.2.2 l hm l (by simp) rfl
  have hly : l ∉ ys := (List.nodup_cons.1 hnodup.2.1).1
  -- the second statement reads the same field
  have hnl : t.next (.link l) ≠ .link l := by
    rw [hsp.1.head]
    cases ys with
    | nil => exact fun e => by cases e
    | cons y ys => intro e; injection e with e; subst e; exact hly (by simp)
  have hdel : del t l = { t with
      prev := setF t.prev (t.next (.link l)) (t.prev (.link l))
      next := setF t.next (t.prev (.link l)) (t.next (.link l)) } := by
    unfold del
    dsimp only
    rw [setF_ne _ _ (fun e => hnl e.symm)]
  have hpl : t.prev (.link l) = .entr e ∨ ∃ x ∈ xs, t.prev (.link l) = .link x := by
    rcases hsp.2 with ⟨g, _⟩ | g
    · exact Or.inl g
    · exact Or.inr g
  rw [hdel]
  refine ⟨h.size, h.tend, ?_, ?_, ?_, h.tmin, h.tmax, ?_⟩
  · intro i i0 i1
    dsimp only
    by_cases hie : i = e
    · subst hie
      have hB : remB B l i = xs ++ ys := by
        unfold remB
        rw [hxy, List.filter_append, filter_ne_self hlx, List.filter_cons]
        simp only [ne_eq, not_true_eq_false, decide_false, Bool.false_eq_true, if_false]
        have := filter_ne_self hly
        simp only [ne_eq] at this
        rw [this]
      rw [hB]
      exact Chain.remove rfl rfl hce hnd (fun x _ e => by cases e)
    · have hli : l ∉ B i := by
        intro hc
        have a := h.tab e h0 h1 l hl
        have b := h.tab i i0 i1 l hc
        omega
      have hB : remB B l i = B i := filter_ne_self hli
      rw [hB]
      refine (h.chain i i0 i1).frame ?_ ?_ ?_
      · rw [setF_ne]
        rcases hpl with g | ⟨x, _, g⟩
        · rw [g]; intro e'; injection e' with e'; exact hie e'
        · rw [g]; simp
      · intro y hy
        rw [setF_ne]
        rcases hpl with g | ⟨x, hx, g⟩
        · rw [g]; simp
        · rw [g]
          intro e'; injection e' with e'; subst e'
          have a := h.tab e h0 h1 y (by rw [hxy]; simp [hx])
          have b := h.tab i i0 i1 y hy
          omega
      · intro y hy
        rw [setF_ne]
        rw [hsp.1.head]
        cases ys with
        | nil => exact fun e => by cases e
        | cons z zs =>
          intro e'; injection e' with e'; subst e'
          have a := h.tab e h0 h1 y (by rw [hxy]; simp)
          have b := h.tab i i0 i1 y hy
          omega
  · intro i i0 i1 x hx
    exact h.tab i i0 i1 x (List.mem_filter.1 hx).1
  · intro i i0 i1
    exact (h.nodup i i0 i1).filter _
  · intro i i0 i1 hb
    refine h.rng i i0 i1 ?_
    intro hc
    apply hb
    unfold remB
    rw [hc]; rfl

/-! ## Selection -/

theorem scan_spec (t : Tabl) : ∀ (k : Nat) (e : Int),
    match scan t k e with
    | some e' => e ≤ e' ∧ e' < e + k ∧ t.next (.entr e') ≠ .dummy ∧ ∀ i, e ≤ i → i < e' → t.next (.entr i) = .dummy
    | none => ∀ i, e ≤ i → i < e + k → t.next (.entr i) = .dummy := by
  intro k
  induction k with
  | zero => intro e; simp only [scan]; intro i h1 h2; omega
  | succ k ih =>
    intro e
    simp only [scan]
    by_cases h : t.next (.entr e) ≠ .dummy
    · rw [if_pos h]
      exact ⟨by omega, by omega, h, fun i h1 h2 => by omega⟩
    · rw [if_neg h]
      have h' : t.next (.entr e) = .dummy := Classical.not_not.1 h
      have := ih (e + 1)
      cases hs : scan t k (e + 1) with
      | some e' =>
        rw [hs] at this
        obtain ⟨a, b, c, d⟩ := this
        refine ⟨by omega, by omega, c, ?_⟩
        intro i i1 i2
        by_cases hie : i = e
        · subst hie; exact h'
        · exact d i (by omega) i2
      | none =>
        rw [hs] at this
        intro i i1 i2
        by_cases hie : i = e
        · subst hie; exact h'
        · exact this i (by omega) (by omega)

/-- First link of the first list that is not empty. -/
def IsFirst (t : Tabl) (B : Int → List Int) (p : Ptr) (a b : Int) : Prop :=
  ∃ e l ls, a ≤ e ∧ e < b ∧ e < t.totsize ∧ B e = l :: ls ∧ p = .link l ∧ ∀ i, a ≤ i → i < e → B i = []

theorem frst_rep {t : Tabl} {B : Int → List Int} (h : Rep t B) :
    Rep (frst t).1 B ∧ (match (frst t).2 with
      | some p => IsFirst t B p 0 t.totsize
      | none => ∀ i, 0 ≤ i → i < t.totsize → B i = []) := by
  have hm := h.tmin
  have hM := h.tmax
  have hte := h.tend
  have hlow : ∀ i, 0 ≤ i → i < t.tmin → B i = [] := by
    intro i i0 i1
    apply Classical.byContradiction
    intro hc
    have := h.rng i i0 (by omega) hc
    omega
  have hfirst : ∀ e, 0 ≤ e → e < t.totsize → t.next (.entr e) ≠ .dummy → (∀ i, 0 ≤ i → i < e → B i = []) →
      IsFirst t B (t.next (.entr e)) 0 t.totsize := by
    intro e e0 e1 e2 e3
    have hne := (h.empty e0 e1).1 e2
    cases hb : B e with
    | nil => exact absurd hb hne
    | cons l ls =>
      have := (h.chain e e0 e1).head
      rw [hb] at this
      exact ⟨e, l, ls, e0, e1, e1, hb, this, e3⟩
  unfold frst
  by_cases h0 : t.next (.entr t.tmin) ≠ .dummy
  · rw [if_pos h0]
    exact ⟨h, hfirst t.tmin (by omega) (by omega) h0 hlow⟩
  · rw [if_neg h0]
    have hb0 : B t.tmin = [] := by
      apply Classical.byContradiction
      intro hc
      exact h0 ((h.empty (by omega) (by omega)).2 hc)
    have hsc := scan_spec t (t.tend - t.tmin).toNat (t.tmin + 1)
    cases hs : scan t (t.tend - t.tmin).toNat (t.tmin + 1) with
    | some e =>
      rw [hs] at hsc
      obtain ⟨a, b, c, d⟩ := hsc
      have hbef : ∀ i, 0 ≤ i → i < e → B i = [] := by
        intro i i0 i1
        by_cases hlt : i < t.tmin
        · exact hlow i i0 hlt
        · by_cases hie : i = t.tmin
          · subst hie; exact hb0
          · apply Classical.byContradiction
            intro hc
            exact ((h.empty i0 (by omega)).2 hc) (d i (by omega) i1)
      refine ⟨⟨h.size, h.tend, h.chain, h.tab, h.nodup, ?_, h.tmax, ?_⟩, hfirst e (by omega) (by omega) c hbef⟩
      · dsimp only; omega
      · intro i i0 i1 hb
        have := h.rng i i0 i1 hb
        refine ⟨?_, this.2⟩
        dsimp only
        apply Classical.byContradiction
        intro hc
        exact hb (hbef i i0 (by omega))
    | none =>
      rw [hs] at hsc
      have hall : ∀ i, 0 ≤ i → i < t.totsize → B i = [] := by
        intro i i0 i1
        by_cases hlt : i < t.tmin
        · exact hlow i i0 hlt
        · by_cases hie : i = t.tmin
          · subst hie; exact hb0
          · apply Classical.byContradiction
            intro hc
            exact ((h.empty i0 i1).2 hc) (hsc i (by omega) (by omega))
      refine ⟨⟨h.size, h.tend, h.chain, h.tab, h.nodup, ?_, ?_, ?_⟩, hall⟩
      · dsimp only; omega
      · dsimp only; omega
      · intro i i0 i1 hb
        exact absurd (hall i i0 i1) hb

theorem next_spec {t : Tabl} {B : Int → List Int} (h : Rep t B) {e l : Int} {xs ys : List Int} (h0 : 0 ≤ e) (h1 : e < t.totsize)
    (hb : B e = xs ++ l :: ys) :
    (∀ y ys', ys = y :: ys' → next t l = some (.link y)) ∧
    (ys = [] → match next t l with
      | some p => IsFirst t B p (e + 1) t.tend
      | none => ∀ i, e + 1 ≤ i → i < t.tend → B i = []) := by
  have hte := h.tend
  have hce := h.chain e h0 h1
  rw [hb] at hce
  have hh := hce.split.1.head
  have htab := h.tab e h0 h1 l (by rw [hb]; simp)
  refine ⟨?_, ?_⟩
  · rintro y ys' rfl
    unfold next
    rw [hh]
    simp [headP]
  · rintro rfl
    unfold next
    rw [hh]
    simp only [headP, ne_eq, not_true_eq_false, if_false]
    rw [htab]
    have hsc := scan_spec t (t.tend - (e + 1)).toNat (e + 1)
    cases hs : scan t (t.tend - (e + 1)).toNat (e + 1) with
    | some e' =>
      rw [hs] at hsc
      obtain ⟨a, b, c, d⟩ := hsc
      have hne := (h.empty (by omega) (by omega)).1 c
      cases hb' : B e' with
      | nil => exact absurd hb' hne
      | cons l' ls =>
        have := (h.chain e' (by omega) (by omega)).head
        rw [hb'] at this
        refine ⟨e', l', ls, a, by omega, by omega, hb', this, ?_⟩
        intro i i1 i2
        apply Classical.byContradiction
        intro hc
        exact ((h.empty (by omega) (by omega)).2 hc) (d i i1 i2)
    | none =>
      rw [hs] at hsc
      intro i i1 i2
      apply Classical.byContradiction
      intro hc
      exact ((h.empty (by omega) (by omega)).2 hc) (hsc i i1 (by omega))

end Scotch.Gain
