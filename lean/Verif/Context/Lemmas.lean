import Verif.Context.Model
import Verif.Context.Spec

set_option autoImplicit false
set_option linter.unusedSimpArgs false

namespace Scotch.Ctx
open CtxSpec
variable {D : Type}

/-- Execution of an operation on the model. -/
def exec (eqD : D → D → Bool) (ni nd : Int) (p0 : Nat) (w : World D) : Op D → M (Int × World D)
  | .init c => .ok (0, init w c p0 ni nd)
  | .setInt c k v => setInt w c k v
  | .setDbl c k x => setDbl eqD w c k x
  | .exit c => do return (0, ← exit w c)

/-- Execution of a history. -/
def execAll (eqD : D → D → Bool) (ni nd : Int) (p0 : Nat) : World D → List (Op D) → M (List Int × World D)
  | w, [] => .ok ([], w)
  | w, o :: os => do
    let (r, w) ← exec eqD ni nd p0 w o
    let (rs, w) ← execAll eqD ni nd p0 w os
    return (r :: rs, w)

/-- The block has arrays of the right sizes, and holds the values of the table. -/
structure BlkOk (ni nd : Int) (b : Block D) (t : Table D) : Prop where
  ilo : b.vint.lo ≤ 0
  ihi : ni ≤ b.vint.hi
  dlo : b.vdbl.lo ≤ 0
  dhi : nd ≤ b.vdbl.hi
  ints : ∀ k, 0 ≤ k → k < ni → b.vint.get k = t.ints k
  dbls : ∀ k, 0 ≤ k → k < nd → b.vdbl.get k = t.dbls k

/-- Relation between memory and tables of options. -/
structure Inv (ni nd : Int) (p0 : Nat) (b0 : Block D) (w : World D) (s : State D) : Prop where
  dflt : w.mem p0 = some b0
  fresh : p0 < w.next
  iff : ∀ c, w.ctxs c = none ↔ s c = none
  ok : ∀ c v t, w.ctxs c = some v → s c = some t → v.dainptr = p0 ∧ v.vintnbr = ni ∧ v.vdblnbr = nd ∧
    v.dataptr < w.next ∧ ∃ b, w.mem v.dataptr = some b ∧ BlkOk ni nd b t
  own : ∀ c c' v v', w.ctxs c = some v → w.ctxs c' = some v' → v.dataptr = v'.dataptr → c = c' ∨ v.dataptr = p0

theorem ctx_ok {w : World D} {c : Nat} {v : Values} (h : w.ctxs c = some v) : w.ctx c = .ok v := by
  unfold World.ctx; rw [h]

theorem blk_ok {w : World D} {p : Nat} {b : Block D} (h : w.mem p = some b) : w.blk p = .ok b := by
  unfold World.blk; rw [h]

section
variable {ni nd : Int} {p0 : Nat} {b0 : Block D} {w : World D} {s : State D}

theorem Inv.ex (h : Inv ni nd p0 b0 w s) {c : Nat} {t : Table D} (hc : s c = some t) : ∃ v, w.ctxs c = some v := by
  cases hv : w.ctxs c with
  | some v => exact ⟨v, rfl⟩
  | none => rw [(h.iff c).1 hv] at hc; cases hc

/-- Private copy: same tables. -/
theorem allocate_ok (h : Inv ni nd p0 b0 w s) {c : Nat} {t : Table D} (hc : s c = some t) :
    Holds (allocate w c) (fun w' => Inv ni nd p0 b0 w' s ∧ ∃ v, w'.ctxs c = some v ∧ v.dataptr ≠ p0) := by
  obtain ⟨v, hv⟩ := h.ex hc
  obtain ⟨h1, h2, h3, h4, b, hb, hbt⟩ := h.ok c v t hv hc
  unfold allocate
  rw [ctx_ok hv]
  by_cases he : v.dataptr = v.dainptr
  · rw [h1] at he
    rw [he] at hb
    have hb0 : b = b0 := by have := h.dflt; rw [hb] at this; cases this; rfl
    simp only [bind, Except.bind, h1, he, if_true, blk_ok hb, pure, Except.pure, Holds_ok]
    have hf := h.fresh
    refine ⟨⟨?_, ?_, ?_, ?_, ?_⟩, ?_⟩
    · simp only [World.putCtx, World.put]; rw [if_neg (by omega)]; exact h.dflt
    · simp only [World.putCtx, World.put]; omega
    · intro c'
      simp only [World.putCtx, World.put]
      by_cases hcc : c' = c
      · subst hcc; simp [hc]
      · rw [if_neg hcc]; exact h.iff c'
    · intro c' v' t' hv' ht'
      simp only [World.putCtx, World.put] at hv' ⊢
      by_cases hcc : c' = c
      · subst hcc
        rw [if_pos rfl] at hv'
        cases hv'
        rw [hc] at ht'; cases ht'
        exact ⟨rfl, h2, h3, by show w.next < w.next + 1; omega, b, by rw [if_pos rfl], hbt⟩
      · rw [if_neg hcc] at hv'
        obtain ⟨g1, g2, g3, g4, b', hb', hbt'⟩ := h.ok c' v' t' hv' ht'
        exact ⟨g1, g2, g3, by omega, b', by rw [if_neg (by omega)]; exact hb', hbt'⟩
    · intro c1 c2 v1 v2 hv1 hv2 hp
      simp only [World.putCtx, World.put] at hv1 hv2
      by_cases k1 : c1 = c <;> by_cases k2 : c2 = c
      · exact Or.inl (by omega)
      · rw [if_pos k1] at hv1; rw [if_neg k2] at hv2
        cases hv1
        obtain ⟨t2, ht2⟩ : ∃ t2, s c2 = some t2 := by
          cases hs : s c2 with
          | some t2 => exact ⟨t2, rfl⟩
          | none => rw [(h.iff c2).2 hs] at hv2; cases hv2
        have := (h.ok c2 v2 t2 hv2 ht2).2.2.2.1
        simp only at hp; omega
      · rw [if_neg k1] at hv1; rw [if_pos k2] at hv2
        cases hv2
        obtain ⟨t1, ht1⟩ : ∃ t1, s c1 = some t1 := by
          cases hs : s c1 with
          | some t1 => exact ⟨t1, rfl⟩
          | none => rw [(h.iff c1).2 hs] at hv1; cases hv1
        have := (h.ok c1 v1 t1 hv1 ht1).2.2.2.1
        simp only at hp; omega
      · rw [if_neg k1] at hv1; rw [if_neg k2] at hv2
        exact h.own c1 c2 v1 v2 hv1 hv2 hp
    · refine ⟨{ v with dataptr := w.next }, ?_, ?_⟩
      · simp only [World.putCtx, World.put, if_true, h1]
      · show w.next ≠ p0; omega
  · simp only [bind, Except.bind, he, if_false, pure, Except.pure, Holds_ok]
    exact ⟨h, v, hv, by rw [← h1]; exact he⟩

/-- Replacement of a private block. -/
theorem put_inv (h : Inv ni nd p0 b0 w s) {c : Nat} {v : Values} (hv : w.ctxs c = some v) (hp : v.dataptr ≠ p0)
    {b' : Block D} {t' : Table D} (hb' : BlkOk ni nd b' t') (hc : s c ≠ none) :
    Inv ni nd p0 b0 (w.put v.dataptr (some b')) (s.put c (some t')) := by
  refine ⟨?_, h.fresh, ?_, ?_, h.own⟩
  · simp only [World.put]; rw [if_neg (fun e => hp e.symm)]; exact h.dflt
  · intro c'
    simp only [World.put, State.put]
    by_cases hcc : c' = c
    · subst hcc; simp [hv]
    · rw [if_neg hcc]; exact h.iff c'
  · intro c' v' t1 hv' ht1
    simp only [World.put, State.put] at hv' ht1 ⊢
    by_cases hcc : c' = c
    · subst hcc
      rw [if_pos rfl] at ht1; cases ht1
      rw [hv] at hv'; cases hv'
      cases hs : s c' with
      | none => exact absurd hs hc
      | some t0 =>
        obtain ⟨g1, g2, g3, g4, _⟩ := h.ok c' v t0 hv hs
        exact ⟨g1, g2, g3, g4, b', by rw [if_pos rfl], hb'⟩
    · rw [if_neg hcc] at ht1
      obtain ⟨g1, g2, g3, g4, b1, hb1, hbt1⟩ := h.ok c' v' t1 hv' ht1
      refine ⟨g1, g2, g3, g4, b1, ?_, hbt1⟩
      rw [if_neg ?_]; exact hb1
      intro e
      rcases h.own c' c v' v hv' hv e with k | k
      · exact hcc k
      · exact hp (by omega)

theorem put_same (s : State D) {c : Nat} {t : Table D} (hc : s c = some t) : s.put c (some t) = s := by
  funext d
  simp only [State.put]
  by_cases h : d = c
  · subst h; rw [if_pos rfl, hc]
  · rw [if_neg h]

theorem storeInt_ok (h : Inv ni nd p0 b0 w s) {c : Nat} {t : Table D} (hc : s c = some t) {k x : Int}
    (h1 : 0 ≤ k) (h2 : k < ni) :
    Holds (storeInt w c k x) (fun w' =>
      Inv ni nd p0 b0 w' (s.put c (some { t with ints := fun j => if j = k then x else t.ints j }))) := by
  unfold storeInt
  rw [Holds_bind]
  refine (allocate_ok h hc).mono ?_
  rintro w' ⟨hi, v, hv, hp⟩
  obtain ⟨_, _, _, _, b, hb, hbt⟩ := hi.ok c v t hv hc
  simp only [ctx_ok hv, bind, Except.bind, blk_ok hb]
  rw [Arr.wr_ok b.vint x (by have := hbt.ilo; omega) (by have := hbt.ihi; omega)]
  refine put_inv hi hv hp ⟨hbt.ilo, hbt.ihi, hbt.dlo, hbt.dhi, ?_, hbt.dbls⟩ (by rw [hc]; simp)
  intro j hj1 hj2
  rw [Arr.set_get]
  by_cases e : j = k
  · simp [e]
  · simp only [if_neg e]; exact hbt.ints j hj1 hj2

theorem storeDbl_ok (h : Inv ni nd p0 b0 w s) {c : Nat} {t : Table D} (hc : s c = some t) {k : Int} {x : D}
    (h1 : 0 ≤ k) (h2 : k < nd) (f : Int → D) (hf : ∀ j, f j = if j = k then x else t.dbls j) :
    Holds (storeDbl w c k x) (fun w' => Inv ni nd p0 b0 w' (s.put c (some { t with dbls := f }))) := by
  unfold storeDbl
  rw [Holds_bind]
  refine (allocate_ok h hc).mono ?_
  rintro w' ⟨hi, v, hv, hp⟩
  obtain ⟨_, _, _, _, b, hb, hbt⟩ := hi.ok c v t hv hc
  simp only [ctx_ok hv, bind, Except.bind, blk_ok hb]
  rw [Arr.wr_ok b.vdbl x (by have := hbt.dlo; omega) (by have := hbt.dhi; omega)]
  refine put_inv hi hv hp ⟨hbt.ilo, hbt.ihi, hbt.dlo, hbt.dhi, hbt.ints, ?_⟩ (by rw [hc]; simp)
  intro j hj1 hj2
  rw [Arr.set_get]
  show _ = f j
  rw [hf]
  by_cases e : j = k
  · simp [e]
  · simp only [if_neg e]; exact hbt.dbls j hj1 hj2

theorem setInt_ok (h : Inv ni nd p0 b0 w s) {c : Nat} {t : Table D} (hc : s c = some t) (k x : Int) :
    Holds (setInt w c k x) (fun r => if 0 ≤ k ∧ k < ni then r.1 = 0 ∧
      Inv ni nd p0 b0 r.2 (s.put c (some { t with ints := fun j => if j = k then x else t.ints j }))
      else r = (1, w)) := by
  obtain ⟨v, hv⟩ := h.ex hc
  obtain ⟨_, h2, _, _, b, hb, hbt⟩ := h.ok c v t hv hc
  unfold setInt
  simp only [ctx_ok hv, bind, Except.bind, h2]
  by_cases hk : 0 ≤ k ∧ k < ni
  · rw [if_neg (by omega)]
    simp only [blk_ok hb]
    rw [Arr.rd_ok b.vint (by have := hbt.ilo; omega) (by have := hbt.ihi; omega)]
    simp only [if_pos hk]
    by_cases he : b.vint.get k = x
    · rw [if_pos he]
      refine ⟨rfl, ?_⟩
      rw [show (fun j => if j = k then x else t.ints j) = t.ints from ?_, put_same s hc]
      · exact h
      · funext j
        by_cases e : j = k
        · subst e; rw [if_pos rfl, ← he]; exact hbt.ints j hk.1 hk.2
        · rw [if_neg e]
    · rw [if_neg he]
      have := storeInt_ok h hc (x := x) hk.1 hk.2
      obtain ⟨w', hw', hi⟩ := Holds_iff_exists.1 this
      rw [hw']
      exact ⟨rfl, hi⟩
  · rw [if_pos (by omega)]
    simp only [if_neg hk]
    exact rfl

theorem setDbl_ok (eqD : D → D → Bool) (h : Inv ni nd p0 b0 w s) {c : Nat} {t : Table D} (hc : s c = some t) (k : Int)
    (x : D) : Holds (setDbl eqD w c k x) (fun r => if 0 ≤ k ∧ k < nd then r.1 = 0 ∧
      Inv ni nd p0 b0 r.2 (s.put c (some { t with dbls := fun j => if j = k ∧ eqD (t.dbls j) x = false then x else t.dbls j }))
      else r = (1, w)) := by
  obtain ⟨v, hv⟩ := h.ex hc
  obtain ⟨_, _, h3, _, b, hb, hbt⟩ := h.ok c v t hv hc
  unfold setDbl
  simp only [ctx_ok hv, bind, Except.bind, h3]
  by_cases hk : 0 ≤ k ∧ k < nd
  · rw [if_neg (by omega)]
    simp only [blk_ok hb]
    rw [Arr.rd_ok b.vdbl (by have := hbt.dlo; omega) (by have := hbt.dhi; omega)]
    simp only [if_pos hk]
    rw [hbt.dbls k hk.1 hk.2]
    by_cases he : eqD (t.dbls k) x = true
    · rw [if_pos he]
      refine ⟨rfl, ?_⟩
      rw [show (fun j => if j = k ∧ eqD (t.dbls j) x = false then x else t.dbls j) = t.dbls from ?_, put_same s hc]
      · exact h
      · funext j
        by_cases e : j = k
        · subst e; rw [if_neg (by simp [he])]
        · rw [if_neg (by simp [e])]
    · rw [if_neg he]
      have := storeDbl_ok h hc (x := x) hk.1 hk.2
        (fun j => if j = k ∧ eqD (t.dbls j) x = false then x else t.dbls j) (by
          intro j
          by_cases e : j = k
          · subst e; simp [he]
          · simp [e])
      obtain ⟨w', hw', hi⟩ := Holds_iff_exists.1 this
      rw [hw']
      exact ⟨rfl, hi⟩
  · rw [if_pos (by omega)]
    simp only [if_neg hk]
    exact rfl

theorem exit_ok (h : Inv ni nd p0 b0 w s) {c : Nat} {t : Table D} (hc : s c = some t) :
    Holds (exit w c) (fun w' => Inv ni nd p0 b0 w' (s.put c none)) := by
  obtain ⟨v, hv⟩ := h.ex hc
  obtain ⟨h1, _, _, _, b, hb, _⟩ := h.ok c v t hv hc
  unfold exit
  simp only [ctx_ok hv, bind, Except.bind, h1]
  have hIff : ∀ c', (if c' = c then none else w.ctxs c') = none ↔ (if c' = c then none else s c') = none := by
    intro c'
    by_cases hcc : c' = c
    · simp [hcc]
    · rw [if_neg hcc, if_neg hcc]; exact h.iff c'
  have hOwn : ∀ c1 c2 v1 v2, (if c1 = c then none else w.ctxs c1) = some v1 →
      (if c2 = c then none else w.ctxs c2) = some v2 → v1.dataptr = v2.dataptr → c1 = c2 ∨ v1.dataptr = p0 := by
    intro c1 c2 v1 v2 hv1 hv2 hp
    by_cases k1 : c1 = c
    · rw [if_pos k1] at hv1; cases hv1
    · by_cases k2 : c2 = c
      · rw [if_pos k2] at hv2; cases hv2
      · rw [if_neg k1] at hv1; rw [if_neg k2] at hv2
        exact h.own c1 c2 v1 v2 hv1 hv2 hp
  by_cases he : v.dataptr = p0
  · simp only [he, ne_eq, not_true_eq_false, if_false]
    refine ⟨h.dflt, h.fresh, hIff, ?_, hOwn⟩
    intro c' v' t' hv' ht'
    simp only [World.putCtx, State.put] at hv' ht' ⊢
    by_cases hcc : c' = c
    · rw [if_pos hcc] at hv'; cases hv'
    · rw [if_neg hcc] at hv' ht'
      exact h.ok c' v' t' hv' ht'
  · simp only [he, ne_eq, not_false_eq_true, if_true, blk_ok hb]
    refine ⟨?_, h.fresh, hIff, ?_, hOwn⟩
    · simp only [World.putCtx, World.put]; rw [if_neg (fun e => he e.symm)]; exact h.dflt
    · intro c' v' t' hv' ht'
      simp only [World.putCtx, World.put, State.put] at hv' ht' ⊢
      by_cases hcc : c' = c
      · rw [if_pos hcc] at hv'; cases hv'
      · rw [if_neg hcc] at hv' ht'
        obtain ⟨g1, g2, g3, g4, b1, hb1, hbt1⟩ := h.ok c' v' t' hv' ht'
        refine ⟨g1, g2, g3, g4, b1, ?_, hbt1⟩
        rw [if_neg ?_]; exact hb1
        intro e
        rcases h.own c' c v' v hv' hv e with k | k
        · exact hcc k
        · exact he (by omega)

theorem init_ok {t0 : Table D} (h0 : BlkOk ni nd b0 t0) (h : Inv ni nd p0 b0 w s) {c : Nat} (hc : s c = none) :
    Inv ni nd p0 b0 (init w c p0 ni nd) (s.put c (some t0)) := by
  unfold init
  have hcn := (h.iff c).2 hc
  refine ⟨h.dflt, h.fresh, ?_, ?_, ?_⟩
  · intro c'
    simp only [World.putCtx, State.put]
    by_cases hcc : c' = c
    · simp [hcc]
    · rw [if_neg hcc, if_neg hcc]; exact h.iff c'
  · intro c' v' t' hv' ht'
    simp only [World.putCtx, State.put] at hv' ht' ⊢
    by_cases hcc : c' = c
    · rw [if_pos hcc] at hv' ht'
      cases hv'; cases ht'
      exact ⟨rfl, rfl, rfl, h.fresh, b0, h.dflt, h0⟩
    · rw [if_neg hcc] at hv' ht'
      exact h.ok c' v' t' hv' ht'
  · intro c1 c2 v1 v2 hv1 hv2 hp
    simp only [World.putCtx] at hv1 hv2
    by_cases k1 : c1 = c
    · rw [if_pos k1] at hv1; cases hv1
      exact Or.inr rfl
    · by_cases k2 : c2 = c
      · rw [if_pos k2] at hv2; cases hv2
        exact Or.inr hp
      · rw [if_neg k1] at hv1; rw [if_neg k2] at hv2
        exact h.own c1 c2 v1 v2 hv1 hv2 hp

theorem exec_ok (eqD : D → D → Bool) {t0 : Table D} (h0 : BlkOk ni nd b0 t0) (h : Inv ni nd p0 b0 w s) (o : Op D)
    {r : Int} {s' : State D} (hs : step eqD ni nd t0 s o = some (r, s')) :
    Holds (exec eqD ni nd p0 w o) (fun x => x.1 = r ∧ Inv ni nd p0 b0 x.2 s') := by
  cases o with
  | init c =>
    simp only [step] at hs
    cases hc : s c with
    | some t => rw [hc] at hs; cases hs
    | none =>
      rw [hc] at hs; cases hs
      exact ⟨rfl, init_ok h0 h hc⟩
  | setInt c k v =>
    simp only [step] at hs
    cases hc : s c with
    | none => rw [hc] at hs; cases hs
    | some t =>
      rw [hc] at hs
      refine (setInt_ok h hc k v).mono ?_
      intro x hx
      by_cases hk : 0 ≤ k ∧ k < ni
      · simp only [if_pos hk] at hx hs; cases hs; exact hx
      · simp only [if_neg hk] at hx hs; cases hs; rw [hx]; exact ⟨rfl, h⟩
  | setDbl c k v =>
    simp only [step] at hs
    cases hc : s c with
    | none => rw [hc] at hs; cases hs
    | some t =>
      rw [hc] at hs
      refine (setDbl_ok eqD h hc k v).mono ?_
      intro x hx
      by_cases hk : 0 ≤ k ∧ k < nd
      · simp only [if_pos hk] at hx hs; cases hs; exact hx
      · simp only [if_neg hk] at hx hs; cases hs; rw [hx]; exact ⟨rfl, h⟩
  | exit c =>
    simp only [step] at hs
    cases hc : s c with
    | none => rw [hc] at hs; cases hs
    | some t =>
      rw [hc] at hs; cases hs
      simp only [exec, Holds_bind]
      exact (exit_ok h hc).mono (fun w' hw' => ⟨rfl, hw'⟩)

theorem execAll_ok (eqD : D → D → Bool) {t0 : Table D} (h0 : BlkOk ni nd b0 t0) : ∀ (os : List (Op D)) (w : World D)
    (s : State D), Inv ni nd p0 b0 w s → ∀ (rs : List Int) (s' : State D), run eqD ni nd t0 s os = some (rs, s') →
    Holds (execAll eqD ni nd p0 w os) (fun x => x.1 = rs ∧ Inv ni nd p0 b0 x.2 s') := by
  intro os
  induction os with
  | nil => intro w s h rs s' hr; cases hr; exact ⟨rfl, h⟩
  | cons o os ih =>
    intro w s h rs s' hr
    simp only [run] at hr
    cases hst : step eqD ni nd t0 s o with
    | none => rw [hst] at hr; cases hr
    | some p =>
      obtain ⟨r, s1⟩ := p
      rw [hst] at hr
      simp only at hr
      cases hrn : run eqD ni nd t0 s1 os with
      | none => rw [hrn] at hr; cases hr
      | some p2 =>
        obtain ⟨rs1, s2⟩ := p2
        rw [hrn] at hr; cases hr
        simp only [execAll, Holds_bind]
        refine (exec_ok eqD h0 h o hst).mono ?_
        rintro ⟨x, w1⟩ ⟨hx, hi⟩
        refine (ih w1 s1 hi rs1 s' hrn).mono ?_
        rintro ⟨y, w2⟩ ⟨hy, hi2⟩
        simp only at hx hy
        subst hx; subst hy
        exact ⟨rfl, hi2⟩

theorem getInt_ok (h : Inv ni nd p0 b0 w s) {c : Nat} {t : Table D} (hc : s c = some t) (k : Int) :
    getInt w c k = .ok (if 0 ≤ k ∧ k < ni then some (t.ints k) else none) := by
  obtain ⟨v, hv⟩ := h.ex hc
  obtain ⟨_, h2, _, _, b, hb, hbt⟩ := h.ok c v t hv hc
  unfold getInt
  simp only [ctx_ok hv, bind, Except.bind, h2]
  by_cases hk : 0 ≤ k ∧ k < ni
  · rw [if_neg (by omega), if_pos hk]
    simp only [blk_ok hb]
    rw [Arr.rd_ok b.vint (by have := hbt.ilo; omega) (by have := hbt.ihi; omega), hbt.ints k hk.1 hk.2]
    rfl
  · rw [if_pos (by omega), if_neg hk]; rfl

theorem getDbl_ok (h : Inv ni nd p0 b0 w s) {c : Nat} {t : Table D} (hc : s c = some t) (k : Int) :
    getDbl w c k = .ok (if 0 ≤ k ∧ k < nd then some (t.dbls k) else none) := by
  obtain ⟨v, hv⟩ := h.ex hc
  obtain ⟨_, _, h3, _, b, hb, hbt⟩ := h.ok c v t hv hc
  unfold getDbl
  simp only [ctx_ok hv, bind, Except.bind, h3]
  by_cases hk : 0 ≤ k ∧ k < nd
  · rw [if_neg (by omega), if_pos hk]
    simp only [blk_ok hb]
    rw [Arr.rd_ok b.vdbl (by have := hbt.dlo; omega) (by have := hbt.dhi; omega), hbt.dbls k hk.1 hk.2]
    rfl
  · rw [if_pos (by omega), if_neg hk]; rfl

end
end Scotch.Ctx
