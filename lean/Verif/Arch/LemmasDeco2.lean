import Verif.Arch.LemmasDeco

/-! # Decomposition-defined architectures: distances -/

set_option autoImplicit false

namespace Scotch.Deco
open ArchIO

/-! ## Places in the triangle -/

theorem tri_succ (i : Int) : (i + 1) * i / 2 = i * (i - 1) / 2 + i := by
  rw [show (i + 1) * i = i * (i - 1) + i * 2 by ring, Int.add_mul_ediv_right _ _ (by decide)]

theorem tri_mono {i j : Int} (hi : 0 ≤ i) (h : i ≤ j) : i * (i - 1) / 2 ≤ j * (j - 1) / 2 := by
  refine Int.ediv_le_ediv (by decide) ?_
  rcases (by omega : i = j ∨ i + 1 ≤ j) with rfl | h
  · exact Int.le_refl _
  · nlinarith

theorem place_gt {i j : Int} (h : j ≤ i) : place i j = (i - 1) * (i - 1 - 1) / 2 + (j - 1) := by
  unfold place
  rw [if_pos h, show i - 1 - 1 = i - 2 by omega]
  omega

theorem place_comm (i j : Int) : place i j = place j i := by
  rcases Int.lt_trichotomy i j with h | h | h
  · rw [place_gt (i := j) (by omega)]
    unfold place
    rw [if_neg (by omega), show j - 1 - 1 = j - 2 by omega]
    omega
  · rw [h]
  · rw [place_gt (i := i) (by omega)]
    unfold place
    rw [if_neg (by omega), show i - 1 - 1 = i - 2 by omega]
    omega

theorem tri_lt {i j i' : Int} (hj : 0 ≤ j) (hji : j < i) (h : i < i') : i * (i - 1) / 2 + j < i' * (i' - 1) / 2 := by
  have h1 := tri_succ i
  have h2 := tri_mono (i := i + 1) (j := i') (by omega) (by omega)
  rw [show i + 1 - 1 = i by omega] at h2
  omega

theorem place_lt {max i j : Int} (hj : 1 ≤ j) (hji : j < i) (hi : i ≤ max) : 0 ≤ place i j ∧ place i j < max * (max - 1) / 2 := by
  rw [place_gt (by omega)]
  refine ⟨?_, tri_lt (by omega) (by omega) (by omega)⟩
  have := tri_mono (i := 0) (j := i - 1) (by omega) (by omega)
  rw [show (0 : Int) * (0 - 1) / 2 = 0 by decide] at this
  omega

theorem place_inj_gt {i j i' j' : Int} (hj : 1 ≤ j) (hi : j < i) (hj' : 1 ≤ j') (hi' : j' < i') (h : place i j = place i' j') : i = i' ∧ j = j' := by
  rw [place_gt (by omega), place_gt (by omega)] at h
  rcases Int.lt_trichotomy i i' with h1 | h1 | h1
  · have := tri_lt (i := i - 1) (j := j - 1) (i' := i' - 1) (by omega) (by omega) (by omega)
    omega
  · subst h1
    omega
  · have := tri_lt (i := i' - 1) (j := j' - 1) (i' := i - 1) (by omega) (by omega) (by omega)
    omega

theorem place_inj {i j i' j' : Int} (hi : 1 ≤ i) (hj : 1 ≤ j) (hn : i ≠ j) (hi' : 1 ≤ i') (hj' : 1 ≤ j') (hn' : i' ≠ j') (h : place i j = place i' j') : (i = i' ∧ j = j') ∨ (i = j' ∧ j = i') := by
  rcases (by omega : j < i ∨ i < j) with h1 | h1 <;> rcases (by omega : j' < i' ∨ i' < j') with h2 | h2
  · exact .inl (place_inj_gt hj h1 hj' h2 h)
  · rw [place_comm i' j'] at h
    exact .inr (place_inj_gt hj h1 hi' h2 h)
  · rw [place_comm i j] at h
    have := place_inj_gt hi h1 hj' h2 h
    exact .inr ⟨this.2, this.1⟩
  · rw [place_comm i j, place_comm i' j'] at h
    have := place_inj_gt hi h1 hi' h2 h
    exact .inl ⟨this.2, this.1⟩

section
variable {n max : Int} {t : Arr TermVert} {d : Arr Int}

/-! ## Distances between processors -/

structure Terms (max : Int) (t : Arr TermVert) (d : Arr Int) (P : Int → Int → Prop) (e : Arr Int) : Prop where
  lo : e.lo = 0
  hi : e.hi = max * (max - 1) / 2 + 1
  term : ∀ i j, 0 ≤ j → j < i → P i j → e.get (place (t.get i).num (t.get j).num) = given d i j

theorem dists_holds (L : Legal n max t d) : Holds (forUp 1 n (⟨0, max * (max - 1) / 2 + 1, fun _ => 0⟩, 0) (setDists t d)) (fun s => Terms max t d (fun i _ => i < n) s.1) := by
  refine Holds_forUp (fun i (s : Arr Int × Int) => Terms max t d (fun i' _ => i' < i) s.1 ∧ s.2 = i * (i - 1) / 2) L.some ⟨⟨rfl, rfl, fun i j _ _ _ => by omega⟩, (by decide : (0 : Int) = 1 * (1 - 1) / 2)⟩ ?_ (fun _ h => h.1)
  rintro i s i1 i2 ⟨T, hs⟩
  unfold setDists
  refine Holds_forUp (fun j (s : Arr Int × Int) => Terms max t d (fun i' j' => i' < i ∨ i' = i ∧ j' < j) s.1 ∧ s.2 = i * (i - 1) / 2 + j) (by omega) ⟨⟨T.lo, T.hi, ?_⟩, by omega⟩ ?_ ?_
  · intro i' j' h1 h2 h3
    exact T.term i' j' h1 h2 (by omega)
  · rintro j ⟨e, k⟩ j1 j2 ⟨T, hk⟩
    have hk : k = i * (i - 1) / 2 + j := hk
    have T : Terms max t d (fun i' j' => i' < i ∨ i' = i ∧ j' < j) e := T
    have h3 := tri_lt (i := i) (j := j) (i' := n) j1 j2 i2
    have h4 := tri_mono (i := 0) (j := i) (by omega) (by omega)
    rw [show (0 : Int) * (0 - 1) / 2 = 0 by decide] at h4
    have hv := L.vert
    have hd := L.dist
    have hi := L.num i (by omega) i2
    have hj := L.num j j1 (by omega)
    have hne : (t.get i).num ≠ (t.get j).num := fun h => by have := L.inj (by omega) i2 j1 (by omega) h; omega
    have hp : 0 ≤ place (t.get i).num (t.get j).num ∧ place (t.get i).num (t.get j).num < max * (max - 1) / 2 := by
      rcases (by omega : (t.get j).num < (t.get i).num ∨ (t.get i).num < (t.get j).num) with h | h
      · exact place_lt hj.1 h hi.2
      · rw [place_comm]; exact place_lt hi.1 h hj.2
    dsimp only
    rw [Arr.rd_ok _ (by omega) (by omega), Arr.rd_ok _ (by omega) (by omega), Arr.rd_ok _ (by omega) (by omega)]
    show Holds (do let a ← e.wr (place (t.get i).num (t.get j).num) (d.get k); pure (a, k + 1)) _
    rw [Arr.wr_ok _ _ (by rw [T.lo]; omega) (by rw [T.hi]; omega)]
    refine ⟨⟨T.lo, T.hi, ?_⟩, show k + 1 = _ by omega⟩
    intro i' j' h1 h2 h5
    show (e.set (place (t.get i).num (t.get j).num) (d.get k)).get _ = _
    by_cases h : i' = i ∧ j' = j
    · obtain ⟨rfl, rfl⟩ := h
      rw [Arr.set_get_same, hk]
      rfl
    · rw [Arr.set_get_ne]
      · exact T.term i' j' h1 h2 (by omega)
      · intro h6
        have hi' := L.num i' (by omega) (by omega)
        have hj' := L.num j' (by omega) (by omega)
        have hne' : (t.get i').num ≠ (t.get j').num := fun h => by have := L.inj (by omega) (by omega) h1 (by omega) h; omega
        rcases place_inj hi'.1 hj'.1 hne' hi.1 hj.1 hne h6 with ⟨a, b⟩ | ⟨a, b⟩
        · exact h ⟨L.inj (by omega) (by omega) (by omega) i2 a, L.inj h1 (by omega) j1 (by omega) b⟩
        · have := L.inj (by omega) (by omega) j1 (by omega) a
          have := L.inj h1 (by omega) (by omega) i2 b
          omega
  · rintro s' ⟨T, h⟩
    refine ⟨⟨T.lo, T.hi, ?_⟩, ?_⟩
    · intro i' j' h1 h2 h3
      exact T.term i' j' h1 h2 (by omega)
    · rw [h, show i + 1 - 1 = i by omega, tri_succ]

/-! ## Averages -/

/-- Distance that the array holds. -/
def tab (e : Arr Int) (i j : Int) : Int := if i = j then 0 else e.get (place i j)

theorem tab_symm (e : Arr Int) (i j : Int) : tab e i j = tab e j i := by
  unfold tab
  rw [place_comm]
  by_cases h : i = j
  · rw [if_pos h, if_pos h.symm]
  · rw [if_neg h, if_neg (fun h' => h h'.symm)]

theorem distE_ok {e : Arr Int} (l : e.lo = 0) (h : e.hi = max * (max - 1) / 2 + 1) {i j : Int} (i1 : 1 ≤ i) (i2 : i ≤ max) (j1 : 1 ≤ j) (j2 : j ≤ max) : distE e i j = .ok (tab e i j) := by
  unfold distE tab
  by_cases hij : i = j
  · rw [if_pos hij, if_pos hij]; rfl
  · rw [if_neg hij, if_neg hij]
    have hp : 0 ≤ place i j ∧ place i j < max * (max - 1) / 2 := by
      rcases (by omega : j < i ∨ i < j) with h | h
      · exact place_lt j1 h i2
      · rw [place_comm]; exact place_lt i1 h j2
    exact Arr.rd_ok _ (by omega) (by omega)

/-- What is written for domains `i` and `j`. -/
def form (a : Arr DecoVert) (e : Arr Int) (i j : Int) : Int :=
  if (a.get (i - 1)).2.1 > 1 then
    if (a.get (j - 1)).2.1 > 1 then (tab e (2 * i) (2 * j) + tab e (2 * i) (2 * j + 1) + tab e (2 * i + 1) (2 * j) + tab e (2 * i + 1) (2 * j + 1) + 2) / 4
    else (tab e (2 * i) j + tab e (2 * i + 1) j + 1) / 2
  else
    if (a.get (j - 1)).2.1 > 1 then (tab e (2 * j) i + tab e (2 * j + 1) i + 1) / 2
    else tab e i j

theorem setDist_holds {a : Arr DecoVert} {e : Arr Int} (al : a.lo = 0) (ah : a.hi = max) (l : e.lo = 0) (h : e.hi = max * (max - 1) / 2 + 1)
    (hbig : ∀ m, 1 ≤ m → m ≤ max → 1 < (a.get (m - 1)).2.1 → 2 * m + 1 ≤ max) {i j : Int} (j1 : 1 ≤ j) (hij : j < i) (i2 : i ≤ max) (hs : 0 < (a.get (i - 1)).2.1) :
    Holds (setDist a i j e) (fun e' => e'.lo = e.lo ∧ e'.hi = e.hi ∧ (∀ p, p ≠ place i j → e'.get p = e.get p) ∧ e'.get (place i j) = form a e i j) := by
  have hp := place_lt (max := max) j1 hij i2
  have hw : ∀ v, e.wr (place i j) v = .ok (e.set (place i j) v) := fun v => Arr.wr_ok _ _ (by omega) (by omega)
  have hset : ∀ v, (e.set (place i j) v).lo = e.lo ∧ (e.set (place i j) v).hi = e.hi ∧ (∀ p, p ≠ place i j → (e.set (place i j) v).get p = e.get p) ∧ (e.set (place i j) v).get (place i j) = v :=
    fun v => ⟨rfl, rfl, fun p hp => Arr.set_get_ne _ _ hp, Arr.set_get_same _ _ _⟩
  unfold setDist
  rw [Arr.rd_ok _ (by omega) (by omega), Arr.rd_ok _ (by omega) (by omega)]
  show Holds (if (a.get (i - 1)).2.1 = 0 then _ else _) _
  rw [if_neg (by omega)]
  show Holds (if (a.get (i - 1)).2.1 > 1 then _ else _) _
  unfold form
  by_cases hi : (a.get (i - 1)).2.1 > 1
  · have bi := hbig i (by omega) i2 hi
    rw [if_pos hi, if_pos hi]
    by_cases hj : (a.get (j - 1)).2.1 > 1
    · have bj := hbig j j1 (by omega) hj
      rw [if_pos hj, if_pos hj]
      unfold avg4
      rw [distE_ok l h (by omega) (by omega) (by omega) (by omega), distE_ok l h (by omega) (by omega) (by omega) (by omega), distE_ok l h (by omega) (by omega) (by omega) (by omega), distE_ok l h (by omega) (by omega) (by omega) (by omega)]
      show Holds (e.wr _ _) _
      rw [hw]
      exact hset _
    · rw [if_neg hj, if_neg hj]
      unfold avg2
      rw [distE_ok l h (by omega) (by omega) (by omega) (by omega), distE_ok l h (by omega) (by omega) (by omega) (by omega)]
      show Holds (e.wr _ _) _
      rw [hw]
      exact hset _
  · rw [if_neg hi, if_neg hi]
    by_cases hj : (a.get (j - 1)).2.1 > 1
    · have bj := hbig j j1 (by omega) hj
      rw [if_pos hj, if_pos hj]
      unfold avg2
      rw [distE_ok l h (by omega) (by omega) (by omega) (by omega), distE_ok l h (by omega) (by omega) (by omega) (by omega)]
      show Holds (e.wr _ _) _
      rw [hw]
      exact hset _
    · rw [if_neg hj, if_neg hj]
      exact ⟨rfl, rfl, fun _ _ => rfl, by unfold tab; rw [if_neg (by omega)]⟩

theorem tab_congr {e e' : Arr Int} {i j x y : Int} (i1 : 1 ≤ i) (j1 : 1 ≤ j) (hij : i ≠ j) (he : ∀ p, p ≠ place i j → e'.get p = e.get p) (x1 : 1 ≤ x) (y1 : 1 ≤ y) (h1 : ¬ (x = i ∧ y = j)) (h2 : ¬ (x = j ∧ y = i)) :
    tab e' x y = tab e x y := by
  unfold tab
  by_cases hxy : x = y
  · rw [if_pos hxy, if_pos hxy]
  · rw [if_neg hxy, if_neg hxy, he]
    intro h
    rcases place_inj x1 y1 hxy i1 j1 hij h with h | h
    · exact h1 h
    · exact h2 h

/-- Pairs of domains that come before the pair `i`, `j`. -/
def Before (j i x y : Int) : Prop := y < x ∧ (j < y ∨ y = j ∧ i < x)

theorem form_congr {a : Arr DecoVert} {e e' : Arr Int} {i j x y : Int} (j1 : 1 ≤ j) (hij : j < i) (he : ∀ p, p ≠ place i j → e'.get p = e.get p) (h : Before j i x y) : form a e' x y = form a e x y := by
  obtain ⟨h1, h2⟩ := h
  unfold form
  rw [tab_congr (x := 2 * x) (y := 2 * y) (by omega) j1 (by omega) he (by omega) (by omega) (by omega) (by omega), tab_congr (x := 2 * x) (y := 2 * y + 1) (by omega) j1 (by omega) he (by omega) (by omega) (by omega) (by omega),
    tab_congr (x := 2 * x + 1) (y := 2 * y) (by omega) j1 (by omega) he (by omega) (by omega) (by omega) (by omega), tab_congr (x := 2 * x + 1) (y := 2 * y + 1) (by omega) j1 (by omega) he (by omega) (by omega) (by omega) (by omega),
    tab_congr (x := 2 * x) (y := y) (by omega) j1 (by omega) he (by omega) (by omega) (by omega) (by omega), tab_congr (x := 2 * x + 1) (y := y) (by omega) j1 (by omega) he (by omega) (by omega) (by omega) (by omega),
    tab_congr (x := 2 * y) (y := x) (by omega) j1 (by omega) he (by omega) (by omega) (by omega) (by omega), tab_congr (x := 2 * y + 1) (y := x) (by omega) j1 (by omega) he (by omega) (by omega) (by omega) (by omega),
    tab_congr (x := x) (y := y) (by omega) j1 (by omega) he (by omega) (by omega) (by omega) (by omega)]

/-- Domains that have processors, by their sizes. -/
def Big (max : Int) (a : Arr DecoVert) (m : Int) : Prop := 1 ≤ m ∧ m ≤ max ∧ 0 < (a.get (m - 1)).2.1

structure Row (max n : Int) (t : Arr TermVert) (d : Arr Int) (a : Arr DecoVert) (j i : Int) (e : Arr Int) : Prop where
  term : Terms max t d (fun i _ => i < n) e
  form : ∀ x y, Big max a x → Big max a y → Before j i x y → tab e x y = form a e x y

theorem setDist_row (L : Legal n max t d) {a : Arr DecoVert} (al : a.lo = 0) (ah : a.hi = max) (D : ∀ m, 1 ≤ m → m ≤ max → Data n max t a m)
    (hbig : ∀ m, 1 ≤ m → m ≤ max → 1 < (a.get (m - 1)).2.1 → 2 * m + 1 ≤ max) {i j : Int} (j1 : 1 ≤ j) (hij : j < i) (i2 : i ≤ max) {e : Arr Int} (R : Row max n t d a j i e) :
    Holds (setDist a i j e) (Row max n t d a j (i - 1)) := by
  have hnn : 0 ≤ (a.get (i - 1)).2.1 := by
    by_cases hu : Used n t i
    · have := (D i (by omega) i2).size hu; omega
    · rw [(D i (by omega) i2).unused hu]
  by_cases hs : (a.get (i - 1)).2.1 = 0
  · unfold setDist
    rw [Arr.rd_ok _ (by omega) (by omega)]
    show Holds (if (a.get (i - 1)).2.1 = 0 then _ else _) _
    rw [if_pos hs]
    refine ⟨R.term, fun x y hx hy h => R.form x y hx hy ⟨h.1, ?_⟩⟩
    have : x ≠ i := fun h => by have := hx.2.2; rw [h, hs] at this; omega
    have := h.2
    omega
  · refine Holds.mono (setDist_holds al ah R.term.lo R.term.hi hbig j1 hij i2 (by omega)) ?_
    rintro e' ⟨h1, h2, h3, h4⟩
    have htab : ∀ x y, Before j i x y → tab e' x y = tab e x y := fun x y h => tab_congr (by omega) j1 (by omega) h3 (by have := h.2; have := h.1; omega) (by have := h.2; omega) (by have := h.2; omega) (by have := h.2; have := h.1; omega)
    have hmine : tab e' i j = form a e i j := by
      unfold tab
      rw [if_neg (by omega), h4]
    have hform : form a e' i j = form a e i j ∨ ((a.get (i - 1)).2.1 ≤ 1 ∧ (a.get (j - 1)).2.1 ≤ 1) := by
      by_cases h : (a.get (i - 1)).2.1 ≤ 1 ∧ (a.get (j - 1)).2.1 ≤ 1
      · exact .inr h
      · left
        unfold form
        rw [tab_congr (x := 2 * i) (y := 2 * j) (by omega) j1 (by omega) h3 (by omega) (by omega) (by omega) (by omega), tab_congr (x := 2 * i) (y := 2 * j + 1) (by omega) j1 (by omega) h3 (by omega) (by omega) (by omega) (by omega),
          tab_congr (x := 2 * i + 1) (y := 2 * j) (by omega) j1 (by omega) h3 (by omega) (by omega) (by omega) (by omega), tab_congr (x := 2 * i + 1) (y := 2 * j + 1) (by omega) j1 (by omega) h3 (by omega) (by omega) (by omega) (by omega),
          tab_congr (x := 2 * i) (y := j) (by omega) j1 (by omega) h3 (by omega) (by omega) (by omega) (by omega), tab_congr (x := 2 * i + 1) (y := j) (by omega) j1 (by omega) h3 (by omega) (by omega) (by omega) (by omega),
          tab_congr (x := 2 * j) (y := i) (by omega) j1 (by omega) h3 (by omega) (by omega) (by omega) (by omega), tab_congr (x := 2 * j + 1) (y := i) (by omega) j1 (by omega) h3 (by omega) (by omega) (by omega) (by omega)]
        by_cases hi : (a.get (i - 1)).2.1 > 1
        · rw [if_pos hi, if_pos hi]
        · rw [if_neg hi, if_neg hi, if_pos (by omega), if_pos (by omega)]
    refine ⟨⟨h1.trans R.term.lo, h2.trans R.term.hi, ?_⟩, ?_⟩
    · intro x y y1 hxy hx
      rw [← R.term.term x y y1 hxy hx]
      by_cases hp : place (t.get x).num (t.get y).num = place i j
      · have hx' := L.num x (by omega) hx
        have hy' := L.num y y1 (by omega)
        have hne : (t.get x).num ≠ (t.get y).num := fun h => by have := L.inj (by omega) (by omega) y1 (by omega) h; omega
        rw [hp, h4]
        have sz : ∀ k, 0 ≤ k → k < n → (a.get ((t.get k).num - 1)).2.1 = 1 := fun k k1 k2 => by rw [(D _ (L.num k k1 k2).1 (L.num k k1 k2).2).term k k1 k2 rfl]
        have hf : (a.get (i - 1)).2.1 = 1 ∧ (a.get (j - 1)).2.1 = 1 := by
          rcases place_inj hx'.1 hy'.1 hne (by omega) j1 (by omega) hp with ⟨h, h'⟩ | ⟨h, h'⟩
          · rw [← h, ← h']
            exact ⟨sz x (by omega) hx, sz y y1 (by omega)⟩
          · rw [← h, ← h']
            exact ⟨sz y y1 (by omega), sz x (by omega) hx⟩
        unfold form tab
        rw [if_neg (by omega), if_neg (by omega), if_neg (by omega)]
      · exact h3 _ hp
    · intro x y hx hy h
      by_cases hxy : x = i ∧ y = j
      · obtain ⟨rfl, rfl⟩ := hxy
        rcases hform with hf | ⟨hf1, hf2⟩
        · rw [hmine, hf]
        · unfold form
          rw [if_neg (by omega), if_neg (by omega)]
      · have hb : Before j i x y := ⟨h.1, by have := h.2; omega⟩
        rw [htab x y hb, R.form x y hx hy hb, form_congr j1 hij h3 hb]

theorem rows_holds (L : Legal n max t d) {a : Arr DecoVert} (al : a.lo = 0) (ah : a.hi = max) (D : ∀ m, 1 ≤ m → m ≤ max → Data n max t a m)
    (hbig : ∀ m, 1 ≤ m → m ≤ max → 1 < (a.get (m - 1)).2.1 → 2 * m + 1 ≤ max) {e : Arr Int} (T : Terms max t d (fun i _ => i < n) e) :
    Holds (forUp 0 max e fun k e => setRow a max (max - k) e) (fun e => Terms max t d (fun i _ => i < n) e ∧ ∀ x y, Big max a x → Big max a y → y < x → tab e x y = form a e x y) := by
  have hmax : 0 ≤ max := by have := L.some; have := L.num 0 (by omega) (by omega); omega
  refine Holds_forUp (fun k e => Row max n t d a (max - k) max e) hmax ⟨T, ?_⟩ ?_ ?_
  · intro x y hx hy h
    have := h.2
    have := hx.2.1
    have := hy.2.1
    omega
  · intro k e k1 k2 R
    generalize hj : max - k = j at R
    have hj1 : 1 ≤ j := by omega
    rw [show max - (k + 1) = j - 1 by omega]
    unfold setRow
    rw [Arr.rd_ok _ (by omega) (by omega)]
    show Holds (if (a.get (j - 1)).2.1 = 0 then _ else _) _
    by_cases hs : (a.get (j - 1)).2.1 = 0
    · rw [if_pos hs]
      refine ⟨R.term, fun x y hx hy h => R.form x y hx hy ⟨h.1, ?_⟩⟩
      have : y ≠ j := fun h => by have := hy.2.2; rw [h, hs] at this; omega
      have := h.2
      have := hx.2.1
      omega
    · rw [if_neg hs]
      refine Holds_forUp (fun k e => Row max n t d a j (max - k) e) (by omega) (by rw [show max - 0 = max by omega]; exact R) ?_ ?_
      · intro k e k1 k2 R
        rw [show max - (k + 1) = max - k - 1 by omega]
        exact setDist_row L al ah D hbig hj1 (by omega) (by omega) R
      · intro e R
        refine ⟨R.term, fun x y hx hy h => R.form x y hx hy ⟨h.1, ?_⟩⟩
        have := h.2
        have := h.1; have := hx.2.1
        omega
  · intro e R
    refine ⟨R.term, fun x y hx hy h => R.form x y hx hy ⟨h, ?_⟩⟩
    have := hy.1
    omega

end

end Scotch.Deco
