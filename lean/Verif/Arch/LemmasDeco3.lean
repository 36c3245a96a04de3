import Verif.Arch.LemmasDeco2

/-! # Decomposition-defined architectures: laws -/

set_option autoImplicit false

namespace Scotch.Deco
open ArchIO

section
variable {n max : Int} {t : Arr TermVert} {d : Arr Int}

theorem Data.big (L : Legal n max t d) {a : Arr DecoVert} (D : ∀ m, 1 ≤ m → m ≤ max → Data n max t a m) {m : Int} (m1 : 1 ≤ m) (m2 : m ≤ max) :
    (Used n t m ↔ 0 < (a.get (m - 1)).2.1) ∧ (1 < (a.get (m - 1)).2.1 → Used n t m ∧ ∀ i, 0 ≤ i → i < n → (t.get i).num ≠ m) ∧
      (Used n t m → (∀ i, 0 ≤ i → i < n → (t.get i).num ≠ m) → 1 < (a.get (m - 1)).2.1) := by
  have hu : Used n t m ↔ 0 < (a.get (m - 1)).2.1 := by
    constructor
    · intro h
      have := (D m m1 m2).size h
      omega
    · intro h
      by_contra hu
      rw [(D m m1 m2).unused hu] at h
      exact absurd h (by decide)
  refine ⟨hu, ?_, ?_⟩
  · intro h
    refine ⟨hu.2 (by omega), fun i i1 i2 hi => ?_⟩
    rw [(D m m1 m2).term i i1 i2 hi] at h
    exact absurd h (by decide : ¬ (1 : Int) < 1)
  · intro h hno
    obtain ⟨u1, u2⟩ := L.full m h hno
    have := (D (2 * m) (by omega) (u1.le L)).size u1
    have := (D (2 * m + 1) (by omega) (u2.le L)).size u2
    have := ((D m m1 m2).node h hno).1
    omega

/-- What construction gives. -/
structure Made (n max : Int) (t : Arr TermVert) (d : Arr Int) (a : Deco) : Prop where
  nbr : a.domtermnbr = n ∧ a.domvertnbr = max
  lo : a.domverttab.lo = 0
  hi : a.domverttab.hi = max
  dlo : a.domdisttab.lo = 0
  dhi : a.domdisttab.hi = max * (max - 1) / 2 + 1
  data : ∀ m, 1 ≤ m → m ≤ max → Data n max t a.domverttab m
  term : ∀ i j, 0 ≤ j → j < i → i < n → a.domdisttab.get (place (t.get i).num (t.get j).num) = given d i j
  form : ∀ x y, Big max a.domverttab x → Big max a.domverttab y → y < x → tab a.domdisttab x y = form a.domverttab a.domdisttab x y

theorem build_holds (L : Legal n max t d) : Holds (build n max t d) (Made n max t d) := by
  have hmax : 1 ≤ max := by have := L.some; have := L.num 0 (by omega) (by omega); omega
  unfold build
  rw [Holds_bind]
  refine Holds.mono (terms_holds L) ?_
  intro o O
  rw [Holds_bind]
  refine Holds.mono (accum_holds hmax O.lo O.hi) ?_
  intro a A
  have D := data_of L O A
  rw [Holds_bind]
  refine Holds.mono (dists_holds L) ?_
  intro s T
  rw [Holds_bind]
  refine Holds.mono (rows_holds L A.lo A.hi D (fun m m1 m2 h => ?_) T) ?_
  · have := (Data.big L D m1 m2).2.1 h
    exact (L.full m this.1 this.2).2.le L
  · rintro e ⟨T, F⟩
    exact ⟨⟨rfl, rfl⟩, A.lo, A.hi, T.lo, T.hi, D, fun i j h1 h2 h3 => T.term i j h1 h2 h3, F⟩

theorem Made.distLaws (L : Legal n max t d) {a : Deco} (h : Made n max t d a) : DistLaws n t d (tab a.domdisttab) := by
  have hb : ∀ m, Used n t m → Big max a.domverttab m := fun m hm => ⟨hm.1, hm.le L, (Data.big L h.data hm.1 (hm.le L)).1.1 hm⟩
  have h2 : ∀ m, Used n t m → (∀ i, 0 ≤ i → i < n → (t.get i).num ≠ m) → (a.domverttab.get (m - 1)).2.1 > 1 := fun m hm hn => (Data.big L h.data hm.1 (hm.le L)).2.2 hm hn
  have h1 : ∀ j, 0 ≤ j → j < n → (a.domverttab.get ((t.get j).num - 1)).2.1 = 1 := fun j j1 j2 => by rw [(h.data _ (L.num j j1 j2).1 (L.num j j1 j2).2).term j j1 j2 rfl]
  refine ⟨fun i => if_pos rfl, fun i j => tab_symm _ i j, ?_, ?_, ?_⟩
  · intro i j j1 hij hi
    unfold tab
    rw [if_neg (fun e => by have := L.inj (by omega) hi j1 (by omega) e; omega)]
    exact h.term i j j1 hij hi
  · intro i j hi hj hij ni nj
    have si := h2 i hi ni
    have sj := h2 j hj nj
    rcases (by omega : j < i ∨ i < j) with hlt | hlt
    · rw [h.form i j (hb i hi) (hb j hj) hlt]
      unfold Deco.form
      rw [if_pos si, if_pos sj]
    · rw [tab_symm, h.form j i (hb j hj) (hb i hi) hlt]
      unfold Deco.form
      rw [if_pos sj, if_pos si, tab_symm _ (2 * j) (2 * i), tab_symm _ (2 * j) (2 * i + 1), tab_symm _ (2 * j + 1) (2 * i), tab_symm _ (2 * j + 1) (2 * i + 1)]
      congr 1
      omega
  · intro i j hi hij j1 j2 ni
    have si := h2 i hi ni
    have sj := h1 j j1 j2
    have hj := used_num L j1 j2
    rcases (by omega : (t.get j).num < i ∨ i < (t.get j).num) with hlt | hlt
    · rw [h.form i _ (hb i hi) (hb _ hj) hlt]
      unfold Deco.form
      rw [if_pos si, if_neg (by omega)]
    · rw [tab_symm, h.form _ i (hb _ hj) (hb i hi) hlt]
      unfold Deco.form
      rw [if_neg (by omega), if_pos si]

/-! ## Inclusion -/

theorem incl_spec {d0 d1 : Int} (h0 : 1 ≤ d0) (h1 : 1 ≤ d1) : Holds (incl d0 d1) (fun r => r = true ↔ Under d0 d1) := by
  unfold incl
  refine Holds_loopM (fun c => 0 ≤ c ∧ (Under d0 d1 ↔ Under d0 c ∧ c ≠ 0)) (fun c => c.toNat) ?_ _ _ ⟨by omega, ⟨fun h => ⟨h, by omega⟩, fun h => h.1⟩⟩ (by omega)
  rintro c ⟨c0, hc⟩
  by_cases hz : c = 0
  · rw [if_pos hz]
    show (false = true ↔ Under d0 d1)
    rw [hc]
    exact ⟨fun h => (by cases h), fun h => absurd hz h.2⟩
  · rw [if_neg hz]
    by_cases he : c = d0
    · rw [if_pos he]
      show (true = true ↔ Under d0 d1)
      rw [hc]
      exact ⟨fun _ => ⟨by rw [he]; exact .self, hz⟩, fun _ => rfl⟩
    · rw [if_neg he]
      refine ⟨⟨by omega, hc.trans ⟨?_, ?_⟩⟩, by omega⟩
      · rintro ⟨h, -⟩
        rcases h.inv with h | h
        · exact absurd h he
        · exact ⟨h, by have := h.le h0; omega⟩
      · rintro ⟨h, hne⟩
        refine ⟨?_, hz⟩
        rcases (by omega : c = 2 * (c / 2) ∨ c = 2 * (c / 2) + 1) with e | e
        · rw [e]; exact .left h
        · rw [e]; exact .right h

theorem incl_law (L : Legal n max t d) (a : Deco) : InclLaw (ops a) (Used n t) (Has n t) := by
  intro d0 d1 u0 u1
  refine Holds.mono (incl_spec u0.1 u1.1) ?_
  intro r hr
  rw [hr]
  constructor
  · rintro h k ⟨i, i1, i2, hi, e⟩
    exact ⟨i, i1, i2, h.trans hi, e⟩
  · intro h
    -- domains of `d0` and `d1` are comparable; if `d0` is strictly under `d1`, the other half has a processor
    have same : ∀ i j, 0 ≤ i → i < n → 0 ≤ j → j < n → (t.get i).labl = (t.get j).labl → i = j := L.other
    have hsub : ∀ i, 0 ≤ i → i < n → Under d1 (t.get i).num → Under d0 (t.get i).num := by
      intro i i1 i2 hi
      obtain ⟨j, j1, j2, hj, e⟩ := h _ ⟨i, i1, i2, hi, rfl⟩
      rw [← same j i j1 j2 i1 i2 e]
      exact hj
    obtain ⟨p1, i, i1, i2, hi⟩ := u1
    rcases (hsub i i1 i2 hi).compare hi with hc | hc
    · exact hc
    · -- `d0` is under `d1`
      rcases Under.halves.1 hc with he | hh
      · rw [he]; exact .self
      · exfalso
        have hno : ∀ k, 0 ≤ k → k < n → (t.get k).num ≠ d1 := by
          intro k k1 k2 hk
          have h2 := hsub k k1 k2 (by rw [hk]; exact .self)
          rw [hk] at h2
          have h3 := h2.le u0.1
          have h4 : 2 * d1 ≤ d0 := by
            rcases hh with hh | hh
            · exact hh.le (by omega)
            · have := hh.le (by omega); omega
          omega
        obtain ⟨⟨-, x, x1, x2, hx⟩, ⟨-, y, y1, y2, hy⟩⟩ := L.full d1 ⟨p1, i, i1, i2, hi⟩ hno
        rcases hh with hh | hh
        · exact Under.disj p1 (hh.trans (hsub y y1 y2 (Under.halves.2 (.inr (.inr hy))))) hy
        · exact Under.disj p1 hx (hh.trans (hsub x x1 x2 (Under.halves.2 (.inr (.inl hx)))))

/-! ## Numbers of processors -/

/-- Number of terminals up to a domain number. -/
def upto (n : Int) (t : Arr TermVert) (v : Int) : Int := sumI 0 n (fun i => if (t.get i).num ≤ v then 1 else 0)

theorem upto_zero {v : Int} (h : upto n t v ≤ 0) (i : Int) (i1 : 0 ≤ i) (i2 : i < n) : v < (t.get i).num := by
  by_contra hlt
  have h1 := sumI_update i1 i2 (fun _ => 0) 1
  have h2 : sumI 0 n (fun j => if j = i then 1 else 0) ≤ upto n t v := by
    unfold upto
    refine sumI_mono fun j j1 j2 => ?_
    by_cases hj : j = i
    · subst hj
      rw [if_pos rfl, if_pos (by omega)]
    · rw [if_neg hj]
      by_cases h : (t.get j).num ≤ v
      · rw [if_pos h]; decide
      · rw [if_neg h]
  rw [sumI_const (by omega)] at h1
  simp only [Int.mul_zero, Int.zero_add, Int.sub_zero] at h1
  rw [h1] at h2
  omega

theorem upto_pos {v : Int} (h : 0 < upto n t v) : ∃ i, 0 ≤ i ∧ i < n ∧ (t.get i).num ≤ v := by
  by_contra hno
  have : upto n t v = 0 := by
    unfold upto
    by_cases hn : 0 ≤ n
    · rw [sumI_congr (g := fun _ => 0) (fun i i1 i2 => if_neg fun hi => hno ⟨i, i1, i2, hi⟩), sumI_const hn]
      simp
    · exact sumI_empty (by omega) _
  omega

theorem upto_term (L : Legal n max t d) {i : Int} (i1 : 0 ≤ i) (i2 : i < n) : upto n t ((t.get i).num - 1) = upto n t (t.get i).num - 1 := by
  unfold upto
  have h := sumI_update i1 i2 (fun j => if (t.get j).num ≤ (t.get i).num then 1 else 0) 0
  rw [if_pos (Int.le_refl _)] at h
  have e : sumI 0 n (fun j => if (t.get j).num ≤ (t.get i).num - 1 then 1 else 0) = sumI 0 n (fun j => if j = i then 0 else if (t.get j).num ≤ (t.get i).num then 1 else 0) := by
    refine sumI_congr fun j j1 j2 => ?_
    by_cases hj : j = i
    · subst hj
      rw [if_pos rfl, if_neg (by omega)]
    · rw [if_neg hj]
      have : (t.get j).num ≠ (t.get i).num := fun e => hj (L.inj j1 j2 i1 i2 e)
      by_cases hle : (t.get j).num ≤ (t.get i).num
      · rw [if_pos hle, if_pos (by omega)]
      · rw [if_neg hle, if_neg (by omega)]
  rw [e, h]
  omega

theorem upto_node {v : Int} (h : ∀ i, 0 ≤ i → i < n → (t.get i).num ≠ v) : upto n t (v - 1) = upto n t v := by
  unfold upto
  refine sumI_congr fun j j1 j2 => ?_
  have := h j j1 j2
  by_cases hle : (t.get j).num ≤ v
  · rw [if_pos hle, if_pos (by omega)]
  · rw [if_neg hle, if_neg (by omega)]

theorem term_spec (L : Legal n max t d) {a : Deco} (h : Made n max t d a) (k : Int) :
    Holds (term a k) (fun r => match r with
      | none => ∀ i, 0 ≤ i → i < n → (t.get i).labl ≠ k
      | some v => ∃ i, 0 ≤ i ∧ i < n ∧ (t.get i).labl = k ∧ v = (t.get i).num - 1) := by
  have hmax : 1 ≤ max := by have := L.some; have := L.num 0 (by omega) (by omega); omega
  unfold term
  rw [h.nbr.1, h.nbr.2]
  refine Holds_loopM (fun (s : Int × Int) => -1 ≤ s.2 ∧ s.2 < max ∧ s.1 = upto n t (s.2 + 1) ∧ ∀ i, 0 ≤ i → i < n → s.2 + 1 < (t.get i).num → (t.get i).labl ≠ k) (fun s => (s.2 + 1).toNat) ?_ _ _ ?_ ?_
  · rintro ⟨c, v⟩ ⟨v1, v2, hc, hno⟩
    have v1 : -1 ≤ v := v1
    have v2 : v < max := v2
    have hc : c = upto n t (v + 1) := hc
    have hno : ∀ i, 0 ≤ i → i < n → v + 1 < (t.get i).num → (t.get i).labl ≠ k := hno
    unfold termStep
    by_cases hz : ¬ 0 < c
    · rw [if_pos hz]
      exact fun i i1 i2 => hno i i1 i2 (upto_zero (by omega) i i1 i2)
    · rw [if_neg hz]
      obtain ⟨i0, p1, p2, p3⟩ := upto_pos (show 0 < upto n t (v + 1) by omega)
      have p4 := (L.num i0 p1 p2).1
      have hv : 0 ≤ v := by omega
      show Holds (do let v' ← a.domverttab.rd v; _) _
      rw [Arr.rd_ok _ (by rw [h.lo]; exact hv) (by rw [h.hi]; exact v2)]
      show Holds (if (a.domverttab.get v).2.1 = 1 then _ else _) _
      have D := h.data (v + 1) (by omega) (by omega)
      have B := Data.big L h.data (m := v + 1) (by omega) (by omega)
      rw [show v + 1 - 1 = v by omega] at B
      by_cases hs : (a.domverttab.get v).2.1 = 1
      · rw [if_pos hs]
        have hu : Used n t (v + 1) := B.1.2 (by omega)
        have ht : ∃ i, 0 ≤ i ∧ i < n ∧ (t.get i).num = v + 1 := by
          by_contra hn
          have := B.2.2 hu fun i i1 i2 e => hn ⟨i, i1, i2, e⟩
          omega
        obtain ⟨i, i1, i2, hi⟩ := ht
        have e1 := D.term i i1 i2 hi
        rw [show v + 1 - 1 = v by omega] at e1
        show Holds (if (a.domverttab.get v).1 = k then _ else _) _
        by_cases hk : (a.domverttab.get v).1 = k
        · rw [if_pos hk]
          rw [e1] at hk
          exact ⟨i, i1, i2, hk, by omega⟩
        · rw [if_neg hk]
          rw [e1] at hk
          refine ⟨⟨show -1 ≤ v - 1 by omega, show v - 1 < max by omega, show c - 1 = upto n t (v - 1 + 1) from ?_, ?_⟩, show (v - 1 + 1).toNat < (v + 1).toNat by omega⟩
          · have := upto_term L i1 i2
            rw [hi, show v + 1 - 1 = v - 1 + 1 by omega] at this
            omega
          · intro j j1 j2 hj
            have hj : v - 1 + 1 < (t.get j).num := hj
            by_cases he : (t.get j).num = v + 1
            · rw [L.inj j1 j2 i1 i2 (he.trans hi.symm)]
              exact hk
            · exact hno j j1 j2 (by omega)
      · rw [if_neg hs]
        have ht : ∀ i, 0 ≤ i → i < n → (t.get i).num ≠ v + 1 := by
          intro i i1 i2 hi
          have e1 := D.term i i1 i2 hi
          rw [show v + 1 - 1 = v by omega] at e1
          rw [e1] at hs
          exact hs rfl
        refine ⟨⟨show -1 ≤ v - 1 by omega, show v - 1 < max by omega, show c = upto n t (v - 1 + 1) from ?_, ?_⟩, show (v - 1 + 1).toNat < (v + 1).toNat by omega⟩
        · have := upto_node ht
          rw [show v + 1 - 1 = v - 1 + 1 by omega] at this
          omega
        · intro j j1 j2 hj
          have hj : v - 1 + 1 < (t.get j).num := hj
          have := ht j j1 j2
          exact hno j j1 j2 (by omega)
  · refine ⟨show -1 ≤ max - 1 by omega, show max - 1 < max by omega, show n = upto n t (max - 1 + 1) from ?_, ?_⟩
    · unfold upto
      rw [sumI_congr (g := fun _ => 1) (fun i i1 i2 => if_pos (by have := (L.num i i1 i2).2; omega)), sumI_const (by have := L.some; omega)]
      omega
    · intro i i1 i2 hi
      have hi : max - 1 + 1 < (t.get i).num := hi
      have := (L.num i i1 i2).2
      omega
  · show (max - 1 + 1).toNat < max.toNat + 2
    omega

/-! ## Laws -/

/-- The routines, with the number that `archDecoDomTerm` should give. -/
def fixed (a : Deco) : ArchOps Int := { ops a with term := fun k => do return (← term a k).map (· + 1) }

theorem addLaws (L : Legal n max t d) {a : Deco} (h : Made n max t d a) {w : Int → Int} (hw : ∀ i, 0 ≤ i → i < n → w (t.get i).labl = (t.get i).wght) :
    AddLaws (fixed a) n w (Used n t) (Has n t) (fun m => (a.domverttab.get (m - 1)).2.1) (fun m => (a.domverttab.get (m - 1)).2.2) := by
  have rd : ∀ m, Used n t m → a.domverttab.rd (m - 1) = .ok (a.domverttab.get (m - 1)) := fun m hm =>
    Arr.rd_ok _ (by rw [h.lo]; have := hm.1; omega) (by rw [h.hi]; have := hm.le L; omega)
  have D : ∀ m, Used n t m → Data n max t a.domverttab m := fun m hm => h.data m hm.1 (hm.le L)
  have one : ∀ i, 0 ≤ i → i < n → ∀ j, Has n t (t.get i).num j ↔ j = (t.get i).labl := by
    intro i i1 i2 j
    constructor
    · rintro ⟨x, x1, x2, hx, rfl⟩
      rw [L.apart i x i1 i2 x1 x2 hx]
    · rintro rfl
      exact ⟨i, i1, i2, .self, rfl⟩
  have hbig := fun m (hm : Used n t m) => Data.big L h.data hm.1 (hm.le L)
  refine ⟨fun m k _ hk => hk.labl L, ?_, ?_, ?_, fun m hm => (D m hm).size hm, ?_, ?_, ?_, ?_⟩
  · show Used n t 1 ∧ ∀ k, 0 ≤ k → k < n → Has n t 1 k
    have root : ∀ i, 0 ≤ i → i < n → Under 1 (t.get i).num := fun i i1 i2 => Under.root (t.get i).num.toNat _ (L.num i i1 i2).1 (by omega)
    refine ⟨⟨Int.le_refl _, 0, Int.le_refl _, by have := L.some; omega, root 0 (Int.le_refl _) (by have := L.some; omega)⟩, ?_⟩
    intro k k1 k2
    obtain ⟨i, i1, i2, hi⟩ := IsInj.surj (lo := 0) (base := 0) (n := n) (f := fun i => (t.get i).labl) ⟨fun i i1 i2 => by have := L.labl i i1 (by omega); omega, fun i j i1 i2 j1 j2 e => L.other i j i1 (by omega) j1 (by omega) e⟩ k k1 (by omega)
    exact ⟨i, i1, by omega, root i i1 (by omega), hi⟩
  · intro m hm
    show Holds (size a m) _
    unfold size
    rw [rd m hm]
    rfl
  · intro m hm
    show Holds (wght a m) _
    unfold wght
    rw [rd m hm]
    rfl
  · intro m hm
    show Holds (bipart a m) _
    unfold bipart
    rw [rd m hm]
    show Holds (if (a.domverttab.get (m - 1)).2.1 ≤ 1 then _ else _) _
    by_cases hs : (a.domverttab.get (m - 1)).2.1 ≤ 1
    · rw [if_pos hs]
      have : ∃ i, 0 ≤ i ∧ i < n ∧ (t.get i).num = m := by
        by_contra hno
        have := (hbig m hm).2.2 hm fun i i1 i2 e => hno ⟨i, i1, i2, e⟩
        omega
      obtain ⟨i, i1, i2, rfl⟩ := this
      have e := (D _ hm).term i i1 i2 rfl
      show (a.domverttab.get ((t.get i).num - 1)).2.1 = 1 ∧ ∃ k, (a.domverttab.get ((t.get i).num - 1)).2.2 = w k ∧ ∀ j, Has n t (t.get i).num j ↔ j = k
      rw [e]
      exact ⟨rfl, _, (hw i i1 i2).symm, one i i1 i2⟩
    · rw [if_neg hs]
      have ht := ((hbig m hm).2.1 (by omega)).2
      obtain ⟨u1, u2⟩ := L.full m hm ht
      refine ⟨u1, u2, ((D m hm).node hm ht).1, ((D m hm).node hm ht).2, has_halves ht, ?_⟩
      rintro k ⟨⟨i, i1, i2, hi, e⟩, ⟨j, j1, j2, hj, e'⟩⟩
      rw [← L.other i j i1 i2 j1 j2 (e.trans e'.symm)] at hj
      exact Under.disj hm.1 hi hj
  · intro m hm
    show Holds (num a m) _
    unfold num
    rw [rd m hm]
    exact ((D m hm).labl hm).1
  · intro k k1 k2
    show Holds (do return (← term a k).map (· + 1)) _
    rw [Holds_bind]
    refine Holds.mono (term_spec L h k) ?_
    intro r hr
    obtain ⟨x, x1, x2, hx⟩ := IsInj.surj (lo := 0) (base := 0) (n := n) (f := fun i => (t.get i).labl) ⟨fun i i1 i2 => by have := L.labl i i1 (by omega); omega, fun i j i1 i2 j1 j2 e => L.other i j i1 (by omega) j1 (by omega) e⟩ k k1 (by omega)
    cases r with
    | none => exact absurd hx (hr x x1 (by omega))
    | some v =>
      obtain ⟨i, i1, i2, rfl, rfl⟩ := hr
      refine ⟨(t.get i).num, congrArg some (show (t.get i).num - 1 + 1 = (t.get i).num by omega), used_num L i1 i2, one i i1 i2, ?_⟩
      intro m hm hh
      have ht : ∃ j, 0 ≤ j ∧ j < n ∧ (t.get j).num = m := by
        by_contra hno
        have ht : ∀ j, 0 ≤ j → j < n → (t.get j).num ≠ m := fun j j1 j2 e => hno ⟨j, j1, j2, e⟩
        obtain ⟨⟨-, p, p1, p2, hp⟩, ⟨-, q, q1, q2, hq⟩⟩ := L.full m hm ht
        have e1 := (hh (t.get p).labl).1 ⟨p, p1, p2, Under.halves.2 (.inr (.inl hp)), rfl⟩
        have e2 := (hh (t.get q).labl).1 ⟨q, q1, q2, Under.halves.2 (.inr (.inr hq)), rfl⟩
        rw [L.other p q p1 p2 q1 q2 (e1.trans e2.symm)] at hp
        exact Under.disj hm.1 hp hq
      obtain ⟨j, j1, j2, rfl⟩ := ht
      have := (hh (t.get j).labl).1 ⟨j, j1, j2, .self, rfl⟩
      rw [L.other j i j1 j2 i1 i2 this]
  · intro k hk
    show Holds (do return (← term a k).map (· + 1)) _
    rw [Holds_bind]
    refine Holds.mono (term_spec L h k) ?_
    intro r hr
    cases r with
    | none => rfl
    | some v =>
      obtain ⟨i, i1, i2, e, -⟩ := hr
      have := (L.labl i i1 i2).2
      omega

end

end Scotch.Deco
