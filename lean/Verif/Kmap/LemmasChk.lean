import Verif.Kmap.ModelChk
import Verif.Kmap.LemmasCost
import Verif.Ovl.LemmasChk

/-! # Static mapping: consistency check -/

set_option autoImplicit false
set_option linter.unusedSimpArgs false

namespace Scotch.Kmap
open Graph (ConsE rdVert_eq rdVend_eq rdVelo_eq rdEdlo_eq Holds_forArcs consE_iff)
open Bipart (over Frontier)
open Ovl (testAll testAll_holds fill_holds)

variable {D : Type} {o : ArchOps D} {F : D → D → Int} {N : D → Int} {In : D → Bool} {g : Graph} {pfix : Option (Arr Int)} {k : Kgraph D}

/-- What is known once the mapping has been checked. -/
structure MapOkay (In : D → Bool) (g : Graph) (m : Mapping D) : Prop where
  max : m.domnnbr ≤ m.domnmax
  part : ∀ v, g.Vertex v → 0 ≤ m.parttax.get v ∧ m.parttax.get v < m.domnnbr
  dom : ∀ i, 0 ≤ i → i < m.domnnbr → In (m.domntab.get i) = true

theorem mapCheck_holds (C : g.Consistent) (R : Room g pfix k) (A : Answers o F N In k.m) (h1 : 1 ≤ k.m.domnnbr) : Holds (mapCheck o false g k.m) (fun r => r = true ↔ MapOkay In g k.m) := by
  have hnn := C.vertnnd
  have hn0 := C.vertnbr
  have a1 := R.part
  have a2 := R.domn
  have ff : ∀ {P : Prop}, ¬ P → (false = true ↔ P) := fun h => ⟨fun h => absurd h (by decide), fun p => absurd p h⟩
  unfold mapCheck
  rw [Holds_ite]
  refine ⟨fun h => ff fun M => by have := M.max; omega, fun h => ?_⟩
  rw [Holds_ite]
  refine ⟨fun h => by omega, fun _ => ?_⟩
  rw [Holds_bind]
  refine (testAll_holds (by omega) (P := fun v => 0 ≤ k.m.parttax.get v ∧ k.m.parttax.get v < k.m.domnnbr) ?_).mono ?_
  · intro v v1 v2
    unfold mapCheckPart
    rw [Arr.rd_ok _ (by omega) (by omega), ok_bind, Holds_pure, Bool.not_eq_true', decide_eq_false_iff_not]
    constructor
    · intro h
      have h' : ¬ k.m.parttax.get v ≥ k.m.domnnbr ∧ ¬ k.m.parttax.get v < 0 := ⟨fun a => h (Or.inl a), fun a => h (Or.inr ⟨a, Or.inr rfl⟩)⟩
      omega
    · rintro ⟨p1, p2⟩ (h | ⟨h, -⟩) <;> omega
  intro r1 e1
  cases r1 with
  | false => exact ff fun M => absurd (e1.2 fun v v1 v2 => M.part v ⟨v1, v2⟩) (by decide)
  | true =>
  obtain ⟨org, f1, f2⟩ := A.incl
  rw [if_pos rfl, f1, ok_bind]
  refine (testAll_holds (by omega) (P := fun i => In (k.m.domntab.get i) = true) ?_).mono ?_
  · intro i i1 i2
    rw [Arr.rd_ok _ (by omega) (by omega), ok_bind, f2 i i1 i2]
    exact Iff.rfl
  intro r2 e2
  rw [e2]
  exact ⟨fun h => ⟨by omega, fun v hv => e1.1 rfl v hv.1 hv.2, h⟩, fun M => M.dom⟩

theorem fixCount_holds (C : g.Consistent) (R : Room g pfix k) (A : Answers o F N In k.m) (hm : MapOkay In g k.m) :
    Holds (fixCount o g k.m pfix) (fun r => match r with
      | some n => n = fixNbr g pfix ∧ ∀ a, pfix = some a → ∀ v, g.Vertex v → a.get v ≠ -1 → 0 ≤ a.get v ∧ a.get v = N (k.m.domntab.get (k.m.parttax.get v))
      | none => ¬ ∀ a, pfix = some a → ∀ v, g.Vertex v → a.get v ≠ -1 → 0 ≤ a.get v ∧ a.get v = N (k.m.domntab.get (k.m.parttax.get v))) := by
  have hnn := C.vertnnd
  have hn0 := C.vertnbr
  have a1 := R.part
  have a2 := R.domn
  have mx := hm.max
  unfold fixCount
  cases hp : pfix with
  | none =>
    dsimp only
    rw [Holds_pure]
    exact ⟨rfl, fun a h => by cases h⟩
  | some a =>
    have a3 := R.pfix a hp
    dsimp only
    rw [Holds_bind]
    refine Holds_forUpB (fun i n => n = sumI g.baseval i (fun v => if a.get v ≠ -1 then 1 else 0) ∧ ∀ v, g.baseval ≤ v → v < i → a.get v ≠ -1 → 0 ≤ a.get v ∧ a.get v = N (k.m.domntab.get (k.m.parttax.get v)))
      (fun _ => ∃ v, g.Vertex v ∧ a.get v ≠ -1 ∧ ¬ (0 ≤ a.get v ∧ a.get v = N (k.m.domntab.get (k.m.parttax.get v)))) (by omega) ?_ ?_ ?_ ?_
    · exact ⟨by rw [sumI_empty (Int.le_refl _)], fun v v1 v2 => by omega⟩
    · rintro v n v1 v2 ⟨e1, e2⟩
      have hv : g.Vertex v := ⟨v1, v2⟩
      have hpv := hm.part v hv
      unfold fixStep
      rw [Arr.rd_ok _ (by omega) (by omega), ok_bind, Arr.rd_ok _ (by omega) (by omega), ok_bind, Holds_ite]
      refine ⟨fun h1 => ?_, fun h1 => ?_⟩
      · rw [Holds_ite]
        refine ⟨fun h2 => ?_, fun h2 => ?_⟩
        · exact ⟨v, hv, h1, fun h => by omega⟩
        · rw [Arr.rd_ok _ (by omega) (by omega), ok_bind, A.num _ hpv.1 hpv.2, ok_bind, Holds_ite]
          refine ⟨fun h3 => ⟨v, hv, h1, fun h => h3 h.2⟩, fun h3 => ?_⟩
          show n + 1 = _ ∧ _
          refine ⟨by rw [sumI_succ v1, if_pos h1, e1], fun w w1 w2 => ?_⟩
          by_cases hw : w = v
          · rw [hw]; exact fun _ => ⟨by omega, Classical.not_not.1 h3⟩
          · exact e2 w w1 (by omega)
      · show n = _ ∧ _
        refine ⟨by rw [sumI_succ v1, if_neg h1, e1]; omega, fun w w1 w2 => ?_⟩
        by_cases hw : w = v
        · rw [hw]; exact fun h => absurd h h1
        · exact e2 w w1 (by omega)
    · rintro n ⟨e1, e2⟩
      show n = fixNbr g (some a) ∧ _
      refine ⟨e1, fun a' ha' v hv => ?_⟩
      cases ha'
      exact e2 v hv.1 hv.2
    · rintro _ ⟨v, hv, h1, h2⟩
      intro h
      exact h2 (h a rfl v hv h1)

/-- What is known of the frontier array. -/
structure FronOkay (g : Graph) (k : Kgraph D) : Prop where
  fronnbr : 0 ≤ k.fronnbr ∧ k.fronnbr ≤ g.vertnbr
  distinct : ∀ i j, 0 ≤ i → i < k.fronnbr → 0 ≤ j → j < k.fronnbr → k.frontab.get i = k.frontab.get j → i = j
  fron : ∀ i, 0 ≤ i → i < k.fronnbr → Frontier g k.m.parttax.get (k.frontab.get i)

theorem fronFlags_holds (C : g.Consistent) (ha : g.Allocated) (R : Room g pfix k) {flag : Arr Int} (f1 : flag.lo = g.baseval ∧ flag.hi = g.baseval + g.vertnbr) (f2 : ∀ v, g.baseval ≤ v → v < g.baseval + g.vertnbr → flag.get v = -1) :
    Holds (fronFlags g k flag) (fun r => match r with
      | some f => FronOkay g k ∧ (f.lo = g.baseval ∧ f.hi = g.baseval + g.vertnbr) ∧ ∀ v, g.Vertex v → (f.get v = 0 ↔ ∃ i, 0 ≤ i ∧ i < k.fronnbr ∧ k.frontab.get i = v)
      | none => ¬ FronOkay g k) := by
  have hE := consE_iff.2 C
  have hnn := C.vertnnd
  have hn0 := C.vertnbr
  have a1 := R.part
  have a2 := R.fron
  unfold fronFlags
  rw [Holds_ite]
  refine ⟨fun h => ?_, fun h => ?_⟩
  · rw [Holds_pure]
    intro O
    have := O.fronnbr
    omega
  rw [Holds_bind]
  refine Holds_forUpB (fun n (f : Arr Int) => (f.lo = g.baseval ∧ f.hi = g.baseval + g.vertnbr) ∧ (∀ v, g.Vertex v → (f.get v = 0 ∧ ∃ i, 0 ≤ i ∧ i < n ∧ k.frontab.get i = v) ∨ (f.get v = -1 ∧ ¬ ∃ i, 0 ≤ i ∧ i < n ∧ k.frontab.get i = v)) ∧
      (∀ i j, 0 ≤ i → i < n → 0 ≤ j → j < n → k.frontab.get i = k.frontab.get j → i = j) ∧ ∀ i, 0 ≤ i → i < n → Frontier g k.m.parttax.get (k.frontab.get i))
    (fun _ => ¬ FronOkay g k) (by omega) ?_ ?_ ?_ (fun _ h => h)
  · refine ⟨f1, fun v hv => Or.inr ⟨f2 v hv.1 (by have := hv.2; omega), fun ⟨i, i1, i2, _⟩ => by omega⟩, fun i j i1 i2 => by omega, fun i i1 i2 => by omega⟩
  · rintro n f n1 n2 ⟨l, st, ds, fr⟩
    unfold fronStep
    rw [Arr.rd_ok _ (by omega) (by omega), ok_bind, Holds_ite]
    refine ⟨fun h0 => ?_, fun h0 => ?_⟩
    · rw [Holds_pure]
      intro O
      have := (O.fron n n1 n2).1.1
      have := (O.fron n n1 n2).1.2
      omega
    have hv : g.Vertex (k.frontab.get n) := ⟨by omega, by omega⟩
    rw [Arr.rd_ok _ (by omega) (by omega), ok_bind, Holds_ite]
    refine ⟨fun h3 => ?_, fun h3 => ?_⟩
    · rw [Holds_pure]
      intro O
      rcases st _ hv with ⟨-, i, i1, i2, e⟩ | ⟨e, -⟩
      · have := O.distinct i n i1 (by omega) n1 n2 e
        omega
      · exact h3 e
    have new : ¬ ∃ i, 0 ≤ i ∧ i < n ∧ k.frontab.get i = k.frontab.get n := by
      rcases st _ hv with ⟨e, -⟩ | ⟨-, e⟩
      · omega
      · exact e
    rw [Arr.wr_ok _ _ (by omega) (by omega), ok_bind, Arr.rd_ok _ (by omega) (by omega), ok_bind, Holds_bind]
    refine Holds_forArcs ha hv (hE.range _ hv).2 (fun e x => x = true ↔ ∃ e', g.vert (k.frontab.get n) ≤ e' ∧ e' < e ∧ k.m.parttax.get (g.dest e') ≠ k.m.parttax.get (k.frontab.get n)) ?_ ?_ ?_
    · exact ⟨fun h => absurd h (by decide), fun ⟨e', h1, h2, _⟩ => by omega⟩
    · intro e x e1 e2 I
      have hd := (hE.inside _ e hv e1 e2).1
      have := hd.1
      have := hd.2
      rw [Arr.rd_ok _ (by omega) (by omega), ok_bind, Holds_pure, Bool.or_eq_true, decide_eq_true_iff, I]
      constructor
      · rintro (⟨e', h1, h2, h3⟩ | h)
        · exact ⟨e', h1, by omega, h3⟩
        · exact ⟨e, e1, by omega, h⟩
      · rintro ⟨e', h1, h2, h3⟩
        by_cases he : e' = e
        · rw [he] at h3; exact Or.inr h3
        · exact Or.inl ⟨e', h1, by omega, h3⟩
    · intro x I
      rw [← fron_iff _ _ hv] at I
      rw [Holds_ite]
      refine ⟨fun hx => ?_, fun hx => ?_⟩
      · rw [Holds_pure]
        refine ⟨l, fun v hv' => ?_, fun i j i1 i2 j1 j2 e => ?_, fun i i1 i2 => ?_⟩
        · show ((f.set (k.frontab.get n) 0).get v = 0 ∧ _) ∨ _
          by_cases hvn : v = k.frontab.get n
          · rw [hvn, Arr.set_get, if_pos rfl]
            exact Or.inl ⟨rfl, n, n1, by omega, rfl⟩
          · have hs : (f.set (k.frontab.get n) 0).get v = f.get v := by rw [Arr.set_get, if_neg hvn]
            rw [hs]
            rcases st v hv' with ⟨e, i, i1, i2, e'⟩ | ⟨e, e'⟩
            · exact Or.inl ⟨e, i, i1, by omega, e'⟩
            · refine Or.inr ⟨e, fun ⟨i, i1, i2, e''⟩ => ?_⟩
              by_cases hi : i = n
              · rw [hi] at e''; exact hvn e''.symm
              · exact e' ⟨i, i1, by omega, e''⟩
        · by_cases hi : i = n
          · by_cases hj : j = n
            · omega
            · rw [hi] at e; exact absurd ⟨j, j1, by omega, e.symm⟩ new
          · by_cases hj : j = n
            · rw [hj] at e; exact absurd ⟨i, i1, by omega, e⟩ new
            · exact ds i j i1 (by omega) j1 (by omega) e
        · by_cases hi : i = n
          · rw [hi]; exact I.1 hx
          · exact fr i i1 (by omega)
      · rw [Holds_pure]
        intro O
        exact hx (I.2 (O.fron n n1 n2))
  · rintro f ⟨l, st, ds, fr⟩
    refine ⟨⟨by omega, ds, fr⟩, l, fun v hv => ?_⟩
    rcases st v hv with ⟨e, i⟩ | ⟨e, i⟩
    · exact ⟨fun _ => i, fun _ => e⟩
    · exact ⟨fun h => by omega, fun h => absurd h i⟩

theorem cutArcs_holds (C : g.Consistent) (ha : g.Allocated) (R : Room g pfix k) (A : Answers o F N In k.m) (hm : MapOkay In g k.m) {v : Int} (hv : g.Vertex v) :
    Holds (g.forArcs v 0 (cutArc o g k.m (k.m.parttax.get v))) (fun c => c = cutOf F g k.m.parttax.get k.m.domntab.get v) := by
  have hE := consE_iff.2 C
  have a1 := R.part
  have a2 := R.domn
  have mx := hm.max
  have pv := hm.part v hv
  refine Holds_forArcs ha hv (hE.range _ hv).2 (fun e c => c = sumI (g.vert v) e (fun e => g.edlo e * (fun w => if k.m.parttax.get v = k.m.parttax.get w then 0 else F (k.m.domntab.get (k.m.parttax.get v)) (k.m.domntab.get (k.m.parttax.get w))) (g.dest e))) ?_ ?_ ?_
  · rw [sumI_empty (Int.le_refl _)]
  · intro e c e1 e2 I
    have hd := (hE.inside _ e hv e1 e2).1
    have pw := hm.part _ hd
    have := hd.1
    have := hd.2
    unfold cutArc
    rw [rdEdlo_eq ha hv e1 e2, ok_bind, Arr.rd_ok _ (by omega) (by omega), ok_bind, Holds_ite]
    refine ⟨fun h => ?_, fun h => ?_⟩
    · rw [Holds_pure, sumI_succ e1, ← I]
      dsimp only
      rw [if_pos h.symm]; omega
    · rw [Arr.rd_ok _ (by omega) (by omega), ok_bind, Arr.rd_ok _ (by omega) (by omega), ok_bind, A.dist _ _ pv.1 pv.2 pw.1 pw.2 (fun e => h e.symm), ok_bind, Holds_pure, sumI_succ e1, ← I]
      dsimp only
      rw [if_neg (fun e => h e.symm)]
  · intro c I
    rw [I, Graph.arc_sum hE hv (fun w => if k.m.parttax.get v = k.m.parttax.get w then 0 else F (k.m.domntab.get (k.m.parttax.get v)) (k.m.domntab.get (k.m.parttax.get w)))]
    unfold cutOf
    refine sumI_congr fun w _ _ => ?_
    by_cases h : k.m.parttax.get v = k.m.parttax.get w
    · rw [if_pos h, if_pos h, Int.mul_zero]
    · rw [if_neg h, if_neg h]

/-- What is known of sums. -/
structure SumOkay (F : D → D → Int) (g : Graph) (k : Kgraph D) : Prop where
  all : ∀ v, g.Vertex v → cutOf F g k.m.parttax.get k.m.domntab.get v ≠ 0 → ∃ i, 0 ≤ i ∧ i < k.fronnbr ∧ k.frontab.get i = v
  comm : k.commload = (sumI g.baseval g.vertnnd (cutOf F g k.m.parttax.get k.m.domntab.get)).tdiv 2
  load : ∀ i, 0 ≤ i → i < k.m.domnnbr → k.comploadavg.get i + k.comploaddlt.get i = over g k.m.parttax.get i g.velo

theorem checkSums_holds (C : g.Consistent) (ha : g.Allocated) (R : Room g pfix k) (A : Answers o F N In k.m) (hm : MapOkay In g k.m) (h1 : 1 ≤ k.m.domnnbr) {comp flag : Arr Int} (c1 : comp.lo = 0 ∧ comp.hi = k.m.domnnbr) (c2 : ∀ i, 0 ≤ i → i < k.m.domnnbr → comp.get i = 0)
    (f1 : flag.lo = g.baseval ∧ flag.hi = g.baseval + g.vertnbr) (f2 : ∀ v, g.Vertex v → (flag.get v = 0 ↔ ∃ i, 0 ≤ i ∧ i < k.fronnbr ∧ k.frontab.get i = v)) :
    Holds (checkSums o g k comp flag) (fun r => r = true ↔ SumOkay F g k) := by
  have hnn := C.vertnnd
  have hn0 := C.vertnbr
  have a1 := R.part
  have a3 := R.avg
  have a4 := R.dlt
  have mx := hm.max
  have ff : ∀ {P : Prop}, ¬ P → (false = true ↔ P) := fun h => ⟨fun h => absurd h (by decide), fun p => absurd p h⟩
  unfold checkSums
  rw [Holds_bind]
  refine Holds_forUpB (fun v (s : Arr Int × Int) => (s.1.lo = 0 ∧ s.1.hi = k.m.domnnbr) ∧ (∀ i, 0 ≤ i → i < k.m.domnnbr → s.1.get i = sumI g.baseval v (fun u => if k.m.parttax.get u = i then g.velo u else 0)) ∧
      s.2 = sumI g.baseval v (cutOf F g k.m.parttax.get k.m.domntab.get) ∧ ∀ u, g.baseval ≤ u → u < v → cutOf F g k.m.parttax.get k.m.domntab.get u ≠ 0 → ∃ i, 0 ≤ i ∧ i < k.fronnbr ∧ k.frontab.get i = u)
    (fun _ => ¬ SumOkay F g k) (by omega) ?_ ?_ ?_ ?_
  · exact ⟨c1, fun i i1 i2 => by rw [sumI_empty (Int.le_refl _)]; exact c2 i i1 i2, by rw [sumI_empty (Int.le_refl _)], fun u u1 u2 => by omega⟩
  · rintro v ⟨c, t⟩ v1 v2 ⟨e1, e2, e3, e4⟩
    have hv : g.Vertex v := ⟨v1, v2⟩
    have pv := hm.part v hv
    have e1 : c.lo = 0 ∧ c.hi = k.m.domnnbr := e1
    have e3 : t = _ := e3
    unfold sumStep
    rw [Arr.rd_ok _ (by omega) (by omega), ok_bind, rdVelo_eq ha hv, ok_bind]
    dsimp only
    rw [Arr.rd_ok _ (by omega) (by omega), ok_bind, Arr.wr_ok _ _ (by omega) (by omega), ok_bind, Holds_bind]
    refine (cutArcs_holds C ha R A hm hv).mono ?_
    intro x hx
    rw [Arr.rd_ok _ (by omega) (by omega), ok_bind, Holds_ite]
    refine ⟨fun h => ?_, fun h => ?_⟩
    · rw [Holds_pure]
      intro O
      exact h.2 ((f2 v hv).2 (O.all v hv (by rw [← hx]; exact h.1)))
    · rw [Holds_pure]
      refine ⟨e1, fun i i1 i2 => ?_, by rw [sumI_succ v1, ← hx, ← e3], fun u u1 u2 hu => ?_⟩
      · show (c.set _ _).get i = _
        have e2 : ∀ i, 0 ≤ i → i < k.m.domnnbr → c.get i = _ := e2
        rw [sumI_succ v1, Arr.set_get]
        by_cases hi : i = k.m.parttax.get v
        · rw [if_pos hi, if_pos hi.symm, ← e2 i i1 i2, hi]
        · rw [if_neg hi, if_neg (fun e => hi e.symm), ← e2 i i1 i2]; omega
      · by_cases hw : u = v
        · rw [hw] at hu ⊢
          refine (f2 v hv).1 (Classical.byContradiction fun h' => h ⟨by rw [hx]; exact hu, h'⟩)
        · exact e4 u u1 (by omega) hu
  · rintro ⟨c, t⟩ ⟨e1, e2, e3, e4⟩
    have e1 : c.lo = 0 ∧ c.hi = k.m.domnnbr := e1
    have e3 : t = _ := e3
    dsimp only
    rw [Holds_ite, e3]
    refine ⟨fun h => ff fun O => h O.comm.symm, fun h => ?_⟩
    refine (testAll_holds (by omega) (P := fun i => k.comploadavg.get i + k.comploaddlt.get i = over g k.m.parttax.get i g.velo) ?_).mono ?_
    · intro i i1 i2
      rw [Arr.rd_ok _ (by omega) (by omega), ok_bind, Arr.rd_ok _ (by omega) (by omega), ok_bind, Arr.rd_ok _ (by omega) (by omega), ok_bind, Holds_pure, decide_eq_true_iff, show c.get i = over g k.m.parttax.get i g.velo from e2 i i1 i2]
      exact eq_comm
    intro r hr
    rw [hr]
    exact ⟨fun h' => ⟨fun v hv => e4 v hv.1 hv.2, (Classical.not_not.1 h).symm, h'⟩, fun O => O.load⟩
  · intro _ h
    exact ff h

theorem kcheck_holds (C : g.Consistent) (ha : g.Allocated) (R : Room g pfix k) (A : Answers o F N In k.m) (h1 : 1 ≤ k.m.domnnbr) (junk : Path → Int → Int) (vfixnbr : Int) :
    Holds (kcheck o junk false g vfixnbr pfix k) (fun r => r = true ↔ KChecked F N In g vfixnbr pfix k) := by
  have hn0 := C.vertnbr
  have ff : ∀ {P : Prop}, ¬ P → (false = true ↔ P) := fun h => ⟨fun h => absurd h (by decide), fun p => absurd p h⟩
  unfold kcheck
  rw [Holds_bind]
  refine (mapCheck_holds C R A h1).mono ?_
  intro r1 e1
  cases r1 with
  | false => exact ff fun K => absurd (e1.2 ⟨K.max, K.part, K.dom⟩) (by decide)
  | true =>
  have hm := e1.1 rfl
  rw [if_pos rfl, Holds_bind]
  refine (fill_holds (a := ⟨0, k.m.domnnbr, junk [0]⟩) (lo := 0) (hi := k.m.domnnbr) (by omega) (Int.le_refl _) (Int.le_refl _)).mono ?_
  rintro comp ⟨c1, c2, -⟩
  rw [Holds_bind]
  refine (fill_holds (a := ⟨g.baseval, g.baseval + g.vertnbr, junk [1]⟩) (lo := g.baseval) (hi := g.baseval + g.vertnbr) (by omega) (Int.le_refl _) (Int.le_refl _)).mono ?_
  rintro flag ⟨f1, f2, -⟩
  rw [Holds_bind]
  refine (fixCount_holds C R A hm).mono ?_
  intro n hn
  cases n with
  | none => exact ff fun K => hn K.fixed
  | some n =>
  dsimp only
  rw [Holds_ite]
  refine ⟨fun h => ff fun K => h (by rw [K.fixnbr]; exact hn.1), fun h => ?_⟩
  rw [Holds_bind]
  refine (fronFlags_holds C ha R f1 f2).mono ?_
  intro f hf
  cases f with
  | none => exact ff fun K => hf ⟨K.fronnbr, K.distinct, K.fron⟩
  | some f =>
  obtain ⟨O, l, st⟩ := hf
  dsimp only
  refine (checkSums_holds C ha R A hm h1 c1 c2 l st).mono ?_
  intro r hr
  rw [hr]
  exact ⟨fun S => ⟨hm.max, hm.part, hm.dom, hn.2, by rw [← hn.1]; exact (Classical.not_not.1 h).symm, O.fronnbr, O.distinct, O.fron, S.all, S.comm, S.load⟩, fun K => ⟨K.all, K.comm, K.load⟩⟩

/-- Sum on pairs. -/
theorem sumI_tri (H : Int → Int → Int) (lo : Int) : ∀ n : Nat, (∀ v w, lo ≤ v → v < lo + n → lo ≤ w → w < lo + n → H v w = H w v) → (∀ v, lo ≤ v → v < lo + n → H v v = 0) →
    sumI lo (lo + n) (fun v => sumI lo (lo + n) (H v)) = 2 * sumI lo (lo + n) (fun v => sumI lo v (H v))
  | 0, _, _ => by rw [sumI_empty (by omega), sumI_empty (by omega)]; rfl
  | n + 1, hs, hd => by
    have ih := sumI_tri H lo n (fun v w v1 v2 w1 w2 => hs v w v1 (by omega) w1 (by omega)) (fun v v1 v2 => hd v v1 (by omega))
    have e : lo + ((n + 1 : Nat) : Int) = (lo + n) + 1 := by omega
    have s1 : sumI lo (lo + n) (fun v => sumI lo (lo + n + 1) (H v)) = sumI lo (lo + n) (fun v => sumI lo (lo + n) (H v)) + sumI lo (lo + n) (H (lo + n)) := by
      rw [← sumI_add_dist]
      refine sumI_congr fun v v1 v2 => ?_
      rw [sumI_succ (by omega), hs v (lo + n) v1 (by omega) (by omega) (by omega)]
    rw [e, sumI_succ (by omega), sumI_succ (by omega), s1, ih, sumI_succ (by omega), hd (lo + n) (by omega) (by omega)]
    omega

/-- The cost of a mapping is half the sum of the costs of its vertices. -/
theorem cost_half (C : g.Consistent) {part : Int → Int} {dom : Int → D} (hF : ∀ v w, g.Vertex v → g.Vertex w → F (dom (part v)) (dom (part w)) = F (dom (part w)) (dom (part v))) :
    (sumI g.baseval g.vertnnd (cutOf F g part dom)).tdiv 2 = costOf F g part dom := by
  have hE := consE_iff.2 C
  have hnn := C.vertnnd
  have hn0 := C.vertnbr
  have e : g.vertnnd = g.baseval + (g.vertnbr.toNat : Int) := by omega
  have h := sumI_tri (fun v w => if part v = part w then 0 else g.wgt v w * F (dom (part v)) (dom (part w))) g.baseval g.vertnbr.toNat ?_ (fun v _ _ => if_pos rfl)
  · rw [← e] at h
    unfold cutOf costOf
    rw [h]
    exact Int.mul_tdiv_cancel_left _ (by decide)
  · intro v w v1 v2 w1 w2
    have hv : g.Vertex v := ⟨v1, by omega⟩
    have hw : g.Vertex w := ⟨w1, by omega⟩
    by_cases hp : part v = part w
    · rw [if_pos hp, if_pos hp.symm]
    · rw [if_neg hp, if_neg (fun e => hp e.symm), Graph.wgt_symm hE hv hw, hF v w hv hw]

/-- Mappings that are accepted are complete, and conversely, if costs of edges between parts are positive. -/
theorem kchecked_valid (C : g.Consistent) {k : KState D} (h1 : 1 ≤ k.m.domnnbr) {vfixnbr : Int}
    (hF : ∀ i j, 0 ≤ i → i < k.m.domnnbr → 0 ≤ j → j < k.m.domnnbr → F (k.m.domntab.get i) (k.m.domntab.get j) = F (k.m.domntab.get j) (k.m.domntab.get i) ∧ (i ≠ j → 0 < F (k.m.domntab.get i) (k.m.domntab.get j)))
    (hw : ∀ v p, g.Vertex v → p ∈ g.nbrs v → 0 < p.2) (K : KChecked F N In g vfixnbr pfix k.toKgraph) : KValid F g k := by
  have hE := consE_iff.2 C
  refine ⟨h1, K.part, ⟨K.fronnbr.1, K.distinct, fun v => ⟨fun hv => ?_, ?_⟩⟩, ?_, K.load⟩
  · refine K.all v hv.1 (Int.ne_of_gt ?_)
    obtain ⟨hv', p, hp, hne⟩ := hv
    have hpv := (C.inside v p hv' hp).1
    have r1 := K.part v hv'
    have r2 := K.part p.1 hpv
    refine Bipart.sumI_pos_of ?_ hpv.1 hpv.2 ?_
    · intro w w1 w2
      have r3 := K.part w ⟨w1, w2⟩
      by_cases h : k.m.parttax.get v = k.m.parttax.get w
      · rw [if_pos h]
      · rw [if_neg h]
        exact Int.mul_nonneg (Graph.wgt_nonneg hE hv') (Int.le_of_lt ((hF _ _ r1.1 r1.2 r3.1 r3.2).2 h))
    · rw [if_neg (fun h => hne h.symm)]
      refine Int.mul_pos ?_ ((hF _ _ r1.1 r1.2 r2.1 r2.2).2 (fun h => hne h.symm))
      obtain ⟨e, e1, e2, e3, e4⟩ := (Graph.mem_nbrs g v p).1 hp
      rw [← e3, Graph.wgt_arc hE hv' e1 e2, e4]
      exact hw v p hv' hp
  · rintro ⟨i, i1, i2, rfl⟩
    exact K.fron i i1 i2
  · rw [← cost_half C fun v w hv hw' => (hF _ _ (K.part v hv).1 (K.part v hv).2 (K.part w hw').1 (K.part w hw').2).1]
    exact K.comm

/-- Complete mappings are accepted. -/
theorem kvalid_checked (C : g.Consistent) {k : KState D} {vfixnbr : Int} (hmax : k.m.domnnbr ≤ k.m.domnmax)
    (hF : ∀ i j, 0 ≤ i → i < k.m.domnnbr → 0 ≤ j → j < k.m.domnnbr → F (k.m.domntab.get i) (k.m.domntab.get j) = F (k.m.domntab.get j) (k.m.domntab.get i))
    (hI : ∀ i, 0 ≤ i → i < k.m.domnnbr → In (k.m.domntab.get i) = true) (hx : ∀ a, pfix = some a → ∀ v, g.Vertex v → a.get v ≠ -1 → 0 ≤ a.get v ∧ a.get v = N (k.m.domntab.get (k.m.parttax.get v))) (hn : vfixnbr = fixNbr g pfix)
    (hf : k.fronnbr ≤ g.vertnbr) (V : KValid F g k) : KChecked F N In g vfixnbr pfix k.toKgraph := by
  have hE := consE_iff.2 C
  refine ⟨hmax, V.part, hI, hx, hn, ⟨V.fron.1, hf⟩, V.fron.2.1, fun i i1 i2 => V.fron.mem i1 i2, fun v hv hc => ?_, ?_, V.load⟩
  · refine (V.fron.2.2 v).1 (Classical.byContradiction fun hnf => hc ?_)
    unfold cutOf
    refine sumI_eq_zero fun w w1 w2 => ?_
    by_cases h : k.m.parttax.get v = k.m.parttax.get w
    · rw [if_pos h]
    · rw [if_neg h, Graph.wgt_none, Int.zero_mul]
      intro ha
      obtain ⟨p, hp, e⟩ := (Graph.adj_iff v w).1 ha
      exact hnf ⟨hv, p, hp, by rw [e]; exact fun e => h e.symm⟩
  · rw [V.comm, ← cost_half C fun v w hv hw => hF _ _ (V.part v hv).1 (V.part v hv).2 (V.part w hw).1 (V.part w hw).2]

end Scotch.Kmap
