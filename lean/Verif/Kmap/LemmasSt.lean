import Verif.Kmap.SpecSt
import Verif.Bipart.LemmasCheck

/-! # Static mapping: strategies -/

set_option autoImplicit false
set_option linter.unusedSimpArgs false

namespace Scotch.Kmap
open Bipart (over Frontier)

variable {D : Type} {g : Graph}

theorem copyA_holds {α : Type} {dst src : Arr α} {d s n : Int} (hn : 0 ≤ n) (h1 : dst.lo ≤ d) (h2 : d + n ≤ dst.hi) (h3 : src.lo ≤ s) (h4 : s + n ≤ src.hi) :
    Holds (copyA dst src d s n) (fun a => a.lo = dst.lo ∧ a.hi = dst.hi ∧ ∀ i, 0 ≤ i → i < n → a.get (d + i) = src.get (s + i)) := by
  unfold copyA
  refine Holds_forUp (fun k (a : Arr α) => a.lo = dst.lo ∧ a.hi = dst.hi ∧ ∀ i, 0 ≤ i → i < k → a.get (d + i) = src.get (s + i)) hn ?_ ?_ ?_
  · exact ⟨rfl, rfl, fun i h1 h2 => by omega⟩
  · rintro k a k1 k2 ⟨e1, e2, e3⟩
    rw [Arr.rd_ok _ (by omega) (by omega), ok_bind, Arr.wr_ok _ _ (by omega) (by omega)]
    refine ⟨e1, e2, fun i i1 i2 => ?_⟩
    show (a.set (d + k) _).get (d + i) = _
    rw [Arr.set_get]
    by_cases h : i = k
    · rw [if_pos (by omega), h]
    · rw [if_neg (by omega)]; exact e3 i i1 (by omega)
  · intro a h; exact h

/-- A store holds a mapping. -/
structure Saved (g : Graph) (k : KState D) (st : KStore D) : Prop where
  nbr : st.domnnbr = k.m.domnnbr
  fronnbr : st.fronnbr = k.fronnbr
  comm : st.commload = k.commload
  bal : st.bal = k.bal
  part : 0 < k.m.domnnbr → (st.parttab.lo = 0 ∧ st.parttab.hi = g.vertnbr) ∧ ∀ i, 0 ≤ i → i < g.vertnbr → st.parttab.get i = k.m.parttax.get (g.baseval + i)
  domn : 0 < k.m.domnnbr → (st.domntab.lo = 0 ∧ st.domntab.hi = k.m.domnmax) ∧ ∀ i, 0 ≤ i → i < k.m.domnnbr → st.domntab.get i = k.m.domntab.get i
  avg : 0 < k.m.domnnbr → (st.comploadavg.lo = 0 ∧ st.comploadavg.hi = k.m.domnmax) ∧ ∀ i, 0 ≤ i → i < k.m.domnnbr → st.comploadavg.get i = k.comploadavg.get i
  dlt : 0 < k.m.domnnbr → (st.comploaddlt.lo = 0 ∧ st.comploaddlt.hi = k.m.domnmax) ∧ ∀ i, 0 ≤ i → i < k.m.domnnbr → st.comploaddlt.get i = k.comploaddlt.get i
  fron : 0 < k.m.domnnbr → (st.frontab.lo = 0 ∧ st.frontab.hi = g.vertnbr) ∧ ∀ i, 0 ≤ i → i < k.fronnbr → st.frontab.get i = k.frontab.get i

theorem storeSave_holds (C : g.Consistent) {k : KState D} (hm : Mem g k) (junk : Path → Int → Int) (junkD : Int → D) : Holds (storeSave g k (storeInit g k junk junkD)) (Saved g k) := by
  unfold storeSave storeInit
  have a1 := hm.part
  have a2 := hm.domn
  have a3 := hm.avg
  have a4 := hm.dlt
  have a5 := hm.fron
  have a6 := hm.nbr
  have hv := C.vertnbr
  have hnn := C.vertnnd
  rw [Holds_ite]
  refine ⟨fun h0 => ?_, fun h0 => ?_⟩
  · have a7 := hm.frnb h0
    rw [Holds_bind]
    refine (copyA_holds (by omega) (Int.le_refl _) (by show 0 + g.vertnbr ≤ g.vertnbr; omega) (by omega) (by omega)).mono ?_
    rintro part ⟨p1, p2, p3⟩
    rw [Holds_bind]
    refine (copyA_holds (by omega) (Int.le_refl _) (by show 0 + k.m.domnnbr ≤ k.m.domnmax; omega) (by omega) (by omega)).mono ?_
    rintro domn ⟨d1, d2, d3⟩
    rw [Holds_bind]
    refine (copyA_holds (by omega) (Int.le_refl _) (by show 0 + k.m.domnnbr ≤ k.m.domnmax; omega) (by omega) (by omega)).mono ?_
    rintro avg ⟨l1, l2, l3⟩
    rw [Holds_bind]
    refine (copyA_holds (by omega) (Int.le_refl _) (by show 0 + k.m.domnnbr ≤ k.m.domnmax; omega) (by omega) (by omega)).mono ?_
    rintro dlt ⟨s1, s2, s3⟩
    rw [Holds_bind]
    refine (copyA_holds (by omega) (Int.le_refl _) (by show 0 + k.fronnbr ≤ g.vertnbr; omega) (by omega) (by omega)).mono ?_
    rintro fron ⟨f1, f2, f3⟩
    rw [Holds_pure]
    refine ⟨rfl, rfl, rfl, rfl, fun _ => ⟨⟨p1, p2⟩, fun i i1 i2 => ?_⟩, fun _ => ⟨⟨d1, d2⟩, fun i i1 i2 => ?_⟩, fun _ => ⟨⟨l1, l2⟩, fun i i1 i2 => ?_⟩, fun _ => ⟨⟨s1, s2⟩, fun i i1 i2 => ?_⟩, fun _ => ⟨⟨f1, f2⟩, fun i i1 i2 => ?_⟩⟩
    · simpa using p3 i i1 i2
    · simpa using d3 i i1 i2
    · simpa using l3 i i1 i2
    · simpa using s3 i i1 i2
    · simpa using f3 i i1 i2
  · rw [Holds_pure]
    exact ⟨rfl, rfl, rfl, rfl, fun h => absurd h h0, fun h => absurd h h0, fun h => absurd h h0, fun h => absurd h h0, fun h => absurd h h0⟩

theorem storeUpdt_holds (C : g.Consistent) {k k' : KState D} (hm : Mem g k) (hm' : Mem g k') (hx : k.m.domnmax ≤ k'.m.domnmax) {st : KStore D} (S : Saved g k st) :
    Holds (storeUpdt g k' st) (fun r => Agree g k r ∧ Mem g r ∧ r.m.domnmax = k'.m.domnmax) := by
  unfold storeUpdt
  have a1 := hm'.part
  have a2 := hm'.domn
  have a3 := hm'.avg
  have a4 := hm'.dlt
  have a5 := hm'.fron
  have a6 := hm'.nbr
  have b6 := hm.nbr
  have hv := C.vertnbr
  have hnn := C.vertnnd
  have n1 := S.nbr
  have n2 := S.fronnbr
  rw [Holds_ite]
  refine ⟨fun h0 => ?_, fun h0 => ?_⟩
  · have h0' : 0 < k.m.domnnbr := by omega
    have a7 := hm.frnb h0'
    have c1 := (S.part h0').1
    have c2 := (S.domn h0').1
    have c3 := (S.avg h0').1
    have c4 := (S.dlt h0').1
    have c5 := (S.fron h0').1
    rw [Holds_bind]
    refine (copyA_holds (by omega) (by omega) (by omega) (by omega) (by omega)).mono ?_
    rintro part ⟨p1, p2, p3⟩
    rw [Holds_bind]
    refine (copyA_holds (by omega) (by omega) (by omega) (by omega) (by omega)).mono ?_
    rintro domn ⟨d1, d2, d3⟩
    rw [Holds_bind]
    refine (copyA_holds (by omega) (by omega) (by omega) (by omega) (by omega)).mono ?_
    rintro avg ⟨l1, l2, l3⟩
    rw [Holds_bind]
    refine (copyA_holds (by omega) (by omega) (by omega) (by omega) (by omega)).mono ?_
    rintro dlt ⟨s1, s2, s3⟩
    rw [Holds_bind]
    refine (copyA_holds (by omega) (by omega) (by omega) (by omega) (by omega)).mono ?_
    rintro fron ⟨f1, f2, f3⟩
    rw [Holds_pure]
    refine ⟨⟨n1, n2, S.comm, S.bal, fun _ v hv => ?_, fun i i1 i2 => ?_, fun i i1 i2 => ?_, fun i i1 i2 => ?_, fun _ i i1 i2 => ?_⟩, ⟨?_, ?_, ?_, ?_, ?_, ?_, fun _ => ?_⟩, rfl⟩
    · have h1 := hv.1
      have h2 := hv.2
      have e := p3 (v - g.baseval) (by omega) (by omega)
      rw [Int.add_comm, Int.sub_add_cancel, Int.zero_add, (S.part h0').2 _ (by omega) (by omega), Int.add_comm g.baseval, Int.sub_add_cancel] at e
      exact e
    · have e := d3 i i1 (by omega)
      rw [Int.zero_add, (S.domn h0').2 i i1 i2] at e
      exact e
    · have e := l3 i i1 (by omega)
      rw [Int.zero_add, (S.avg h0').2 i i1 i2] at e
      exact e
    · have e := s3 i i1 (by omega)
      rw [Int.zero_add, (S.dlt h0').2 i i1 i2] at e
      exact e
    · have e := f3 i i1 (by omega)
      rw [Int.zero_add, (S.fron h0').2 i i1 i2] at e
      exact e
    · show part.lo ≤ _ ∧ _ ≤ part.hi; omega
    · show domn.lo ≤ 0 ∧ k'.m.domnmax ≤ domn.hi; omega
    · show avg.lo ≤ 0 ∧ k'.m.domnmax ≤ avg.hi; omega
    · show dlt.lo ≤ 0 ∧ k'.m.domnmax ≤ dlt.hi; omega
    · show fron.lo ≤ _ ∧ _ ≤ fron.hi; omega
    · show 0 ≤ st.domnnbr ∧ st.domnnbr ≤ k'.m.domnmax; omega
    · show 0 ≤ st.fronnbr ∧ st.fronnbr ≤ _; omega
  · rw [Holds_pure]
    refine ⟨⟨n1, n2, S.comm, S.bal, fun h => by omega, fun i _ _ => by omega, fun i _ _ => by omega, fun i _ _ => by omega, fun h => by omega⟩, ⟨a1, a2, a3, a4, a5, ?_, fun h => ?_⟩, rfl⟩
    · show 0 ≤ st.domnnbr ∧ st.domnnbr ≤ k'.m.domnmax; omega
    · exact absurd h h0

theorem scan_holds {n : Int} (hn : 0 ≤ n) (bal : Int → Int) {avg dlt : Arr Int} (h : 0 < n → avg.lo ≤ 0 ∧ n ≤ avg.hi ∧ dlt.lo ≤ 0 ∧ n ≤ dlt.hi) :
    Holds (scan n bal avg dlt) (fun r => (r.1 = true ↔ ¬ ∀ i, 0 ≤ i → i < n → |dlt.get i| ≤ bal (avg.get i)) ∧ r.2 = sumI 0 n (fun i => |dlt.get i|)) := by
  unfold scan
  refine Holds_forUp (fun k (r : Bool × Int) => (r.1 = true ↔ ¬ ∀ i, 0 ≤ i → i < k → |dlt.get i| ≤ bal (avg.get i)) ∧ r.2 = sumI 0 k (fun i => |dlt.get i|)) hn ?_ ?_ (fun r h => h)
  · exact ⟨⟨fun h => absurd h (by decide), fun h => absurd (fun i _ _ => by omega) h⟩, by rw [sumI_empty (Int.le_refl _)]⟩
  · rintro k ⟨x, u⟩ k1 k2 ⟨e1, e2⟩
    have := h (by omega)
    rw [Arr.rd_ok _ (by omega) (by omega), ok_bind, Arr.rd_ok _ (by omega) (by omega), ok_bind, Holds_pure]
    refine ⟨?_, by rw [sumI_succ k1]; show u + _ = _; rw [show u = _ from e2]⟩
    rw [Bool.or_eq_true, decide_eq_true_iff, show (x = true ↔ _) from e1]
    constructor
    · rintro (h | h) hall
      · exact h fun i i1 i2 => hall i i1 (by omega)
      · have := hall k k1 (by omega); omega
    · intro hn
      by_cases h : |dlt.get k| > bal (avg.get k)
      · exact Or.inr h
      · refine Or.inl fun hall => hn fun i i1 i2 => ?_
        by_cases hi : i = k
        · rw [hi]; omega
        · exact hall i i1 (by omega)

theorem Agree.refl (k : KState D) : Agree g k k := ⟨rfl, rfl, rfl, rfl, fun _ _ _ => rfl, fun _ _ _ => rfl, fun _ _ _ => rfl, fun _ _ _ => rfl, fun _ _ _ _ => rfl⟩

theorem Agree.balanced {k k' : KState D} (A : Agree g k k') : Balanced k' ↔ Balanced k := by
  unfold Balanced
  rw [A.nbr, A.bal]
  exact forall_congr' fun i => forall_congr' fun i1 => forall_congr' fun i2 => by rw [A.avg i i1 i2, A.dlt i i1 i2]

theorem Agree.unbal {k k' : KState D} (A : Agree g k k') : unbal k' = unbal k := by
  unfold Kmap.unbal
  rw [A.nbr]
  exact sumI_congr fun i i1 i2 => by rw [A.dlt i i1 i2]

theorem Agree.valid (C : g.Consistent) {F : D → D → Int} {k k' : KState D} (A : Agree g k k') (V : KValid F g k) : KValid F g k' := by
  have h0 : 0 < k.m.domnnbr := by have := V.some; omega
  have hp := A.part h0
  refine ⟨by rw [A.nbr]; exact V.some, fun v hv => by rw [hp v hv, A.nbr]; exact V.part v hv, ?_, ?_, fun i i1 i2 => ?_⟩
  · rw [A.fronnbr]
    refine (V.fron.agree (A.fron h0)).congr fun v => ?_
    unfold Frontier
    refine and_congr_right fun hv => exists_congr fun q => and_congr_right fun hq => ?_
    rw [hp v hv, hp q.1 (C.inside v q hv hq).1]
  · rw [A.comm, V.comm]
    unfold costOf
    refine sumI_congr fun v v1 v2 => sumI_congr fun w w1 w2 => ?_
    have hv : g.Vertex v := ⟨v1, v2⟩
    have hw : g.Vertex w := ⟨w1, by omega⟩
    have r1 := V.part v hv
    have r2 := V.part w hw
    rw [hp v hv, hp w hw, A.domn _ r1.1 r1.2, A.domn _ r2.1 r2.2]
  · rw [A.nbr] at i2
    rw [A.avg i i1 i2, A.dlt i i1 i2, V.load i i1 i2]
    unfold over
    exact sumI_congr fun v v1 v2 => by rw [hp v ⟨v1, v2⟩]

theorem keepSecond_iff (b0 b1 : Bool) (u0 u1 c0 c1 : Int) : keepSecond b0 b1 u0 u1 c0 c1 = true ↔
    (b0 = true ∧ b1 = false) ∨ (b0 = false ∧ b1 = false ∧ (c0 > c1 ∨ (c0 = c1 ∧ u0 > u1))) ∨ (b0 = true ∧ b1 = true ∧ (u0 > u1 ∨ (u0 = u1 ∧ c0 > c1))) := by
  unfold keepSecond
  cases b0 <;> cases b1 <;> simp

/-- What a selection gives. -/
structure Selected (g : Graph) (r1 r2 r : Int × KState D) : Prop where
  code : r.1 = min r1.1 r2.1
  one : Agree g r1.2 r.2 ∨ Agree g r2.2 r.2
  best : r1.1 = 0 → r2.1 = 0 → NoWorse r.2 r1.2 ∧ NoWorse r.2 r2.2
  first : r1.1 = 0 → r2.1 ≠ 0 → Balanced r1.2 → Agree g r1.2 r.2
  second : r1.1 ≠ 0 → r2.1 = 0 → Balanced r2.2 → Agree g r2.2 r.2

theorem noWorse_refl {k k' : KState D} (A : Agree g k' k) : NoWorse k k' :=
  ⟨A.balanced.2, fun _ _ => Or.inr ⟨A.comm, by rw [A.unbal]⟩, fun _ _ => Or.inr ⟨A.unbal, by rw [A.comm]⟩⟩

theorem noWorse_congr {k k' c : KState D} (A : Agree g c k) (h : NoWorse c k') : NoWorse k k' := by
  unfold NoWorse
  rw [A.balanced, A.comm, A.unbal]
  exact h

theorem selEnd_holds (C : g.Consistent) {r1 r2 : Int × KState D} (m1 : Mem g r1.2) (m2 : Mem g r2.2) (hx : r1.2.m.domnmax ≤ r2.2.m.domnmax) {s0 : KStore D} (S : Saved g r1.2 s0) :
    Holds (selEnd g r1.1 r2.1 s0 r2.2) (fun r => Selected g r1 r2 r ∧ Mem g r.2 ∧ r.2.m.domnmax = r2.2.m.domnmax) := by
  obtain ⟨o, k1⟩ := r1
  obtain ⟨o2, k⟩ := r2
  have m1 : Mem g k1 := m1
  have m2 : Mem g k := m2
  have S : Saved g k1 s0 := S
  have hx : k1.m.domnmax ≤ k.m.domnmax := hx
  have hc : (if o2 < o then o2 else o) = min o o2 := by
    split <;> omega
  show Holds (selEnd g o o2 s0 k) _
  unfold selEnd
  have key : Holds (selKeep g o o2 s0 k) (fun r => Selected g (o, k1) (o2, k) (min o o2, r) ∧ Mem g r ∧ r.m.domnmax = k.m.domnmax) := by
    unfold selKeep
    rw [Holds_ite]
    refine ⟨fun h0 => ?_, fun h0 => ?_⟩
    · have n1 := m1.nbr
      have n2 := m2.nbr
      have e1 := S.nbr
      rw [Holds_bind]
      refine (scan_holds (by omega) _ ?_).mono ?_
      · intro hp
        have := (S.avg (by omega)).1
        have := (S.dlt (by omega)).1
        omega
      rintro ⟨x0, u0⟩ ⟨hx0, hu0⟩
      have hx0 : x0 = true ↔ ¬ Balanced k1 := by
        rw [hx0, S.nbr, S.bal]
        refine not_congr (forall_congr' fun i => forall_congr' fun i1 => forall_congr' fun i2 => ?_)
        rw [(S.avg (by omega)).2 i i1 i2, (S.dlt (by omega)).2 i i1 i2]
      have hu0 : u0 = unbal k1 := by
        show u0 = sumI 0 _ _
        rw [show u0 = _ from hu0, S.nbr]
        exact sumI_congr fun i i1 i2 => by rw [(S.dlt (by omega)).2 i i1 i2]
      dsimp only
      rw [Holds_bind]
      refine (scan_holds (by omega) _ ?_).mono ?_
      · intro hp
        have := m2.avg
        have := m2.dlt
        omega
      rintro ⟨x1, u1⟩ ⟨hx1, hu1⟩
      have hx1 : x1 = true ↔ ¬ Balanced k := hx1
      have hu1 : u1 = unbal k := hu1
      dsimp only
      have bt : ∀ (q : Int) (x : Bool), (decide (q ≠ 0) || x) = true ↔ (q ≠ 0 ∨ x = true) := fun q x => by rw [Bool.or_eq_true, decide_eq_true_iff]
      have bf : ∀ (q : Int) (x : Bool), (decide (q ≠ 0) || x) = false ↔ (q = 0 ∧ x = false) := fun q x => by rw [Bool.or_eq_false_iff, decide_eq_false_iff_not, Classical.not_not]
      have f0 : x0 = false ↔ Balanced k1 := by rw [← Bool.not_eq_true, hx0, Classical.not_not]
      have f1 : x1 = false ↔ Balanced k := by rw [← Bool.not_eq_true, hx1, Classical.not_not]
      have cm := S.comm
      rw [Holds_ite]
      refine ⟨fun hk => ?_, fun hk => ?_⟩
      · rw [keepSecond_iff, bt, bf, bf, bt, hx0, hx1, f0, f1, hu0, hu1, cm] at hk
        rw [Holds_pure]
        refine ⟨⟨rfl, Or.inr (Agree.refl k), ?_, ?_, fun _ _ _ => Agree.refl k⟩, m2, rfl⟩
        · intro z1 z2
          have z1 : o = 0 := z1
          have z2 : o2 = 0 := z2
          refine ⟨?_, noWorse_refl (g := g) (Agree.refl k)⟩
          show NoWorse k k1
          unfold NoWorse
          rcases hk with ⟨h1, -, h2⟩ | ⟨⟨-, h1⟩, ⟨-, h2⟩, h3⟩ | ⟨h1, h2, h3⟩
          · have h1 : ¬ Balanced k1 := h1.resolve_left (fun h => h z1)
            exact ⟨fun _ => h2, fun _ h => absurd h h1, fun h => absurd h2 h⟩
          · exact ⟨fun _ => h2, fun _ _ => by rcases h3 with h | ⟨h, h'⟩; exacts [Or.inl h, Or.inr ⟨h.symm, Int.le_of_lt h'⟩], fun h => absurd h2 h⟩
          · have h1 : ¬ Balanced k1 := h1.resolve_left (fun h => h z1)
            exact ⟨fun h => absurd h h1, fun _ h => absurd h h1, fun _ _ => by rcases h3 with h | ⟨h, h'⟩; exacts [Or.inl h, Or.inr ⟨h.symm, Int.le_of_lt h'⟩]⟩
        · intro z1 z2 hb
          have z1 : o = 0 := z1
          have z2 : o2 ≠ 0 := z2
          have hb : Balanced k1 := hb
          exfalso
          rcases hk with ⟨h1, h2, -⟩ | ⟨-, ⟨h2, -⟩, -⟩ | ⟨h1, -⟩
          · exact z2 h2
          · exact z2 h2
          · rcases h1 with h | h
            exacts [h z1, h hb]
      · rw [keepSecond_iff, bt, bf, bf, bt, hx0, hx1, f0, f1, hu0, hu1, cm] at hk
        refine (storeUpdt_holds C m1 m2 hx S).mono ?_
        rintro r ⟨A, mr, mx⟩
        refine ⟨⟨rfl, Or.inl A, ?_, fun _ _ _ => A, ?_⟩, mr, mx⟩
        · intro z1 z2
          have z1 : o = 0 := z1
          have z2 : o2 = 0 := z2
          refine ⟨noWorse_refl A, ?_⟩
          refine noWorse_congr A ?_
          show NoWorse k1 k
          refine ⟨fun h => Classical.byContradiction fun h1 => hk (Or.inl ⟨Or.inr h1, z2, h⟩), fun h1 h2 => ?_, fun h1 h2 => ?_⟩
          · have : ¬ (k1.commload > k.commload ∨ (k1.commload = k.commload ∧ unbal k1 > unbal k)) := fun h => hk (Or.inr (Or.inl ⟨⟨z1, h1⟩, ⟨z2, h2⟩, h⟩))
            omega
          · have : ¬ (unbal k1 > unbal k ∨ (unbal k1 = unbal k ∧ k1.commload > k.commload)) := fun h => hk (Or.inr (Or.inr ⟨Or.inr h1, Or.inr h2, h⟩))
            omega
        · intro z1 z2 hb
          exact absurd (Or.inl ⟨Or.inl z1, z2, hb⟩) hk
    · rw [Holds_pure]
      refine ⟨⟨rfl, Or.inr (Agree.refl k), fun h => absurd (Or.inl h) h0, fun h => absurd (Or.inl h) h0, fun _ _ _ => Agree.refl k⟩, m2, rfl⟩
  rw [Holds_bind]
  refine key.mono ?_
  intro r h
  rw [Holds_pure, hc]
  exact h

variable {F : D → D → Int} {junk : Path → Int → Int} {junkD : Path → Int → D}

/-- A selection. -/
theorem select_holds (C : g.Consistent) {s t : KStrat D} {sure1 sure2 init : Bool} (hs : ∀ p, MapMethod F g sure1 init (mapSt g junk junkD s p)) (ht : ∀ p, MapMethod F g sure2 init (mapSt g junk junkD t p)) (p : Path) {k : KState D}
    (hm : Mem g k) (hi : init = true → KValid F g k) :
    Holds (mapSt g junk junkD (.select s t) p k) (fun r => Mem g r.2 ∧ k.m.domnmax ≤ r.2.m.domnmax ∧ ∃ r1 k2 r2, mapSt g junk junkD s (1 :: p) k = .ok r1 ∧ KRes F g sure1 k r1 ∧ Agree g k k2 ∧ mapSt g junk junkD t (2 :: p) k2 = .ok r2 ∧
      KRes F g sure2 k2 r2 ∧ Selected g r1 r2 r) := by
  rw [mapSt, Holds_bind]
  refine (storeSave_holds C hm _ _).mono ?_
  intro s1 S1
  have h1 := hs (1 :: p) k hm hi
  rw [Holds_bind]
  cases e1 : mapSt g junk junkD s (1 :: p) k with
  | error e => rw [e1] at h1; exact False.elim h1
  | ok r1 =>
    rw [e1] at h1
    obtain ⟨o, k1⟩ := r1
    have R1 : KRes F g sure1 k (o, k1) := h1
    have m1 : Mem g k1 := R1.mem
    change Holds (storeSave g k1 _ >>= _) _
    rw [Holds_bind]
    refine (storeSave_holds C m1 _ _).mono ?_
    intro s0 S0
    rw [Holds_bind]
    refine (storeUpdt_holds C hm m1 R1.max S1).mono ?_
    rintro k2 ⟨A2, m2, x2⟩
    have h2 := ht (2 :: p) k2 m2 (fun h => A2.valid C (hi h))
    rw [Holds_bind]
    cases e2 : mapSt g junk junkD t (2 :: p) k2 with
    | error e => rw [e2] at h2; exact False.elim h2
    | ok r2 =>
      rw [e2] at h2
      obtain ⟨o2, k3⟩ := r2
      have R2 : KRes F g sure2 k2 (o2, k3) := h2
      have mx := R1.max
      have mx2 := R2.max
      change Holds (selEnd g o o2 s0 k3) _
      refine (selEnd_holds (r1 := (o, k1)) (r2 := (o2, k3)) C m1 R2.mem (by show k1.m.domnmax ≤ k3.m.domnmax; change k2.m.domnmax ≤ k3.m.domnmax at mx2; omega) S0).mono ?_
      rintro r ⟨S, mr, xr⟩
      refine ⟨mr, ?_, (o, k1), k2, (o2, k3), rfl, R1, A2, e2, R2, S⟩
      change k.m.domnmax ≤ k1.m.domnmax at mx
      change k2.m.domnmax ≤ k3.m.domnmax at mx2
      change r.2.m.domnmax = k3.m.domnmax at xr
      omega

theorem mapSt_holds (C : g.Consistent) : ∀ (s : KStrat D) (sure init : Bool), KGood F g sure init s → ∀ p, MapMethod F g sure init (mapSt g junk junkD s p) := by
  intro s
  induction s with
  | empty =>
    intro sure init hg p k hm hi
    rw [mapSt, Holds_pure]
    exact ⟨hm, Int.le_refl _, Or.inl rfl, fun _ => rfl, fun _ => hi hg⟩
  | concat s t ihs iht =>
    intro sure init hg p k hm hi
    rw [mapSt, Holds_bind]
    refine (ihs sure init hg.1 (1 :: p) k hm hi).mono ?_
    rintro ⟨o, k1⟩ R
    dsimp only
    rw [Holds_ite]
    refine ⟨fun h0 => ?_, fun h0 => ?_⟩
    · refine (iht sure true hg.2 (2 :: p) k1 R.mem (fun _ => R.valid h0)).mono ?_
      intro r R2
      exact ⟨R2.mem, Int.le_trans R.max R2.max, R2.code, R2.sure, R2.valid⟩
    · rw [Holds_pure]; exact R
  | cond c s t ihs iht =>
    intro sure init hg p k hm hi
    obtain ⟨g0, g1, g2⟩ := hg
    rw [mapSt]
    cases hc : c p k with
    | none => exact ⟨hm, Int.le_refl _, Or.inr rfl, fun h => absurd hc (g0 h p k), fun h => absurd (show (1 : Int) = 0 from h) (by decide)⟩
    | some x =>
      cases x
      · exact iht sure init g2 (2 :: p) k hm hi
      · exact ihs sure init g1 (1 :: p) k hm hi
  | cond1 c s ihs =>
    intro sure init hg p k hm hi
    obtain ⟨g0, g1, g2⟩ := hg
    rw [mapSt]
    cases hc : c p k with
    | none => exact ⟨hm, Int.le_refl _, Or.inr rfl, fun h => absurd hc (g1 h p k), fun h => absurd (show (1 : Int) = 0 from h) (by decide)⟩
    | some x =>
      cases x
      · exact ⟨hm, Int.le_refl _, Or.inl rfl, fun _ => rfl, fun _ => hi g0⟩
      · exact ihs sure init g2 (1 :: p) k hm hi
  | select s t ihs iht =>
    intro sure init hg p k hm hi
    refine (select_holds C (ihs true init hg.1) (iht true init hg.2) p hm hi).mono ?_
    rintro r ⟨mr, mx, r1, k2, r2, -, R1, -, -, R2, S⟩
    have z1 := R1.sure rfl
    have z2 := R2.sure rfl
    have z : r.1 = 0 := by rw [S.code, z1, z2]; rfl
    refine ⟨mr, mx, Or.inl z, fun _ => z, fun _ => ?_⟩
    rcases S.one with A | A
    · exact A.valid C (R1.valid z1)
    · exact A.valid C (R2.valid z2)
  | meth f =>
    intro sure init hg p k hm hi
    rw [mapSt]
    exact hg p k hm hi

end Scotch.Kmap
