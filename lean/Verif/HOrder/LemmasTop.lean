import Verif.HOrder.LemmasSt
import Verif.Order.Props

/-! # Ordering of a whole graph, or of a list of vertices: lemmas -/

set_option autoImplicit false
set_option linter.unusedSimpArgs false

namespace Scotch.HOrder
open Graph Cblk

theorem dropEdlo_cons {g : Graph} (hc : Consistent g) (he : g.edlosum = g.edgenbr) : Consistent (dropEdlo g) := by
  have hE : ConsE g := consE_iff.2 hc
  have hm : ∀ v (p : Int × Int), p ∈ (dropEdlo g).nbrs v ↔ Adj g v p.1 ∧ p.2 = 1 := by
    intro v p
    rw [mem_nbrs]
    constructor
    · rintro ⟨e, h1, h2, h3, h4⟩
      exact ⟨⟨e, h1, h2, h3⟩, h4.symm⟩
    · rintro ⟨⟨e, h1, h2, h3⟩, h4⟩
      exact ⟨e, h1, h2, h3, h4.symm⟩
  have hlen : ∀ v, ((dropEdlo g).nbrs v).length = (g.nbrs v).length := by
    intro v; unfold nbrs; rw [List.length_map, List.length_map]; rfl
  refine ⟨hc.vertnbr, hc.vertnnd, hc.range, ?_, ?_, ?_, ?_, hc.velo, hc.velosum, ?_, ?_, hc.degrmax.1, ?_⟩
  · intro v p hv hp
    have := ((hm v p).1 hp).1
    obtain ⟨x, hx, hx2⟩ : ∃ x, x ∈ g.nbrs v ∧ x.1 = p.1 := by
      exact (adj_iff _ _).1 this
    have h := hc.inside v x hv hx
    rw [hx2] at h
    exact h
  · intro v p hv hp
    obtain ⟨h1, h2⟩ := (hm v p).1 hp
    rw [hm]
    exact ⟨hE.adj_symm hv h1, h2⟩
  · intro v hv
    have : ((dropEdlo g).nbrs v).map Prod.fst = (g.nbrs v).map Prod.fst := by
      unfold nbrs
      rw [List.map_map, List.map_map]
      rfl
    rw [this]
    exact hc.simple v hv
  · show g.edgenbr = _
    rw [hc.edgenbr]
    refine sumI_congr (fun v _ _ => ?_)
    rw [hlen]
  · intro v p hv hp
    rw [((hm v p).1 hp).2]
    omega
  · show g.edlosum = _
    rw [he, hc.edgenbr]
    refine sumI_congr (fun v _ _ => ?_)
    rw [← hlen]
    have : ((dropEdlo g).nbrs v).map Prod.snd = List.replicate ((dropEdlo g).nbrs v).length 1 := by
      rw [List.eq_replicate_iff]
      refine ⟨List.length_map .., ?_⟩
      intro x hx
      obtain ⟨p, hp, rfl⟩ := List.mem_map.1 hx
      exact ((hm v p).1 hp).2
    rw [this]
    simp
  · intro v hv
    rw [hlen]
    exact hc.degrmax.2 v hv

theorem dropEdlo_alloc {g : Graph} (ha : Allocated g) : Allocated (dropEdlo g) :=
  ⟨ha.vlo, ha.vhi, ha.vhi', ha.ends, ha.velo, ha.vnum, ha.vlbl, ha.edge, fun a h => by cases h⟩

theorem ofList_get (l : List Int) (i : Nat) (hi : i < l.length) : (Arr.ofList 0 l).get i = l[i] := by
  show (if (i : Int) < 0 then default else l.getD ((i : Int) - 0).toNat default) = l[i]
  rw [if_neg (by omega), show ((i : Int) - 0).toNat = i by omega, List.getD_eq_getElem?_getD, List.getElem?_eq_getElem hi]; rfl

/-- The other vertices are put at the end of the inverse permutation. -/
theorem listTail_holds {g : Graph} (hc : Consistent g) {l : List Int} (hnd : l.Nodup) (hl : ∀ v ∈ l, g.Vertex v) {peri : Arr Int} (h1 : peri.lo ≤ 0) (h2 : g.vertnbr ≤ peri.hi) :
    Holds (listTail g l peri) (fun p => p.lo = peri.lo ∧ p.hi = peri.hi ∧ ((∀ v, g.Vertex v → v ∈ l) → (l.length : Int) = g.vertnbr) ∧ (l.length : Int) ≤ g.vertnbr ∧
      (∀ i, (l.length : Int) ≤ i → i < g.vertnbr → g.Vertex (p.get i) ∧ p.get i ∉ l) ∧
      (∀ i j, (l.length : Int) ≤ i → i < g.vertnbr → (l.length : Int) ≤ j → j < g.vertnbr → p.get i = p.get j → i = j)) := by
  have hnn := hc.vertnnd
  have hn0 := hc.vertnbr
  unfold listTail
  dsimp only
  rw [Holds_bind]
  refine Holds_forUp (fun k (p : Arr Int) => p.lo = peri.lo ∧ p.hi = peri.hi ∧ ∀ i, 0 ≤ i → i < k → p.get i = 0) hn0 ⟨rfl, rfl, fun i i1 i2 => by omega⟩ ?_ ?_
  · rintro k p k1 k2 ⟨p1, p2, p3⟩
    rw [Arr.wr_ok _ _ (by omega) (by omega), Holds_ok]
    refine ⟨p1, p2, ?_⟩
    intro i i1 i2
    by_cases hi : i = k
    · rw [hi, Arr.set_get_same]
    · rw [Arr.set_get_ne _ _ hi]; exact p3 i i1 (by omega)
  rintro p ⟨p1, p2, p3⟩
  rw [Holds_bind]
  refine Holds_forUp (fun k (p : Arr Int) => p.lo = peri.lo ∧ p.hi = peri.hi ∧ ∀ v, g.Vertex v → ((p.get (v - g.baseval) = 0 ∧ v ∉ l.take k.toNat) ∨ (p.get (v - g.baseval) = -1 ∧ v ∈ l.take k.toNat)))
    (by omega) ⟨p1, p2, ?_⟩ ?_ ?_
  · rintro v ⟨v1, v2⟩
    left
    refine ⟨p3 _ (by omega) (by omega), ?_⟩
    simp
  · rintro k p k1 k2 ⟨p1, p2, p3⟩
    obtain ⟨i, rfl⟩ : ∃ i : Nat, k = i := ⟨k.toNat, by omega⟩
    have hi : i < l.length := by omega
    rw [Arr.rd_ok _ (by show (0 : Int) ≤ _; omega) (by show _ < (0 : Int) + l.length; omega), ok_bind, ofList_get l i hi]
    have hv := hl _ (List.getElem_mem hi)
    have hv1 := hv.1
    have hv2 := hv.2
    rw [Arr.wr_ok _ _ (by omega) (by omega), Holds_ok]
    refine ⟨p1, p2, ?_⟩
    intro v hvv
    rw [show ((i : Int) + 1).toNat = i + 1 by omega, List.take_succ_eq_append_getElem hi, List.mem_append, List.mem_singleton]
    by_cases hvi : v = l[i]
    · right
      rw [hvi, Arr.set_get_same]
      exact ⟨rfl, Or.inr rfl⟩
    · rw [Arr.set_get_ne _ _ (by omega)]
      have := p3 v hvv
      rw [show ((i : Nat) : Int).toNat = i by omega] at this
      rcases this with ⟨q1, q2⟩ | ⟨q1, q2⟩
      · left; exact ⟨q1, fun h => h.elim q2 hvi⟩
      · right; exact ⟨q1, Or.inl q2⟩
  rintro p ⟨p1, p2, p3⟩
  rw [show ((l.length : Int)).toNat = l.length by omega, List.take_length] at p3
  rw [Holds_bind]
  refine Holds_forUp (fun k (s : Arr Int × Int) => s.1.lo = peri.lo ∧ s.1.hi = peri.hi ∧ g.vertnnd - 1 - k ≤ s.2 ∧ s.2 < g.vertnnd ∧ (∀ i, i + g.baseval < g.vertnnd - k → s.1.get i = p.get i) ∧
      Enum ⟨0, g.vertnbr, fun j => s.1.get (g.vertnbr - 1 - j)⟩ (g.vertnnd - 1 - s.2) (fun v => g.vertnnd - k ≤ v ∧ v < g.vertnnd ∧ v ∉ l)) hn0
    ⟨p1, p2, by dsimp only; omega, by dsimp only; omega, fun _ _ => rfl, ?_⟩ ?_ ?_
  · dsimp only
    rw [show g.vertnnd - 1 - (g.vertnnd - 1) = 0 by omega]
    exact (Enum.empty _).congr (fun v => ⟨False.elim, fun ⟨a, b, _⟩ => by omega⟩)
  · rintro k ⟨q, hal⟩ k1 k2 ⟨q1, q2, q3, q4, q5, q6⟩
    dsimp only at q1 q2 q3 q4 q5 q6 ⊢
    rw [Arr.rd_ok _ (by omega) (by omega), ok_bind]
    have hv : g.Vertex (g.vertnnd - 1 - k) := ⟨by omega, by omega⟩
    rw [q5 _ (by omega)]
    rcases p3 _ hv with ⟨z1, z2⟩ | ⟨z1, z2⟩
    · rw [if_pos z1, Arr.wr_ok _ _ (by omega) (by omega), ok_bind, Holds_pure]
      refine ⟨q1, q2, by dsimp only; omega, by dsimp only; omega, ?_, ?_⟩
      · intro i hi
        dsimp only
        rw [Arr.set_get_ne _ _ (by omega)]
        exact q5 i (by omega)
      · have hp := q6.push (x := g.vertnnd - 1 - k) (fun h => by omega)
        dsimp only
        rw [show g.vertnnd - 1 - (hal - 1) = g.vertnnd - 1 - hal + 1 by omega]
        refine (hp.agree ?_).congr ?_
        · intro i i1 i2
          dsimp only
          by_cases hi : i = g.vertnnd - 1 - hal
          · rw [hi, Arr.set_get_same, show g.vertnbr - 1 - (g.vertnnd - 1 - hal) = hal - g.baseval by omega, Arr.set_get_same]
          · rw [Arr.set_get_ne _ _ hi, Arr.set_get_ne _ _ (by omega)]
        · intro v
          constructor
          · rintro (⟨a, b, c⟩ | rfl)
            · exact ⟨by omega, b, c⟩
            · exact ⟨by omega, by omega, z2⟩
          · rintro ⟨a, b, c⟩
            by_cases hvk : v = g.vertnnd - 1 - k
            · exact Or.inr hvk
            · exact Or.inl ⟨by omega, b, c⟩
    · rw [if_neg (by omega), Holds_pure]
      refine ⟨q1, q2, by dsimp only; omega, q4, fun i hi => q5 i (by omega), q6.congr ?_⟩
      intro v
      constructor
      · rintro ⟨a, b, c⟩; exact ⟨by omega, b, c⟩
      · rintro ⟨a, b, c⟩
        refine ⟨?_, b, c⟩
        have : v ≠ g.vertnnd - 1 - k := by rintro rfl; exact c z2
        omega
  · rintro ⟨q, hal⟩ ⟨q1, q2, q3, q4, q5, q6⟩
    dsimp only at q1 q2 q3 q4 q5 q6 ⊢
    rw [Holds_pure]
    have hk0 := q6.1
    -- count
    have hcnt : Enum ⟨0, 0, fun i => if i < g.vertnnd - 1 - hal then q.get (g.vertnbr - 1 - i) else (Arr.ofList 0 l).get (i - (g.vertnnd - 1 - hal))⟩ (g.vertnnd - 1 - hal + l.length) (fun v => g.Vertex v) := by
      refine ⟨by omega, ?_, ?_⟩
      · intro i j i1 i2 j1 j2 he
        dsimp only at he
        have key : ∀ i j, 0 ≤ i → i < g.vertnnd - 1 - hal → g.vertnnd - 1 - hal ≤ j → j < g.vertnnd - 1 - hal + l.length → q.get (g.vertnbr - 1 - i) ≠ (Arr.ofList 0 l).get (j - (g.vertnnd - 1 - hal)) := by
          intro i j i1 i2 j1 j2 he
          have hm := q6.mem (i := i) i1 i2
          dsimp only at hm
          rw [he, show j - (g.vertnnd - 1 - hal) = ((j - (g.vertnnd - 1 - hal)).toNat : Int) by omega, ofList_get l _ (by omega)] at hm
          exact hm.2.2 (List.getElem_mem _)
        by_cases hi : i < g.vertnnd - 1 - hal
        · by_cases hj : j < g.vertnnd - 1 - hal
          · rw [if_pos hi, if_pos hj] at he
            exact q6.2.1 i j i1 hi j1 hj he
          · rw [if_pos hi, if_neg hj] at he
            exact absurd he (key i j i1 hi (by omega) j2)
        · by_cases hj : j < g.vertnnd - 1 - hal
          · rw [if_neg hi, if_pos hj] at he
            exact absurd he.symm (key j i j1 hj (by omega) i2)
          · rw [if_neg hi, if_neg hj, show i - (g.vertnnd - 1 - hal) = ((i - (g.vertnnd - 1 - hal)).toNat : Int) by omega, ofList_get l _ (by omega),
              show j - (g.vertnnd - 1 - hal) = ((j - (g.vertnnd - 1 - hal)).toNat : Int) by omega, ofList_get l _ (by omega), hnd.getElem_inj_iff] at he
            omega
      · intro v
        constructor
        · intro hv
          by_cases hvl : v ∈ l
          · obtain ⟨i, hi, rfl⟩ := List.mem_iff_getElem.1 hvl
            refine ⟨g.vertnnd - 1 - hal + i, by omega, by omega, ?_⟩
            dsimp only
            rw [if_neg (by omega), show g.vertnnd - 1 - hal + (i : Int) - (g.vertnnd - 1 - hal) = i by omega, ofList_get l i hi]
          · obtain ⟨i, i1, i2, i3⟩ := (q6.2.2 v).1 ⟨by have := hv.1; omega, hv.2, hvl⟩
            exact ⟨i, i1, by omega, by dsimp only; rw [if_pos i2]; exact i3⟩
        · rintro ⟨i, i1, i2, rfl⟩
          dsimp only
          by_cases hi : i < g.vertnnd - 1 - hal
          · rw [if_pos hi]
            have hm := q6.mem i1 hi
            exact ⟨by have := hm.1; dsimp only at this ⊢; omega, hm.2.1⟩
          · rw [if_neg hi, show i - (g.vertnnd - 1 - hal) = ((i - (g.vertnnd - 1 - hal)).toNat : Int) by omega, ofList_get l _ (by omega)]
            exact hl _ (List.getElem_mem _)
    have hle := hcnt.le (lo := g.baseval) (hi := g.vertnnd) (by omega) (fun v hv => hv)
    have hge := enum_ge hcnt (lo := g.baseval) (hi := g.vertnnd) (by omega) (fun v v1 v2 => ⟨v1, v2⟩)
    refine ⟨q1, q2, ?_, by omega, ?_, ?_⟩
    · intro hall
      apply Classical.byContradiction
      intro hne
      have hm := q6.mem (i := 0) (by omega) (by omega)
      exact hm.2.2 (hall _ ⟨by have := hm.1; omega, hm.2.1⟩)
    · intro i i1 i2
      have hm := q6.mem (i := g.vertnbr - 1 - i) (by omega) (by omega)
      dsimp only at hm
      rw [show g.vertnbr - 1 - (g.vertnbr - 1 - i) = i by omega] at hm
      exact ⟨⟨by omega, hm.2.1⟩, hm.2.2⟩
    · intro i j i1 i2 j1 j2 he
      have := q6.2.1 (g.vertnbr - 1 - i) (g.vertnbr - 1 - j) (by omega) (by omega) (by omega) (by omega) (by
        dsimp only
        rw [show g.vertnbr - 1 - (g.vertnbr - 1 - i) = i by omega, show g.vertnbr - 1 - (g.vertnbr - 1 - j) = j by omega]
        exact he)
      omega

end Scotch.HOrder
