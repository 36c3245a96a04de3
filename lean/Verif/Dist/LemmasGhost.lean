import Verif.Dist.LemmasArc

/-! # Distributed graphs: numbering of ghost vertices -/

set_option autoImplicit false
set_option linter.unusedSimpArgs false

namespace Scotch.Dist
open Local

/-- Items of a list owned by process `q`. -/
def part (vrt : Arr Int) (W : List Int) (q : Int) : List Int := W.filter fun w => decide (vrt.get q ≤ w ∧ w < vrt.get (q + 1))

theorem part_push (vrt : Arr Int) (W : List Int) (q x : Int) :
    part vrt (W ++ [x]) q = part vrt W q ++ if vrt.get q ≤ x ∧ x < vrt.get (q + 1) then [x] else [] := by
  unfold part
  rw [List.filter_append]
  congr 1
  by_cases h : vrt.get q ≤ x ∧ x < vrt.get (q + 1)
  · rw [if_pos h]; simp [h]
  · rw [if_neg h]; simp only [List.filter_cons, h, decide_false]; rfl

theorem part_nil_iff {vrt : Arr Int} {W : List Int} {q : Int} : part vrt W q ≠ [] ↔ ∃ w, w ∈ W ∧ vrt.get q ≤ w ∧ w < vrt.get (q + 1) := by
  unfold part
  rw [ne_eq, List.filter_eq_nil_iff]
  constructor
  · intro h
    refine Classical.byContradiction fun hn => h fun a ha hp => hn ⟨a, ha, by simpa using hp⟩
  · rintro ⟨w, w1, w2⟩ h
    exact h w w1 (by simpa using w2)

/-- Remote arcs, sorted by their ends. -/
structure Sorted (L : Local) (r : Arr (Int × Int)) (n : Int) : Prop where
  lo : r.lo ≤ 0
  hi : n ≤ r.hi
  asc : ∀ i j, 0 ≤ i → i < j → j < n → (r.get i).1 ≤ (r.get j).1
  cell : ∀ j, 0 ≤ j → j < n → (r.get j).1 = L.g.dest (r.get j).2 ∧ L.Remote (r.get j).1
  rng : ∀ j, 0 ≤ j → j < n → L.procvrttab.get 0 ≤ (r.get j).1 ∧ (r.get j).1 < L.procvrttab.get L.procglbnbr

/-- The first `j` arcs have been handled, and `W` contains their ends. -/
structure Seen (L : Local) (r : Arr (Int × Int)) (g0 gst : Arr Int) (j : Int) (W : List Int) : Prop where
  lo : gst.lo = g0.lo
  hi : gst.hi = g0.hi
  asc : W.Pairwise (· < ·)
  mem : ∀ w, w ∈ W ↔ ∃ i, 0 ≤ i ∧ i < j ∧ (r.get i).1 = w
  idx : ∀ i, 0 ≤ i → i < j → ∃ k, ∃ _ : k < W.length, gst.get (r.get i).2 = L.g.vertnnd + k ∧ W[k] = (r.get i).1
  keep : ∀ a, ¬ L.Remote (L.g.dest a) → gst.get a = g0.get a

theorem Seen.fresh {L : Local} {r : Arr (Int × Int)} {g0 gst : Arr Int} {j n : Int} {W : List Int} (hr : Sorted L r n) (h : Seen L r g0 gst j W)
    (j1 : 0 ≤ j) (j2 : j < n) (hn : ∀ w, w ∈ W → w < (r.get j).1) :
    Seen L r g0 (gst.set (r.get j).2 (L.g.vertnnd + W.length)) (j + 1) (W ++ [(r.get j).1]) where
  lo := h.lo
  hi := h.hi
  asc := by
    rw [List.pairwise_append]
    exact ⟨h.asc, List.pairwise_singleton _ _, fun a ha b hb => by rw [List.mem_singleton] at hb; rw [hb]; exact hn a ha⟩
  mem := by
    intro w
    rw [List.mem_append, List.mem_singleton, h.mem]
    constructor
    · rintro (⟨i, i1, i2, i3⟩ | hw)
      · exact ⟨i, i1, by omega, i3⟩
      · exact ⟨j, j1, by omega, hw.symm⟩
    · rintro ⟨i, i1, i2, i3⟩
      by_cases hij : i = j
      · subst hij; exact Or.inr i3.symm
      · exact Or.inl ⟨i, i1, by omega, i3⟩
  idx := by
    intro i i1 i2
    rw [Arr.set_get]
    by_cases hs : (r.get i).2 = (r.get j).2
    · rw [if_pos hs]
      have : (r.get i).1 = (r.get j).1 := by rw [(hr.cell i i1 (by omega)).1, (hr.cell j j1 j2).1, hs]
      exact ⟨W.length, by simp, rfl, by rw [this]; simp⟩
    · rw [if_neg hs]
      have hij : i ≠ j := fun e => hs (by rw [e])
      obtain ⟨k, k1, k2, k3⟩ := h.idx i i1 (by omega)
      exact ⟨k, by rw [List.length_append]; omega, k2, by rw [List.getElem_append_left k1]; exact k3⟩
  keep := by
    intro a ha
    rw [Arr.set_get_ne _ _ ?_]
    · exact h.keep a ha
    · intro e
      have := hr.cell j j1 j2
      rw [e, ← this.1] at ha
      exact ha this.2

theorem Seen.again {L : Local} {r : Arr (Int × Int)} {g0 gst : Arr Int} {j n : Int} {W : List Int} (hr : Sorted L r n) (h : Seen L r g0 gst j W)
    (j1 : 0 ≤ j) (j2 : j < n) {k : Nat} (hk : k < W.length) (hw : W[k] = (r.get j).1) :
    Seen L r g0 (gst.set (r.get j).2 (L.g.vertnnd + k)) (j + 1) W where
  lo := h.lo
  hi := h.hi
  asc := h.asc
  mem := by
    intro w
    rw [h.mem]
    constructor
    · rintro ⟨i, i1, i2, i3⟩
      exact ⟨i, i1, by omega, i3⟩
    · rintro ⟨i, i1, i2, i3⟩
      by_cases hij : i = j
      · subst hij
        exact (h.mem w).1 (by rw [← i3, ← hw]; exact List.getElem_mem hk)
      · exact ⟨i, i1, by omega, i3⟩
  idx := by
    intro i i1 i2
    rw [Arr.set_get]
    by_cases hs : (r.get i).2 = (r.get j).2
    · rw [if_pos hs]
      have : (r.get i).1 = (r.get j).1 := by rw [(hr.cell i i1 (by omega)).1, (hr.cell j j1 j2).1, hs]
      exact ⟨k, hk, rfl, by rw [this]; exact hw⟩
    · rw [if_neg hs]
      have hij : i ≠ j := fun e => hs (by rw [e])
      exact h.idx i i1 (by omega)
  keep := by
    intro a ha
    rw [Arr.set_get_ne _ _ ?_]
    · exact h.keep a ha
    · intro e
      have := hr.cell j j1 j2
      rw [e, ← this.1] at ha
      exact ha this.2

theorem ghstProc_holds {L : Local} (hL : L.Ok) {x p : Int} {fuel : Nat} (h0 : -1 ≤ p) (hp : p < L.procglbnbr) (h1 : L.procvrttab.get (p + 1) ≤ x) (h2 : x < L.procvrttab.get L.procglbnbr)
    (hf : L.procglbnbr < fuel) : Holds (ghstProc L.procvrttab x fuel p) (fun q => p < q ∧ Own L.procvrttab L.procglbnbr q x) := by
  unfold ghstProc
  have hvl := hL.vlo
  have hvh := hL.vhi
  refine Holds_loopM (I := fun q => p ≤ q ∧ q < L.procglbnbr ∧ L.procvrttab.get (q + 1) ≤ x) (μ := fun q => (L.procglbnbr - 1 - q).toNat) ?_ _ _ ⟨by omega, hp, h1⟩ (by omega)
  rintro q ⟨i1, i2, i3⟩
  have hne : q + 1 ≠ L.procglbnbr := by intro e; rw [e] at i3; omega
  simp only [Holds_bind, Holds_rd, Holds_ite, Holds_pure]
  refine ⟨by omega, fun h => ⟨⟨by omega, by omega, h⟩, by omega⟩, fun h => ⟨by omega, ⟨by omega, by omega⟩, i3, by omega⟩⟩

/-- Ghost data built for the list `W` of ends. -/
structure Blocks (L : Local) (snd : Arr Int) (W : List Int) (s : Ghst2) : Prop where
  rlo : s.procrcvtab.lo = 0
  rhi : s.procrcvtab.hi = L.procglbnbr
  nlo : s.procngbtab.lo ≤ 0
  nhi : L.procglbnbr ≤ s.procngbtab.hi
  n0 : 0 ≤ s.procngbnbr
  nb : s.procngbnbr ≤ s.procngbnum + 1
  nasc : ∀ i j, 0 ≤ i → i < j → j < s.procngbnbr → s.procngbtab.get i < s.procngbtab.get j
  nrng : ∀ i, 0 ≤ i → i < s.procngbnbr → 0 ≤ s.procngbtab.get i ∧ s.procngbtab.get i ≤ s.procngbnum
  ngb : ∀ q, 0 ≤ q → q < L.procglbnbr → (part L.procvrttab W q ≠ [] ↔ ∃ i, 0 ≤ i ∧ i < s.procngbnbr ∧ s.procngbtab.get i = q)
  sum : s.procsndnbr = sumI 0 (s.procngbnum + 1) snd.get

/-- State in the inner loop. -/
structure Inner (L : Local) (snd : Arr Int) (r : Arr (Int × Int)) (n : Int) (g0 : Arr Int) (s : Ghst2) (W : List Int) : Prop where
  j1 : 0 ≤ s.sortlocnum
  j2 : s.sortlocnum < n
  seen : Seen L r g0 s.edgegsttax (s.sortlocnum + 1) W
  num : s.vertgstnum + 1 = L.g.vertnnd + W.length
  own : Own L.procvrttab L.procglbnbr s.procngbnum (r.get s.sortlocnum).1
  bas : s.vertgstbas = L.g.vertnnd + W.length - (part L.procvrttab W s.procngbnum).length
  rcv : ∀ q, 0 ≤ q → q < L.procglbnbr → q ≠ s.procngbnum → s.procrcvtab.get q = (part L.procvrttab W q).length
  blk : Blocks L snd W s

/-- State in the outer loop. -/
structure Outer (L : Local) (snd : Arr Int) (r : Arr (Int × Int)) (n : Int) (g0 : Arr Int) (s : Ghst2) (W : List Int) : Prop where
  j1 : 0 ≤ s.sortlocnum
  j2 : s.sortlocnum < n
  seen : Seen L r g0 s.edgegsttax s.sortlocnum W
  num : s.vertgstnum = L.g.vertnnd + W.length
  p1 : -1 ≤ s.procngbnum
  p2 : s.procngbnum < L.procglbnbr
  past : ∀ w, w ∈ W → w < L.procvrttab.get (s.procngbnum + 1)
  next : L.procvrttab.get (s.procngbnum + 1) ≤ (r.get s.sortlocnum).1
  rcv : ∀ q, 0 ≤ q → q < L.procglbnbr → s.procrcvtab.get q = (part L.procvrttab W q).length
  blk : Blocks L snd W s

/-- State after the loops, except for the last block. -/
structure Last (L : Local) (snd : Arr Int) (r : Arr (Int × Int)) (n : Int) (g0 : Arr Int) (s : Ghst2) (W : List Int) : Prop where
  seen : Seen L r g0 s.edgegsttax n W
  num : s.vertgstnum + 1 = L.g.vertnnd + W.length
  p : 0 ≤ s.procngbnum ∧ s.procngbnum < L.procglbnbr
  bas : s.vertgstbas = L.g.vertnnd + W.length - (part L.procvrttab W s.procngbnum).length
  rcv : ∀ q, 0 ≤ q → q < L.procglbnbr → q ≠ s.procngbnum → s.procrcvtab.get q = (part L.procvrttab W q).length
  blk : Blocks L snd W s
  top : ∀ w, w ∈ W → w < L.procvrttab.get (s.procngbnum + 1)

theorem Seen.le {L : Local} {r : Arr (Int × Int)} {g0 gst : Arr Int} {j n : Int} {W : List Int} (hr : Sorted L r n) (h : Seen L r g0 gst (j + 1) W) (hj : 0 ≤ j) (hjn : j < n) :
    (∀ w, w ∈ W → w ≤ (r.get j).1) ∧ (r.get j).1 ∈ W := by
  constructor
  · intro w hw
    obtain ⟨i, i1, i2, i3⟩ := (h.mem w).1 hw
    by_cases hij : i = j
    · subst hij; omega
    · have := hr.asc i j i1 (by omega) hjn; omega
  · exact (h.mem _).2 ⟨j, hj, by omega, rfl⟩

/-- The largest item of an ascending list is the last one. -/
theorem last_of {W : List Int} {x : Int} (ha : W.Pairwise (· < ·)) (hle : ∀ w, w ∈ W → w ≤ x) (hm : x ∈ W) : ∃ h : W.length - 1 < W.length, W[W.length - 1] = x := by
  obtain ⟨k, k1, k2⟩ := List.getElem_of_mem hm
  refine ⟨by omega, ?_⟩
  by_cases hk : k = W.length - 1
  · subst hk; exact k2
  · have := List.pairwise_iff_getElem.1 ha k (W.length - 1) k1 (by omega) (by omega)
    have := hle _ (List.getElem_mem (by omega : W.length - 1 < W.length))
    omega

theorem ghstInner_holds {L : Local} (hL : L.Ok) {snd : Arr Int} {r : Arr (Int × Int)} {n : Int} {g0 : Arr Int} {s : Ghst2} {W : List Int} (hr : Sorted L r n)
    (hg : ∀ j, 0 ≤ j → j < n → g0.lo ≤ (r.get j).2 ∧ (r.get j).2 < g0.hi) (hI : Inner L snd r n g0 s W) :
    Holds (ghstInner L.procvrttab r n s) (Loop.Sat (fun t => (∃ W', Inner L snd r n g0 t W') ∧ t.procngbnum = s.procngbnum ∧ t.sortlocnum = s.sortlocnum + 1)
      (fun t => t.procngbnum = s.procngbnum ∧ ((∃ W', Outer L snd r n g0 t W') ∨ (t.sortlocnum = n ∧ ∃ W', Last L snd r n g0 t W')))) := by
  obtain ⟨hle, hmem⟩ := hI.seen.le hr hI.j1 hI.j2
  have hvl := hL.vlo
  have hvh := hL.vhi
  have hrl := hr.lo
  have hrh := hr.hi
  have j1 := hI.j1
  have j2 := hI.j2
  have hown := hI.own
  unfold ghstInner
  dsimp only
  rw [Holds_ite]
  refine ⟨fun hend => ?_, fun hend => ?_⟩
  · rw [Holds_pure, Loop.Sat_brk]
    have e : s.sortlocnum + 1 = n := by omega
    refine ⟨rfl, Or.inr ⟨by dsimp only; omega, W, ⟨by rw [← e]; exact hI.seen, hI.num, hown.1, hI.bas, hI.rcv, ?_, ?_⟩⟩⟩
    · obtain ⟨b1, b2, b3, b4, b5, b6, b7, b8, b9, b10⟩ := hI.blk
      exact ⟨b1, b2, b3, b4, b5, b6, b7, b8, b9, b10⟩
    · intro w hw
      have := hle w hw
      have := hown.2.2
      dsimp only
      omega
  · have hjn : s.sortlocnum + 1 < n := by omega
    have hasc := hr.asc s.sortlocnum (s.sortlocnum + 1) j1 (by omega) hjn
    have hgj := hg (s.sortlocnum + 1) (by omega) hjn
    have hglo := hI.seen.lo
    have hghi := hI.seen.hi
    simp only [Holds_bind, Holds_rd]
    refine ⟨by omega, by omega, ?_⟩
    rw [show s.sortlocnum + 1 - 1 = s.sortlocnum by omega, Holds_ite]
    refine ⟨fun hne => ?_, fun heq => ?_⟩
    · have hlt : ∀ w, w ∈ W → w < (r.get (s.sortlocnum + 1)).1 := fun w hw => by have := hle w hw; omega
      have hp := hown.1
      simp only [Holds_bind, Holds_rd, Holds_ite, Holds_wr, Holds_pure, Loop.Sat_brk, Loop.Sat_next]
      refine ⟨by omega, fun hnx => ⟨by rw [hI.blk.rlo, hI.blk.rhi]; exact hp, trivial, Or.inl ⟨W, ?_⟩⟩, fun hnx => ⟨by omega, ⟨W ++ [(r.get (s.sortlocnum + 1)).1], ?_⟩, trivial, trivial⟩⟩
      · obtain ⟨b1, b2, b3, b4, b5, b6, b7, b8, b9, b10⟩ := hI.blk
        refine ⟨by dsimp only; omega, hjn, hI.seen, by dsimp only; exact hI.num, by dsimp only; omega, by dsimp only; omega, ?_, hnx, ?_, ⟨b1, b2, b3, b4, b5, b6, b7, b8, b9, b10⟩⟩
        · intro w hw
          have := hle w hw
          have := hown.2.2
          dsimp only
          omega
        · intro q q1 q2
          dsimp only
          by_cases hqp : q = s.procngbnum
          · subst hqp
            rw [Arr.set_get_same]
            have := hI.num
            have := hI.bas
            omega
          · rw [Arr.set_get_ne _ _ hqp]
            exact hI.rcv q q1 q2 hqp
      · have hfresh := hI.seen.fresh hr (by omega) hjn hlt
        have hin : L.procvrttab.get s.procngbnum ≤ (r.get (s.sortlocnum + 1)).1 ∧ (r.get (s.sortlocnum + 1)).1 < L.procvrttab.get (s.procngbnum + 1) := by
          have := hown.2.1
          omega
        have hpart : ∀ q, 0 ≤ q → q < L.procglbnbr → q ≠ s.procngbnum → part L.procvrttab (W ++ [(r.get (s.sortlocnum + 1)).1]) q = part L.procvrttab W q := by
          intro q q1 q2 hqp
          rw [part_push, if_neg, List.append_nil]
          intro hq
          exact hqp (Own.unique hL ⟨⟨q1, q2⟩, hq⟩ ⟨hp, hin⟩)
        have hnum := hI.num
        refine ⟨by dsimp only; omega, hjn, ?_, ?_, ⟨hp, hin⟩, ?_, ?_, ?_⟩
        · dsimp only
          rw [hnum]
          exact hfresh
        · dsimp only
          rw [List.length_append, List.length_singleton]
          omega
        · dsimp only
          rw [part_push, if_pos hin, List.length_append, List.length_append, List.length_singleton]
          have := hI.bas
          omega
        · intro q q1 q2 hqp
          dsimp only
          rw [hpart q q1 q2 hqp]
          exact hI.rcv q q1 q2 hqp
        · obtain ⟨b1, b2, b3, b4, b5, b6, b7, b8, b9, b10⟩ := hI.blk
          refine ⟨b1, b2, b3, b4, b5, b6, b7, b8, ?_, b10⟩
          intro q q1 q2
          by_cases hqp : q = s.procngbnum
          · subst hqp
            rw [← b9 _ q1 q2]
            constructor
            · intro _
              exact part_nil_iff.2 ⟨_, hmem, hown.2⟩
            · intro _
              exact part_nil_iff.2 ⟨_, by simp, hin⟩
          · rw [hpart q q1 q2 hqp]
            exact b9 q q1 q2
    · have heq : (r.get (s.sortlocnum + 1)).1 = (r.get s.sortlocnum).1 := Classical.byContradiction fun h => heq h
      simp only [Holds_bind, Holds_wr, Holds_pure, Loop.Sat_next]
      obtain ⟨hk, hlast⟩ := last_of hI.seen.asc hle hmem
      have hagain := hI.seen.again hr (by omega) hjn hk (by rw [heq]; exact hlast)
      have hnum := hI.num
      have hv : L.g.vertnnd + ((W.length - 1 : Nat) : Int) = s.vertgstnum := by omega
      rw [hv] at hagain
      obtain ⟨b1, b2, b3, b4, b5, b6, b7, b8, b9, b10⟩ := hI.blk
      exact ⟨by omega, ⟨W, ⟨by dsimp only; omega, hjn, hagain, hnum, by dsimp only; rw [heq]; exact hown, hI.bas, hI.rcv, ⟨b1, b2, b3, b4, b5, b6, b7, b8, b9, b10⟩⟩⟩, trivial, trivial⟩

end Scotch.Dist
