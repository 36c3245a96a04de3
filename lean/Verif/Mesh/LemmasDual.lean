import Verif.Mesh.Lemmas

set_option autoImplicit false
set_option linter.unusedSimpArgs false

namespace Scotch.Mesh

open Coarsen (IsMask land land_mask)
open Hash (Tab Path probe ins)

variable {numMax : Int} {m : Mesh}

/-- Offset of elements. -/
def eoff (m : Mesh) : Int := m.velmbas - m.baseval

/-- Number of common nodes required for element `w`. -/
def need (m : Mesh) (econ w : Int) : Int := min econ ((m.nbr w).length - 1)

/-- State when elements `L` have been met, with repetitions, from element `v`; `E` are those that have been output. -/
structure DAcc (m : Mesh) (msk v econ : Int) (edge0 : Int → Int) (start : Int) (L E : List Int) (s : DState) : Prop where
  lo : s.tab.lo = 0
  hi : s.tab.hi = msk + 1
  tab : Tab hashPrime (msk + 1) (fun x => (s.tab.get x).num = v) (fun x => (s.tab.get x).vend) (ins [v] L)
  old : ∀ x, 0 ≤ x → x < msk + 1 → (s.tab.get x).num ≤ v
  self : ∀ x, 0 ≤ x → x < msk + 1 → (s.tab.get x).num = v → (s.tab.get x).vend = v → (s.tab.get x).nghb = 0
  count : ∀ x, 0 ≤ x → x < msk + 1 → (s.tab.get x).num = v → (s.tab.get x).vend ≠ v →
    (need m econ (s.tab.get x).vend ≤ 0 → (s.tab.get x).nghb ≤ 0) ∧ (0 < need m econ (s.tab.get x).vend → (s.tab.get x).nghb = max (need m econ (s.tab.get x).vend - L.count (s.tab.get x).vend) 0)
  elo : s.edge.lo = m.baseval
  low : m.baseval ≤ start
  pos : s.num = start + E.length
  cap : s.num ≤ s.edge.hi ∧ 2 * m.edgenbr + m.baseval ≤ s.edge.hi
  out : seg s.edge.get start s.num = E.map (· - eoff m)
  kept : ∀ x, x < start → s.edge.get x = edge0 x
  nodup : E.Nodup
  mem : ∀ w, w ∈ E ↔ w ≠ v ∧ max 1 (need m econ w) ≤ L.count w

/-- `addEdge` when the table has been updated. -/
theorem addEdge_holds {msk v econ : Int} {edge0 : Int → Int} {start : Int} {L E : List Int} {s : DState} (S : DAcc m msk v econ edge0 start L E s) (he : 2 ≤ m.edgenbr) (nghb w : Int) (tab : Arr DCell) :
    Holds (addEdge m nghb w { s with tab := tab }) (fun s' => s'.tab = tab ∧ s'.edge.lo = m.baseval ∧ s'.num = start + (if nghb ≤ 0 then E ++ [w] else E).length ∧
      (s'.num ≤ s'.edge.hi ∧ 2 * m.edgenbr + m.baseval ≤ s'.edge.hi) ∧ seg s'.edge.get start s'.num = (if nghb ≤ 0 then E ++ [w] else E).map (· - eoff m) ∧ ∀ x, x < start → s'.edge.get x = edge0 x) := by
  unfold addEdge
  have c1 := S.cap.1
  have c2 := S.cap.2
  have hlow := S.low
  have hp := S.pos
  by_cases h : nghb ≤ 0
  · obtain ⟨g1, g2, g3, g4⟩ := grow_cases m.baseval s.edge s.num c1 (by omega)
    rw [if_pos h, Holds_bind]
    dsimp only
    rw [Arr.wr_ok _ _ (by rw [g1, S.elo]; omega) g2, Holds_ok, Holds_pure]
    have hlen : (E ++ [w]).length = E.length + 1 := by simp
    refine ⟨rfl, g1.trans S.elo, ?_, ?_, ?_, ?_⟩
    · rw [if_pos h, hlen]; dsimp only; omega
    · dsimp only [Arr.set]; omega
    · dsimp only
      rw [if_pos h, seg_succ _ (by omega), List.map_append, ← S.out]
      congr 1
      · refine seg_congr ?_
        intro i _ i2
        rw [Arr.set_get_ne _ _ (by omega), g4]
      · rw [Arr.set_get, if_pos rfl]; rfl
    · intro y hy
      dsimp only
      rw [Arr.set_get_ne _ _ (by omega), g4]
      exact S.kept y hy
  · rw [if_neg h, Holds_pure]
    refine ⟨rfl, S.elo, ?_, S.cap, ?_, S.kept⟩
    · rw [if_neg h]; exact hp
    · rw [if_neg h]; exact S.out

theorem count_snoc (L : List Int) (w x : Int) : (L ++ [w]).count x = L.count x + if x = w then 1 else 0 := by
  rw [List.count_append, List.count_singleton]
  by_cases h : w = x
  · rw [if_pos (by simp [h]), if_pos h.symm]
  · rw [if_neg (by simp [h]), if_neg (fun e => h e.symm)]

theorem elemBodyD_holds (P : Pre numMax m) {msk v econ : Int} (hm : IsMask msk) {edge0 : Int → Int} {start : Int} {L E : List Int} {s : DState} (S : DAcc m msk v econ edge0 start L E s)
    (hlen : ((ins [v] L).length : Int) < msk + 1) {n e : Int} (hn : m.Node n) (h1 : m.vert n ≤ e) (h2 : e < m.vend n) :
    Holds (elemBodyD numMax m msk v econ e s) (fun s' => ∃ E', DAcc m msk v econ edge0 start (L ++ [m.edgetax.get e]) E' s') := by
  obtain ⟨r1, r2⟩ := edgetax_ok P (Or.inr hn) h1 h2
  obtain ⟨w1, w2⟩ := P.cons.elems n hn _ r2
  have h4 := two_le_edgenbr P.cons w1 w2
  generalize m.edgetax.get e = w at *
  have hmn := hm.nonneg
  unfold elemBodyD
  rw [r1, Holds_bind, Holds_ok, Holds_bind, hashStart_ok P hm (Or.inl w1), Holds_ok, Holds_bind]
  refine (Hash.find_holds S.tab hm rfl hlen w (test := testSlotD s.tab v w) ?_ (msk.toNat + 2) 0 (by omega) (fun d' h => by omega)).mono ?_
  · intro h x1 x2
    unfold testSlotD
    rw [Holds_bind, Arr.rd_ok _ (by rw [S.lo]; omega) (by rw [S.hi]; omega), Holds_ok]
    by_cases hn : (s.tab.get h).num = v
    · rw [if_neg (by omega)]
      by_cases hw : (s.tab.get h).vend = w
      · rw [if_pos hw, Holds_pure]; simp [hn, hw]
      · rw [if_neg hw, Holds_pure]; simp [hn, hw]
    · rw [if_pos hn, Holds_pure]; simp [hn]
  · rintro ⟨x, b⟩ ⟨d, d1, d2, d3, d4⟩
    dsimp only at d1 d3 d4 ⊢
    have hin := Hash.probe_in (prime := hashPrime) S.tab.pos w d
    rw [← d1] at hin
    match b with
    | true =>
      have hf := d3 rfl
      rw [d1] at hf
      have hk := S.tab.not_mem d2 hf
      have hk' := hk
      rw [Hash.mem_ins, List.mem_singleton] at hk'
      have hwv : w ≠ v := fun h => hk' (Or.inl h)
      have hwL : w ∉ L := fun h => hk' (Or.inr h)
      have hc0 : L.count w = 0 := List.count_eq_zero.2 hwL
      have hE : w ∉ E := by
        intro h
        have := ((S.mem w).1 h).2
        omega
      have hd := nbr_length P.cons (Or.inl w1)
      have hneed : min econ (m.vend w - m.vert w - 1) = need m econ w := by unfold need; rw [hd]
      rw [if_pos rfl]
      unfold newElem
      rw [Holds_bind, vendtax_ok P (Or.inl w1), Holds_ok, Holds_bind, verttax_ok P (Or.inl w1), Holds_ok]
      dsimp only
      rw [hneed, Holds_bind, Arr.wr_ok _ _ (by rw [S.lo]; exact hin.1) (by rw [S.hi]; exact hin.2), Holds_ok]
      refine (addEdge_holds S h4 (need m econ w - 1) w _).mono ?_
      rintro s' ⟨a1, a2, a3, a4, a5, a6⟩
      refine ⟨if need m econ w - 1 ≤ 0 then E ++ [w] else E, ?_⟩
      refine ⟨by rw [a1]; exact S.lo, by rw [a1]; exact S.hi, ?_, ?_, ?_, ?_, a2, S.low, a3, a4, a5, a6, ?_, ?_⟩
      · rw [Hash.ins_snoc, if_neg hk]
        refine S.tab.insert d2 hf ?_ ?_ ?_
        · intro y
          rw [a1]
          rw [Arr.set_get, d1]
          by_cases ey : y = probe hashPrime (msk + 1) w d
          · rw [if_pos ey]; simp [ey]
          · rw [if_neg ey]; simp [ey]
        · intro y ey
          rw [a1]
          rw [Arr.set_get_ne _ _ (by rw [d1]; exact ey)]
        · rw [a1]
          rw [Arr.set_get, if_pos d1.symm]
      · intro y y1 y2
        rw [a1, Arr.set_get]
        split
        · exact Int.le_refl _
        · exact S.old y y1 y2
      · intro y y1 y2
        rw [a1, Arr.set_get]
        split
        · intro _ h; exact absurd h hwv
        · exact S.self y y1 y2
      · intro y y1 y2
        rw [a1, Arr.set_get]
        by_cases ey : y = x
        · rw [if_pos ey]
          intro _ _
          dsimp only
          rw [count_snoc, if_pos rfl, hc0]
          refine ⟨fun h => by omega, fun h => by omega⟩
        · rw [if_neg ey]
          intro b1 b2
          have hyw : (s.tab.get y).vend ≠ w := by
            intro e
            apply hk
            exact (S.tab.mem w).2 ⟨y, y1, y2, b1, e⟩
          rw [count_snoc, if_neg hyw]
          exact S.count y y1 y2 b1 b2
      · split
        · rw [List.nodup_append]
          refine ⟨S.nodup, by simp, ?_⟩
          intro a ha b hb
          rw [List.mem_singleton] at hb
          rintro rfl
          rw [hb] at ha
          exact hE ha
        · exact S.nodup
      · intro y
        have hy : y ≠ w → (y ∈ E ↔ y ≠ v ∧ max 1 (need m econ y) ≤ (L ++ [w]).count y) := by
          intro h
          rw [count_snoc, if_neg h]
          exact S.mem y
        by_cases ey : y = w
        · rw [ey, count_snoc, if_pos rfl, hc0]
          split
          · simp only [List.mem_append, List.mem_singleton, or_true, true_iff]
            exact ⟨hwv, by push_cast; omega⟩
          · constructor
            · intro h; exact absurd h hE
            · rintro ⟨-, h⟩; exfalso; push_cast at h; omega
        · rw [← hy ey]
          split
          · simp [ey]
          · rfl
    | false =>
      obtain ⟨o1, o2⟩ := d4 rfl
      have hk : w ∈ ins [v] L := (S.tab.mem w).2 ⟨x, hin.1, hin.2, o1, o2⟩
      have hins : ins [v] (L ++ [w]) = ins [v] L := by rw [Hash.ins_snoc, if_pos hk]
      rw [if_neg (by simp)]
      unfold oldElem
      rw [Holds_bind, Arr.rd_ok _ (by rw [S.lo]; exact hin.1) (by rw [S.hi]; exact hin.2), Holds_ok]
      have hcnt : w ≠ v → 1 ≤ L.count w := by
        intro h
        rw [Hash.mem_ins, List.mem_singleton] at hk
        rcases hk with h' | h'
        · exact absurd h' h
        · exact List.count_pos_iff.2 h'
      have hother : ∀ y, 0 ≤ y → y < msk + 1 → y ≠ x → (s.tab.get y).num = v → (s.tab.get y).vend ≠ w := by
        intro y y1 y2 y3 y4 y5
        exact y3 (S.tab.uniq y1 y2 hin.1 hin.2 y4 o1 (y5.trans o2.symm))
      by_cases hg : (s.tab.get x).nghb > 0
      · rw [if_pos hg, Holds_bind, Arr.wr_ok _ _ (by rw [S.lo]; exact hin.1) (by rw [S.hi]; exact hin.2), Holds_ok]
        have hwv : w ≠ v := by
          intro h
          have := S.self x hin.1 hin.2 o1 (o2.trans h)
          omega
        have hc1 := hcnt hwv
        obtain ⟨k1, k2⟩ := S.count x hin.1 hin.2 o1 (by rw [o2]; exact hwv)
        rw [o2] at k1 k2
        have hpos : 0 < need m econ w := by
          apply Classical.byContradiction
          intro h
          have := k1 (by omega)
          omega
        have hval := k2 hpos
        have hE : w ∉ E := by
          intro h
          have := ((S.mem w).1 h).2
          omega
        refine (addEdge_holds S h4 ((s.tab.get x).nghb - 1) w _).mono ?_
        rintro s' ⟨a1, a2, a3, a4, a5, a6⟩
        refine ⟨if (s.tab.get x).nghb - 1 ≤ 0 then E ++ [w] else E, ?_⟩
        have hnum : ∀ y, (s'.tab.get y).num = (s.tab.get y).num := by
          intro y; rw [a1, Arr.set_get]; split
          · rename_i h; rw [h]
          · rfl
        have hvend : ∀ y, (s'.tab.get y).vend = (s.tab.get y).vend := by
          intro y; rw [a1, Arr.set_get]; split
          · rename_i h; rw [h]
          · rfl
        refine ⟨by rw [a1]; exact S.lo, by rw [a1]; exact S.hi, ?_, ?_, ?_, ?_, a2, S.low, a3, a4, a5, a6, ?_, ?_⟩
        · rw [hins, show (fun y => (s'.tab.get y).num = v) = fun y => (s.tab.get y).num = v from funext fun y => by rw [hnum y],
            show (fun y => (s'.tab.get y).vend) = fun y => (s.tab.get y).vend from funext hvend]
          exact S.tab
        · intro y y1 y2; rw [hnum]; exact S.old y y1 y2
        · intro y y1 y2 y3 y4
          rw [hnum] at y3
          rw [hvend] at y4
          rw [a1, Arr.set_get, if_neg (by rintro rfl; rw [o2] at y4; exact hwv y4)]
          exact S.self y y1 y2 y3 y4
        · intro y y1 y2 y3 y4
          rw [hnum] at y3
          rw [hvend] at y4 ⊢
          rw [a1, Arr.set_get]
          by_cases ey : y = x
          · rw [if_pos ey, ey, o2, count_snoc, if_pos rfl]
            dsimp only
            refine ⟨fun h => by omega, fun h => by push_cast; omega⟩
          · rw [if_neg ey, count_snoc, if_neg (hother y y1 y2 ey y3)]
            exact S.count y y1 y2 y3 y4
        · split
          · rw [List.nodup_append]
            refine ⟨S.nodup, by simp, ?_⟩
            intro a ha b hb
            rw [List.mem_singleton] at hb
            rintro rfl
            rw [hb] at ha
            exact hE ha
          · exact S.nodup
        · intro y
          have hy : y ≠ w → (y ∈ E ↔ y ≠ v ∧ max 1 (need m econ y) ≤ (L ++ [w]).count y) := by
            intro h
            rw [count_snoc, if_neg h]
            exact S.mem y
          by_cases ey : y = w
          · rw [ey, count_snoc, if_pos rfl]
            split
            · simp only [List.mem_append, List.mem_singleton, or_true, true_iff]
              exact ⟨hwv, by push_cast; omega⟩
            · constructor
              · intro h; exact absurd h hE
              · rintro ⟨-, h⟩; exfalso; push_cast at h; omega
          · rw [← hy ey]
            split
            · simp [ey]
            · rfl
      · rw [if_neg hg, Holds_pure]
        refine ⟨E, S.lo, S.hi, by rw [hins]; exact S.tab, S.old, S.self, ?_, S.elo, S.low, S.pos, S.cap, S.out, S.kept, S.nodup, ?_⟩
        · intro y y1 y2 y3 y4
          have hc := S.count y y1 y2 y3 y4
          by_cases ey : y = x
          · rw [ey] at hc y4 ⊢
            rw [o2] at hc y4 ⊢
            rw [count_snoc, if_pos rfl]
            refine ⟨hc.1, fun h => ?_⟩
            have := hc.2 h
            push_cast
            omega
          · rw [count_snoc, if_neg (hother y y1 y2 ey y3)]
            exact hc
        · intro y
          rw [S.mem]
          by_cases ey : y = w
          · rw [ey, count_snoc, if_pos rfl]
            constructor
            · rintro ⟨b1, b2⟩; exact ⟨b1, by push_cast; omega⟩
            · rintro ⟨b1, b2⟩
              refine ⟨b1, ?_⟩
              have hc1 := hcnt b1
              obtain ⟨k1, k2⟩ := S.count x hin.1 hin.2 o1 (by rw [o2]; exact b1)
              rw [o2] at k1 k2
              by_cases hpos : 0 < need m econ w
              · have := k2 hpos
                omega
              · omega
          · rw [count_snoc, if_neg ey]; simp

theorem nodeBodyD_holds (P : Pre numMax m) {msk v econ : Int} (hm : IsMask msk) {edge0 : Int → Int} {start : Int} {L E : List Int} {s : DState} (S : DAcc m msk v econ edge0 start L E s) (hv : m.Elem v)
    {e : Int} (h1 : m.vert v ≤ e) (h2 : e < m.vend v) (hlen : (L.length : Int) + 1 + m.degrmax < msk + 1) :
    Holds (nodeBodyD numMax m msk v econ e s) (fun s' => ∃ E', DAcc m msk v econ edge0 start (L ++ m.nbr (m.edgetax.get e)) E' s') := by
  obtain ⟨r1, r2⟩ := edgetax_ok P (Or.inl hv) h1 h2
  obtain ⟨v1, -⟩ := P.cons.nodes v hv _ r2
  generalize m.edgetax.get e = n at *
  unfold nodeBodyD
  rw [r1, Holds_bind, Holds_ok, Holds_bind, verttax_ok P (Or.inr v1), Holds_ok, Holds_bind, vendtax_ok P (Or.inr v1), Holds_ok]
  have hl := nbr_length P.cons (Or.inr v1)
  have hd := P.cons.degrmax.2 n (Or.inr v1)
  refine Holds_forUp (fun x s => ∃ E', DAcc m msk v econ edge0 start (L ++ seg m.edgetax.get (m.vert n) x) E' s) (P.cons.range n (Or.inr v1)).2 ?_ ?_ (fun _ h => h)
  · rw [seg_empty _ (Int.le_refl _), List.append_nil]; exact ⟨E, S⟩
  · rintro x s' x1 x2 ⟨E', S'⟩
    rw [seg_succ _ x1, ← List.append_assoc]
    refine elemBodyD_holds P hm S' ?_ v1 x1 x2
    have := Hash.ins_length [v] (L ++ seg m.edgetax.get (m.vert n) x)
    have := seg_length m.edgetax.get x1
    simp only [List.length_singleton, List.length_append] at *
    omega

/-- Elements met from an element. -/
def met (m : Mesh) (v : Int) : List Int := (m.nbr v).flatMap m.nbr

theorem elem_holds (P : Pre numMax m) {msk v econ : Int} (hm : IsMask msk) (hs1 : 32 ≤ msk + 1) (hs2 : m.degrmax * m.degrmax * 2 ≤ msk + 1) {edge0 : Int → Int} {start : Int} {s : DState}
    (S : DAcc m msk v econ edge0 start [] [] s) (hv : m.Elem v) :
    Holds (forUp (m.vert v) (m.vend v) s (nodeBodyD numMax m msk v econ)) (fun s' => ∃ E, DAcc m msk v econ edge0 start (met m v) E s') := by
  refine Holds_forUp (fun x s => ∃ E, DAcc m msk v econ edge0 start ((seg m.edgetax.get (m.vert v) x).flatMap m.nbr) E s) (P.cons.range v (Or.inl hv)).2 ?_ ?_ (fun _ h => h)
  · rw [seg_empty _ (Int.le_refl _)]; exact ⟨[], S⟩
  · rintro x s' x1 x2 ⟨E, S'⟩
    rw [seg_succ _ x1, List.flatMap_append]
    have : [m.edgetax.get x].flatMap m.nbr = m.nbr (m.edgetax.get x) := by simp
    rw [this]
    refine nodeBodyD_holds P hm S' hv x1 x2 ?_
    have hd0 := P.cons.degrmax.1
    have hd := P.cons.degrmax.2 v (Or.inl hv)
    have hl := nbr_length P.cons (Or.inl hv)
    have hsl := seg_length m.edgetax.get x1
    have a2 := Hash.flatMap_length_le (seg m.edgetax.get (m.vert v) x) m.nbr m.degrmax.toNat (by
      intro n hn
      obtain ⟨i, i1, i2, i3⟩ := (mem_seg _ _ _ _).1 hn
      have hn' : n ∈ m.nbr v := (mem_seg _ _ _ _).2 ⟨i, i1, by omega, i3⟩
      have := P.cons.degrmax.2 n (Or.inr (P.cons.nodes v hv n hn').1)
      omega)
    have a3 : (seg m.edgetax.get (m.vert v) x).length * m.degrmax.toNat + m.degrmax.toNat ≤ m.degrmax.toNat * m.degrmax.toNat := by
      rw [← Nat.succ_mul]
      exact Nat.mul_le_mul_right _ (by omega)
    have a4 : ((m.degrmax.toNat * m.degrmax.toNat : Nat) : Int) = m.degrmax * m.degrmax := by
      rw [Nat.cast_mul, Int.toNat_of_nonneg hd0]
    omega

/-! ## Shared nodes -/

theorem count_flatMap (f : Int → List Int) (w : Int) : ∀ l : List Int, (∀ n ∈ l, (f n).Nodup) → (l.flatMap f).count w = (l.filter fun n => decide (w ∈ f n)).length
  | [], _ => rfl
  | n :: l, h => by
    rw [List.flatMap_cons, List.count_append, count_flatMap f w l (fun x hx => h x (List.mem_cons_of_mem _ hx)), List.filter_cons]
    by_cases hw : w ∈ f n
    · rw [if_pos (by simpa using hw), List.count_eq_one_of_mem (h n (List.mem_cons_self ..)) hw, List.length_cons]; omega
    · rw [if_neg (by simpa using hw), List.count_eq_zero.2 hw]; omega

theorem count_met (C : m.Consistent) {v w : Int} (hv : m.Elem v) (hw : m.Elem w) : (met m v).count w = shared m v w := by
  unfold met shared
  rw [count_flatMap m.nbr w _ (fun n hn => C.simple n (Or.inr (C.nodes v hv n hn).1))]
  congr 1
  apply List.filter_congr
  intro n hn
  have hN := (C.nodes v hv n hn).1
  congr 1
  exact propext ⟨fun h => (C.elems n hN w h).2, fun h => (C.nodes w hw n h).2⟩

theorem mem_met (C : m.Consistent) {v w : Int} (hv : m.Elem v) (h : w ∈ met m v) : m.Elem w := by
  obtain ⟨n, n1, n2⟩ := List.mem_flatMap.1 h
  exact (C.elems n (C.nodes v hv n n1).1 w n2).1

theorem shared_symm (C : m.Consistent) {v w : Int} (hv : m.Elem v) (hw : m.Elem w) : shared m v w = shared m w v := by
  unfold shared
  refine List.Perm.length_eq ?_
  rw [List.perm_ext_iff_of_nodup ((C.simple v (Or.inl hv)).filter _) ((C.simple w (Or.inl hw)).filter _)]
  intro n
  rw [List.mem_filter, List.mem_filter, decide_eq_true_iff, decide_eq_true_iff]
  exact And.comm

/-! ## Loop on vertices -/

/-- Requested number of shared nodes from an element. -/
def econOf (m : Mesh) (nocon v : Int) : Int := min nocon ((m.nbr v).length - 1)

/-- What is required of the list of neighbours of an element. -/
structure ElemList (m : Mesh) (nocon u : Int) (l : List Int) : Prop where
  nodup : l.Nodup
  mem : ∀ w, w ∈ l ↔ w ≠ u ∧ m.Elem (w + eoff m) ∧ threshold m nocon (u + eoff m) (w + eoff m) ≤ shared m (u + eoff m) (w + eoff m)

structure VInvD (m : Mesh) (nocon msk : Int) (adj : Int → List Int) (v : Int) (s : VStateD) : Prop where
  vlo : s.vert.lo = m.baseval
  vhi : s.vert.hi = m.velmnbr + m.baseval + 1
  tlo : s.es.tab.lo = 0
  thi : s.es.tab.hi = msk + 1
  old : ∀ x, 0 ≤ x → x < msk + 1 → (s.es.tab.get x).num < v + eoff m
  elo : s.es.edge.lo = m.baseval
  cap : s.es.num ≤ s.es.edge.hi ∧ 2 * m.edgenbr + m.baseval ≤ s.es.edge.hi
  lists : Graph.Lists m.baseval v adj s.vert.get s.es.edge.get s.es.num
  good : ∀ u, m.baseval ≤ u → u < v → ElemList m nocon u (adj u)
  deg : 0 ≤ s.degrmax ∧ ∀ u, m.baseval ≤ u → u < v → ((adj u).length : Int) ≤ s.degrmax

theorem DAcc.start (P : Pre numMax m) {msk n econ start : Int} (hm : IsMask msk) {s : DState} (h1 : s.tab.lo = 0) (h2 : s.tab.hi = msk + 1) (h3 : ∀ x, 0 ≤ x → x < msk + 1 → (s.tab.get x).num < n)
    (h4 : s.edge.lo = m.baseval) (h5 : m.baseval ≤ start) (h6 : s.num = start) (h7 : s.num ≤ s.edge.hi ∧ 2 * m.edgenbr + m.baseval ≤ s.edge.hi) :
    DAcc m msk n econ s.edge.get start [] [] { s with tab := s.tab.set (probe hashPrime (msk + 1) n 0) ⟨n, n, 0⟩ } := by
  have hmn := hm.nonneg
  have T0 : Tab hashPrime (msk + 1) (fun x => (s.tab.get x).num = n) (fun x => (s.tab.get x).vend) [] :=
    Tab.empty (by omega) (fun x x1 x2 h => by have := h3 x x1 x2; omega)
  have hin := Hash.probe_in (prime := hashPrime) T0.pos n 0
  refine ⟨h1, h2, ?_, ?_, ?_, ?_, h4, h5, by simp; omega, h7, ?_, fun x _ => rfl, List.nodup_nil, ?_⟩
  · refine T0.insert (d := 0) (fun d' h => by omega) ?_ ?_ ?_ ?_
    · have := h3 _ hin.1 hin.2; omega
    · intro y
      dsimp only
      rw [Arr.set_get]
      by_cases ey : y = probe hashPrime (msk + 1) n 0
      · rw [if_pos ey]; simp [ey]
      · rw [if_neg ey]; simp [ey]
    · intro y ey
      dsimp only
      rw [Arr.set_get_ne _ _ ey]
    · dsimp only
      rw [Arr.set_get, if_pos rfl]
  · intro y y1 y2
    dsimp only
    rw [Arr.set_get]
    split
    · exact Int.le_refl _
    · have := h3 y y1 y2; omega
  · intro y y1 y2
    dsimp only
    rw [Arr.set_get]
    split
    · intro _ _; rfl
    · intro h; have := h3 y y1 y2; omega
  · intro y y1 y2
    dsimp only
    rw [Arr.set_get]
    split
    · intro _ h; exact absurd rfl h
    · intro h; have := h3 y y1 y2; omega
  · dsimp only
    rw [seg_empty _ (by omega)]
    rfl
  · intro w
    constructor
    · intro h; simp at h
    · rintro ⟨-, h⟩; rw [List.count_nil] at h; omega

theorem vertBodyD_holds (P : Pre numMax m) {nocon msk : Int} (hm : IsMask msk) (hs1 : 32 ≤ msk + 1) (hs2 : m.degrmax * m.degrmax * 2 ≤ msk + 1) {v : Int} (h1 : m.baseval ≤ v) (h2 : v < m.velmnbr + m.baseval)
    {s : VStateD} (S : ∃ adj, VInvD m nocon msk adj v s) : Holds (vertBodyD numMax m nocon msk v s) (fun s' => ∃ adj, VInvD m nocon msk adj (v + 1) s') := by
  obtain ⟨adj, S⟩ := S
  have hn : m.Elem (v + eoff m) := by
    have := P.cons.velmnnd
    exact ⟨by unfold eoff; omega, by unfold eoff; omega⟩
  have hmn := hm.nonneg
  have hin := Hash.probe_in (prime := hashPrime) (show 0 < msk + 1 by omega) (v + eoff m) 0
  have hnum := S.lists.next
  have hsum := Graph.len_nonneg (base := m.baseval) (adj := adj) v
  have hd := nbr_length P.cons (Or.inl hn)
  unfold vertBodyD
  rw [Holds_bind, Arr.wr_ok _ _ (by rw [S.vlo]; omega) (by rw [S.vhi]; omega), Holds_ok]
  dsimp only
  rw [show v + (m.velmbas - m.baseval) = v + eoff m from rfl, Holds_bind, hashStart_ok P hm (Or.inl hn), Holds_ok, Holds_bind, Arr.wr_ok _ _ (by rw [S.tlo]; exact hin.1) (by rw [S.thi]; exact hin.2), Holds_ok,
    Holds_bind, vendtax_ok P (Or.inl hn), Holds_ok, Holds_bind, verttax_ok P (Or.inl hn), Holds_ok, Holds_bind]
  refine (elem_holds P hm hs1 hs2 (DAcc.start P hm (start := s.es.num) S.tlo S.thi S.old S.elo (by omega) rfl S.cap) hn).mono ?_
  rintro es ⟨E, A⟩
  rw [Holds_pure]
  have hpos := A.pos
  have hecon : min nocon (m.vend (v + eoff m) - m.vert (v + eoff m) - 1) = econOf m nocon (v + eoff m) := by unfold econOf; rw [hd]
  have hout : seg es.edge.get s.es.num es.num = E.map (· - eoff m) := A.out
  have hgood : ElemList m nocon v (E.map (· - eoff m)) := by
    refine ⟨A.nodup.map (fun a b h => by have h' : a - eoff m = b - eoff m := h; omega), ?_⟩
    intro w
    have hmem : w ∈ E.map (· - eoff m) ↔ w + eoff m ∈ E := by
      rw [List.mem_map]
      constructor
      · rintro ⟨x, x1, x2⟩
        rwa [show w + eoff m = x by omega]
      · intro h
        exact ⟨_, h, by omega⟩
    have hthr : threshold m nocon (v + eoff m) (w + eoff m) = max 1 (need m (econOf m nocon (v + eoff m)) (w + eoff m)) := by
      unfold threshold need econOf
      omega
    rw [hmem, A.mem, hecon, hthr]
    constructor
    · rintro ⟨a1, a2⟩
      have hpos : w + eoff m ∈ met m (v + eoff m) := List.count_pos_iff.1 (by omega)
      have he := mem_met P.cons hn hpos
      rw [count_met P.cons hn he] at a2
      exact ⟨by omega, he, a2⟩
    · rintro ⟨a1, a2, a3⟩
      rw [count_met P.cons hn a2]
      exact ⟨by omega, a3⟩
  have hadj : ∀ u, u < v → (fun u => if u = v then E.map (· - eoff m) else adj u) u = adj u := fun u hu => if_neg (by omega)
  refine ⟨fun u => if u = v then E.map (· - eoff m) else adj u, S.vlo, S.vhi, A.lo, A.hi, ?_, A.elo, A.cap, ?_, ?_, ?_⟩
  · intro x x1 x2
    have := A.old x x1 x2
    dsimp only
    omega
  · have L' : Graph.Lists m.baseval v (fun u => if u = v then E.map (· - eoff m) else adj u) s.vert.get s.es.edge.get s.es.num := by
      have L := S.lists
      have hs : ∀ u, u ≤ v → sumI m.baseval u (fun u => (((fun u => if u = v then E.map (· - eoff m) else adj u) u).length : Int)) = sumI m.baseval u (fun u => ((adj u).length : Int)) := by
        intro u hu
        exact sumI_congr fun i _ i2 => by rw [hadj i (by omega)]
      refine ⟨?_, ?_, ?_⟩
      · rw [hs v (Int.le_refl _)]; exact L.next
      · intro u u1 u2
        rw [hs u (by omega)]; exact L.start u u1 u2
      · intro u u1 u2
        have h := hadj u u2
        dsimp only at h
        rw [h]; exact L.lists u u1 u2
    refine L'.step h1 ?_ ?_ A.kept (by dsimp only; omega) ?_
    · intro u hu
      dsimp only
      rw [Arr.set_get_ne _ _ hu]
    · dsimp only
      rw [Arr.set_get, if_pos rfl]
    · rw [if_pos rfl]; exact hout
  · intro u u1 u2
    by_cases e : u = v
    · rw [e, if_pos rfl]; exact hgood
    · rw [if_neg e]; exact S.good u u1 (by omega)
  · have hd := S.deg.1
    refine ⟨by dsimp only; omega, ?_⟩
    intro u u1 u2
    dsimp only
    by_cases e : u = v
    · rw [if_pos e, List.length_map]; omega
    · rw [if_neg e]; have := S.deg.2 u u1 (by omega); omega

theorem threshold_symm (m : Mesh) (nocon v w : Int) : threshold m nocon v w = threshold m nocon w v := by
  unfold threshold; omega

theorem toDual_out (P : Pre numMax m) (nocon : Int) (J : Junk) (hve : m.velosum = m.velmnbr) : Holds (toDual numMax m nocon J) (fun g => DualGraph m nocon g ∧ (∃ adj, Graph.IsLists g adj) ∧
    g.verttax.lo = m.baseval ∧ g.vertnnd + 1 ≤ g.verttax.hi ∧ g.edgetax.lo = m.baseval ∧ m.baseval + g.edgenbr ≤ g.edgetax.hi) := by
  unfold toDual
  rw [Holds_bind]
  refine (hashSize_holds P).mono ?_
  rintro siz ⟨s1, s2, s3⟩
  have hb := P.base
  have hle : m.baseval ≤ m.velmnbr + m.baseval := by have := P.cons.velmnbr; omega
  have hbas : m.baseval ≤ m.velmbas := by have := P.cons.order; have := P.cons.vnodnnd; have := P.cons.vnodnbr; omega
  have he0 : 0 ≤ m.edgenbr := by
    rw [P.cons.edgenbr]
    have := sumI_nonneg (lo := m.velmbas) (hi := m.velmnnd) (f := fun v => ((m.nbr v).length : Int)) (fun i _ _ => by omega)
    have := sumI_nonneg (lo := m.vnodbas) (hi := m.vnodnnd) (f := fun v => ((m.nbr v).length : Int)) (fun i _ _ => by omega)
    omega
  dsimp only
  rw [Holds_bind]
  have hst := Holds_forUp (s := (⟨⟨m.baseval, m.velmnbr + m.baseval + 1, J.vert⟩, ⟨Arr.const 0 siz ⟨-1, -1, -1⟩, ⟨m.baseval, 2 * m.edgenbr + m.baseval, J.edge⟩, m.baseval⟩, 0⟩ : VStateD))
    (fun v s => ∃ adj, VInvD m nocon (siz - 1) adj v s) hle ?_ (fun v s v1 v2 S => vertBodyD_holds P s1 (by omega) (by omega) v1 v2 S) (fun _ h => h)
  · refine hst.mono ?_
    rintro s ⟨adj, S⟩
    rw [Holds_bind, Arr.wr_ok _ _ (by rw [S.vlo]; omega) (by rw [S.vhi]; omega), Holds_ok, Holds_pure]
    have L := mkGraph_lists (velotax := none) (velosum := m.velosum) P.cons.velmnbr S.lists S.deg
    generalize hg : mkGraph m.baseval m.velmnbr none m.velosum (s.vert.set (m.velmnbr + m.baseval) s.es.num) s.es.edge s.es.num s.degrmax = g at *
    have gb : g.baseval = m.baseval := by rw [← hg]; rfl
    have gn : g.vertnnd = m.velmnbr + m.baseval := by rw [← hg]; rfl
    have hnode : ∀ v, g.Vertex v ↔ m.Elem (v + eoff m) := by
      intro v
      have := P.cons.velmnnd
      unfold Graph.Vertex Elem eoff
      omega
    have hvelo : ∀ v, g.velo v = 1 := by intro v; rw [← hg]; rfl
    have hin : ∀ v, g.Vertex v → ∀ w, w ∈ adj v ↔ g.Vertex w ∧ w ≠ v ∧ threshold m nocon (v + eoff m) (w + eoff m) ≤ shared m (v + eoff m) (w + eoff m) := by
      intro v hv w
      rw [(S.good v (by rw [← gb]; exact hv.1) (by rw [← gn]; exact hv.2)).mem, hnode]
      constructor
      · rintro ⟨a1, a2, a3⟩; exact ⟨a2, a1, a3⟩
      · rintro ⟨a1, a2, a3⟩; exact ⟨a2, a1, a3⟩
    refine ⟨⟨?_, ?_, gb, by rw [← hg]; rfl, ?_⟩, ⟨adj, L⟩, by rw [← hg]; exact S.vlo, by rw [gn, ← hg]; exact Int.le_of_eq S.vhi.symm, by rw [← hg]; exact S.elo, by
      rw [← hg]; dsimp only [mkGraph]; have := S.cap.1; omega⟩
    · refine L.consistent ?_ (fun v hv => (S.good v (by rw [← gb]; exact hv.1) (by rw [← gn]; exact hv.2)).nodup) ?_ ?_
      · intro v hv w hw
        obtain ⟨a1, a2, a3⟩ := (hin v hv w).1 hw
        refine ⟨a1, a2, (hin w a1 v).2 ⟨hv, fun h => a2 h.symm, ?_⟩⟩
        rw [threshold_symm, shared_symm P.cons ((hnode w).1 a1) ((hnode v).1 hv)]
        exact a3
      · intro v _
        rw [hvelo]; omega
      · have : g.velosum = m.velosum := by rw [← hg]; rfl
        rw [this, hve, sumI_congr (g := fun _ => 1) (fun i _ _ => hvelo i), sumI_const (by omega), gb, gn]
        omega
    · refine L.allocated ?_ ?_ ?_ ?_ ?_ (by rw [← hg]; rfl) (by rw [← hg]; rfl)
      · rw [← hg]; exact Int.le_of_eq S.vlo
      · rw [← hg]; exact Int.le_of_eq S.vhi.symm
      · rw [← hg]; exact Int.le_of_eq S.elo
      · rw [← hg]; dsimp only [mkGraph]; have := S.cap.1; omega
      · intro a ha
        have : g.velotax = none := by rw [← hg]; rfl
        rw [this] at ha; cases ha
    · intro v w hv
      rw [L.mem hv w 1]
      constructor
      · rintro ⟨h, -⟩; exact (hin v hv w).1 h
      · intro h; exact ⟨(hin v hv w).2 h, rfl⟩
  · refine ⟨fun _ => [], rfl, rfl, rfl, by show siz = siz - 1 + 1; omega, ?_, rfl, ⟨by show m.baseval ≤ 2 * m.edgenbr + m.baseval; omega, Int.le_refl _⟩, Graph.Lists.init _ _ _ _, fun u u1 u2 => by omega,
      ⟨Int.le_refl _, fun u u1 u2 => by omega⟩⟩
    intro x _ _
    show (-1 : Int) < m.baseval + eoff m
    unfold eoff
    omega

theorem toDual_holds (P : Pre numMax m) (nocon : Int) (J : Junk) (hve : m.velosum = m.velmnbr) : Holds (toDual numMax m nocon J) (DualGraph m nocon) :=
  (toDual_out P nocon J hve).mono fun _ h => h.1

end Scotch.Mesh
