import Verif.Msep.LemmasInduce

/-! # Submeshes with halos: the whole function -/

set_option autoImplicit false

namespace Scotch.Msep

variable {h : Hmesh} {part : Arr Int} {pv : Int}

/-- Number of elements that are kept. -/
theorem kept_count {velmnbr vnodnbr vnspnbr : Int} (S : Separation h part pv velmnbr vnodnbr vnspnbr) :
    (if pv = 0 then velmnbr - (h.m.veisnbr + h.veihnbr) else velmnbr) = sumI h.m.velmbas h.m.velmnnd (fun e => if Kept h part pv e then 1 else 0) := by
  by_cases hp : pv = 0
  · rw [if_pos hp, S.isonbr, S.velmnbr]
    have : sumI h.m.velmbas h.m.velmnnd (fun e => if part.get e = pv then 1 else 0) = sumI h.m.velmbas h.m.velmnnd (fun e => (if Kept h part pv e then 1 else 0) + (if h.m.vert e = h.vehdtax.get e then 1 else 0)) := by
      refine sumI_congr fun e e1 e2 => ?_
      by_cases hi : h.m.vert e = h.vehdtax.get e
      · have := S.iso e ⟨e1, e2⟩ hi
        rw [if_pos (by omega), if_neg (fun k => k.2 hi), if_pos hi]; rfl
      · rw [if_neg hi]
        by_cases hq : part.get e = pv
        · rw [if_pos hq, if_pos ⟨hq, hi⟩]; rfl
        · rw [if_neg hq, if_neg (fun k => hq k.1)]; rfl
    rw [this, sumI_add_dist]
    omega
  · rw [if_neg hp, S.velmnbr]
    refine sumI_congr fun e e1 e2 => ?_
    by_cases hq : part.get e = pv
    · rw [if_pos hq, if_pos ⟨hq, fun hi => hp (by rw [← hq]; exact S.iso e ⟨e1, e2⟩ hi)⟩]
    · rw [if_neg hq, if_neg (fun k => hq k.1)]

theorem sum_zero (lo hi : Int) : sumI lo hi (fun _ => 0) = 0 := by
  unfold sumI; exact Finset.sum_const_zero

theorem count_pos {lo hi a : Int} (q : Int → Prop) [DecidablePred q] (h1 : lo ≤ a) (h2 : a < hi) (hq : q a) : 1 ≤ sumI lo hi (fun v => if q v then 1 else 0) := by
  refine Int.le_trans (Int.le_of_eq (sumI_single h1 h2 (fun _ => 1)).symm) (sumI_mono fun i _ _ => ?_)
  by_cases k : i = a
  · rw [if_pos k, if_pos (k ▸ hq)]
  · rw [if_neg k]; split <;> omega

theorem count_nonneg {lo hi : Int} (q : Int → Prop) [DecidablePred q] : 0 ≤ sumI lo hi (fun v => if q v then 1 else 0) := sumI_nonneg fun i _ _ => by split <;> omega

theorem indVnum_post {org : Option (Arr Int)} {b nd : Int} {a : Arr Int} (hle : b ≤ nd) : Post (indVnum h org b nd a) (fun r => ∀ n, b ≤ n → n < nd → r.get n = match org with | none => a.get n | some o => o.get (a.get n + (h.m.vnodbas - h.m.baseval))) := by
  unfold indVnum
  cases org with
  | none => exact fun _ _ _ => rfl
  | some o =>
    refine Post_forUp (fun i r => (∀ n, b ≤ n → n < i → r.get n = o.get (a.get n + (h.m.vnodbas - h.m.baseval))) ∧ ∀ n, i ≤ n → r.get n = a.get n) hle ⟨fun n _ _ => by omega, fun _ _ => rfl⟩ (fun i r i1 i2 I => ?_) (fun _ k => k.1)
    rw [Post_bind, Post_rd]
    intro _ _
    rw [Post_bind, Post_rd]
    intro _ _
    rw [Post_wr]
    intro _ _
    refine ⟨fun n n1 n2 => ?_, fun n n1 => by rw [Arr.set_get_ne _ _ (by omega)]; exact I.2 n (by omega)⟩
    by_cases hn : n = i
    · rw [hn, Arr.set_get_same, I.2 i (Int.le_refl _)]
    · rw [Arr.set_get_ne _ _ hn]; exact I.1 n n1 (by omega)

/-- The halo mesh that is returned. -/
theorem induced_of (H : h.Consistent) {velmnbr vnodnbr vnspnbr : Int} (S : Separation h part pv velmnbr vnodnbr vnspnbr) {ne halo W V nd : Int} {org : Option (Arr Int)} {n : IndNum} {s t u : IndEl} {vert vnum : Arr Int}
    (hV : V = ne + h.m.baseval) (hW : W = V + vnodnbr) (hne : ne = sumI h.m.velmbas h.m.velmnnd (fun e => if Kept h part pv e then 1 else 0)) (hhalo : halo = vnspnbr + h.m.vnodnnd - h.vnohnnd) (N : NumInv h part pv V h.vnohnnd n)
    (E : ElInv h part pv V W n.indx.get n.vnlo.get h.m.velmnnd s) (T : Rows s (fun x => (h.m.nbr (n.vnum.get x + (h.m.vnodbas - h.m.baseval))).map s.indx.get) V W t)
    (U : Rows t (fun x => ((h.m.nbr (t.vnuh.get x)).map t.indx.get).filter (fun x => decide (x ≠ -1))) W nd u) (hnd : nd = s.vnod) (hvert : vert = u.vert.set nd u.num)
    (hvnum : ∀ x, V ≤ x → x < W → vnum.get x = match org with | none => n.vnum.get x | some o => o.get (n.vnum.get x + (h.m.vnodbas - h.m.baseval))) :
    Induced h org part pv s.indx.get (indMesh h ne vnodnbr halo n s t u nd vert) vnum := by
  have base := S.base
  have hel : s.elem = V := by have := E.cnt; omega
  have hne0 : 0 ≤ ne := hne ▸ count_nonneg _
  have hvn0 : 0 ≤ vnodnbr := S.vnodnbr ▸ count_nonneg _
  have hsp0 : 0 ≤ vnspnbr := S.vnspnbr ▸ count_nonneg _
  have hWn : W ≤ nd := by have := E.node.le; omega
  have hhn : h.vnohnnd ≤ h.m.vnodnnd := by
    have := H.vnohnbr
    have := H.vnohnnd
    have := H.mesh.vnodnnd
    omega
  have tn := T.num
  have un := U.num
  -- starts of vertices
  have v3 : ∀ x, W ≤ x → x ≤ nd → vert.get x = u.vt nd x := by
    intro x x1 x2
    unfold IndEl.vt
    by_cases k : x = nd
    · rw [if_pos k, k, hvert, Arr.set_get_same]
    · rw [if_neg k, hvert, Arr.set_get_ne _ _ k]
  have v2 : ∀ x, V ≤ x → x ≤ W → vert.get x = t.vt W x := by
    intro x x1 x2
    by_cases k : x = W
    · rw [v3 x (by omega) (by omega), k, U.first]; exact (if_pos rfl).symm
    · unfold IndEl.vt
      rw [if_neg k, hvert, Arr.set_get_ne _ _ (by omega), U.vert x (by omega)]
  have v1 : ∀ x, x ≤ V → vert.get x = s.vt s.elem x := by
    intro x x1
    by_cases k : x = V
    · rw [v2 x (by omega) (by omega), k, T.first, ← hel]; exact (if_pos rfl).symm
    · unfold IndEl.vt
      rw [if_neg (by omega), hvert, Arr.set_get_ne _ _ (by omega), U.vert x (by omega), T.vert x (by omega)]
  have v0 : ∀ x, x < V → vert.get x = s.vert.get x := fun x hx => by rw [v1 x (by omega)]; exact if_neg (by omega)
  have e1 : ∀ k, k < s.num → u.edge.get k = s.edge.get k := fun k hk => by rw [U.edge k (by omega), T.edge k hk]
  have vehd : u.vehd = s.vehd := U.vehd.trans T.vehd
  have velo : u.velo = s.velo := U.velo.trans T.velo
  have vnlo : u.vnlo = s.vnlo := U.vnlo.trans T.vnlo
  have kel : ∀ e, h.m.Elem e → Kept h part pv e → ElOk h part pv W n.indx.get s e := fun e he hk => E.kept e he.1 he.2 hk
  have inn : ∀ m, h.Inner m → part.get m = pv → s.indx.get m = n.indx.get m ∧ V ≤ n.indx.get m ∧ n.indx.get m < W := E.node.inner
  have out : ∀ m, h.m.Node m → (h.Inner m → part.get m = 2) → V ≤ s.indx.get m → W ≤ s.indx.get m ∧ s.indx.get m < nd ∧ s.vnuh.get (s.indx.get m) = m := by
    intro m m1 m2 m3
    rcases E.node.outer m m1 m2 with k | ⟨k1, k2, k3⟩
    · omega
    · exact ⟨k1, by omega, k3⟩
  -- ends of kept elements
  have kend : ∀ e, h.m.Elem e → Kept h part pv e → vert.get (s.indx.get e) = s.vert.get (s.indx.get e) ∧ vert.get (s.indx.get e + 1) = s.vert.get (s.indx.get e) + deg h e := by
    intro e he hk
    have O := kel e he hk
    have := O.num
    exact ⟨v0 _ (by omega), by rw [v1 _ (by omega)]; exact O.vt⟩
  have hseg : ∀ e, h.m.Elem e → Kept h part pv e → seg u.edge.get (s.vehd.get (s.indx.get e)) (s.vert.get (s.indx.get e) + deg h e) = (((h.m.nbr e).filter fun n => !isIn h part pv n).map s.indx.get).reverse := by
    intro e he hk
    have O := kel e he hk
    obtain ⟨o1, o2, o3⟩ := O.hd
    rw [← List.map_reverse, ← O.halo, List.map_map, seg_congr (g := s.edge.get) (fun k _ _ => e1 k (by omega))]
    symm
    refine (List.map_congr_left (g := id) fun y hy => ?_).trans (List.map_id _)
    obtain ⟨k, k1, k2, k3⟩ := (mem_seg _ _ _ _).1 hy
    have := O.range k k1 k2
    rw [k3] at this
    exact (E.node.back y this.1 this.2).2.2
  have hinn : ∀ e, h.m.Elem e → Kept h part pv e → seg u.edge.get (s.vert.get (s.indx.get e)) (s.vehd.get (s.indx.get e)) = ((h.m.nbr e).filter (isIn h part pv)).map s.indx.get := by
    intro e he hk
    have O := kel e he hk
    obtain ⟨o1, o2, o3⟩ := O.hd
    rw [seg_congr (g := s.edge.get) (fun k _ _ => e1 k (by omega)), O.inner]
    refine List.map_congr_left fun y hy => ?_
    have := of_decide_eq_true (List.mem_filter.1 hy).2
    exact (inn y this.1 this.2).1.symm
  have elsurj : ∀ x, h.m.baseval ≤ x → x < V → ∃ e, h.m.Elem e ∧ Kept h part pv e ∧ s.indx.get e = x := by
    intro x x1 x2
    obtain ⟨e, a1, a2, a3, a4⟩ := E.surj x x1 (by omega)
    exact ⟨e, ⟨a1, a2⟩, a3, a4⟩
  refine ⟨⟨rfl, rfl, rfl⟩, ⟨?_, ?_, ?_, ?_⟩, fun e he hk => ?_, fun x hx => ?_, fun e k he hk e1 k1 hek => ?_, fun m m1 m2 => ?_, fun x hx => ?_, fun m k m1 k1 m2 k2 hmk => ?_, fun x hx hx' => ?_, fun e he hk m m1 m2 => ?_, fun m k m1 k1 m2 k2 m3 hmk => ?_,
    fun e he hk => ?_, fun x hx => ?_, fun x i hx i1 i2 => ?_, fun m m1 m2 => ?_, fun m m1 m2 m3 => ?_, fun e he hk => ?_, fun m m1 m2 => ?_, fun m m1 m2 m3 => ?_, ?_, ?_, ?_, fun m m1 m2 => ?_⟩
  · show ne + h.m.baseval = h.m.baseval + ne; omega
  · show nd = ne + h.m.baseval + (nd - (ne + h.m.baseval)); omega
  · rfl
  · show ne + h.m.baseval + vnodnbr ≤ nd; omega
  · have := (kel e he hk).num
    exact ⟨this.1, by show _ < ne + h.m.baseval; omega⟩
  · exact elsurj x hx.1 (by have : x < ne + h.m.baseval := hx.2; omega)
  · exact E.mono e k he.1 hek hk.2 e1 k1
  · obtain ⟨a1, a2, a3⟩ := inn m m1 m2
    exact ⟨by show ne + h.m.baseval ≤ _; omega, by show _ < ne + h.m.baseval + vnodnbr; omega⟩
  · have x1 : ne + h.m.baseval ≤ x := hx.1
    have x2 : x < ne + h.m.baseval + vnodnbr := hx.2
    obtain ⟨m, a1, a2, a3, a4⟩ := N.surj x (by omega) (by rw [N.num, ← S.vnodnbr]; omega)
    exact ⟨m, ⟨a1, a2⟩, a3, (inn m ⟨a1, a2⟩ a3).1.trans a4⟩
  · rw [(inn m m1 m2).1, (inn k k1 k2).1]
    exact N.mono m k m1.1 hmk k1.2 m2 k2
  · have x1 : ne + h.m.baseval ≤ x := hx.1
    have x2 : x < nd := hx.2
    have x3 : W ≤ x := by
      by_contra z
      exact hx' ⟨x1, by show x < ne + h.m.baseval + vnodnbr; omega⟩
    obtain ⟨b1, b2, b3⟩ := E.node.back x x3 (by omega)
    exact ⟨_, b1, b2, b3⟩
  · have O := kel e he hk
    have : m ∈ ((h.m.nbr e).filter fun n => !isIn h part pv n).reverse := List.mem_reverse.2 (List.mem_filter.2 ⟨m1, by rw [m2]; rfl⟩)
    rw [← O.halo] at this
    obtain ⟨y, hy, rfl⟩ := List.mem_map.1 this
    obtain ⟨k, k1, k2, k3⟩ := (mem_seg _ _ _ _).1 hy
    have r := O.range k k1 k2
    rw [k3] at r
    have b := (E.node.back y r.1 r.2).2.2
    rw [b]
    exact ⟨⟨by show ne + h.m.baseval ≤ y; omega, by show y < nd; omega⟩, fun z => by have : y < ne + h.m.baseval + vnodnbr := z.2; omega⟩
  · have m4 : ne + h.m.baseval ≤ s.indx.get m := m3.1
    rw [← (out m m1 m2 (by omega)).2.2, ← (out k k1 k2 (by omega)).2.2, hmk]
  · obtain ⟨k1, k2⟩ := kend e he hk
    obtain ⟨o1, o2, o3⟩ := (kel e he hk).hd
    show seg u.edge.get (vert.get (s.indx.get e)) (vert.get (s.indx.get e + 1)) = _
    rw [k1, k2, ← hinn e he hk, ← hseg e he hk, ← seg_append _ o1 o2]
  · obtain ⟨e, he, hk, rfl⟩ := elsurj x hx.1 (by have : x < ne + h.m.baseval := hx.2; omega)
    obtain ⟨k1, k2⟩ := kend e he hk
    obtain ⟨o1, o2, o3⟩ := (kel e he hk).hd
    show vert.get (s.indx.get e) ≤ u.vehd.get (s.indx.get e) ∧ u.vehd.get (s.indx.get e) ≤ vert.get (s.indx.get e + 1)
    rw [k1, k2, vehd]; exact ⟨o1, o2⟩
  · obtain ⟨e, he, hk, rfl⟩ := elsurj x hx.1 (by have : x < ne + h.m.baseval := hx.2; omega)
    obtain ⟨k1, k2⟩ := kend e he hk
    have O := kel e he hk
    obtain ⟨o1, o2, o3⟩ := O.hd
    have i1' : vert.get (s.indx.get e) ≤ i := i1
    have i2' : i < vert.get (s.indx.get e + 1) := i2
    show (ne + h.m.baseval ≤ u.edge.get i ∧ u.edge.get i < ne + h.m.baseval + vnodnbr) ↔ i < u.vehd.get (s.indx.get e)
    rw [vehd]
    refine ⟨fun z => ?_, fun z => ?_⟩
    · by_contra q
      have := O.range i (by omega) (by omega)
      rw [← e1 i (by omega)] at this
      omega
    · have : u.edge.get i ∈ ((h.m.nbr e).filter (isIn h part pv)).map s.indx.get := by
        rw [← hinn e he hk]; exact (mem_seg _ _ _ _).2 ⟨i, by omega, z, rfl⟩
      obtain ⟨y, hy, hy'⟩ := List.mem_map.1 this
      have q := of_decide_eq_true (List.mem_filter.1 hy).2
      have := inn y q.1 q.2
      omega
  · obtain ⟨a1, a2, a3⟩ := inn m m1 m2
    have r := (T.rows (s.indx.get m) (by omega) (by omega)).1
    have a := (N.nums m m1.1 m1.2 m2).2.2
    have rr := T.rows (s.indx.get m) (by omega) (by omega)
    show seg u.edge.get (vert.get (s.indx.get m)) (vert.get (s.indx.get m + 1)) = _
    have z : t.vt W (s.indx.get m) = t.vert.get (s.indx.get m) := if_neg (by omega)
    rw [v2 _ (by omega) (by omega), v2 _ (by omega) (by omega), z, seg_congr (g := t.edge.get) (fun k _ _ => U.edge k (by omega)), r, a1, a]
    congr 2
    omega
  · have m4 : ne + h.m.baseval ≤ s.indx.get m := m3.1
    obtain ⟨o1, o2, o3⟩ := out m m1 m2 (by omega)
    have rr := U.rows (s.indx.get m) o1 o2
    show seg u.edge.get (vert.get (s.indx.get m)) (vert.get (s.indx.get m + 1)) = _
    have z : u.vt nd (s.indx.get m) = u.vert.get (s.indx.get m) := if_neg (by omega)
    rw [v3 _ (by omega) (by omega), v3 _ (by omega) (by omega), z, rr.1, T.vnuh, T.indx, o3, List.filter_map]
    congr 1
    refine List.filter_congr fun e he => ?_
    have hE := (H.mesh.elems m m1 e he).1
    by_cases hk : Kept h part pv e
    · have := (kel e hE hk).num
      show decide (s.indx.get e ≠ -1) = _
      rw [decide_eq_true (by omega), decide_eq_true hk]
    · have := E.gone e hE.1 hE.2 hk
      show decide (s.indx.get e ≠ -1) = _
      rw [decide_eq_false (by omega), decide_eq_false hk]
  · have O := kel e he hk
    have on := O.num
    show (match (if h.m.velotax.isSome ∧ ne ≠ 0 then some u.velo else none) with | none => (1 : Int) | some a => a.get (s.indx.get e)) = _
    cases hl : h.m.velotax with
    | none =>
      rw [if_neg (by simp)]
      unfold Mesh.velo; rw [hl]
    | some l =>
      rw [if_pos ⟨rfl, by omega⟩, velo]
      exact O.load (by rw [hl]; simp)
  · obtain ⟨a1, a2, a3⟩ := inn m m1 m2
    show (match (if h.m.vnlotax.isSome ∧ vnodnbr + halo ≠ 0 then some u.vnlo else none) with | none => (1 : Int) | some a => a.get (s.indx.get m)) = _
    cases hl : h.m.vnlotax with
    | none =>
      rw [if_neg (by simp)]
      unfold Mesh.vnlo; rw [hl]
    | some l =>
      rw [if_pos ⟨rfl, by omega⟩, vnlo]
      show s.vnlo.get (s.indx.get m) = _
      rw [E.vnlo _ (by omega), a1]
      exact N.load (by rw [hl]; simp) m m1.1 m1.2 m2
  · have m4 : ne + h.m.baseval ≤ s.indx.get m := m3.1
    obtain ⟨o1, o2, o3⟩ := out m m1 m2 (by omega)
    show (match (if h.m.vnlotax.isSome ∧ vnodnbr + halo ≠ 0 then some u.vnlo else none) with | none => (1 : Int) | some a => a.get (s.indx.get m)) = _
    cases hl : h.m.vnlotax with
    | none =>
      rw [if_neg (by simp)]
      unfold Mesh.vnlo; rw [hl]
    | some l =>
      have hpos : vnodnbr + halo ≠ 0 := by
        by_cases hi : h.Inner m
        · have := count_pos (fun n => part.get n = 2) hi.1 hi.2 (m2 hi)
          rw [← S.vnspnbr] at this
          omega
        · have : h.vnohnnd ≤ m := by
            by_contra z
            exact hi ⟨m1.1, by omega⟩
          have := m1.2
          omega
      rw [if_pos ⟨rfl, hpos⟩, vnlo]
      show s.vnlo.get (s.indx.get m) = _
      rw [E.node.load (by rw [hl]; simp) _ o1 (by omega), o3]
  · show (if h.m.velotax.isSome ∧ ne ≠ 0 then s.velosum else ne) = _
    cases hl : h.m.velotax with
    | none =>
      rw [if_neg (by simp), hne]
      refine sumI_congr fun e _ _ => ?_
      unfold Mesh.velo; rw [hl]
    | some l =>
      by_cases hz : ne = 0
      · rw [if_neg (fun k => k.2 hz), hz, sumI_congr (g := fun _ => 0)]
        · exact (sum_zero _ _).symm
        · intro e a1 a2
          refine if_neg fun hk => ?_
          have := (kel e ⟨a1, a2⟩ hk).num
          omega
      · rw [if_pos ⟨rfl, hz⟩]
        exact E.velosum (by rw [hl]; simp)
  · show (if h.m.vnlotax.isSome ∧ vnodnbr + halo ≠ 0 then n.sum else vnodnbr) = _
    cases hl : h.m.vnlotax with
    | none =>
      rw [if_neg (by simp), S.vnodnbr]
      refine sumI_congr fun e _ _ => ?_
      unfold Mesh.vnlo; rw [hl]
    | some l =>
      by_cases hz : vnodnbr + halo = 0
      · have hz' : vnodnbr = 0 := by omega
        rw [if_neg (fun k => k.2 hz), hz', sumI_congr (g := fun _ => 0)]
        · exact (sum_zero _ _).symm
        · intro m a1 a2
          refine if_neg fun hk => ?_
          have := inn m ⟨a1, a2⟩ hk
          omega
      · rw [if_pos ⟨rfl, hz⟩]
        exact N.sum (by rw [hl]; simp)
  · show 0 + s.veih = _
    rw [E.veih]; omega
  · obtain ⟨a1, a2, a3⟩ := inn m m1 m2
    have a := (N.nums m m1.1 m1.2 m2).2.2
    rw [hvnum _ (by omega) (by omega), a1, a]
    unfold orgNum
    cases org with
    | none => rfl
    | some o =>
      show o.get _ = o.get _
      congr 1
      omega

end Scotch.Msep
