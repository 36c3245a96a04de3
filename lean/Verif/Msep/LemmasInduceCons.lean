import Verif.Msep.LemmasInduceAll

/-! # Submeshes with halos: consistency -/

set_option autoImplicit false

namespace Scotch.Msep

variable {h : Hmesh} {part : Arr Int} {pv : Int}

theorem telescope (f : Int → Int) {lo hi : Int} (hle : lo ≤ hi) : sumI lo hi (fun v => f (v + 1) - f v) = f hi - f lo := by
  obtain ⟨k, rfl⟩ := Int.le.dest hle
  clear hle
  induction k with
  | zero =>
    have e : lo + ((0 : Nat) : Int) = lo := by omega
    rw [e, sumI_empty (Int.le_refl _)]; omega
  | succ k ih =>
    have e : lo + ((k + 1 : Nat) : Int) = lo + (k : Int) + 1 := by omega
    rw [e, sumI_succ (by omega), ih]; omega

/-- Sums and bounds of the arrays of a submesh. -/
structure Raw (h r : Hmesh) : Prop where
  nonneg : 0 ≤ r.m.velmnbr ∧ 0 ≤ r.vnohnbr
  arcs : ∀ v, r.m.Elem v ∨ r.m.Node v → r.m.baseval ≤ r.m.vert v ∧ r.m.vert v ≤ r.m.vend v
  edgenbr : r.m.edgenbr = sumI r.m.velmbas r.m.velmnnd (fun v => (r.m.nbr v).length) + sumI r.m.vnodbas r.m.vnodnnd (fun v => (r.m.nbr v).length)
  enohnbr : r.enohnbr = sumI r.m.velmbas r.m.velmnnd (fun v => (r.m.nbr v).length) + sumI r.m.vnodbas r.vnohnnd (fun v => (r.m.nbr v).length)
  degrmax : r.m.degrmax = h.m.degrmax
  velosum : r.m.velosum = sumI r.m.velmbas r.m.velmnnd r.m.velo
  vnlosum : r.m.vnlosum = sumI r.m.vnodbas r.m.vnodnnd r.m.vnlo
  vnhlsum : r.vnhlsum = sumI r.m.vnodbas r.vnohnnd r.m.vnlo

theorem raw_of {velmnbr vnodnbr vnspnbr : Int} (S : Separation h part pv velmnbr vnodnbr vnspnbr) {ne halo W V nd : Int} {n : IndNum} {s t u : IndEl} {vert : Arr Int}
    (hV : V = ne + h.m.baseval) (hW : W = V + vnodnbr) (hne : ne = sumI h.m.velmbas h.m.velmnnd (fun e => if Kept h part pv e then 1 else 0)) (N : NumInv h part pv V h.vnohnnd n)
    (E : ElInv h part pv V W n.indx.get n.vnlo.get h.m.velmnnd s) (T : Rows s (fun x => (h.m.nbr (n.vnum.get x + (h.m.vnodbas - h.m.baseval))).map s.indx.get) V W t)
    (U : Rows t (fun x => ((h.m.nbr (t.vnuh.get x)).map t.indx.get).filter (fun x => decide (x ≠ -1))) W nd u) (hnd : nd = s.vnod) (hvert : vert = u.vert.set nd u.num) :
    Raw h (indMesh h ne vnodnbr halo n s t u nd vert) := by
  have hel : s.elem = V := by have := E.cnt; omega
  have hne0 : 0 ≤ ne := hne ▸ count_nonneg _
  have hvn0 : 0 ≤ vnodnbr := S.vnodnbr ▸ count_nonneg _
  have hWn : W ≤ nd := by have := E.node.le; omega
  have tn := T.num
  have un := U.num
  have sn := E.low
  have v3 : ∀ x, W ≤ x → x ≤ nd → vert.get x = u.vt nd x := by
    intro x x1 x2
    unfold IndEl.vt
    by_cases k : x = nd
    · rw [if_pos k, k, hvert, Arr.set_get_same]
    · rw [if_neg k, hvert, Arr.set_get_ne _ _ k]
  have v2 : ∀ x, V ≤ x → x ≤ W → vert.get x = t.vt W x := by
    intro x x1 x2
    by_cases k : x = W
    · rw [v3 x (by omega) (by omega), k, U.first]; exact (if_pos rfl).symm
    · unfold IndEl.vt
      rw [if_neg k, hvert, Arr.set_get_ne _ _ (by omega), U.vert x (by omega)]
  have v1 : ∀ x, x ≤ V → vert.get x = s.vt s.elem x := by
    intro x x1
    by_cases k : x = V
    · rw [v2 x (by omega) (by omega), k, T.first, ← hel]; exact (if_pos rfl).symm
    · unfold IndEl.vt
      rw [if_neg (by omega), hvert, Arr.set_get_ne _ _ (by omega), U.vert x (by omega), T.vert x (by omega)]
  have v0 : ∀ x, x < V → vert.get x = s.vert.get x := fun x hx => by rw [v1 x (by omega)]; exact if_neg (by omega)
  have velo : u.velo = s.velo := U.velo.trans T.velo
  have vnlo : u.vnlo = s.vnlo := U.vnlo.trans T.vnlo
  have arcs : ∀ x, h.m.baseval ≤ x → x < nd → h.m.baseval ≤ vert.get x ∧ vert.get x ≤ vert.get (x + 1) := by
    intro x x1 x2
    by_cases hxV : x < V
    · obtain ⟨e, a1, a2, a3, rfl⟩ := E.surj x x1 (by omega)
      have O := E.kept e a1 a2 a3
      have := O.hd
      rw [v0 _ hxV, v1 (s.indx.get e + 1) (by omega), O.vt]
      exact ⟨O.low, by omega⟩
    · by_cases hxW : x < W
      · have := T.low x (by omega) hxW
        have := T.rows x (by omega) hxW
        have z : t.vt W x = t.vert.get x := if_neg (by omega)
        rw [v2 x (by omega) (by omega), v2 (x + 1) (by omega) (by omega), z]
        omega
      · have := U.low x (by omega) x2
        have := U.rows x (by omega) x2
        have z : u.vt nd x = u.vert.get x := if_neg (by omega)
        rw [v3 x (by omega) (by omega), v3 (x + 1) (by omega) (by omega), z]
        omega
  have len : ∀ x, h.m.baseval ≤ x → x < nd → ((seg u.edge.get (vert.get x) (vert.get (x + 1))).length : Int) = vert.get (x + 1) - vert.get x := fun x x1 x2 => seg_length _ (arcs x x1 x2).2
  refine ⟨⟨hne0, hvn0⟩, fun v hv => ?_, ?_, ?_, rfl, ?_, ?_, ?_⟩
  · rcases hv with hv | hv
    · have a : h.m.baseval ≤ v := hv.1
      have b : v < ne + h.m.baseval := hv.2
      exact arcs v a (by omega)
    · have a : ne + h.m.baseval ≤ v := hv.1
      have b : v < nd := hv.2
      exact arcs v (by omega) b
  · show u.num - h.m.baseval = sumI h.m.baseval (ne + h.m.baseval) (fun v => ((seg u.edge.get (vert.get v) (vert.get (v + 1))).length : Int)) + sumI (ne + h.m.baseval) nd (fun v => ((seg u.edge.get (vert.get v) (vert.get (v + 1))).length : Int))
    rw [← sumI_split (by omega) (by omega), sumI_congr (fun x x1 x2 => len x x1 x2), telescope vert.get (by omega), v3 nd hWn (Int.le_refl _), v1 h.m.baseval (by omega), E.first]
    have z : u.vt nd nd = u.num := if_pos rfl
    rw [z]
  · show t.num - h.m.baseval = sumI h.m.baseval (ne + h.m.baseval) (fun v => ((seg u.edge.get (vert.get v) (vert.get (v + 1))).length : Int)) + sumI (ne + h.m.baseval) (ne + h.m.baseval + vnodnbr) (fun v => ((seg u.edge.get (vert.get v) (vert.get (v + 1))).length : Int))
    rw [← sumI_split (by omega) (by omega), sumI_congr (fun x x1 x2 => len x x1 (by omega)), telescope vert.get (by omega), v2 _ (by omega) (by omega), v1 h.m.baseval (by omega), E.first]
    have z : t.vt W (ne + h.m.baseval + vnodnbr) = t.num := if_pos (by omega)
    rw [z]
  · show (if h.m.velotax.isSome ∧ ne ≠ 0 then s.velosum else ne) = sumI h.m.baseval (ne + h.m.baseval) (fun x => match (if h.m.velotax.isSome ∧ ne ≠ 0 then some u.velo else none) with | none => (1 : Int) | some a => a.get x)
    by_cases hc : h.m.velotax.isSome ∧ ne ≠ 0
    · have hl : h.m.velotax ≠ none := fun k => by rw [k] at hc; exact absurd hc.1 (by simp)
      rw [if_pos hc, if_pos hc, E.total hl, hel, hV, velo]
    · rw [if_neg hc, if_neg hc, sumI_const (by omega)]; omega
  · show (if h.m.vnlotax.isSome ∧ vnodnbr + halo ≠ 0 then n.sum + s.vnlosum else s.vnod - (ne + h.m.baseval)) = sumI (ne + h.m.baseval) nd (fun x => match (if h.m.vnlotax.isSome ∧ vnodnbr + halo ≠ 0 then some u.vnlo else none) with | none => (1 : Int) | some a => a.get x)
    by_cases hc : h.m.vnlotax.isSome ∧ vnodnbr + halo ≠ 0
    · have hl : h.m.vnlotax ≠ none := fun k => by rw [k] at hc; exact absurd hc.1 (by simp)
      have hnW : n.num = W := by rw [N.num, ← S.vnodnbr, hW]
      rw [if_pos hc, if_pos hc, N.total hl, E.node.total hl, vnlo, hnW, ← hV, ← hnd]
      show _ = sumI V nd s.vnlo.get
      have z1 := sumI_split (lo := V) (mid := W) (hi := nd) (f := s.vnlo.get) (by omega) hWn
      have z2 : sumI V W n.vnlo.get = sumI V W s.vnlo.get := sumI_congr (fun k _ k2 => (E.vnlo k k2).symm)
      rw [z1, z2]
    · rw [if_neg hc, if_neg hc, sumI_const (by omega)]; omega
  · show (if h.m.vnlotax.isSome ∧ vnodnbr + halo ≠ 0 then n.sum else vnodnbr) = sumI (ne + h.m.baseval) (ne + h.m.baseval + vnodnbr) (fun x => match (if h.m.vnlotax.isSome ∧ vnodnbr + halo ≠ 0 then some u.vnlo else none) with | none => (1 : Int) | some a => a.get x)
    by_cases hc : h.m.vnlotax.isSome ∧ vnodnbr + halo ≠ 0
    · have hl : h.m.vnlotax ≠ none := fun k => by rw [k] at hc; exact absurd hc.1 (by simp)
      have hnW : n.num = W := by rw [N.num, ← S.vnodnbr, hW]
      rw [if_pos hc, if_pos hc, N.total hl, vnlo, hnW, ← hV, ← hW]
      exact sumI_congr (fun k _ k2 => (E.vnlo k k2).symm)
    · rw [if_neg hc, if_neg hc, sumI_const (by omega)]; omega

/-- Kept elements are the neighbours of nodes of the part. -/
theorem kept_of (H : h.Consistent) {velmnbr vnodnbr vnspnbr : Int} (S : Separation h part pv velmnbr vnodnbr vnspnbr) {m e : Int} (hm : h.Inner m) (hp : part.get m = pv) (he : e ∈ h.m.nbr m) : h.m.Elem e ∧ Kept h part pv e ∧ m ∈ h.m.nbr e := by
  obtain ⟨a1, a2⟩ := H.mesh.elems m (inner_node H hm) e he
  refine ⟨a1, ⟨S.side e a1 m a2 hm hp, fun k => ?_⟩, a2⟩
  obtain ⟨i, i1, i2, i3⟩ := (mem_seg _ _ _ _).1 a2
  have := (H.split e i a1 i1 i2).1 (by rw [i3]; exact hm)
  omega

theorem nodup_map {l : List Int} {f : Int → Int} (hl : l.Nodup) (hf : ∀ x ∈ l, ∀ y ∈ l, f x = f y → x = y) : (l.map f).Nodup := List.Nodup.map_on hf hl

/-- A submesh is consistent. -/
theorem consistent_of (H : h.Consistent) {velmnbr vnodnbr vnspnbr : Int} (S : Separation h part pv velmnbr vnodnbr vnspnbr) {org : Option (Arr Int)} {num : Int → Int} {r : Hmesh} {vnum : Arr Int} (I : Induced h org part pv num r vnum) (R : Raw h r) : r.Consistent := by
  obtain ⟨s1, s2, s3, s4⟩ := I.sizes
  obtain ⟨b1, b2, b3⟩ := I.base
  obtain ⟨n1, n2⟩ := R.nonneg
  have outer : ∀ e, h.m.Elem e → Kept h part pv e → ∀ m ∈ h.m.nbr e, isIn h part pv m = false → h.m.Node m ∧ (h.Inner m → part.get m = 2) := by
    intro e he hk m hm hq
    refine ⟨(H.mesh.nodes e he m hm).1, fun hi => (S.sep e he hk.1 m hm hi).resolve_left fun hp => ?_⟩
    exact of_decide_eq_false hq ⟨hi, hp⟩
  have emono : ∀ e k, h.m.Elem e → h.m.Elem k → Kept h part pv e → Kept h part pv k → num e = num k → e = k := by
    intro e k he hk e1 k1 q
    by_contra z
    rcases Int.lt_or_gt_of_ne z with z | z
    · have := I.elem_mono e k he hk e1 k1 z; omega
    · have := I.elem_mono k e hk he k1 e1 z; omega
  have nmono : ∀ e k, h.Inner e → h.Inner k → part.get e = pv → part.get k = pv → num e = num k → e = k := by
    intro e k he hk e1 k1 q
    by_contra z
    rcases Int.lt_or_gt_of_ne z with z | z
    · have := I.node_mono e k he hk e1 k1 z; omega
    · have := I.node_mono k e hk he k1 e1 z; omega
  have rnode : ∀ x, r.Inner x → r.m.Node x := fun x hx => ⟨hx.1, by have := hx.2; omega⟩
  have isIn_of : ∀ m, isIn h part pv m = true → h.Inner m ∧ part.get m = pv := fun m k => of_decide_eq_true k
  -- the two kinds of nodes
  have nodes2 : ∀ x, r.m.Node x → (∃ m, h.Inner m ∧ part.get m = pv ∧ num m = x) ∨ ∃ m, h.m.Node m ∧ (h.Inner m → part.get m = 2) ∧ num m = x := by
    intro x hx
    by_cases k : r.Inner x
    · exact Or.inl (I.node_surj x k)
    · exact Or.inr (I.halo_surj x hx k)
  have mem_e : ∀ e, h.m.Elem e → Kept h part pv e → ∀ w, w ∈ r.m.nbr (num e) ↔ ∃ m ∈ h.m.nbr e, num m = w := by
    intro e he hk w
    rw [I.nodes e he hk]
    simp only [List.mem_append, List.mem_reverse, List.mem_map, List.mem_filter]
    constructor
    · rintro (⟨m, ⟨a, _⟩, b⟩ | ⟨m, ⟨a, _⟩, b⟩) <;> exact ⟨m, a, b⟩
    · rintro ⟨m, a, b⟩
      by_cases q : isIn h part pv m = true
      · exact Or.inl ⟨m, ⟨a, q⟩, b⟩
      · exact Or.inr ⟨m, ⟨a, by rw [Bool.not_eq_true] at q; rw [q]; rfl⟩, b⟩
  refine ⟨⟨n1, by omega, s1, s2, Or.inl ⟨b2, b3⟩, R.arcs, ?_, ?_, ?_, R.edgenbr, ?_, R.velosum, ?_, R.vnlosum, ?_⟩, ⟨n2, by omega⟩, s3, I.range, I.split, R.vnhlsum⟩
  · intro x hx w hw
    obtain ⟨e, he, hk, rfl⟩ := I.elem_surj x hx
    obtain ⟨m, hm, rfl⟩ := (mem_e e he hk w).1 hw
    have em := (H.mesh.nodes e he m hm).2
    by_cases q : isIn h part pv m = true
    · obtain ⟨q1, q2⟩ := isIn_of m q
      refine ⟨rnode _ (I.node m q1 q2), ?_⟩
      rw [I.elems m q1 q2]
      exact List.mem_map.2 ⟨e, em, rfl⟩
    · rw [Bool.not_eq_true] at q
      obtain ⟨o1, o2⟩ := outer e he hk m hm q
      have hn := (I.halo e he hk m hm q).1
      refine ⟨hn, ?_⟩
      rw [I.elems_halo m o1 o2 hn]
      exact List.mem_map.2 ⟨e, List.mem_filter.2 ⟨em, decide_eq_true hk⟩, rfl⟩
  · intro x hx w hw
    rcases nodes2 x hx with ⟨m, m1, m2, rfl⟩ | ⟨m, m1, m2, rfl⟩
    · rw [I.elems m m1 m2] at hw
      obtain ⟨e, he, rfl⟩ := List.mem_map.1 hw
      obtain ⟨a1, a2, a3⟩ := kept_of H S m1 m2 he
      exact ⟨I.elem e a1 a2, (mem_e e a1 a2 _).2 ⟨m, a3, rfl⟩⟩
    · rw [I.elems_halo m m1 m2 hx] at hw
      obtain ⟨e, he, rfl⟩ := List.mem_map.1 hw
      obtain ⟨he1, he2⟩ := List.mem_filter.1 he
      obtain ⟨a1, a3⟩ := H.mesh.elems m m1 e he1
      have a2 := of_decide_eq_true he2
      exact ⟨I.elem e a1 a2, (mem_e e a1 a2 _).2 ⟨m, a3, rfl⟩⟩
  · rintro x (hx | hx)
    · obtain ⟨e, he, hk, rfl⟩ := I.elem_surj x hx
      have nd := H.mesh.simple e (Or.inl he)
      rw [I.nodes e he hk]
      refine List.nodup_append.2 ⟨nodup_map (nd.filter _) fun y hy z hz q => ?_, List.nodup_reverse.2 (nodup_map (nd.filter _) fun y hy z hz q => ?_), fun y hy z hz q => ?_⟩
      · obtain ⟨y1, y2⟩ := isIn_of y (List.mem_filter.1 hy).2
        obtain ⟨z1, z2⟩ := isIn_of z (List.mem_filter.1 hz).2
        exact nmono y z y1 z1 y2 z2 q
      · obtain ⟨y1, y2⟩ := List.mem_filter.1 hy
        obtain ⟨z1, z2⟩ := List.mem_filter.1 hz
        have y3 : isIn h part pv y = false := by simpa using y2
        have z3 : isIn h part pv z = false := by simpa using z2
        obtain ⟨a1, a2⟩ := outer e he hk y y1 y3
        obtain ⟨c1, c2⟩ := outer e he hk z z1 z3
        exact I.halo_inj y z a1 c1 a2 c2 (I.halo e he hk y y1 y3).1 q
      · obtain ⟨m, hm, rfl⟩ := List.mem_map.1 hy
        obtain ⟨k, hk', rfl⟩ := List.mem_map.1 (List.mem_reverse.1 hz)
        obtain ⟨y1, y2⟩ := isIn_of m (List.mem_filter.1 hm).2
        obtain ⟨z1, z2⟩ := List.mem_filter.1 hk'
        have z3 : isIn h part pv k = false := by simpa using z2
        exact (I.halo e he hk k z1 z3).2 (q ▸ I.node m y1 y2)
    · rcases nodes2 x hx with ⟨m, m1, m2, rfl⟩ | ⟨m, m1, m2, rfl⟩
      · rw [I.elems m m1 m2]
        refine nodup_map (H.mesh.simple m (Or.inr (inner_node H m1))) fun y hy z hz q => ?_
        obtain ⟨y1, y2, _⟩ := kept_of H S m1 m2 hy
        obtain ⟨z1, z2, _⟩ := kept_of H S m1 m2 hz
        exact emono y z y1 z1 y2 z2 q
      · rw [I.elems_halo m m1 m2 hx]
        refine nodup_map ((H.mesh.simple m (Or.inr m1)).filter _) fun y hy z hz q => ?_
        obtain ⟨y1, y2⟩ := List.mem_filter.1 hy
        obtain ⟨z1, z2⟩ := List.mem_filter.1 hz
        exact emono y z (H.mesh.elems m m1 y y1).1 (H.mesh.elems m m1 z z1).1 (of_decide_eq_true y2) (of_decide_eq_true z2) q
  · intro x hx
    obtain ⟨e, he, hk, rfl⟩ := I.elem_surj x hx
    rw [I.velo e he hk]; exact H.mesh.velo e he
  · intro x hx
    rcases nodes2 x hx with ⟨m, m1, m2, rfl⟩ | ⟨m, m1, m2, rfl⟩
    · rw [I.vnlo m m1 m2]; exact H.mesh.vnlo m (inner_node H m1)
    · rw [I.vnlo_halo m m1 m2 hx]; exact H.mesh.vnlo m m1
  · rw [R.degrmax]
    refine ⟨H.mesh.degrmax.1, ?_⟩
    rintro x (hx | hx)
    · obtain ⟨e, he, hk, rfl⟩ := I.elem_surj x hx
      have := H.mesh.degrmax.2 e (Or.inl he)
      rw [I.nodes e he hk, List.length_append, List.length_reverse, List.length_map, List.length_map]
      have k := List.length_eq_length_filter_add (l := h.m.nbr e) (isIn h part pv)
      omega
    · rcases nodes2 x hx with ⟨m, m1, m2, rfl⟩ | ⟨m, m1, m2, rfl⟩
      · rw [I.elems m m1 m2, List.length_map]; exact H.mesh.degrmax.2 m (Or.inr (inner_node H m1))
      · have := H.mesh.degrmax.2 m (Or.inr m1)
        have k := List.length_filter_le (fun e => decide (Kept h part pv e)) (h.m.nbr m)
        rw [I.elems_halo m m1 m2 hx, List.length_map]
        omega

theorem induce_post (H : h.Consistent) {velmnbr vnodnbr vnspnbr : Int} (S : Separation h part pv velmnbr vnodnbr vnspnbr) (junk : Int → Int) (org : Option (Arr Int)) :
    Post (hmeshInducePart junk h org part pv velmnbr vnodnbr vnspnbr) (fun r => r.1.Consistent ∧ Raw h r.1 ∧ ∃ num, Induced h org part pv num r.1 r.2) := by
  have kc := kept_count S
  unfold hmeshInducePart
  dsimp only
  generalize hne : (if pv = 0 then velmnbr - (h.m.veisnbr + h.veihnbr) else velmnbr) = ne at *
  generalize hhalo : vnspnbr + h.m.vnodnnd - h.vnohnnd = halo
  have base := S.base
  have hne0 : 0 ≤ ne := kc ▸ count_nonneg _
  have hvn0 : 0 ≤ vnodnbr := S.vnodnbr ▸ count_nonneg _
  have hin : h.m.vnodbas ≤ h.vnohnnd := by have := H.vnohnbr; have := H.vnohnnd; omega
  have hnn : h.vnohnnd ≤ h.m.vnodnnd := by have := H.vnohnbr; have := H.vnohnnd; have := H.mesh.vnodnnd; omega
  have hp2 : pv ≠ 2 := by have := S.part01; omega
  rw [Post_bind]
  refine (numNodes_post (V := ne + h.m.baseval) hp2 hin rfl rfl).mono fun n N => ?_
  have hnum : n.num = ne + h.m.baseval + vnodnbr := by rw [N.num, ← S.vnodnbr]
  rw [Post_bind]
  refine Post_forUp (fun i a => (∀ v, h.vnohnnd ≤ v → v < i → a.get v = -1) ∧ ∀ v, v < h.vnohnnd → a.get v = n.indx.get v) hnn ⟨fun v _ _ => by omega, fun _ _ => rfl⟩ (fun i a i1 i2 I => ?_) (fun indx I => ?_)
  · rw [Post_wr]
    intro _ _
    refine ⟨fun v v1 v2 => ?_, fun v v1 => by rw [Arr.set_get_ne _ _ (by omega)]; exact I.2 v v1⟩
    by_cases k : v = i
    · rw [k, Arr.set_get_same]
    · rw [Arr.set_get_ne _ _ k]; exact I.1 v v1 (by omega)
  rw [Post_bind]
  have I0 : ElInv h part pv (ne + h.m.baseval) (ne + h.m.baseval + vnodnbr) n.indx.get n.vnlo.get h.m.velmbas (indInit junk h velmnbr ne vnodnbr halo indx n) := by
    refine ⟨⟨fun m a1 a2 => ?_, fun m a1 a2 => ?_, ?_, fun v v1 v2 => ?_, fun _ v v1 v2 => ?_, fun _ => ?_⟩, fun _ _ => rfl, ?_, Int.le_refl _, if_pos rfl, fun e _ _ => by omega, fun e _ _ => by omega, fun x x1 x2 => ?_, fun e k _ _ _ => by omega, fun _ => ?_, ?_, Int.le_refl _, fun _ => ?_⟩
    · have := N.nums m a1.1 a1.2 a2
      exact ⟨I.2 m a1.2, this.1, by omega⟩
    · refine Or.inl ?_
      show indx.get m = -1
      by_cases hi : h.Inner m
      · rw [I.2 m hi.2]; exact N.sep m hi.1 hi.2 (a2 hi)
      · refine I.1 m ?_ a1.2
        by_contra z
        exact hi ⟨a1.1, by omega⟩
    · show _ ≤ n.num; omega
    · have : v < n.num := v2
      omega
    · have : v < n.num := v2
      omega
    · show 0 = sumI _ n.num _
      rw [sumI_empty (by omega)]
    · rw [sumI_empty (Int.le_refl _)]; show h.m.baseval = _; omega
    · have : x < h.m.baseval := x2
      omega
    · rw [sumI_empty (Int.le_refl _)]; rfl
    · rw [sumI_empty (Int.le_refl _)]; rfl
    · show 0 = sumI h.m.baseval h.m.baseval _
      rw [sumI_empty (Int.le_refl _)]
  refine (indElems_post H (by omega) (by omega) S.sep I0).mono fun s E => ?_
  have hel : s.elem = ne + h.m.baseval := by have := E.cnt; omega
  have hvn := E.node.le
  rw [hel, Int.max_eq_right (a := ne + h.m.baseval) (b := ne + h.m.baseval + vnodnbr) (by omega), Post_bind]
  have hnd : ne + h.m.baseval + (s.vnod - (ne + h.m.baseval)) = s.vnod := by omega
  rw [hnd, Int.max_eq_right hvn]
  refine (rows_post (s := s) (lst := fun x => (h.m.nbr (n.vnum.get x + (h.m.vnodbas - h.m.baseval))).map s.indx.get) (by omega) (fun v t v1 v2 t1 _ => ?_)).mono fun t T => ?_
  · have hm : h.m.Node (n.vnum.get v + (h.m.vnodbas - h.m.baseval)) := by
      obtain ⟨m, a1, a2, a3, a4⟩ := N.surj v v1 (by omega)
      have := (N.nums m a1 a2 a3).2.2
      rw [a4] at this
      have e : n.vnum.get v + (h.m.vnodbas - h.m.baseval) = m := by omega
      rw [e]
      exact inner_node H ⟨a1, a2⟩
    have := indNode_post H (t := t) hm
    rw [t1] at this
    exact this
  rw [Post_bind]
  refine (rows_post (s := t) (lst := fun x => ((h.m.nbr (t.vnuh.get x)).map t.indx.get).filter (fun x => decide (x ≠ -1))) hvn (fun v u v1 v2 u1 u2 => ?_)).mono fun u U => ?_
  · have hm : h.m.Node (u.vnuh.get v) := by rw [u2, T.vnuh]; exact (E.node.back v v1 v2).1
    have := indHalo_post H hm
    rw [u1, u2] at this
    exact this
  rw [Post_bind, Post_wr]
  intro _ _
  rw [Post_bind]
  refine (indVnum_post (by omega)).mono fun vnum hv => ?_
  rw [Post_pure]
  have Ind := induced_of (org := org) H S rfl rfl kc hhalo.symm N E T U rfl rfl hv
  have R := raw_of (halo := halo) S rfl rfl kc N E T U rfl rfl
  exact ⟨consistent_of H S Ind R, R, _, Ind⟩

end Scotch.Msep
