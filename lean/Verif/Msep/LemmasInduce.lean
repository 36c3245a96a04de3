import Verif.Msep.ModelInduce
import Verif.Post

/-! # Submeshes with halos: lemmas -/

set_option autoImplicit false

namespace Scotch.Msep

variable {h : Hmesh} {part : Arr Int} {pv : Int}

theorem Post_rdVend {m : Mesh} {v : Int} {Q : Int → Prop} (hq : Q (m.vend v)) : Post (m.rdVend v) Q := by
  unfold Mesh.vend at hq
  unfold Mesh.rdVend
  cases hv : m.vendtax with
  | none => rw [hv] at hq; exact (Post_rd _ _ _).2 fun _ _ => hq
  | some a => rw [hv] at hq; exact (Post_rd _ _ _).2 fun _ _ => hq

/-! ## Numbers of nodes -/

/-- Nodes before `i` are numbered from `V` on. -/
structure NumInv (h : Hmesh) (part : Arr Int) (pv V : Int) (i : Int) (s : IndNum) : Prop where
  num : s.num = V + sumI h.m.vnodbas i (fun n => if part.get n = pv then 1 else 0)
  le : V ≤ s.num
  nums : ∀ n, h.m.vnodbas ≤ n → n < i → part.get n = pv → V ≤ s.indx.get n ∧ s.indx.get n < s.num ∧ s.vnum.get (s.indx.get n) = n - (h.m.vnodbas - h.m.baseval)
  surj : ∀ v, V ≤ v → v < s.num → ∃ n, h.m.vnodbas ≤ n ∧ n < i ∧ part.get n = pv ∧ s.indx.get n = v
  mono : ∀ n k, h.m.vnodbas ≤ n → n < k → k < i → part.get n = pv → part.get k = pv → s.indx.get n < s.indx.get k
  sep : ∀ n, h.m.vnodbas ≤ n → n < i → part.get n = 2 → s.indx.get n = -1
  sum : h.m.vnlotax ≠ none → s.sum = sumI h.m.vnodbas i (fun n => if part.get n = pv then h.m.vnlo n else 0)
  load : h.m.vnlotax ≠ none → ∀ n, h.m.vnodbas ≤ n → n < i → part.get n = pv → s.vnlo.get (s.indx.get n) = h.m.vnlo n
  total : h.m.vnlotax ≠ none → s.sum = sumI V s.num s.vnlo.get

theorem numStep {V i : Int} {s : IndNum} (hi : h.m.vnodbas ≤ i) (hp2 : pv ≠ 2) (I : NumInv h part pv V i s) (hp : part.get i = pv) {t : IndNum} (h1 : t.indx = s.indx.set i s.num) (h2 : t.vnum = s.vnum.set s.num (i - (h.m.vnodbas - h.m.baseval)))
    (h3 : t.num = s.num + 1) (h4 : h.m.vnlotax ≠ none → t.sum = s.sum + h.m.vnlo i ∧ t.vnlo = s.vnlo.set s.num (h.m.vnlo i)) : NumInv h part pv V (i + 1) t := by
  have := I.le
  have old : ∀ n, n < i → t.indx.get n = s.indx.get n := fun n hn => by rw [h1, Arr.set_get_ne _ _ (by omega)]
  have new : t.indx.get i = s.num := by rw [h1, Arr.set_get_same]
  refine ⟨?_, by omega, fun n n1 n2 n3 => ?_, fun v v1 v2 => ?_, fun n k n1 n2 n3 n4 n5 => ?_, fun n n1 n2 n3 => ?_, fun hl => ?_, fun hl n n1 n2 n3 => ?_, fun hl => ?_⟩
  · rw [h3, I.num, sumI_succ hi, if_pos hp]; omega
  · by_cases hn : n = i
    · subst hn; rw [new, h2, Arr.set_get_same]; exact ⟨by omega, by omega, rfl⟩
    · obtain ⟨a1, a2, a3⟩ := I.nums n n1 (by omega) n3
      rw [old n (by omega), h2, Arr.set_get_ne _ _ (by omega)]
      exact ⟨a1, by omega, a3⟩
  · by_cases hv : v = s.num
    · exact ⟨i, hi, by omega, hp, by rw [new, hv]⟩
    · obtain ⟨n, a1, a2, a3, a4⟩ := I.surj v v1 (by omega)
      exact ⟨n, a1, by omega, a3, by rw [old n a2, a4]⟩
  · by_cases hk : k = i
    · subst hk
      rw [new, old n n2]
      exact (I.nums n n1 n2 n4).2.1
    · rw [old n (by omega), old k (by omega)]
      exact I.mono n k n1 n2 (by omega) n4 n5
  · by_cases hn : n = i
    · subst hn; omega
    · rw [old n (by omega)]; exact I.sep n n1 (by omega) n3
  · rw [(h4 hl).1, I.sum hl, sumI_succ hi, if_pos hp]
  · by_cases hn : n = i
    · subst hn; rw [new, (h4 hl).2, Arr.set_get_same]
    · have := I.nums n n1 (by omega) n3
      rw [old n (by omega), (h4 hl).2, Arr.set_get_ne _ _ (by omega)]
      exact I.load hl n n1 (by omega) n3
  · rw [(h4 hl).1, (h4 hl).2, h3, sumI_succ I.le, Arr.set_get_same, I.total hl, sumI_congr (f := (s.vnlo.set s.num (h.m.vnlo i)).get) (g := s.vnlo.get) (fun k _ k2 => Arr.set_get_ne _ _ (by omega))]

theorem numNodes_post (hp2 : pv ≠ 2) (hle : h.m.vnodbas ≤ h.vnohnnd) {V : Int} {s : IndNum} (h1 : s.num = V) (h2 : s.sum = 0) : Post (numNodes h part pv s) (NumInv h part pv V h.vnohnnd) := by
  unfold numNodes
  refine Post_forUp (NumInv h part pv V) hle ?_ (fun i s i1 i2 I => ?_) (fun _ k => k)
  · exact ⟨by rw [sumI_empty (by omega)]; omega, by omega, fun n _ _ => by omega, fun v _ _ => by omega, fun n k _ _ _ => by omega, fun n _ _ => by omega, fun _ => by rw [sumI_empty (by omega)]; exact h2, fun _ n _ _ => by omega, fun _ => by rw [sumI_empty (by omega)]; exact h2⟩
  · unfold numNode
    rw [Post_bind, Post_rd]
    intro _ _
    have skip : part.get i ≠ pv → ∀ t : IndNum, t.num = s.num → t.vnum = s.vnum → t.vnlo = s.vnlo → t.sum = s.sum → (∀ n, n < i → t.indx.get n = s.indx.get n) → (part.get i = 2 → t.indx.get i = -1) → NumInv h part pv V (i + 1) t := by
      intro hp t t1 t2 t3 t4 t5 t6
      refine ⟨by rw [sumI_succ i1, if_neg hp, t1, I.num]; omega, by rw [t1]; exact I.le, fun n n1 n2 n3 => ?_, fun v v1 v2 => ?_, fun n k n1 n2 n3 n4 n5 => ?_, fun n n1 n2 n3 => ?_, fun hl => ?_, fun hl n n1 n2 n3 => ?_, fun hl => by rw [t4, t1, t3]; exact I.total hl⟩
      · have hn : n ≠ i := fun e => hp (e ▸ n3)
        rw [t5 n (by omega), t1, t2]; exact I.nums n n1 (by omega) n3
      · obtain ⟨n, a1, a2, a3, a4⟩ := I.surj v v1 (by omega)
        exact ⟨n, a1, by omega, a3, by rw [t5 n a2, a4]⟩
      · have hk : k ≠ i := fun e => hp (e ▸ n5)
        rw [t5 n (by omega), t5 k (by omega)]; exact I.mono n k n1 n2 (by omega) n4 n5
      · by_cases hn : n = i
        · subst hn; exact t6 n3
        · rw [t5 n (by omega)]; exact I.sep n n1 (by omega) n3
      · rw [t4, I.sum hl, sumI_succ i1, if_neg hp]; omega
      · have hn : n ≠ i := fun e => hp (e ▸ n3)
        rw [t5 n (by omega), t3]; exact I.load hl n n1 (by omega) n3
    rw [Post_ite]
    refine ⟨fun hp => ?_, fun hp => ?_⟩
    · rw [Post_bind, Post_wr]
      intro _ _
      rw [Post_bind, Post_wr]
      intro _ _
      cases hl : h.m.vnlotax with
      | none => exact numStep i1 hp2 I hp rfl rfl rfl (fun k => absurd hl k)
      | some l =>
        dsimp only
        rw [Post_bind, Post_rd]
        intro _ _
        rw [Post_bind, Post_wr]
        intro _ _
        have e : h.m.vnlo i = l.get i := by unfold Mesh.vnlo; rw [hl]
        exact numStep i1 hp2 I hp rfl rfl rfl (fun _ => by rw [e]; exact ⟨rfl, rfl⟩)
    · rw [Post_ite]
      refine ⟨fun hp' => ?_, fun hp' => ?_⟩
      · rw [Post_bind, Post_wr]
        intro _ _
        exact skip hp _ rfl rfl rfl rfl (fun n hn => by show (s.indx.set i (-1)).get n = _; rw [Arr.set_get_ne _ _ (by omega)]) (fun _ => by show (s.indx.set i (-1)).get i = _; rw [Arr.set_get_same])
      · exact skip hp s rfl rfl rfl rfl (fun _ _ => rfl) (fun k => absurd k hp')

/-! ## Arcs of elements -/

/-- What arcs need to know of the numbers of nodes. `G` numbers the nodes of the part, from `V` to `W`. -/
structure NodeInv (h : Hmesh) (part : Arr Int) (pv V W : Int) (G : Int → Int) (s : IndEl) : Prop where
  inner : ∀ n, h.Inner n → part.get n = pv → s.indx.get n = G n ∧ V ≤ G n ∧ G n < W
  outer : ∀ n, h.m.Node n → (h.Inner n → part.get n = 2) → s.indx.get n = -1 ∨ (W ≤ s.indx.get n ∧ s.indx.get n < s.vnod ∧ s.vnuh.get (s.indx.get n) = n)
  le : W ≤ s.vnod
  back : ∀ v, W ≤ v → v < s.vnod → h.m.Node (s.vnuh.get v) ∧ (h.Inner (s.vnuh.get v) → part.get (s.vnuh.get v) = 2) ∧ s.indx.get (s.vnuh.get v) = v
  load : h.m.vnlotax ≠ none → ∀ v, W ≤ v → v < s.vnod → s.vnlo.get v = h.m.vnlo (s.vnuh.get v)
  total : h.m.vnlotax ≠ none → s.vnlosum = sumI W s.vnod s.vnlo.get

/-- What arcs do not change. -/
structure ArcFrame (h : Hmesh) (num0 W : Int) (s t : IndEl) : Prop where
  indx : ∀ e, ¬ h.m.Node e → t.indx.get e = s.indx.get e
  vnuh : ∀ v, v < s.vnod → t.vnuh.get v = s.vnuh.get v
  vnlo : ∀ v, v < W → t.vnlo.get v = s.vnlo.get v
  vnod : s.vnod ≤ t.vnod
  edge : ∀ i, i < num0 → t.edge.get i = s.edge.get i
  vert : t.vert = s.vert
  vehd : t.vehd = s.vehd
  velo : t.velo = s.velo
  elem : t.elem = s.elem
  veih : t.veih = s.veih
  velosum : t.velosum = s.velosum

/-- Arcs from `b` to `j` of an element have been handled, from state `s`. -/
structure ArcInv (h : Hmesh) (part : Arr Int) (pv V W : Int) (G : Int → Int) (b nd : Int) (s : IndEl) (j : Int) (t : IndEl) : Prop where
  node : NodeInv h part pv V W G t
  frame : ArcFrame h s.num W s t
  le : s.num ≤ t.num
  gap : t.hd - t.num = nd - j
  hd : t.hd ≤ s.hd
  inner : seg t.edge.get s.num t.num = ((seg h.m.edgetax.get b j).filter (isIn h part pv)).map G
  halo : (seg t.edge.get t.hd s.hd).map t.vnuh.get = ((seg h.m.edgetax.get b j).filter (fun n => !isIn h part pv n)).reverse
  range : ∀ i, t.hd ≤ i → i < s.hd → W ≤ t.edge.get i ∧ t.edge.get i < t.vnod

theorem seg_filter_succ (f : Int → Int) (q : Int → Bool) {b j : Int} (hb : b ≤ j) : (seg f b (j + 1)).filter q = (seg f b j).filter q ++ (if q (f j) then [f j] else []) := by
  rw [seg_succ f hb, List.filter_append]
  congr 1
  by_cases k : q (f j) <;> simp [k]

theorem indArcs_post {V W : Int} {G : Int → Int} {b nd : Int} {s : IndEl} (hV : 0 ≤ V) (hW : V ≤ W) (hb : b ≤ nd) (N : NodeInv h part pv V W G s) (hs : s.hd = s.num + (nd - b))
    (hn : ∀ j, b ≤ j → j < nd → h.m.Node (h.m.edgetax.get j) ∧ (h.Inner (h.m.edgetax.get j) → part.get (h.m.edgetax.get j) = pv ∨ part.get (h.m.edgetax.get j) = 2)) :
    Post (forUp b nd s (indArc h W)) (ArcInv h part pv V W G b nd s nd) := by
  refine Post_forUp (ArcInv h part pv V W G b nd s) hb ?_ (fun j t j1 j2 I => ?_) (fun _ k => k)
  · refine ⟨N, ⟨fun _ _ => rfl, fun _ _ => rfl, fun _ _ => rfl, Int.le_refl _, fun _ _ => rfl, rfl, rfl, rfl, rfl, rfl, rfl⟩, Int.le_refl _, by omega, Int.le_refl _, ?_, ?_, fun i _ _ => by omega⟩
    · rw [seg_empty _ (Int.le_refl _), seg_empty _ (Int.le_refl _)]; rfl
    · rw [seg_empty _ (Int.le_refl _), seg_empty _ (Int.le_refl _)]; rfl
  · have gap := I.gap
    have le := I.le
    have hd := I.hd
    obtain ⟨n1, n2⟩ := hn j j1 j2
    unfold indArc
    rw [Post_bind, Post_rd]
    intro _ _
    rw [Post_bind, Post_rd]
    intro _ _
    generalize hv : h.m.edgetax.get j = v at *
    -- a node of the halo is written at the end
    have put : isIn h part pv v = false → ∀ t' : IndEl, NodeInv h part pv V W G t' → ArcFrame h s.num W t t' → t'.num = t.num → t'.hd = t.hd - 1 → ∀ x, t'.edge = t.edge.set (t.hd - 1) x → t'.vnuh.get x = v → W ≤ x → x < t'.vnod →
        ArcInv h part pv V W G b nd s (j + 1) t' := by
      intro q t' N' F e1 e2 x e3 e4 x1 x2
      have eo : ∀ i, i ≠ t.hd - 1 → t'.edge.get i = t.edge.get i := fun i hi => by rw [e3, Arr.set_get_ne _ _ hi]
      have en : t'.edge.get (t.hd - 1) = x := by rw [e3, Arr.set_get_same]
      have f := I.frame
      have fv := f.vnod
      refine ⟨N', ⟨fun e he => (F.indx e he).trans (f.indx e he), fun v hv => (F.vnuh v (by omega)).trans (f.vnuh v hv), fun v hv => (F.vnlo v hv).trans (f.vnlo v hv), Int.le_trans f.vnod F.vnod, fun i hi => (F.edge i hi).trans (f.edge i hi), F.vert.trans f.vert,
        F.vehd.trans f.vehd, F.velo.trans f.velo, F.elem.trans f.elem, F.veih.trans f.veih, F.velosum.trans f.velosum⟩, by omega, by omega, by omega, ?_, ?_, fun i i1 i2 => ?_⟩
      · rw [seg_filter_succ _ _ j1, hv, q, e1, seg_congr (g := t.edge.get) (fun i _ _ => eo i (by omega)), I.inner]
        simp
      · rw [seg_filter_succ _ _ j1, hv, q, e2, seg_cons _ (by omega), en, List.map_cons, e4]
        have e5 : t.hd - 1 + 1 = t.hd := by omega
        rw [e5, seg_congr (g := t.edge.get) (fun i _ _ => eo i (by omega))]
        have e6 : (seg t.edge.get t.hd s.hd).map t'.vnuh.get = (seg t.edge.get t.hd s.hd).map t.vnuh.get := by
          refine List.map_congr_left fun y hy => ?_
          obtain ⟨i, i1, i2, i3⟩ := (mem_seg _ _ _ _).1 hy
          exact F.vnuh y (i3 ▸ (I.range i i1 i2).2)
        rw [e6, I.halo]
        simp
      · have := F.vnod
        by_cases hi : i = t.hd - 1
        · rw [hi, en]; exact ⟨x1, x2⟩
        · rw [eo i hi]
          have := I.range i (by omega) i2
          omega
    have W0 := I.node.le
    by_cases hin : h.Inner v ∧ part.get v = pv
    · obtain ⟨a1, a2, a3⟩ := I.node.inner v hin.1 hin.2
      have q : isIn h part pv v = true := decide_eq_true hin
      rw [if_neg (by omega), if_pos (by omega), Post_bind, Post_wr]
      intro _ _
      have eo : ∀ i, i ≠ t.num → (t.edge.set t.num (t.indx.get v)).get i = t.edge.get i := fun i hi => Arr.set_get_ne _ _ hi
      have f := I.frame
      refine ⟨⟨I.node.inner, I.node.outer, I.node.le, I.node.back, I.node.load, I.node.total⟩, ⟨f.indx, f.vnuh, f.vnlo, f.vnod, fun i hi => (eo i (by omega)).trans (f.edge i hi), f.vert, f.vehd, f.velo, f.elem, f.veih, f.velosum⟩, ?_, ?_, hd, ?_, ?_, fun i i1 i2 => ?_⟩
      · show s.num ≤ t.num + 1; omega
      · show t.hd - (t.num + 1) = nd - (j + 1); omega
      · show seg (t.edge.set t.num (t.indx.get v)).get s.num (t.num + 1) = _
        rw [seg_succ _ le, Arr.set_get_same, seg_filter_succ _ _ j1, hv, q, seg_congr (g := t.edge.get) (fun i _ _ => eo i (by omega)), I.inner, a1]
        simp
      · show (seg (t.edge.set t.num (t.indx.get v)).get t.hd s.hd).map t.vnuh.get = _
        rw [seg_filter_succ _ _ j1, hv, q, seg_congr (g := t.edge.get) (fun i i1 _ => eo i (by omega)), I.halo]
        simp
      · show W ≤ (t.edge.set t.num (t.indx.get v)).get i ∧ (t.edge.set t.num (t.indx.get v)).get i < t.vnod
        have hi : t.hd ≤ i := i1
        rw [eo i (by omega)]
        exact I.range i i1 i2
    · have q : isIn h part pv v = false := decide_eq_false hin
      have hout : h.Inner v → part.get v = 2 := fun k => (n2 k).resolve_left fun k' => hin ⟨k, k'⟩
      by_cases hx : t.indx.get v = -1
      · rw [if_pos hx]
        -- the new halo node
        have fin : ∀ (vnlo : Arr Int) (sum : Int), (∀ i, i ≠ t.vnod → vnlo.get i = t.vnlo.get i) → (h.m.vnlotax ≠ none → vnlo.get t.vnod = h.m.vnlo v ∧ sum = t.vnlosum + h.m.vnlo v) →
            ArcInv h part pv V W G b nd s (j + 1) { t with vnlo := vnlo, vnlosum := sum, indx := t.indx.set v t.vnod, vnuh := t.vnuh.set t.vnod v, vnod := t.vnod + 1, edge := t.edge.set (t.hd - 1) t.vnod, hd := t.hd - 1 } := by
          intro vnlo sum l1 l2
          have uo : ∀ i, i ≠ t.vnod → (t.vnuh.set t.vnod v).get i = t.vnuh.get i := fun i hi => Arr.set_get_ne _ _ hi
          have xo : ∀ i, i ≠ v → (t.indx.set v t.vnod).get i = t.indx.get i := fun i hi => Arr.set_get_ne _ _ hi
          refine put q _ ⟨fun n a1 a2 => ?_, fun n a1 a2 => ?_, ?_, fun y y1 y2 => ?_, fun hl y y1 y2 => ?_, fun hl => ?_⟩ ⟨fun e he => xo e fun k => he (k ▸ n1), fun y hy => uo y (by omega), fun y hy => l1 y (by omega), ?_, fun i hi => Arr.set_get_ne _ _ (by omega), rfl, rfl, rfl, rfl, rfl, rfl⟩
            rfl rfl t.vnod rfl (Arr.set_get_same _ _ _) W0 ?_
          · have : n ≠ v := fun k => hin ⟨k ▸ a1, k ▸ a2⟩
            show (t.indx.set v t.vnod).get n = G n ∧ _
            rw [xo n this]; exact I.node.inner n a1 a2
          · show (t.indx.set v t.vnod).get n = -1 ∨ (W ≤ (t.indx.set v t.vnod).get n ∧ (t.indx.set v t.vnod).get n < t.vnod + 1 ∧ (t.vnuh.set t.vnod v).get ((t.indx.set v t.vnod).get n) = n)
            by_cases hnv : n = v
            · subst hnv; rw [Arr.set_get_same, Arr.set_get_same]; exact Or.inr ⟨W0, by omega, rfl⟩
            · rw [xo n hnv]
              rcases I.node.outer n a1 a2 with k | ⟨k1, k2, k3⟩
              · exact Or.inl k
              · exact Or.inr ⟨k1, by omega, by rw [uo _ (by omega)]; exact k3⟩
          · show W ≤ t.vnod + 1; omega
          · show h.m.Node ((t.vnuh.set t.vnod v).get y) ∧ (h.Inner ((t.vnuh.set t.vnod v).get y) → part.get ((t.vnuh.set t.vnod v).get y) = 2) ∧ (t.indx.set v t.vnod).get ((t.vnuh.set t.vnod v).get y) = y
            have y2' : y < t.vnod + 1 := y2
            by_cases hy : y = t.vnod
            · subst hy; rw [Arr.set_get_same, Arr.set_get_same]; exact ⟨n1, hout, rfl⟩
            · obtain ⟨k1, k2, k3⟩ := I.node.back y y1 (by omega)
              rw [uo y hy]
              refine ⟨k1, k2, ?_⟩
              rw [xo _ (fun k => by rw [k] at k3; omega)]; exact k3
          · show vnlo.get y = h.m.vnlo ((t.vnuh.set t.vnod v).get y)
            have y2' : y < t.vnod + 1 := y2
            by_cases hy : y = t.vnod
            · subst hy; rw [Arr.set_get_same]; exact (l2 hl).1
            · rw [uo y hy, l1 y hy]; exact I.node.load hl y y1 (by omega)
          · show sum = sumI W (t.vnod + 1) vnlo.get
            rw [(l2 hl).2, sumI_succ W0, (l2 hl).1, I.node.total hl, sumI_congr (f := vnlo.get) (g := t.vnlo.get) (fun k _ k2 => l1 k (by omega))]
          · show t.vnod ≤ t.vnod + 1; omega
          · show t.vnod < t.vnod + 1; omega
        cases hl : h.m.vnlotax with
        | none =>
          rw [hl] at fin
          dsimp only
          rw [Post_bind, Post_pure, Post_bind, Post_wr]
          intro _ _
          rw [Post_bind, Post_wr]
          intro _ _
          rw [Post_bind, Post_wr]
          intro _ _
          exact fin t.vnlo t.vnlosum (fun _ _ => rfl) (fun k => absurd rfl k)
        | some l =>
          have e : h.m.vnlo v = l.get v := by unfold Mesh.vnlo; rw [hl]
          dsimp only
          rw [Post_bind, Post_bind, Post_rd]
          intro _ _
          rw [Post_bind, Post_wr]
          intro _ _
          rw [Post_pure, Post_bind, Post_wr]
          intro _ _
          rw [Post_bind, Post_wr]
          intro _ _
          rw [Post_bind, Post_wr]
          intro _ _
          exact fin _ _ (fun i hi => Arr.set_get_ne _ _ hi) (fun _ => by rw [Arr.set_get_same, e]; exact ⟨rfl, rfl⟩)
      · rcases I.node.outer v n1 hout with k | ⟨k1, k2, k3⟩
        · exact absurd k hx
        rw [if_neg hx, if_neg (by omega), Post_bind, Post_wr]
        intro _ _
        exact put q _ ⟨I.node.inner, I.node.outer, I.node.le, I.node.back, I.node.load, I.node.total⟩ ⟨fun _ _ => rfl, fun _ _ => rfl, fun _ _ => rfl, Int.le_refl _, fun i hi => Arr.set_get_ne _ _ (by omega), rfl, rfl, rfl, rfl, rfl, rfl⟩ rfl rfl _ rfl k3 k1 k2

/-! ## Elements -/

/-- Ends of arcs: the start of the next vertex, which is not written yet for the last one. -/
def IndEl.vt (s : IndEl) (v x : Int) : Int := if x = v then s.num else s.vert.get x

/-- Number of neighbours. -/
def deg (h : Hmesh) (e : Int) : Int := h.m.vend e - h.m.vert e

/-- What is built for an element. -/
structure ElOk (h : Hmesh) (part : Arr Int) (pv W : Int) (G : Int → Int) (s : IndEl) (e : Int) : Prop where
  num : h.m.baseval ≤ s.indx.get e ∧ s.indx.get e < s.elem
  vt : s.vt s.elem (s.indx.get e + 1) = s.vert.get (s.indx.get e) + deg h e
  hd : s.vert.get (s.indx.get e) ≤ s.vehd.get (s.indx.get e) ∧ s.vehd.get (s.indx.get e) ≤ s.vert.get (s.indx.get e) + deg h e ∧ s.vert.get (s.indx.get e) + deg h e ≤ s.num
  inner : seg s.edge.get (s.vert.get (s.indx.get e)) (s.vehd.get (s.indx.get e)) = ((h.m.nbr e).filter (isIn h part pv)).map G
  halo : (seg s.edge.get (s.vehd.get (s.indx.get e)) (s.vert.get (s.indx.get e) + deg h e)).map s.vnuh.get = ((h.m.nbr e).filter (fun n => !isIn h part pv n)).reverse
  range : ∀ i, s.vehd.get (s.indx.get e) ≤ i → i < s.vert.get (s.indx.get e) + deg h e → W ≤ s.edge.get i ∧ s.edge.get i < s.vnod
  load : h.m.velotax ≠ none → s.velo.get (s.indx.get e) = h.m.velo e
  low : h.m.baseval ≤ s.vert.get (s.indx.get e)

/-- Elements before `i` are built. -/
structure ElInv (h : Hmesh) (part : Arr Int) (pv V W : Int) (G L : Int → Int) (i : Int) (s : IndEl) : Prop where
  node : NodeInv h part pv V W G s
  vnlo : ∀ v, v < W → s.vnlo.get v = L v
  cnt : s.elem = h.m.baseval + sumI h.m.velmbas i (fun e => if Kept h part pv e then 1 else 0)
  le : h.m.baseval ≤ s.elem
  first : s.vt s.elem h.m.baseval = h.m.baseval
  kept : ∀ e, h.m.velmbas ≤ e → e < i → Kept h part pv e → ElOk h part pv W G s e
  gone : ∀ e, h.m.velmbas ≤ e → e < i → ¬ Kept h part pv e → s.indx.get e = -1
  surj : ∀ x, h.m.baseval ≤ x → x < s.elem → ∃ e, h.m.velmbas ≤ e ∧ e < i ∧ Kept h part pv e ∧ s.indx.get e = x
  mono : ∀ e k, h.m.velmbas ≤ e → e < k → k < i → Kept h part pv e → Kept h part pv k → s.indx.get e < s.indx.get k
  velosum : h.m.velotax ≠ none → s.velosum = sumI h.m.velmbas i (fun e => if Kept h part pv e then h.m.velo e else 0)
  veih : s.veih = sumI h.m.velmbas i (fun e => if Kept h part pv e ∧ (h.m.nbr e).filter (isIn h part pv) = [] then 1 else 0)
  low : h.m.baseval ≤ s.num
  total : h.m.velotax ≠ none → s.velosum = sumI h.m.baseval s.elem s.velo.get

theorem elem_not_node (C : h.m.Consistent) {e : Int} (he : h.m.Elem e) : ¬ h.m.Node e := by
  intro k
  have := C.order
  have := C.velmnnd
  have := C.vnodnnd
  have := C.velmnbr
  have := C.vnodnbr
  have := he.1
  have := he.2
  have := k.1
  have := k.2
  omega

theorem inner_node (H : h.Consistent) {n : Int} (hn : h.Inner n) : h.m.Node n := by
  have := H.vnohnbr
  have := H.vnohnnd
  have := H.mesh.vnodnnd
  have := hn.2
  exact ⟨hn.1, by omega⟩

/-- An element that is not kept. -/
theorem elSkip (H : h.Consistent) {V W : Int} {G L : Int → Int} {i : Int} {s : IndEl} (i1 : h.m.velmbas ≤ i) (i2 : i < h.m.velmnnd) (I : ElInv h part pv V W G L i s) (hk : ¬ Kept h part pv i) :
    ElInv h part pv V W G L (i + 1) { s with indx := s.indx.set i (-1) } := by
  have xo : ∀ n, n ≠ i → (s.indx.set i (-1)).get n = s.indx.get n := fun n hn => Arr.set_get_ne _ _ hn
  have nn : ∀ n, h.m.Node n → n ≠ i := fun n hn k => elem_not_node H.mesh ⟨i1, i2⟩ (k ▸ hn)
  refine ⟨⟨fun n a1 a2 => ?_, fun n a1 a2 => ?_, I.node.le, fun v v1 v2 => ?_, I.node.load, I.node.total⟩, I.vnlo, ?_, I.le, I.first, fun e e1 e2 e3 => ?_, fun e e1 e2 e3 => ?_, fun x x1 x2 => ?_, fun e k e1 e2 e3 e4 e5 => ?_, fun hl => ?_, ?_, I.low, I.total⟩
  · show (s.indx.set i (-1)).get n = G n ∧ _
    rw [xo n ?_]
    · exact I.node.inner n a1 a2
    · exact nn n (inner_node H a1)
  · show (s.indx.set i (-1)).get n = -1 ∨ (W ≤ (s.indx.set i (-1)).get n ∧ (s.indx.set i (-1)).get n < s.vnod ∧ s.vnuh.get ((s.indx.set i (-1)).get n) = n)
    rw [xo n (nn n a1)]; exact I.node.outer n a1 a2
  · show h.m.Node (s.vnuh.get v) ∧ (h.Inner (s.vnuh.get v) → part.get (s.vnuh.get v) = 2) ∧ (s.indx.set i (-1)).get (s.vnuh.get v) = v
    obtain ⟨k1, k2, k3⟩ := I.node.back v v1 v2
    rw [xo _ (nn _ k1)]; exact ⟨k1, k2, k3⟩
  · rw [sumI_succ i1, if_neg hk]
    show s.elem = _
    rw [I.cnt]; omega
  · have hn : e ≠ i := fun k => hk (k ▸ e3)
    have O := I.kept e e1 (by omega) e3
    have := xo e hn
    exact ⟨by show _ ≤ (s.indx.set i (-1)).get e ∧ (s.indx.set i (-1)).get e < s.elem; rw [this]; exact O.num,
      by show s.vt s.elem ((s.indx.set i (-1)).get e + 1) = s.vert.get ((s.indx.set i (-1)).get e) + _; rw [this]; exact O.vt,
      by show s.vert.get ((s.indx.set i (-1)).get e) ≤ s.vehd.get ((s.indx.set i (-1)).get e) ∧ s.vehd.get ((s.indx.set i (-1)).get e) ≤ s.vert.get ((s.indx.set i (-1)).get e) + _ ∧ s.vert.get ((s.indx.set i (-1)).get e) + _ ≤ s.num; rw [this]; exact O.hd,
      by show seg s.edge.get (s.vert.get ((s.indx.set i (-1)).get e)) (s.vehd.get ((s.indx.set i (-1)).get e)) = _; rw [this]; exact O.inner,
      by show (seg s.edge.get (s.vehd.get ((s.indx.set i (-1)).get e)) (s.vert.get ((s.indx.set i (-1)).get e) + _)).map s.vnuh.get = _; rw [this]; exact O.halo,
      by show ∀ k, s.vehd.get ((s.indx.set i (-1)).get e) ≤ k → k < s.vert.get ((s.indx.set i (-1)).get e) + _ → _; rw [this]; exact O.range,
      fun hl => by show s.velo.get ((s.indx.set i (-1)).get e) = _; rw [this]; exact O.load hl, by show _ ≤ s.vert.get ((s.indx.set i (-1)).get e); rw [this]; exact O.low⟩
  · show (s.indx.set i (-1)).get e = -1
    by_cases hn : e = i
    · rw [hn, Arr.set_get_same]
    · rw [xo e hn]; exact I.gone e e1 (by omega) e3
  · obtain ⟨e, a1, a2, a3, a4⟩ := I.surj x x1 x2
    exact ⟨e, a1, by omega, a3, by show (s.indx.set i (-1)).get e = x; rw [xo e (by omega)]; exact a4⟩
  · have h1 : e ≠ i := fun z => hk (z ▸ e4)
    have h2 : k ≠ i := fun z => hk (z ▸ e5)
    show (s.indx.set i (-1)).get e < (s.indx.set i (-1)).get k
    rw [xo e h1, xo k h2]; exact I.mono e k e1 e2 (by omega) e4 e5
  · rw [sumI_succ i1, if_neg hk]
    show s.velosum = _
    rw [I.velosum hl]; omega
  · rw [sumI_succ i1, if_neg (fun z => hk z.1)]
    show s.veih = _
    rw [I.veih]; omega

/-- An element that is kept: `t` is the state after its arcs. -/
theorem elAdd (H : h.Consistent) {V W : Int} {G L : Int → Int} {i : Int} {s s1 t : IndEl} (i1 : h.m.velmbas ≤ i) (i2 : i < h.m.velmnnd) (I : ElInv h part pv V W G L i s) (hk : Kept h part pv i)
    (hn : s1.num = s.num) (hh : s1.hd = s.num + deg h i) (hvert : s1.vert = s.vert.set s.elem s.num) (hvehd : s1.vehd = s.vehd) (hedge : s1.edge = s.edge) (hindx : s1.indx = s.indx) (hvnuh : s1.vnuh = s.vnuh) (hvnlo : s1.vnlo = s.vnlo) (hvnod : s1.vnod = s.vnod)
    (hveih : s1.veih = s.veih) (hvo : ∀ x, x ≠ s.elem → s1.velo.get x = s.velo.get x) (hload : h.m.velotax ≠ none → s1.velo.get s.elem = h.m.velo i ∧ s1.velosum = s.velosum + h.m.velo i)
    (A : ArcInv h part pv V W G (h.m.vert i) (h.m.vend i) s1 (h.m.vend i) t) :
    ElInv h part pv V W G L (i + 1) { t with veih := t.veih + (if t.hd = s.num then 1 else 0), vehd := t.vehd.set s.elem t.hd, num := s.num + deg h i, indx := t.indx.set i s.elem, elem := s.elem + 1 } := by
  have F := A.frame
  have N := A.node
  have D : 0 ≤ deg h i := by
    have := (H.mesh.range i (Or.inl ⟨i1, i2⟩)).2
    unfold deg; omega
  have gap := A.gap
  have ale := A.le
  have ahd := A.hd
  have sle := I.le
  have xo : ∀ n, n ≠ i → (t.indx.set i s.elem).get n = t.indx.get n := fun n h' => Arr.set_get_ne _ _ h'
  have nn : ∀ n, h.m.Node n → n ≠ i := fun n hn k => elem_not_node H.mesh ⟨i1, i2⟩ (k ▸ hn)
  have vert_o : ∀ x, x ≠ s.elem → t.vert.get x = s.vert.get x := fun x hx => by rw [F.vert, hvert, Arr.set_get_ne _ _ hx]
  have vert_n : t.vert.get s.elem = s.num := by rw [F.vert, hvert, Arr.set_get_same]
  have vehd_o : ∀ x, x ≠ s.elem → (t.vehd.set s.elem t.hd).get x = s.vehd.get x := fun x hx => by rw [Arr.set_get_ne _ _ hx, F.vehd, hvehd]
  have edge_o : ∀ k, k < s.num → t.edge.get k = s.edge.get k := fun k hk => by rw [F.edge k (by omega), hedge]
  have vnuh_o : ∀ v, v < s.vnod → t.vnuh.get v = s.vnuh.get v := fun v hv => by rw [F.vnuh v (by omega), hvnuh]
  have vnod_o : s.vnod ≤ t.vnod := by have := F.vnod; omega
  have indx_o : ∀ e, h.m.velmbas ≤ e → e < i → (t.indx.set i s.elem).get e = s.indx.get e := fun e e1 e2 => by
    rw [xo e (by omega), F.indx e (elem_not_node H.mesh ⟨e1, by omega⟩), hindx]
  have velo_o : ∀ x, x ≠ s.elem → t.velo.get x = s.velo.get x := fun x hx => by rw [F.velo]; exact hvo x hx
  have nb : seg h.m.edgetax.get (h.m.vert i) (h.m.vend i) = h.m.nbr i := rfl
  have hdn : t.hd = t.num := by omega
  have vt_o : ∀ x, x ≤ s.elem → (if x = s.elem + 1 then s.num + deg h i else t.vert.get x) = s.vt s.elem x := by
    intro x hx
    rw [if_neg (by omega)]
    unfold IndEl.vt
    by_cases k : x = s.elem
    · rw [if_pos k, k, vert_n]
    · rw [if_neg k, vert_o x k]
  refine ⟨⟨fun n a1 a2 => ?_, fun n a1 a2 => ?_, N.le, fun v v1 v2 => ?_, N.load, N.total⟩, fun v hv => ?_, ?_, ?_, ?_, fun e e1 e2 e3 => ?_, fun e e1 e2 e3 => ?_, fun x x1 x2 => ?_, fun e k e1 e2 e3 e4 e5 => ?_, fun hl => ?_, ?_, by have := I.low; show h.m.baseval ≤ s.num + deg h i; omega, fun hl => ?_⟩
  · show (t.indx.set i s.elem).get n = G n ∧ _
    rw [xo n (nn n (inner_node H a1))]; exact N.inner n a1 a2
  · show (t.indx.set i s.elem).get n = -1 ∨ (W ≤ (t.indx.set i s.elem).get n ∧ (t.indx.set i s.elem).get n < t.vnod ∧ t.vnuh.get ((t.indx.set i s.elem).get n) = n)
    rw [xo n (nn n a1)]; exact N.outer n a1 a2
  · show h.m.Node (t.vnuh.get v) ∧ (h.Inner (t.vnuh.get v) → part.get (t.vnuh.get v) = 2) ∧ (t.indx.set i s.elem).get (t.vnuh.get v) = v
    obtain ⟨k1, k2, k3⟩ := N.back v v1 v2
    rw [xo _ (nn _ k1)]; exact ⟨k1, k2, k3⟩
  · show t.vnlo.get v = L v
    rw [F.vnlo v hv, hvnlo, I.vnlo v hv]
  · show s.elem + 1 = _
    rw [sumI_succ i1, if_pos hk, I.cnt]; omega
  · show h.m.baseval ≤ s.elem + 1; omega
  · exact (vt_o _ sle).trans I.first
  · by_cases hi : e = i
    · subst hi
      have E : (t.indx.set e s.elem).get e = s.elem := Arr.set_get_same _ _ _
      have E2 : (t.vehd.set s.elem t.hd).get s.elem = t.hd := Arr.set_get_same _ _ _
      refine ⟨?_, ?_, ?_, ?_, ?_, ?_, fun hl => ?_, by show _ ≤ t.vert.get ((t.indx.set e s.elem).get e); rw [E, vert_n]; exact I.low⟩
      · show h.m.baseval ≤ (t.indx.set e s.elem).get e ∧ (t.indx.set e s.elem).get e < s.elem + 1
        rw [E]; omega
      · show (if (t.indx.set e s.elem).get e + 1 = s.elem + 1 then s.num + deg h e else t.vert.get ((t.indx.set e s.elem).get e + 1)) = t.vert.get ((t.indx.set e s.elem).get e) + deg h e
        rw [E, if_pos rfl, vert_n]
      · show t.vert.get ((t.indx.set e s.elem).get e) ≤ (t.vehd.set s.elem t.hd).get ((t.indx.set e s.elem).get e) ∧ (t.vehd.set s.elem t.hd).get ((t.indx.set e s.elem).get e) ≤ t.vert.get ((t.indx.set e s.elem).get e) + deg h e ∧
          t.vert.get ((t.indx.set e s.elem).get e) + deg h e ≤ s.num + deg h e
        rw [E, E2, vert_n]; omega
      · show seg t.edge.get (t.vert.get ((t.indx.set e s.elem).get e)) ((t.vehd.set s.elem t.hd).get ((t.indx.set e s.elem).get e)) = _
        rw [E, E2, vert_n, hdn, ← nb, ← A.inner, hn]
      · show (seg t.edge.get ((t.vehd.set s.elem t.hd).get ((t.indx.set e s.elem).get e)) (t.vert.get ((t.indx.set e s.elem).get e) + deg h e)).map t.vnuh.get = _
        rw [E, E2, vert_n, ← nb, ← A.halo, hh]
      · show ∀ k, (t.vehd.set s.elem t.hd).get ((t.indx.set e s.elem).get e) ≤ k → k < t.vert.get ((t.indx.set e s.elem).get e) + deg h e → W ≤ t.edge.get k ∧ t.edge.get k < t.vnod
        rw [E, E2, vert_n]
        intro k k1 k2
        exact A.range k k1 (by omega)
      · show t.velo.get ((t.indx.set e s.elem).get e) = _
        rw [E, F.velo]; exact (hload hl).1
    · have O := I.kept e e1 (by omega) e3
      have E := indx_o e e1 (by omega)
      obtain ⟨o1, o2⟩ := O.num
      obtain ⟨o3, o4, o5⟩ := O.hd
      have Ev := vert_o (s.indx.get e) (by omega)
      have Eh := vehd_o (s.indx.get e) (by omega)
      refine ⟨?_, ?_, ?_, ?_, ?_, ?_, fun hl => ?_, by show _ ≤ t.vert.get ((t.indx.set i s.elem).get e); rw [E, Ev]; exact O.low⟩
      · show h.m.baseval ≤ (t.indx.set i s.elem).get e ∧ (t.indx.set i s.elem).get e < s.elem + 1
        rw [E]; omega
      · show (if (t.indx.set i s.elem).get e + 1 = s.elem + 1 then s.num + deg h i else t.vert.get ((t.indx.set i s.elem).get e + 1)) = t.vert.get ((t.indx.set i s.elem).get e) + deg h e
        rw [E, vt_o _ (by omega), Ev]; exact O.vt
      · show t.vert.get ((t.indx.set i s.elem).get e) ≤ (t.vehd.set s.elem t.hd).get ((t.indx.set i s.elem).get e) ∧ (t.vehd.set s.elem t.hd).get ((t.indx.set i s.elem).get e) ≤ t.vert.get ((t.indx.set i s.elem).get e) + deg h e ∧
          t.vert.get ((t.indx.set i s.elem).get e) + deg h e ≤ s.num + deg h i
        rw [E, Eh, Ev]; omega
      · show seg t.edge.get (t.vert.get ((t.indx.set i s.elem).get e)) ((t.vehd.set s.elem t.hd).get ((t.indx.set i s.elem).get e)) = _
        rw [E, Eh, Ev, ← O.inner]
        exact seg_congr fun k _ _ => edge_o k (by omega)
      · show (seg t.edge.get ((t.vehd.set s.elem t.hd).get ((t.indx.set i s.elem).get e)) (t.vert.get ((t.indx.set i s.elem).get e) + deg h e)).map t.vnuh.get = _
        rw [E, Eh, Ev, ← O.halo, seg_congr (g := s.edge.get) fun k _ _ => edge_o k (by omega)]
        refine List.map_congr_left fun y hy => ?_
        obtain ⟨k, k1, k2, k3⟩ := (mem_seg _ _ _ _).1 hy
        exact vnuh_o y (k3 ▸ (O.range k k1 k2).2)
      · show ∀ k, (t.vehd.set s.elem t.hd).get ((t.indx.set i s.elem).get e) ≤ k → k < t.vert.get ((t.indx.set i s.elem).get e) + deg h e → W ≤ t.edge.get k ∧ t.edge.get k < t.vnod
        rw [E, Eh, Ev]
        intro k k1 k2
        rw [edge_o k (by omega)]
        have := O.range k k1 k2
        omega
      · show t.velo.get ((t.indx.set i s.elem).get e) = _
        rw [E, velo_o _ (by omega)]; exact O.load hl
  · have hi : e ≠ i := fun k => e3 (k ▸ hk)
    show (t.indx.set i s.elem).get e = -1
    rw [indx_o e e1 (by omega)]; exact I.gone e e1 (by omega) e3
  · have x2' : x < s.elem + 1 := x2
    by_cases hx : x = s.elem
    · exact ⟨i, i1, by omega, hk, by rw [hx]; exact Arr.set_get_same _ _ _⟩
    · obtain ⟨e, a1, a2, a3, a4⟩ := I.surj x x1 (by omega)
      exact ⟨e, a1, by omega, a3, (indx_o e a1 a2).trans a4⟩
  · show (t.indx.set i s.elem).get e < (t.indx.set i s.elem).get k
    rw [indx_o e e1 (by omega)]
    by_cases hki : k = i
    · rw [hki, Arr.set_get_same]; exact (I.kept e e1 (by omega) e4).num.2
    · rw [indx_o k (by omega) (by omega)]; exact I.mono e k e1 e2 (by omega) e4 e5
  · show t.velosum = _
    rw [sumI_succ i1, if_pos hk, F.velosum, (hload hl).2, I.velosum hl]
  · show t.veih + (if t.hd = s.num then 1 else 0) = _
    rw [sumI_succ i1, F.veih, hveih, I.veih]
    congr 1
    have e1 : t.hd = s.num ↔ (h.m.nbr i).filter (isIn h part pv) = [] := by
      rw [← nb]
      have k := congrArg List.length A.inner
      rw [List.length_map] at k
      have k2 := seg_length t.edge.get ale
      rw [← List.length_eq_zero_iff]
      omega
    by_cases z : t.hd = s.num
    · rw [if_pos z, if_pos ⟨hk, e1.1 z⟩]
    · rw [if_neg z, if_neg (fun q => z (e1.2 q.2))]
  · show t.velosum = sumI h.m.baseval (s.elem + 1) t.velo.get
    rw [F.velosum, (hload hl).2, sumI_succ sle, F.velo, (hload hl).1, I.total hl, sumI_congr (f := s1.velo.get) (g := s.velo.get) (fun k _ k2 => hvo k (by omega))]

theorem indElems_post (H : h.Consistent) {V W : Int} {G L : Int → Int} {s : IndEl} (hV : 0 ≤ V) (hW : V ≤ W) (hsep : ∀ e, h.m.Elem e → part.get e = pv → ∀ n ∈ h.m.nbr e, h.Inner n → part.get n = pv ∨ part.get n = 2)
    (I0 : ElInv h part pv V W G L h.m.velmbas s) : Post (indElems h part pv W s) (ElInv h part pv V W G L h.m.velmnnd) := by
  unfold indElems
  have hle : h.m.velmbas ≤ h.m.velmnnd := by
    have := H.mesh.velmnbr
    have := H.mesh.velmnnd
    omega
  refine Post_forUp (ElInv h part pv V W G L) hle I0 (fun i s i1 i2 I => ?_) (fun _ k => k)
  unfold indElem
  rw [Post_bind, Post_rd]
  intro _ _
  rw [Post_ite]
  refine ⟨fun hp => ?_, fun hp => ?_⟩
  · rw [Post_bind, Post_wr]
    intro _ _
    exact elSkip H i1 i2 I (fun k => hp k.1)
  have hp' : part.get i = pv := Decidable.not_not.1 hp
  rw [Post_bind, Post_rd]
  intro _ _
  rw [Post_bind, Post_rd]
  intro _ _
  rw [Post_ite]
  refine ⟨fun hv => ?_, fun hv => ?_⟩
  · rw [Post_bind, Post_wr]
    intro _ _
    exact elSkip H i1 i2 I (fun k => k.2 hv)
  have hk : Kept h part pv i := ⟨hp', hv⟩
  rw [Post_bind, Post_wr]
  intro _ _
  rw [Post_bind]
  refine Post_rdVend ?_
  have rest : ∀ (velo : Arr Int) (sum : Int), (∀ x, x ≠ s.elem → velo.get x = s.velo.get x) → (h.m.velotax ≠ none → velo.get s.elem = h.m.velo i ∧ sum = s.velosum + h.m.velo i) →
      Post (do
        let t ← forUp (h.m.verttax.get i) (h.m.vend i) { s with vert := s.vert.set s.elem s.num, hd := s.num + (h.m.vend i - h.m.verttax.get i), velo := velo, velosum := sum } (indArc h W)
        let vehd ← t.vehd.wr s.elem t.hd
        let indx ← t.indx.wr i s.elem
        return { t with veih := t.veih + (if t.hd = s.num then 1 else 0), vehd := vehd, num := s.num + (h.m.vend i - h.m.verttax.get i), indx := indx, elem := s.elem + 1 }) (ElInv h part pv V W G L (i + 1)) := by
    intro velo sum l1 l2
    rw [Post_bind]
    refine (indArcs_post (s := { s with vert := s.vert.set s.elem s.num, hd := s.num + (h.m.vend i - h.m.verttax.get i), velo := velo, velosum := sum }) (V := V) (G := G) (part := part) (pv := pv) hV hW (H.mesh.range i (Or.inl ⟨i1, i2⟩)).2 ⟨I.node.inner, I.node.outer, I.node.le, I.node.back, I.node.load, I.node.total⟩ rfl ?_).mono ?_
    · intro j j1 j2
      have m : h.m.edgetax.get j ∈ h.m.nbr i := (mem_seg _ _ _ _).2 ⟨j, j1, j2, rfl⟩
      exact ⟨(H.mesh.nodes i ⟨i1, i2⟩ _ m).1, hsep i ⟨i1, i2⟩ hp' _ m⟩
    · intro t A
      rw [Post_bind, Post_wr]
      intro _ _
      rw [Post_bind, Post_wr]
      intro _ _
      exact elAdd (s1 := { s with vert := s.vert.set s.elem s.num, hd := s.num + (h.m.vend i - h.m.verttax.get i), velo := velo, velosum := sum }) H i1 i2 I hk rfl rfl rfl rfl rfl rfl rfl rfl rfl rfl l1 l2 A
  cases hl : h.m.velotax with
  | none =>
    dsimp only
    rw [Post_bind, Post_pure]
    exact rest s.velo s.velosum (fun _ _ => rfl) (fun k => absurd hl k)
  | some l =>
    have e : h.m.velo i = l.get i := by unfold Mesh.velo; rw [hl]
    dsimp only
    rw [Post_bind, Post_bind, Post_rd]
    intro _ _
    rw [Post_bind, Post_wr]
    intro _ _
    rw [Post_pure]
    exact rest _ _ (fun x hx => Arr.set_get_ne _ _ hx) (fun _ => by rw [e, Arr.set_get_same]; exact ⟨rfl, rfl⟩)

/-! ## Nodes -/

/-- Rows of vertices from `v0` to `v` are built after state `s`: the neighbours of vertex `x` are `lst x`. -/
structure Rows (s : IndEl) (lst : Int → List Int) (v0 : Int) (v : Int) (t : IndEl) : Prop where
  indx : t.indx = s.indx
  vnuh : t.vnuh = s.vnuh
  vnlo : t.vnlo = s.vnlo
  vehd : t.vehd = s.vehd
  velo : t.velo = s.velo
  num : s.num ≤ t.num
  edge : ∀ i, i < s.num → t.edge.get i = s.edge.get i
  vert : ∀ x, x < v0 → t.vert.get x = s.vert.get x
  first : t.vt v v0 = s.num
  rows : ∀ x, v0 ≤ x → x < v → seg t.edge.get (t.vert.get x) (t.vt v (x + 1)) = lst x ∧ t.vert.get x ≤ t.vt v (x + 1) ∧ t.vt v (x + 1) ≤ t.num
  low : ∀ x, v0 ≤ x → x < v → s.num ≤ t.vert.get x

/-- What is done for a row. -/
structure Row (v : Int) (l : List Int) (s t : IndEl) : Prop where
  indx : t.indx = s.indx
  vnuh : t.vnuh = s.vnuh
  vnlo : t.vnlo = s.vnlo
  vehd : t.vehd = s.vehd
  velo : t.velo = s.velo
  num : s.num ≤ t.num
  edge : ∀ i, i < s.num → t.edge.get i = s.edge.get i
  vert : t.vert = s.vert.set v s.num
  row : seg t.edge.get s.num t.num = l

theorem rows_post {s : IndEl} {lst : Int → List Int} {v0 v1 : Int} {body : Int → IndEl → M IndEl} (hle : v0 ≤ v1) (hb : ∀ v t, v0 ≤ v → v < v1 → t.indx = s.indx → t.vnuh = s.vnuh → Post (body v t) (Row v (lst v) t)) :
    Post (forUp v0 v1 s body) (Rows s lst v0 v1) := by
  refine Post_forUp (Rows s lst v0) hle ?_ (fun v t a1 a2 I => ?_) (fun _ k => k)
  · exact ⟨rfl, rfl, rfl, rfl, rfl, Int.le_refl _, fun _ _ => rfl, fun _ _ => rfl, if_pos rfl, fun x _ _ => by omega, fun x _ _ => by omega⟩
  · refine (hb v t a1 a2 I.indx I.vnuh).mono fun u R => ?_
    have vo : ∀ x, x ≤ v → u.vt (v + 1) x = t.vt v x := by
      intro x hx
      unfold IndEl.vt
      rw [if_neg (by omega), R.vert]
      by_cases k : x = v
      · rw [if_pos k, k, Arr.set_get_same]
      · rw [if_neg k, Arr.set_get_ne _ _ k]
    have n1 := R.num
    have n2 := I.num
    refine ⟨R.indx.trans I.indx, R.vnuh.trans I.vnuh, R.vnlo.trans I.vnlo, R.vehd.trans I.vehd, R.velo.trans I.velo, by omega, fun i hi => (R.edge i (by omega)).trans (I.edge i hi), fun x hx => ?_, (vo _ a1).trans I.first, fun x x1 x2 => ?_, fun x x1 x2 => ?_⟩
    · rw [R.vert, Arr.set_get_ne _ _ (by omega)]; exact I.vert x hx
    · by_cases k : x = v
      · subst k
        have e1 : u.vt (x + 1) (x + 1) = u.num := if_pos rfl
        rw [e1, R.vert, Arr.set_get_same]
        exact ⟨R.row, n1, Int.le_refl _⟩
      · obtain ⟨r1, r2, r3⟩ := I.rows x x1 (by omega)
        rw [vo _ (by omega), R.vert, Arr.set_get_ne _ _ k]
        exact ⟨(seg_congr fun i _ i2 => R.edge i (by omega)).trans r1, r2, by omega⟩
    · by_cases k : x = v
      · subst k
        rw [R.vert, Arr.set_get_same]; exact n2
      · rw [R.vert, Arr.set_get_ne _ _ k]; exact I.low x x1 (by omega)

theorem indNode_post (H : h.Consistent) {vnum : Arr Int} {v : Int} {t : IndEl} (hn : h.m.Node (vnum.get v + (h.m.vnodbas - h.m.baseval))) : Post (indNode h vnum v t) (Row v ((h.m.nbr (vnum.get v + (h.m.vnodbas - h.m.baseval))).map t.indx.get) t) := by
  unfold indNode
  rw [Post_bind, Post_rd]
  intro _ _
  rw [Post_bind, Post_wr]
  intro _ _
  rw [Post_bind, Post_rd]
  intro _ _
  rw [Post_bind]
  refine Post_rdVend ?_
  generalize hv : vnum.get v + (h.m.vnodbas - h.m.baseval) = n at *
  have hr : h.m.verttax.get n ≤ h.m.vend n := (H.mesh.range n (Or.inr hn)).2
  refine Post_forUp (fun i u => Row v ((seg h.m.edgetax.get (h.m.verttax.get n) i).map t.indx.get) t u) hr ?_ (fun i u i1 i2 I => ?_) (fun _ k => k)
  · refine ⟨rfl, rfl, rfl, rfl, rfl, Int.le_refl _, fun _ _ => rfl, rfl, ?_⟩
    rw [seg_empty _ (Int.le_refl _), seg_empty _ (Int.le_refl _)]; rfl
  · rw [Post_bind, Post_rd]
    intro _ _
    rw [Post_bind, Post_rd]
    intro _ _
    rw [Post_bind, Post_wr]
    intro _ _
    have n1 := I.num
    refine ⟨I.indx, I.vnuh, I.vnlo, I.vehd, I.velo, by show t.num ≤ u.num + 1; omega, fun k hk => (Arr.set_get_ne _ _ (by omega)).trans (I.edge k hk), I.vert, ?_⟩
    show seg (u.edge.set u.num _).get t.num (u.num + 1) = _
    rw [seg_succ _ n1, Arr.set_get_same, seg_congr (g := u.edge.get) (fun k _ _ => Arr.set_get_ne _ _ (by omega)), I.row, seg_succ _ i1, List.map_append, I.indx]
    rfl

theorem indHalo_post (H : h.Consistent) {v : Int} {t : IndEl} (hn : h.m.Node (t.vnuh.get v)) : Post (indHalo h v t) (Row v (((h.m.nbr (t.vnuh.get v)).map t.indx.get).filter (fun x => decide (x ≠ -1))) t) := by
  unfold indHalo
  rw [Post_bind, Post_rd]
  intro _ _
  rw [Post_bind, Post_wr]
  intro _ _
  rw [Post_bind, Post_rd]
  intro _ _
  rw [Post_bind]
  refine Post_rdVend ?_
  generalize hv : t.vnuh.get v = n at *
  have hr : h.m.verttax.get n ≤ h.m.vend n := (H.mesh.range n (Or.inr hn)).2
  refine Post_forUp (fun i u => Row v (((seg h.m.edgetax.get (h.m.verttax.get n) i).map t.indx.get).filter (fun x => decide (x ≠ -1))) t u) hr ?_ (fun i u i1 i2 I => ?_) (fun _ k => k)
  · refine ⟨rfl, rfl, rfl, rfl, rfl, Int.le_refl _, fun _ _ => rfl, rfl, ?_⟩
    rw [seg_empty _ (Int.le_refl _), seg_empty _ (Int.le_refl _)]; rfl
  · rw [Post_bind, Post_rd]
    intro _ _
    rw [Post_bind, Post_rd]
    intro _ _
    have n1 := I.num
    have e1 : ((seg h.m.edgetax.get (h.m.verttax.get n) (i + 1)).map t.indx.get).filter (fun x => decide (x ≠ -1)) =
        ((seg h.m.edgetax.get (h.m.verttax.get n) i).map t.indx.get).filter (fun x => decide (x ≠ -1)) ++ (if u.indx.get (h.m.edgetax.get i) ≠ -1 then [u.indx.get (h.m.edgetax.get i)] else []) := by
      rw [seg_succ _ i1, List.map_append, List.filter_append, I.indx]
      congr 1
      by_cases k : t.indx.get (h.m.edgetax.get i) = -1 <;> simp [k]
    rw [Post_ite]
    refine ⟨fun hx => ?_, fun hx => ?_⟩
    · rw [Post_bind, Post_wr]
      intro _ _
      refine ⟨I.indx, I.vnuh, I.vnlo, I.vehd, I.velo, by show t.num ≤ u.num + 1; omega, fun k hk => (Arr.set_get_ne _ _ (by omega)).trans (I.edge k hk), I.vert, ?_⟩
      show seg (u.edge.set u.num _).get t.num (u.num + 1) = _
      rw [e1, if_pos hx, seg_succ _ n1, Arr.set_get_same, seg_congr (g := u.edge.get) (fun k _ _ => Arr.set_get_ne _ _ (by omega)), I.row]
    · refine ⟨I.indx, I.vnuh, I.vnlo, I.vehd, I.velo, n1, I.edge, I.vert, ?_⟩
      rw [e1, if_neg hx, I.row, List.append_nil]

end Scotch.Msep
