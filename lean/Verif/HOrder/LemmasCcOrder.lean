import Verif.HOrder.LemmasCc

/-! # Connected components: ordering -/

set_option autoImplicit false
set_option linter.unusedSimpArgs false

namespace Scotch.HOrder
open Graph Cblk
variable {h : Hgraph}

/-- Components are consecutive in the queue. -/
structure Slices (h : Hgraph) (queu root : Arr Int) (R : Nat) : Prop where
  qb : queu.lo = 0 ∧ queu.hi = h.vnohnbr
  rb : root.lo = 0 ∧ (R : Int) < root.hi
  enum : Enum queu h.vnohnbr (unhalo h).Vertex
  first : root.get 0 = 0
  mono : ∀ k : Nat, k < R → root.get k < root.get (k + 1 : Nat)
  last : root.get R = h.vnohnbr
  closed : ∀ k : Nat, k ≤ R → QClosed (unhalo h) queu (root.get k)

/-- A component. -/
def sl (queu root : Arr Int) (k : Nat) : List Int := slice queu (root.get k) (root.get (k + 1 : Nat) - root.get k).toNat

theorem slice_append (a : Arr Int) (off : Int) (n m : Nat) : slice a off (n + m) = slice a off n ++ slice a (off + n) m := by
  unfold slice
  rw [List.range_add, List.map_append, List.map_map]
  congr 1
  apply List.map_congr_left
  intro i _
  dsimp only [Function.comp]
  congr 1
  omega

namespace Slices
variable {queu root : Arr Int} {R : Nat}

theorem le (H : Slices h queu root R) {j k : Nat} (hjk : j ≤ k) (hk : k ≤ R) : root.get j ≤ root.get k := by
  induction k with
  | zero => have : j = 0 := by omega
            rw [this]
  | succ k ih =>
    by_cases hj : j = k + 1
    · rw [hj]
    · have := ih (by omega) (by omega)
      have := H.mono k (by omega)
      omega

theorem bnd (H : Slices h queu root R) {k : Nat} (hk : k ≤ R) : 0 ≤ root.get k ∧ root.get k ≤ h.vnohnbr := by
  have h1 := H.le (j := 0) (k := k) (by omega) hk
  have h2 := H.le hk (Nat.le_refl R)
  rw [show ((0 : Nat) : Int) = 0 from rfl, H.first] at h1
  rw [H.last] at h2
  exact ⟨h1, h2⟩

theorem mem (H : Slices h queu root R) {k : Nat} (hk : k < R) {v : Int} : v ∈ sl queu root k ↔ ∃ i, root.get k ≤ i ∧ i < root.get (k + 1 : Nat) ∧ queu.get i = v := by
  have := H.mono k hk
  unfold sl
  rw [mem_slice]
  constructor
  · rintro ⟨i, i1, i2, i3⟩; exact ⟨i, i1, by omega, i3⟩
  · rintro ⟨i, i1, i2, i3⟩; exact ⟨i, i1, by omega, i3⟩

theorem length (H : Slices h queu root R) {k : Nat} (hk : k < R) : ((sl queu root k).length : Int) = root.get (k + 1 : Nat) - root.get k := by
  have := H.mono k hk
  unfold sl
  rw [slice_length]
  omega

theorem vertex (H : Slices h queu root R) {k : Nat} (hk : k < R) {v : Int} (hv : v ∈ sl queu root k) : (unhalo h).Vertex v := by
  obtain ⟨i, i1, i2, rfl⟩ := (H.mem hk).1 hv
  have h1 := H.bnd (k := k) (by omega)
  have h2 := H.bnd (k := k + 1) (by omega)
  exact H.enum.mem (by omega) (by omega)

theorem nodup (H : Slices h queu root R) {k : Nat} (hk : k < R) : (sl queu root k).Nodup := by
  have h0 := H.mono k hk
  have h1 := H.bnd (k := k) (by omega)
  have h2 := H.bnd (k := k + 1) (by omega)
  apply slice_nodup
  intro i j i1 i2 j1 j2 he
  exact H.enum.2.1 i j (by omega) (by omega) (by omega) (by omega) he

/-- A neighbour of a vertex of a component is in the component. -/
theorem adj (H : Slices h queu root R) (hc : HCons h) {k : Nat} (hk : k < R) {v w : Int} (hv : v ∈ sl queu root k) (ha : Adj (unhalo h) v w) : w ∈ sl queu root k := by
  have hvv := H.vertex hk hv
  obtain ⟨i, i1, i2, rfl⟩ := (H.mem hk).1 hv
  have h1 := H.bnd (k := k) (by omega)
  have h2 := H.bnd (k := k + 1) (by omega)
  obtain ⟨j, j1, j2, rfl⟩ := H.closed (k + 1) (by omega) i w (by omega) i2 ha
  refine (H.mem hk).2 ⟨j, ?_, j2, rfl⟩
  apply Classical.byContradiction
  intro hn
  obtain ⟨i', i1', i2', i3'⟩ := H.closed k (by omega) j (queu.get i) j1 (by omega) ((consE_iff.2 hc.part).adj_symm hvv ha)
  have := H.enum.2.1 i' i (by omega) (by omega) (by omega) (by omega) i3'
  omega

theorem cap (H : Slices h queu root R) (hc : HCons h) {k : Nat} (hk : k < R) :
    Band.total h.s (fun x => x ∉ sl queu root k ∧ ∃ y ∈ sl queu root k, Adj h.s y x) (fun _ => 1) ≤ h.s.vertnbr - h.vnohnbr := by
  classical
  have hnn : h.vnohnnd = h.s.baseval + h.vnohnbr := hc.part.vertnnd
  have hn2 := hc.whole.vertnnd
  have hnb := hc.nbr
  unfold Band.total
  rw [sumI_split (mid := h.vnohnnd) (by omega) (by omega)]
  have h2 := sumI_const (lo := h.vnohnnd) (hi := h.s.vertnnd) (by omega) 1
  have h3 := sumI_zero h.s.baseval h.vnohnnd
  refine Int.le_trans (Int.add_le_add (sumI_mono (g := fun v => 0) ?_) (sumI_mono (g := fun _ => 1) ?_)) (by omega)
  · intro i i1 i2
    dsimp only
    rw [if_neg]
    · rintro ⟨hi, y, hy, ha⟩
      exact hi (H.adj hc hk hy ((adj_unhalo hc (H.vertex hk hy)).2 ⟨ha, i2⟩))
  · intro i i1 i2
    dsimp only
    split <;> omega

theorem unlinked (H : Slices h queu root R) (hc : HCons h) {j k : Nat} (hjk : j < k) (hk : k < R) : Unlinked h (sl queu root j) (sl queu root k) := by
  have key : ∀ v ∈ sl queu root j, ∀ w ∈ sl queu root k, ¬ Adj h.s v w := by
    intro v hv w hw ha
    have hwv := H.vertex hk hw
    have := H.adj hc (by omega) hv ((adj_unhalo hc (H.vertex (by omega) hv)).2 ⟨ha, hwv.2⟩)
    obtain ⟨a, a1, a2, a3⟩ := (H.mem (by omega)).1 this
    obtain ⟨b, b1, b2, b3⟩ := (H.mem hk).1 hw
    have h1 := H.bnd (k := j) (by omega)
    have h2 := H.bnd (k := k + 1) (by omega)
    have h3 := H.le (j := j + 1) (k := k) (by omega) (by omega)
    have h4 := H.bnd (k := k) (by omega)
    have := H.enum.2.1 a b (by omega) (by omega) (by omega) (by omega) (a3.trans b3.symm)
    omega
  intro v hv w hw
  exact ⟨key v hv w hw, fun ha => key v hv w hw ((consE_iff.2 hc.whole).adj_symm (vertex_of_unhalo hc (H.vertex hk hw)) ha)⟩

theorem flatten (H : Slices h queu root R) : ∀ (m k : Nat), k + m ≤ R → ((List.range' k m).map (sl queu root)).flatten = slice queu (root.get k) (root.get (k + m : Nat) - root.get k).toNat
  | 0, k, _ => by
    rw [Nat.add_zero, Int.sub_self]
    rfl
  | m + 1, k, hk => by
    have h1 := H.mono k (by omega)
    have h2 := H.le (j := k + 1) (k := k + 1 + m) (by omega) (by omega)
    rw [List.range'_succ, List.map_cons, List.flatten_cons, flatten H m (k + 1) (by omega)]
    unfold sl
    have h3 : root.get k + ((root.get (k + 1 : Nat) - root.get k).toNat : Int) = root.get (k + 1 : Nat) := by omega
    have h4 := slice_append queu (root.get k) (root.get (k + 1 : Nat) - root.get k).toNat (root.get (k + 1 + m : Nat) - root.get (k + 1 : Nat)).toNat
    rw [h3] at h4
    rw [← h4, show k + (m + 1) = k + 1 + m by omega]
    congr 1
    omega

end Slices

theorem ccOrder_holds {env : Env} {cls : Graph → Prop} (hcl : Hered cls) {tot sure : Bool} {sub : Method} (hsub : Orders cls tot sure false sub) (hcls : cls (unhalo h)) (hc : HCons h) (ha : HAlloc h) (hb : 0 ≤ h.s.baseval) {queu root : Arr Int} {R : Nat}
    (H : Slices h queu root R) : ∀ (m k : Nat) (o : Ord) (acc : List Cblk), k + m = R → o.peritab.lo ≤ 0 → h.vnohnbr ≤ o.peritab.hi →
    Meets tot (ccOrder env h sub queu root ((List.range' k m).map (Int.ofNat ·)) (o, root.get k, acc)) (fun r => (sure = true → r.1 = 0) ∧ (r.1 = 0 → ∃ cs π, r.2.2 = acc.reverse ++ cs ∧
      Chunks h (fun i => r.2.1.peritab.get (0 + i)) π ((List.range' k m).map (sl queu root)) cs (root.get k) ∧ (r.2.1.peritab.lo = o.peritab.lo ∧ r.2.1.peritab.hi = o.peritab.hi) ∧
      (∀ i, (i < root.get k ∨ h.vnohnbr ≤ i) → r.2.1.peritab.get i = o.peritab.get i) ∧ r.2.1.treenbr = o.treenbr + nodesL cs - m ∧ r.2.1.cblknbr = o.cblknbr + widthL cs - m))
  | 0, k, o, acc, hk, _, _ => by
    unfold ccOrder
    rw [List.range'_zero]
    show Meets tot (pure _) _
    rw [Meets_pure]
    refine ⟨fun _ => rfl, fun _ => ⟨[], fun _ => 0, by simp, ?_, ⟨rfl, rfl⟩, fun i _ => rfl, ?_, ?_⟩⟩
    · unfold Chunks; trivial
    · dsimp only; rw [nodesL]; omega
    · dsimp only; unfold widthL leavesL; simp
  | m + 1, k, o, acc, hk, h1, h2 => by
    have b1 := H.bnd (k := k) (by omega)
    have b2 := H.bnd (k := k + 1) (by omega)
    have b3 := H.mono k (by omega)
    have hqb := H.qb
    have hrb := H.rb
    have hlen := H.length (k := k) (by omega)
    have hnb := hc.nbr
    rw [List.range'_succ, List.map_cons, List.map_cons]
    unfold ccOrder
    show Meets tot (root.rd (k : Int) >>= _) _
    rw [Arr.rd_ok _ (by omega) (by omega), ok_bind]
    show Meets tot (root.rd ((k : Int) + 1) >>= _) _
    have hk1 : ((k : Int) + 1) = ((k + 1 : Nat) : Int) := by omega
    rw [hk1, Arr.rd_ok _ (by omega) (by omega), ok_bind, cells_eq (by omega) (by omega), ok_bind, Meets_bind]
    refine (Meets.of_holds (hinduce_holds (l := sl queu root k) (env.hmem o.tick) hc ha hb (H.nodup (by omega)) (fun v hv => vertex_of_unhalo hc (H.vertex (by omega) hv)) (by omega) (H.cap hc (by omega)))).mono ?_
    rintro i ⟨hci, hai, f, hi⟩
    have sb := hi.sub hci
    have sz := sb.size
    rw [Meets_bind]
    have hx := hsub i (root.get k) { o with tick := o.tick + 1 } hci hai (by rw [hi.baseval]; exact hb) (by omega) (by dsimp only; omega) (by dsimp only; omega) (fun h => by cases h)
      (hcl _ _ hcls (hi.within hci (by omega) (fun v hv => H.vertex (by omega) hv)))
    rw [show leafBlock i.vnohnbr = Cblk.leaf ORDERCBLKLEAF (root.get (k + 1 : Nat) - root.get k) 0 by unfold leafBlock; rw [sz, hlen]] at hx
    refine hx.mono ?_
    rintro ⟨r, o1, c⟩ ⟨r1, r2⟩
    dsimp only at r1 r2 ⊢
    by_cases hr : r = 0
    · rw [if_neg (fun h => h hr)]
      obtain ⟨π1, P⟩ := r2 hr
      have hB := P.bnd
      have hF := P.frame
      have hT := P.tree
      have hK := P.cblk
      dsimp only at hB hF hT hK
      rw [sz, hlen] at hF
      rw [show root.get k + (root.get (k + 1 : Nat) - root.get k) = root.get (k + 1 : Nat) by omega] at hF ⊢
      refine (ccOrder_holds hcl hsub hcls hc ha hb H m (k + 1) o1 (c :: acc) (by omega) (by omega) (by omega)).mono ?_
      rintro ⟨r', o2, cs'⟩ ⟨q1, q2⟩
      refine ⟨q1, ?_⟩
      intro hr'
      obtain ⟨cs, π2, e1, e2, e3, e4, e5, e6⟩ := q2 hr'
      dsimp only at e1 e2 e3 e4 e5 e6 ⊢
      have hfl := H.flatten m (k + 1) (by omega)
      have C := Placed.chunk (a := root.get k) (x := 0) sb (by rw [Int.zero_add]; exact P)
      refine ⟨c :: cs, fun i => if i < root.get (k + 1 : Nat) then f (π1 (i - root.get k)) else π2 i, ?_, ?_, ?_, ?_, ?_, ?_⟩
      · rw [e1]; simp
      · unfold Chunks
        refine ⟨C.congr ?_ ?_, ?_⟩
        · intro i i1 i2; exact e4 _ (by omega)
        · intro i i1 i2; rw [if_pos (by omega)]
        · rw [hlen, show root.get k + (root.get (k + 1 : Nat) - root.get k) = root.get (k + 1 : Nat) by omega]
          refine Chunks.congr _ _ _ e2 ?_ ?_
          · intro i i1 i2; rfl
          · intro i i1 i2; rw [if_neg (by omega)]
      · omega
      · intro i hi'
        rw [e4 i (by omega), hF i (by omega)]
      · rw [nodesL]; omega
      · rw [widthL_cons]; omega
    · rw [if_pos hr, Meets_pure]
      exact ⟨fun hs => absurd (r1 hs) hr, fun h => by cases h⟩

theorem orderCc_orders (env : Env) {cls : Graph → Prop} (hcl : Hered cls) {tot sure : Bool} {sub : Method} (hsub : Orders cls tot sure false sub) : Orders cls tot sure true (orderCc env sub) := by
  intro h ordenum o hc ha hb hn h1 h2 hord hcls
  have h0 := hord rfl
  subst h0
  have hE : ConsE (unhalo h) := consE_iff.2 hc.part
  have hnn : h.vnohnnd = h.s.baseval + h.vnohnbr := hE.vertnnd
  unfold orderCc
  rw [Meets_bind]
  have hI : CcI (unhalo h) 0 ⟨⟨0, h.vnohnbr, env.junk o.tick⟩, Arr.const h.s.baseval (h.s.baseval + h.vnohnbr) (-1), ⟨0, h.vnohnbr + 1, env.junk (o.tick + 1)⟩, 0, 0, 0, h.s.baseval⟩ := by
    refine ⟨⟨rfl, rfl⟩, ⟨rfl, rfl⟩, ⟨rfl, rfl⟩, Int.le_refl _, ?_, ⟨Int.le_refl _, Int.le_refl _⟩, ?_, ?_, Int.le_refl _, ?_⟩
    · refine (Enum.empty _).congr ?_
      intro v
      refine ⟨False.elim, ?_⟩
      rintro ⟨_, hv⟩
      have hv' : (0 : Int) ≤ -1 := hv
      omega
    · intro i w i1 i2
      have : i < 0 := i2
      omega
    · refine ⟨⟨Int.le_refl _, Int.le_refl _⟩, fun _ => rfl, ?_, ?_, ?_, ?_⟩
      · intro hh; omega
      · intro k _ _; omega
      · intro k _ _; omega
      · intro k _ _; omega
    · intro v v1 v2
      have v1' : h.s.baseval ≤ v := v1
      have v2' : v < h.s.baseval := v2
      omega
  refine (Meets.of_holds (ccComps_holds hE ha.part hI rfl rfl)).mono ?_
  rintro s ⟨hs, hq, hclo⟩
  replace hq : s.qtal = h.vnohnbr := hq
  have hqb : s.queu.lo = 0 ∧ s.queu.hi = h.vnohnbr := hs.qb
  have hrb : s.root.lo = 0 ∧ s.root.hi = h.vnohnbr + 1 := hs.rb
  obtain ⟨g1, g2, g3, g4, g5, g6⟩ := hs.roots
  rw [Arr.wr_ok _ _ (by omega) (by omega), ok_bind]
  dsimp only
  by_cases hone : s.rootnbr = 1
  · rw [if_pos hone]
    refine Meets.mono (hsub h 0 { o with tick := o.tick + 2 } hc ha hb hn h1 h2 (fun h => by cases h) hcls) ?_
    rintro ⟨r, o', c⟩ ⟨q1, q2⟩
    refine ⟨q1, fun hr => ?_⟩
    obtain ⟨π, hπ⟩ := q2 hr
    exact ⟨π, ⟨hπ.bnd, hπ.frame, hπ.vertex, hπ.inj, hπ.peri, hπ.size, hπ.coherent, hπ.alloc, hπ.tree, hπ.cblk, hπ.separates⟩⟩
  · rw [if_neg hone]
    have hRpos : 0 < s.rootnbr := by
      have : s.rootnbr ≠ 0 := fun h => by have := g2 h; omega
      omega
    obtain ⟨R, hR⟩ : ∃ R : Nat, s.rootnbr = R := ⟨s.rootnbr.toNat, by omega⟩
    rw [hR] at g1 g2 g3 g4 g5 g6 hRpos ⊢
    have H : Slices h s.queu (s.root.set R s.qtal) R := by
      refine ⟨hqb, ?_, ?_, ?_, ?_, ?_, ?_⟩
      · show s.root.lo = 0 ∧ (R : Int) < s.root.hi
        omega
      · have := hs.enum
        rw [hq] at this
        refine this.congr ?_
        intro v
        refine ⟨fun h => h.1, fun hv => ⟨hv, ?_⟩⟩
        apply Classical.byContradiction
        intro hne
        have hlt := this.lt (lo := h.s.baseval) (hi := h.vnohnnd) (x := v) (fun v hv => hv.1) (fun hh => hne hh.2) hv.1 hv.2
        omega
      · rw [Arr.set_get_ne _ _ (by omega)]; exact g3 hRpos
      · intro k hk
        rw [Arr.set_get_ne _ _ (by omega)]
        by_cases hk' : k + 1 = R
        · rw [hk', Arr.set_get_same]; exact (g5 k (by omega) (by omega)).2
        · rw [Arr.set_get_ne _ _ (by omega)]; exact g4 k (by omega) (by omega)
      · rw [Arr.set_get_same]; exact hq
      · intro k hk
        by_cases hk' : k = R
        · rw [hk', Arr.set_get_same]; exact hclo
        · rw [Arr.set_get_ne _ _ (by omega)]; exact g6 k (by omega) (by omega)
    rw [Meets_bind]
    have hgo := ccOrder_holds (env := env) hcl hsub hcls hc ha hb H R 0 { o with treenbr := o.treenbr + R, cblknbr := o.cblknbr + R - 1, tick := o.tick + 2 } [] (by omega) h1 (by dsimp only; omega)
    rw [show (s.root.set R s.qtal).get ((0 : Nat) : Int) = 0 from H.first] at hgo
    rw [show (R : Int).toNat = R by omega, List.range_eq_range']
    refine hgo.mono ?_
    rintro ⟨r, o', cs'⟩ ⟨q1, q2⟩
    dsimp only at q1 q2
    rw [Meets_pure]
    refine ⟨q1, fun hr => ?_⟩
    obtain ⟨cs, π, e1, e2, e3, e4, e5, e6⟩ := q2 hr
    rw [List.reverse_nil, List.nil_append] at e1
    subst e1
    have hfl : ((List.range' 0 R).map (sl s.queu (s.root.set R s.qtal))).flatten = slice s.queu 0 h.vnohnbr.toNat := by
      rw [H.flatten R 0 (by omega), show (s.root.set R s.qtal).get ((0 : Nat) : Int) = 0 from H.first, Nat.zero_add, H.last, Int.sub_zero]
    have hen : EnumAt s.queu 0 h.vnohnbr (unhalo h).Vertex := H.enum.agree (fun i _ _ => by show s.queu.get (0 + i) = _; rw [Int.zero_add])
    obtain ⟨n1, n2, n3⟩ := hen.slice
    have K := chunks_ok _ _ _ e2
    have hcl' := K.length
    rw [List.length_map, List.length_range'] at hcl'
    refine ⟨π, ?_⟩
    have hres := placed_of_chunks (h := h) (ordenum := 0) (o := o) (o' := o') (ls := (List.range' 0 R).map (sl s.queu (s.root.set R s.qtal))) (cs := cs') (t := ORDERCBLKDICO) (π := π) e2 e3 (by
        intro i hi; exact e4 i (by omega)) hn (by rw [hfl]; exact n3) (by rw [hfl]; exact n1) (by
        intro v hv; rw [hfl] at hv; exact (n2 v).1 hv) (Or.inr rfl) (by rw [List.length_map, List.length_range']; omega) (fun h => by cases h) (by
        intro _
        rw [List.pairwise_map]
        refine List.Pairwise.imp_of_mem ?_ (List.pairwise_lt_range' (s := 0) (n := R) (step := 1) (by omega))
        intro a b ha hb hab
        rw [List.mem_range'_1] at hb
        exact H.unlinked hc hab (by omega)) (by omega) (by omega)
    rw [hcl'] at hres
    exact hres

end Scotch.HOrder
