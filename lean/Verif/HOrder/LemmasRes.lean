import Verif.HOrder.LemmasTop

/-! # Ordering of a whole graph, or of a list of vertices: lemmas -/

set_option autoImplicit false
set_option linter.unusedSimpArgs false

namespace Scotch
namespace Cblk

mutual
theorem width_le : ∀ {c : Cblk}, c.Coherent → (c.leaves.length : Int) ≤ c.vnodnbr
  | .leaf _ v _, h => by
    unfold Coherent at h
    unfold leaves
    show ((1 : Nat) : Int) ≤ v
    omega
  | .node _ v _ sons, h => by
    unfold Coherent at h
    unfold leaves
    show ((leavesL sons).length : Int) ≤ v
    have := widthL_le h.2.2.2.2.2
    omega
theorem widthL_le : ∀ {l : List Cblk}, CoherentL l → ((leavesL l).length : Int) ≤ vnodsum l
  | [], _ => by unfold leavesL vnodsum; simp
  | s :: r, h => by
    unfold CoherentL at h
    rw [leavesL, vnodsum, List.length_append]
    have := width_le h.1
    have := widthL_le h.2
    omega
end
end Cblk

namespace HOrder
open Graph Cblk

theorem isPerm_of_inj {base n : Int} {f : Int → Int} (hn : 0 ≤ n) (h1 : ∀ i, 0 ≤ i → i < n → base ≤ f i ∧ f i < base + n) (h2 : ∀ i j, 0 ≤ i → i < n → 0 ≤ j → j < n → f i = f j → i = j) : IsPerm base n f := by
  refine ⟨h1, ?_⟩
  intro y y1 y2
  have hen : Enum ⟨0, n, f⟩ n (fun v => ∃ i, 0 ≤ i ∧ i < n ∧ f i = v) := ⟨hn, h2, fun v => Iff.rfl⟩
  have : ∃ i, 0 ≤ i ∧ i < n ∧ f i = y := by
    apply Classical.byContradiction
    intro hno
    have hp := hen.push (x := y) hno
    have := hp.le (lo := base) (hi := base + n) (by omega) (by
      rintro v (⟨i, i1, i2, rfl⟩ | rfl)
      · exact h1 i i1 i2
      · exact ⟨y1, y2⟩)
    omega
  obtain ⟨i, i1, i2, i3⟩ := this
  exact ⟨i, i1, i2, i3, fun j j1 j2 j3 => h2 j i j1 j2 i1 i2 (by rw [j3, i3])⟩

theorem list_cap {g : Graph} (hc : Consistent g) {l : List Int} (hnd : l.Nodup) (hl : ∀ v ∈ l, g.Vertex v) : Band.total g (fun x => x ∉ l ∧ ∃ y ∈ l, Adj g y x) (fun _ => 1) ≤ g.vertnbr - l.length := by
  classical
  have hnn := hc.vertnnd
  have hn0 := hc.vertnbr
  have h1 := sumI_enum (Arr.ofList 0 l).get (fun _ => 1) g.baseval g.vertnnd 0 l.length (by omega) (by
    intro i j i1 i2 j1 j2 he
    obtain ⟨i, rfl⟩ : ∃ k : Nat, i = k := ⟨i.toNat, by omega⟩
    obtain ⟨j, rfl⟩ : ∃ k : Nat, j = k := ⟨j.toNat, by omega⟩
    rw [ofList_get l _ (by omega), ofList_get l _ (by omega), hnd.getElem_inj_iff] at he
    omega) (by
    intro i i1 i2
    rw [show i = ((i.toNat : Nat) : Int) by omega, ofList_get l _ (by omega)]
    exact hl _ (List.getElem_mem _))
  rw [sumI_const (by omega)] at h1
  have h2 := sumI_const (lo := g.baseval) (hi := g.vertnnd) (by omega) 1
  have h3 : Band.total g (fun x => x ∉ l ∧ ∃ y ∈ l, Adj g y x) (fun _ => 1) + sumI g.baseval g.vertnnd (fun v => if ∃ i, 0 ≤ i ∧ i < (l.length : Int) ∧ (Arr.ofList 0 l).get i = v then (1 : Int) else 0) ≤ sumI g.baseval g.vertnnd (fun _ => 1) := by
    unfold Band.total
    rw [← sumI_add_dist]
    refine sumI_mono ?_
    intro i i1 i2
    dsimp only
    by_cases hx : i ∈ l
    · rw [if_neg (fun h => h.1 hx)]
      split <;> omega
    · have : ¬ ∃ k, 0 ≤ k ∧ k < (l.length : Int) ∧ (Arr.ofList 0 l).get k = i := by
        rintro ⟨k, k1, k2, rfl⟩
        apply hx
        rw [show k = ((k.toNat : Nat) : Int) by omega, ofList_get l _ (by omega)]
        exact List.getElem_mem _
      rw [if_neg this]
      split <;> omega
  omega

theorem orderList_holds {env : Env} (hal : env.al = 1 ∨ env.al = 2) {cls : Graph → Prop} (hcl : Hered cls) {tot sure : Bool} {st : Strat} (hg : Good cls tot sure true st) {g : Graph} (hcls : cls g) (hc : Consistent g) (ha : Allocated g) (hb : 0 ≤ g.baseval) (hv : g.vnumtax = none)
    (he : g.edlosum = g.edgenbr) {l : Option (List Int)} (hl : ListOk g l) {peritab : Arr Int} (h1 : peritab.lo ≤ 0) (h2 : g.vertnbr ≤ peritab.hi) :
    Meets tot (orderList env st g l ⟨peritab, 1, 1, 0⟩) (fun r => (sure = true → r.1 = 0) ∧ (r.1 = 0 →
      ValidOrder ⟨g.baseval, g.vertnbr, r.2.1.treenbr, r.2.1.cblknbr, r.2.2, r.2.1.peritab⟩ ∧ OrderMem ⟨g.baseval, g.vertnbr, r.2.1.treenbr, r.2.1.cblknbr, r.2.2, r.2.1.peritab⟩ ∧
      Separated g ⟨g.baseval, g.vertnbr, r.2.1.treenbr, r.2.1.cblknbr, r.2.2, r.2.1.peritab⟩ l)) := by
  have hnn := hc.vertnnd
  have hn0 := hc.vertnbr
  have hcD := dropEdlo_cons hc he
  have haD := dropEdlo_alloc ha
  have hcH := noHalo_cons hcD rfl 0
  have haH := noHalo_alloc haD 0
  have hO : ∀ v, onum (dropEdlo g) v = v := by
    intro v
    unfold onum
    rw [show (dropEdlo g).vnumtax = none from hv]
  have hW : cls (unhalo (noHalo (dropEdlo g) 0)) := hcl _ _ hcls ⟨rfl, hnn, Int.le_refl _, fun h => h, fun h => h⟩
  unfold orderList
  dsimp only
  match l, hl with
  | none, hl =>
    dsimp only
    have hx := orderSt_orders hal hcl st hg (noHalo (dropEdlo g) 0) 0 ⟨peritab, 1, 1, 0⟩ hcH haH hb hl h1 (by show 0 + g.vertnbr ≤ peritab.hi; omega) (fun _ => rfl) hW
    refine Meets.mono hx ?_
    rintro ⟨r, o, c⟩ ⟨r1, r2⟩
    refine ⟨r1, ?_⟩
    intro hr
    obtain ⟨π, P⟩ := r2 hr
    dsimp only at P ⊢
    have hN : (noHalo (dropEdlo g) 0).vnohnbr = g.vertnbr := rfl
    have hper : ∀ i, 0 ≤ i → i < g.vertnbr → o.peritab.get i = π i := by
      intro i i1 i2
      have := P.peri i i1 i2
      rw [Int.zero_add] at this
      exact this.trans (hO _)
    have hver : ∀ i, 0 ≤ i → i < g.vertnbr → g.Vertex (π i) := fun i i1 i2 => P.vertex i i1 i2
    have hB := P.bnd
    have hT := P.tree
    have hK := P.cblk
    dsimp only at hB hT hK
    refine ⟨⟨?_, P.coherent, P.size.symm, by dsimp only; omega, by dsimp only; omega⟩, ⟨by dsimp only; omega, P.alloc⟩, ?_⟩
    · refine isPerm_of_inj hn0 ?_ ?_
      · intro i i1 i2
        dsimp only at i2 ⊢
        rw [hper i i1 i2]
        have := hver i i1 i2
        have := this.1
        have h5 := (hver i i1 i2).2
        omega
      · intro i j i1 i2 j1 j2 hij
        dsimp only at i2 j2 hij
        rw [hper i i1 i2, hper j j1 j2] at hij
        exact P.inj i j i1 i2 j1 j2 hij
    · unfold Separated
      have := sep_shift (A := fun i j => Adj (noHalo (dropEdlo g) 0).s (π i) (π j)) (A' := NearIn g ⟨g.baseval, g.vertnbr, o.treenbr, o.cblknbr, c, o.peritab⟩) 0 c 0 P.coherent (fun i j i1 i2 j1 j2 hx => by
        have hs := P.size
        rw [hN] at hs
        unfold NearIn at hx
        dsimp only at hx
        rw [Int.add_zero, Int.add_zero, hper i i1 (by omega), hper j j1 (by omega)] at hx
        exact hx) P.separates
      exact this
  | some l, hl =>
    dsimp only
    obtain ⟨hnd, hlv, hne, hlt⟩ := hl
    have hlen : 1 ≤ (l.length : Int) := by
      have := List.length_pos_iff.2 hne
      omega
    rw [Meets_bind]
    refine (Meets.of_holds (listTail_holds hc hnd hlv h1 h2)).mono ?_
    rintro p ⟨p1, p2, _, _, p5, p6⟩
    rw [Meets_bind]
    refine (Meets.of_holds (hinduce_holds (env.hmem 0) hcH haH hb hnd hlv (by show 0 ≤ g.vertnbr - _; omega) (list_cap hcD hnd hlv))).mono ?_
    rintro i ⟨hci, hai, f, hi⟩
    have sb := hi.sub hci
    have sz := sb.size
    rw [Meets_bind]
    have hx := orderSt_orders hal hcl st hg i 0 ⟨p, 3, 2, 0 + 1⟩ hci hai (by rw [hi.baseval]; exact hb) (by omega) (by dsimp only; omega) (by dsimp only; omega) (fun _ => rfl)
      (hcl _ _ hW (hi.within hci (by show (l.length : Int) ≤ g.vertnbr; omega) hlv))
    rw [sz] at hx
    refine Meets.mono hx ?_
    rintro ⟨r, o, c⟩ ⟨r1, r2⟩
    rw [Meets_pure]
    refine ⟨r1, ?_⟩
    intro hr
    obtain ⟨π, P⟩ := r2 hr
    dsimp only at P ⊢
    have hz := P.size
    have hB := P.bnd
    have hT := P.tree
    have hK := P.cblk
    have hF := P.frame
    dsimp only at hB hT hK hF
    rw [sz] at hz hF
    have hper : ∀ i, 0 ≤ i → i < (l.length : Int) → o.peritab.get i = f (π i) := by
      intro k k1 k2
      have := P.peri k k1 (by omega)
      rw [Int.zero_add] at this
      rw [this, sb.onum _ (P.vertex k k1 (by omega))]
      exact hO _
    have hin : ∀ i, 0 ≤ i → i < (l.length : Int) → o.peritab.get i ∈ l := by
      intro k k1 k2
      rw [hper k k1 k2]
      exact sb.list _ (P.vertex k k1 (by omega))
    have hout : ∀ i, (l.length : Int) ≤ i → o.peritab.get i = p.get i := fun k k1 => hF k (Or.inr (by omega))
    have hw : width (leafBlock (g.vertnbr - l.length)) = 1 := by unfold leafBlock width leaves; rfl
    have hwn : nodes (leafBlock (g.vertnbr - l.length)) = 1 := by unfold leafBlock nodes; rfl
    refine ⟨⟨?_, ?_, rfl, ?_, ?_⟩, ⟨by dsimp only; omega, ?_⟩, ?_⟩
    · refine isPerm_of_inj hn0 ?_ ?_
      · intro k k1 k2
        dsimp only at k2 ⊢
        by_cases hk : k < l.length
        · have := hlv _ (hin k k1 hk)
          have h4 := this.1
          have h5 := this.2
          omega
        · rw [hout k (by omega)]
          have := (p5 k (by omega) k2).1
          have h4 := this.1
          have h5 := this.2
          omega
      · intro k j k1 k2 j1 j2 hij
        dsimp only at k2 j2 hij
        by_cases hk : k < l.length
        · by_cases hj : j < l.length
          · rw [hper k k1 hk, hper j j1 hj] at hij
            have := sb.inj _ _ (P.vertex k k1 (by omega)) (P.vertex j j1 (by omega)) hij
            exact P.inj k j k1 (by omega) j1 (by omega) this
          · have := hin k k1 hk
            rw [hij, hout j (by omega)] at this
            exact absurd this (p5 j (by omega) j2).2
        · by_cases hj : j < l.length
          · have := hin j j1 hj
            rw [← hij, hout k (by omega)] at this
            exact absurd this (p5 k (by omega) k2).2
          · rw [hout k (by omega), hout j (by omega)] at hij
            exact p6 k j (by omega) k2 (by omega) j2 hij
    · dsimp only
      unfold Coherent
      refine ⟨Or.inr (Or.inl rfl), by omega, by omega, fun _ => Or.inl rfl, ?_, ?_⟩
      · rw [vnodsum, vnodsum, vnodsum, hz]
        show g.vertnbr = l.length + (g.vertnbr - l.length + 0)
        omega
      · unfold CoherentL CoherentL CoherentL
        refine ⟨P.coherent, ?_, trivial⟩
        unfold leafBlock Coherent
        exact ⟨rfl, by omega, rfl⟩
    · dsimp only
      rw [width_node, widthL_cons, widthL_cons, hw]
      show _ = _ + (1 + ((leavesL []).length : Int))
      rw [leavesL]
      simp only [List.length_nil]
      omega
    · dsimp only
      rw [nodes_node, nodesL, nodesL, nodesL, hwn]
      omega
    · dsimp only
      unfold Alloc AllocL AllocL AllocL
      refine ⟨rfl, P.alloc, ?_, trivial⟩
      unfold leafBlock Alloc
      trivial
    · unfold Separated
      refine ⟨hin, c, _, rfl, hz, ?_⟩
      have := sep_shift (A := fun x y => Adj i.s (π x) (π y)) (A' := NearIn g ⟨g.baseval, g.vertnbr, o.treenbr, o.cblknbr, .node ORDERCBLKDICO g.vertnbr 2 [c, leafBlock (g.vertnbr - l.length)], o.peritab⟩) 0 c 0 P.coherent (fun x y x1 x2 y1 y2 hx => by
        unfold NearIn at hx
        dsimp only at hx
        rw [Int.add_zero, Int.add_zero, hper x x1 (by omega), hper y y1 (by omega)] at hx
        exact (sb.adj _ _ (P.vertex x x1 (by omega)) (P.vertex y y1 (by omega))).2 hx) P.separates
      exact this

theorem graphOrder_holds {env : Env} (hal : env.al = 1 ∨ env.al = 2) {cls : Graph → Prop} (hcl : Hered cls) {tot sure : Bool} {st : Strat} (hg : Good cls tot sure true st) {g : Graph} (hcls : cls g) (hc : Consistent g) (ha : Allocated g) (hb : 0 ≤ g.baseval) (hv : g.vnumtax = none)
    (he : g.edlosum = g.edgenbr) {l : Option (List Int)} (hl : ListOk g l) {peritab : Arr Int} (h1 : peritab.lo ≤ 0) (h2 : g.vertnbr ≤ peritab.hi) {t : Tabs} (ht : TabsOk g t) :
    Meets tot (graphOrder env st g l peritab t) (fun r => (sure = true → r.1 = 0) ∧ (r.1 = 0 → (r.2.1.baseval = g.baseval ∧ r.2.1.vnodnbr = g.vertnbr) ∧ ValidOrder r.2.1 ∧ OrderMem r.2.1 ∧ Separated g r.2.1 l ∧ Filled r.2.1 t r.2.2)) := by
  have hn0 := hc.vertnbr
  unfold graphOrder
  dsimp only
  have hne : ¬ listSize g l = 0 := by
    match l, hl with
    | none, hl => show ¬ g.vertnbr = 0; have : 1 ≤ g.vertnbr := hl; omega
    | some l, hl => show ¬ (l.length : Int) = 0; have := List.length_pos_iff.2 hl.2.2.1; omega
  rw [if_neg hne, Meets_bind]
  refine (orderList_holds hal hcl hg hcls hc ha hb hv he hl h1 h2).mono ?_
  rintro ⟨r, o, c⟩ ⟨r1, r2⟩
  dsimp only at r1 r2 ⊢
  by_cases hr : r = 0
  · rw [if_neg (fun h => h hr)]
    obtain ⟨hV, hM, hS⟩ := r2 hr
    have hw : o.cblknbr ≤ g.vertnbr := by
      have h1 := hV.cblk
      have h2 := hV.size
      have h3 := width_le hV.tree
      unfold width at h1
      dsimp only at h1 h2 h3
      omega
    generalize hO : (⟨g.baseval, g.vertnbr, o.treenbr, o.cblknbr, c, o.peritab⟩ : Order) = O at hV hM hS ⊢
    have o1 : O.baseval = g.baseval := by rw [← hO]
    have o2 : O.vnodnbr = g.vertnbr := by rw [← hO]
    have o3 : O.cblknbr = o.cblknbr := by rw [← hO]
    have o4 : O.peritab = o.peritab := by rw [← hO]
    refine Meets.of_holds ?_
    rw [Holds_bind]
    refine Holds.mono (Q := fun x => x.isSome = t.permtab.isSome ∧ ∀ a, x = some a → IsPerm O.baseval O.vnodnbr a.get ∧ (∀ i, 0 ≤ i → i < O.vnodnbr → a.get (O.peritab.get i - O.baseval) = i + O.baseval) ∧
      ∀ j, 0 ≤ j → j < O.vnodnbr → O.peritab.get (a.get j - O.baseval) = j + O.baseval) ?_ ?_
    · unfold fillTab
      cases hp : t.permtab with
      | none => dsimp only; rw [Holds_pure]; exact ⟨rfl, fun a h => by cases h⟩
      | some a =>
        dsimp only
        rw [Holds_bind, ← o1, ← o4, ← o2]
        refine (C22_inverse_permutation O.peritab a O.baseval O.vnodnbr O.baseval (by rw [o2]; exact hn0) hV.perm hM.peri (by rw [o2]; exact ht.perm a hp)).mono ?_
        rintro b ⟨b1, b2, b3, _⟩
        rw [Holds_pure]
        refine ⟨rfl, ?_⟩
        rintro b' hb'
        cases hb'
        exact ⟨b1, b2, b3⟩
    rintro pt ⟨pt0, pt1⟩
    rw [Holds_bind]
    refine Holds.mono (Q := fun x => x.isSome = t.rangtab.isSome ∧ ∀ a, x = some a → a.get 0 = O.baseval ∧ a.get O.cblknbr = O.baseval + O.vnodnbr ∧
      ∀ k : Nat, (h : k < O.cblktre.leaves.length) → a.get (k + 1) = a.get k + O.cblktre.leaves[k] ∧ 1 ≤ O.cblktre.leaves[k]) ?_ ?_
    · unfold fillTab
      cases hp : t.rangtab with
      | none => dsimp only; rw [Holds_pure]; exact ⟨rfl, fun a h => by cases h⟩
      | some a =>
        dsimp only
        rw [Holds_bind]
        have hx := ht.rang a hp
        refine (C24_orderRang O a hM hV hx.1 (by omega)).mono ?_
        rintro b ⟨b1, b2, b3, _⟩
        rw [Holds_pure]
        refine ⟨rfl, ?_⟩
        rintro b' hb'
        cases hb'
        exact ⟨b1, b2, b3⟩
    rintro rt ⟨rt0, rt1⟩
    rw [Holds_bind]
    refine Holds.mono (Q := fun x => x.isSome = t.treetab.isSome ∧ ∀ a, x = some a → (∀ k, O.baseval ≤ k → k < O.baseval + O.cblknbr → a.get k = -1 ∨ (k < a.get k ∧ a.get k < O.baseval + O.cblknbr)) ∧ O.cblktre.Reflects a.get O.baseval) ?_ ?_
    · unfold fillTab
      cases hp : t.treetab with
      | none => dsimp only; rw [Holds_pure]; exact ⟨rfl, fun a h => by cases h⟩
      | some a =>
        dsimp only
        rw [Holds_bind]
        have hx := ht.tree a hp
        refine (C25_orderTree O a hM hV (by omega) (by omega) (by omega)).mono ?_
        rintro b ⟨b1, b2, _⟩
        rw [Holds_pure]
        refine ⟨rfl, ?_⟩
        rintro b' hb'
        cases hb'
        exact ⟨b1, b2⟩
    rintro tt ⟨tt0, tt1⟩
    rw [Holds_pure]
    refine ⟨fun _ => rfl, fun _ => ⟨⟨o1, o2⟩, hV, hM, hS, ⟨pt0, rt0, tt0, by simp⟩, pt1, rt1, tt1, ?_⟩⟩
    intro n hn
    dsimp only at hn
    rw [o3]
    cases hcp : t.cblkptr with
    | none => rw [hcp] at hn; cases hn
    | some x => rw [hcp] at hn; cases hn; first | rfl | exact o3
  · rw [if_pos hr, Meets_pure]
    exact ⟨r1, fun h => absurd h hr⟩

end HOrder
end Scotch
