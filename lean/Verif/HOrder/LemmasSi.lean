import Verif.HOrder.LemmasChunks
import Verif.Graph.Props

/-! # Ordering of graphs: common lemmas, natural order -/

set_option autoImplicit false
set_option linter.unusedSimpArgs false

namespace Scotch.HOrder
open Graph Cblk
variable {h : Hgraph}

theorem mapM_ok {α β : Type} {f : α → M β} {g : α → β} : ∀ (l : List α), (∀ i ∈ l, f i = .ok (g i)) → l.mapM f = .ok (l.map g)
  | [], _ => by rw [List.mapM_nil]; rfl
  | x :: l, hf => by
    rw [List.mapM_cons, hf x (List.mem_cons_self ..), mapM_ok l (fun i hi => hf i (List.mem_cons_of_mem _ hi))]
    rfl

/-- Contents of the cells of an array. -/
def slice (a : Arr Int) (off : Int) (n : Nat) : List Int := (List.range n).map fun i => a.get (off + (i : Nat))

theorem cells_eq {a : Arr Int} {off : Int} {n : Nat} (h1 : a.lo ≤ off) (h2 : off + n ≤ a.hi) : cells a off n = .ok (slice a off n) := by
  unfold cells slice
  apply mapM_ok
  intro i hi
  rw [List.mem_range] at hi
  exact Arr.rd_ok a (by omega) (by omega)

theorem slice_length (a : Arr Int) (off : Int) (n : Nat) : (slice a off n).length = n := by unfold slice; simp

theorem mem_slice {a : Arr Int} {off : Int} {n : Nat} {v : Int} : v ∈ slice a off n ↔ ∃ i, off ≤ i ∧ i < off + n ∧ a.get i = v := by
  unfold slice
  rw [List.mem_map]
  constructor
  · rintro ⟨i, hi, rfl⟩
    rw [List.mem_range] at hi
    exact ⟨off + i, by omega, by omega, rfl⟩
  · rintro ⟨i, h1, h2, rfl⟩
    exact ⟨(i - off).toNat, by rw [List.mem_range]; omega, by rw [show off + ((i - off).toNat : Int) = i by omega]⟩

theorem slice_nodup {a : Arr Int} {off : Int} {n : Nat} (hinj : ∀ i j, off ≤ i → i < off + n → off ≤ j → j < off + n → a.get i = a.get j → i = j) : (slice a off n).Nodup := by
  unfold slice List.Nodup
  rw [List.pairwise_map]
  refine List.Pairwise.imp_of_mem ?_ (List.nodup_range (n := n))
  intro i j hi hj hij he
  rw [List.mem_range] at hi hj
  have := hinj _ _ (by omega) (by omega) (by omega) (by omega) he
  omega

theorem rdOnum_eq {g : Graph} (ha : g.Allocated) {v : Int} (hv : g.Vertex v) : rdOnum g v = .ok (onum g v) := by
  unfold rdOnum onum
  have := ha.vnum
  cases hn : g.vnumtax with
  | none => rfl
  | some a =>
    have := ha.vnum a hn
    have := hv.1
    have := hv.2
    exact Arr.rd_ok a (by omega) (by omega)

/-- Adjacency in the graph without its halo. -/
theorem adj_unhalo (hc : HCons h) {v w : Int} (hv : (unhalo h).Vertex v) : Adj (unhalo h) v w ↔ Adj h.s v w ∧ w < h.vnohnnd := by
  have he := hc.ends v hv
  constructor
  · rintro ⟨e, h1, h2, h3⟩
    have hp := consE_iff.2 hc.part
    have := (hp.inside v e hv h1 h2).1.2
    rw [h3] at this
    exact ⟨⟨e, h1, by omega, h3⟩, this⟩
  · rintro ⟨⟨e, h1, h2, h3⟩, hw⟩
    refine ⟨e, h1, ?_, h3⟩
    apply Classical.byContradiction
    intro hn
    have := he.2 e (by omega) h2
    rw [h3] at this
    omega

/-- Leaf blocks. -/
theorem placed_leaf {ordenum : Int} {o o' : Ord} {π : Int → Int} (hn : 1 ≤ h.vnohnbr) (hb : o'.peritab.lo = o.peritab.lo ∧ o'.peritab.hi = o.peritab.hi)
    (hf : ∀ i, (i < ordenum ∨ ordenum + h.vnohnbr ≤ i) → o'.peritab.get i = o.peritab.get i) (hv : ∀ i, 0 ≤ i → i < h.vnohnbr → (unhalo h).Vertex (π i))
    (hinj : ∀ i j, 0 ≤ i → i < h.vnohnbr → 0 ≤ j → j < h.vnohnbr → π i = π j → i = j) (hp : ∀ i, 0 ≤ i → i < h.vnohnbr → o'.peritab.get (ordenum + i) = onum h.s (π i))
    (ht : o'.treenbr = o.treenbr) (hk : o'.cblknbr = o.cblknbr) : Placed h ordenum o o' (leafBlock h.vnohnbr) π := by
  refine ⟨hb, hf, hv, hinj, hp, rfl, ?_, ?_, ?_, ?_, ?_⟩
  · unfold leafBlock Coherent; exact ⟨rfl, hn, rfl⟩
  · unfold leafBlock Alloc; trivial
  · unfold leafBlock nodes; omega
  · unfold leafBlock width leaves; rw [List.length_singleton]; omega
  · unfold leafBlock Separates; trivial

theorem orderSi_orders (cls : Graph → Prop) (tot sure top : Bool) : Orders cls tot sure top orderSi := by
  intro h ordenum o hc ha hb hn h1 h2 _ _
  refine Meets.of_holds ?_
  have hnn : h.vnohnnd = h.s.baseval + h.vnohnbr := hc.part.vertnnd
  unfold orderSi
  rw [Holds_bind]
  refine Holds_forUp (fun v (p : Arr Int) => (p.lo = o.peritab.lo ∧ p.hi = o.peritab.hi) ∧ (∀ i, (i < ordenum ∨ ordenum + (v - h.s.baseval) ≤ i) → p.get i = o.peritab.get i) ∧
    ∀ i, 0 ≤ i → i < v - h.s.baseval → p.get (ordenum + i) = onum h.s (h.s.baseval + i)) (by omega) ?_ ?_ ?_
  · exact ⟨⟨rfl, rfl⟩, fun i _ => rfl, fun i i1 i2 => by omega⟩
  · rintro v p v1 v2 ⟨⟨b1, b2⟩, hf, hp⟩
    rw [rdOnum_eq ha.whole (vertex_of_unhalo hc ⟨v1, v2⟩), ok_bind, Arr.wr_ok p _ (by omega) (by omega), Holds_ok]
    refine ⟨⟨b1, b2⟩, ?_, ?_⟩
    · intro i hi
      rw [Arr.set_get_ne _ _ (by omega)]
      exact hf i (by omega)
    · intro i i1 i2
      by_cases hi : i = v - h.s.baseval
      · subst hi
        rw [Arr.set_get_same, show h.s.baseval + (v - h.s.baseval) = v by omega]
      · rw [Arr.set_get_ne _ _ (by omega)]
        exact hp i i1 (by omega)
  · rintro p ⟨hb', hf, hp⟩
    rw [Holds_pure]
    refine ⟨fun _ => rfl, fun _ => ⟨fun i => h.s.baseval + i, placed_leaf hn hb' ?_ ?_ ?_ ?_ rfl rfl⟩⟩
    · intro i hi; exact hf i (by omega)
    · intro i i1 i2; exact ⟨(by show h.s.baseval ≤ _; omega), (by show _ < h.vnohnnd; omega)⟩
    · intro i j _ _ _ _ he; omega
    · intro i i1 i2; exact hp i i1 (by omega)

/-- A graph without halo. -/
theorem noHalo_cons {g : Graph} (hc : Consistent g) (he : g.edlotax = none) (lv : Int) : HCons (noHalo g lv) := by
  refine ⟨hc, ⟨hc.vertnbr, hc.vertnnd, hc.range, hc.inside, hc.symm, hc.simple, hc.edgenbr, hc.velo, hc.velosum, hc.edlo, hc.edlosum, hc.degrmax⟩, ⟨hc.vertnbr, Int.le_refl _⟩, ?_, ?_, he⟩
  · intro v hv
    refine ⟨Int.le_refl _, ?_⟩
    intro e h1 h2
    have h1' : g.vend v ≤ e := h1
    have h2' : e < g.vend v := h2
    omega
  · intro v p hv hn
    have h1 : v < g.vertnnd := hv.2
    have h2 : g.vertnnd ≤ v := hn
    omega

theorem noHalo_alloc {g : Graph} (ha : Allocated g) (lv : Int) : HAlloc (noHalo g lv) :=
  ⟨ha, ⟨ha.vlo, ha.vhi, ha.vhi', ha.ends, ha.velo, ha.vnum, (fun a h => by cases h), ha.edge, ha.edlo⟩⟩

/-- The graph induced by a list. -/
theorem noHalo_sub {g' : Graph} {l : List Int} (hc : HCons h) (hc' : Consistent g') (hi : InducedBy h.s l g') (hnd : l.Nodup) (hl : ∀ v ∈ l, h.s.Vertex v) (lv : Int) :
    SubOf h l (noHalo g' lv) (fun v => l.getD (v - h.s.baseval).toNat 0) := by
  have hb := hi.baseval
  have hn := hi.vertnbr
  have hnn := hc'.vertnnd
  have key : ∀ v, (unhalo (noHalo g' lv)).Vertex v → ∃ i, ∃ hi : i < l.length, v = h.s.baseval + (i : Nat) ∧ l.getD (v - h.s.baseval).toNat 0 = l[i] := by
    intro v hv
    have h1 : g'.baseval ≤ v := hv.1
    have h2 : v < g'.vertnnd := hv.2
    refine ⟨(v - h.s.baseval).toNat, by omega, by omega, ?_⟩
    rw [List.getD_eq_getElem?_getD, List.getElem?_eq_getElem (by omega)]
    rfl
  refine ⟨hn, ?_, ?_, ?_, ?_⟩
  · intro v hv
    obtain ⟨i, hil, _, he⟩ := key v hv
    rw [he]
    exact List.getElem_mem _
  · intro v w hv hw he
    obtain ⟨i, hil, hiv, hie⟩ := key v hv
    obtain ⟨j, hjl, hjw, hje⟩ := key w hw
    rw [hie, hje, hnd.getElem_inj_iff] at he
    omega
  · intro v w hv hw
    obtain ⟨i, hil, hiv, hie⟩ := key v hv
    obtain ⟨j, hjl, hjw, hje⟩ := key w hw
    rw [hie, hje]
    show Adj g' v w ↔ _
    rw [adj_iff, adj_iff, hiv, hi.nbrs i hil]
    constructor
    · rintro ⟨p, hp, rfl⟩
      rw [List.mem_filterMap] at hp
      obtain ⟨q, hq, he⟩ := hp
      split at he
      · rename_i hql
        injection he with he
        subst he
        dsimp only at hjw
        have hx := List.getElem_idxOf (List.idxOf_lt_length_iff.2 hql)
        refine ⟨q, hq, ?_⟩
        have : List.idxOf q.1 l = j := by omega
        rw [← hx]
        congr 1
      · cases he
    · rintro ⟨p, hp, he⟩
      refine ⟨(h.s.baseval + l.idxOf p.1, p.2), ?_, ?_⟩
      · rw [List.mem_filterMap]
        refine ⟨p, hp, ?_⟩
        rw [if_pos]
        rw [he]; exact List.getElem_mem _
      · dsimp only
        rw [he, hjw, hnd.idxOf_getElem]
  · intro v hv
    obtain ⟨i, hil, hiv, hie⟩ := key v hv
    rw [hie]
    obtain ⟨a, ha, hv'⟩ := hi.vnum
    show onum g' v = _
    unfold onum
    rw [ha]
    dsimp only
    rw [hiv, hv' i hil]
    cases h.s.vnumtax <;> rfl

theorem noHalo_within {g' : Graph} {l : List Int} (hc' : Consistent g') (hi : InducedBy h.s l g') (hlen : (l.length : Int) ≤ h.vnohnbr) (hl : ∀ v ∈ l, (unhalo h).Vertex v) (lv : Int) : Within (unhalo h) (unhalo (noHalo g' lv)) := by
  have hn := hi.vertnbr
  have hb := hi.baseval
  have hnn := hc'.vertnnd
  refine ⟨hb, hnn, ?_, ?_, ?_⟩
  rotate_left 2
  · intro hv
    have hv : h.s.velotax = none := hv
    have := hi.loads.1
    rw [hv] at this
    show g'.velotax = none
    cases hx : g'.velotax with
    | none => rfl
    | some a => rw [hx] at this; cases this
  · show g'.vertnbr ≤ h.vnohnbr
    omega
  · intro hp v hv
    obtain ⟨v1, v2⟩ := hv
    replace v1 : g'.baseval ≤ v := v1
    replace v2 : v < g'.vertnnd := v2
    have hlt : (v - h.s.baseval).toNat < l.length := by omega
    have := hi.velo _ hlt
    rw [show h.s.baseval + ((v - h.s.baseval).toNat : Int) = v by omega] at this
    rw [show (unhalo (noHalo g' lv)).velo v = g'.velo v from rfl, this]
    exact hp _ (hl _ (List.getElem_mem hlt))

end Scotch.HOrder
