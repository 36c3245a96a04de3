import Verif.HOrder.LemmasNdList

/-! # Nested dissection -/

set_option autoImplicit false
set_option linter.unusedSimpArgs false

namespace Scotch.HOrder
open Graph Cblk
variable {h : Hgraph}

theorem ndGraph_valid (env : Env) (hc : HCons h) (tick : Nat) : Separ.Valid (ndGraph env h tick) := by
  have hp := hc.part
  have hnn : (unhalo h).vertnnd = (unhalo h).baseval + (unhalo h).vertnbr := hp.vertnnd
  have h0 : ∀ v, (ndGraph env h tick).part v = 0 := fun v => rfl
  have z : ∀ (k : Int) (f : Int → Int), k ≠ 0 → Bipart.over (ndGraph env h tick).s (ndGraph env h tick).part k f = 0 := by
    intro k f hk
    apply sumI_eq_zero
    intro i i1 i2
    rw [h0, if_neg (fun h => hk h.symm)]
  have z0 : ∀ (f : Int → Int), Bipart.over (ndGraph env h tick).s (ndGraph env h tick).part 0 f = sumI (unhalo h).baseval (unhalo h).vertnnd f := by
    intro f
    apply sumI_congr
    intro i i1 i2
    rw [h0, if_pos rfl]
  refine ⟨⟨fun v _ => Or.inl rfl, ?_, ?_, ?_, ?_, ?_, ?_, ?_, ?_⟩, ?_⟩
  · intro v p _ _
    constructor
    · rintro ⟨_, h⟩; rw [h0] at h; cases h
    · rintro ⟨h, _⟩; rw [h0] at h; cases h
  · rw [z0, sumI_const (by have := hp.vertnbr; omega)]
    show (unhalo h).vertnbr = _
    omega
  · rw [z 1 _ (by decide)]; rfl
  · rw [z 2 _ (by decide)]; rfl
  · rw [z0]; exact hp.velosum
  · rw [z 1 _ (by decide)]; rfl
  · rw [z 2 _ (by decide)]; rfl
  · show (unhalo h).velosum = (unhalo h).velosum * 1 - 0 * 1
    omega
  · refine (Enum.empty _).congr ?_
    intro v
    constructor
    · exact False.elim
    · rintro ⟨_, h⟩; rw [h0] at h; cases h

theorem ndGraph_alloc (env : Env) (hc : HCons h) (ha : HAlloc h) (tick : Nat) : Separ.Alloc (ndGraph env h tick) := by
  have hnn : (unhalo h).vertnnd = (unhalo h).baseval + (unhalo h).vertnbr := hc.part.vertnnd
  exact ⟨ha.part, ⟨Int.le_refl _, Int.le_of_eq hnn⟩, ⟨Int.le_refl _, Int.le_refl _⟩⟩

theorem adj_of_mem {g : Graph} {v : Int} {w : Int} (h : Adj g v w) : ∃ p ∈ g.nbrs v, p.1 = w := (adj_iff v w).1 h

/-- The other ends of the arcs of a part are in the separator or in the halo. -/
theorem part_ends (hc : HCons h) {p : Int → Int} (hs : Separ.Separated (unhalo h) p) (hp : ∀ v, (unhalo h).Vertex v → p v = 0 ∨ p v = 1 ∨ p v = 2) {k x y : Int} (hk : k = 0 ∨ k = 1)
    (hy : (unhalo h).Vertex y) (hyk : p y = k) (ha : Adj h.s y x) : (h.vnohnnd ≤ x ∧ x < h.s.vertnnd) ∨ ((unhalo h).Vertex x ∧ (p x = k ∨ p x = 2)) := by
  have hx := ((consE_iff.2 hc.whole).adj_vertex (vertex_of_unhalo hc hy) ha).1
  by_cases hn : h.vnohnnd ≤ x
  · exact Or.inl ⟨hn, hx.2⟩
  · right
    have hxv : (unhalo h).Vertex x := ⟨hx.1, (by show x < h.vnohnnd; omega)⟩
    refine ⟨hxv, ?_⟩
    obtain ⟨q, hq, rfl⟩ := adj_of_mem ((adj_unhalo hc hy).2 ⟨ha, by omega⟩)
    have h1 := hs y q hy hq
    have h2 := hp _ hxv
    omega

theorem nd_cap (hc : HCons h) {p : Int → Int} (hs : Separ.Separated (unhalo h) p) (hp : ∀ v, (unhalo h).Vertex v → p v = 0 ∨ p v = 1 ∨ p v = 2) {k : Int} (hk : k = 0 ∨ k = 1) {l : List Int}
    (hl : ∀ v, v ∈ l ↔ (unhalo h).Vertex v ∧ p v = k) : Band.total h.s (fun x => x ∉ l ∧ ∃ y ∈ l, Adj h.s y x) (fun _ => 1) ≤ Bipart.over (unhalo h) p 2 (fun _ => 1) + h.s.vertnbr - h.vnohnbr := by
  classical
  have hnn : h.vnohnnd = h.s.baseval + h.vnohnbr := hc.part.vertnnd
  have hn2 := hc.whole.vertnnd
  have hnb := hc.nbr
  unfold Band.total Bipart.over
  show _ ≤ sumI h.s.baseval h.vnohnnd _ + _ - _
  rw [sumI_split (mid := h.vnohnnd) (by omega) (by omega)]
  have h2 := sumI_const (lo := h.vnohnnd) (hi := h.s.vertnnd) (by omega) 1
  refine Int.le_trans (Int.add_le_add (sumI_mono (g := fun v => if p v = 2 then (1 : Int) else 0) ?_) (sumI_mono (g := fun _ => 1) ?_)) (by dsimp only; omega)
  · intro i i1 i2
    dsimp only
    by_cases hq : i ∉ l ∧ ∃ y ∈ l, Adj h.s y i
    · obtain ⟨hi, y, hy, ha⟩ := hq
      rw [if_pos ⟨hi, y, hy, ha⟩]
      have hy' := (hl y).1 hy
      rcases part_ends hc hs hp hk hy'.1 hy'.2 ha with h | ⟨hx, h | h⟩
      · omega
      · exact absurd ((hl i).2 ⟨hx, h⟩) hi
      · rw [if_pos h]
    · rw [if_neg hq]; split <;> omega
  · intro i i1 i2
    dsimp only
    split <;> omega

/-- The list of separators: none if the separator is empty. -/
def seps (l : List Int) : List (List Int) := if l = [] then [] else [l]

theorem seps_flatten (l : List Int) : (seps l).flatten = l := by
  unfold seps
  by_cases h : l = []
  · rw [if_pos h, h]; rfl
  · rw [if_neg h]; simp

theorem ndSep_holds {env : Env} (hal : env.al = 1 ∨ env.al = 2) {cls : Graph → Prop} (hcl : Hered cls) {tot sure : Bool} {ose : Method} (hose : Orders cls tot sure false ose) (hc : HCons h) (ha : HAlloc h) (hb : 0 ≤ h.s.baseval) {ordenum n01 : Int} {o : Ord}
    {l : List Int} (hnd : l.Nodup) (hl : ∀ v ∈ l, h.s.Vertex v) (hcls : cls (unhalo h)) (hlu : ∀ v ∈ l, (unhalo h).Vertex v) (hlen : (l.length : Int) ≤ h.vnohnbr) (h1 : o.peritab.lo ≤ ordenum + n01) (h2 : ordenum + n01 + l.length ≤ o.peritab.hi) :
    Meets tot (ndSep env ose h ordenum o l n01) (fun r => (sure = true → r.1 = 0) ∧ (r.1 = 0 → (r.2.1.peritab.lo = o.peritab.lo ∧ r.2.1.peritab.hi = o.peritab.hi) ∧
      (∀ i, (i < ordenum + n01 ∨ ordenum + n01 + l.length ≤ i) → r.2.1.peritab.get i = o.peritab.get i) ∧ r.2.1.treenbr = o.treenbr + 2 + nodesL r.2.2 ∧ r.2.1.cblknbr = o.cblknbr + 1 + widthL r.2.2 ∧
      ∃ π, Chunks h (fun i => r.2.1.peritab.get (ordenum + i)) π (seps l) r.2.2 n01)) := by
  unfold ndSep
  by_cases h0 : l = []
  · subst h0
    rw [if_neg (by simp), Meets_pure]
    refine ⟨fun _ => rfl, fun _ => ⟨⟨rfl, rfl⟩, fun i _ => rfl, ?_, ?_, fun _ => 0, ?_⟩⟩
    · dsimp only; rw [nodesL]; omega
    · dsimp only; unfold widthL leavesL; simp
    · unfold seps; rw [if_pos rfl]; unfold Chunks; trivial
  · have hpos := List.length_pos_iff.2 h0
    rw [if_pos (by omega), Meets_bind]
    refine Meets.mono (Meets.of_holds (C16_induceList h.s hc.whole ha.whole hb env.al hal _ l hnd hl)) ?_
    rintro g ⟨hi, hcg, hag⟩
    have hed : g.edlotax = none := by
      have := hi.loads.2
      rw [hc.edlo] at this
      cases he : g.edlotax with
      | none => rfl
      | some a => rw [he] at this; cases this
    have hs := noHalo_sub hc hcg hi hnd hl h.levlnum
    have hsz : g.vertnbr = l.length := hi.vertnbr
    rw [Meets_bind]
    have := hose (noHalo g h.levlnum) (ordenum + n01) { o with cblknbr := o.cblknbr + 2, treenbr := o.treenbr + 3, tick := o.tick + 1 } (noHalo_cons hcg hed _) (noHalo_alloc hag _)
      (by show 0 ≤ g.baseval; rw [hi.baseval]; exact hb) (by show 1 ≤ g.vertnbr; omega) h1 (by show _ + g.vertnbr ≤ _; rw [hsz]; exact h2) (fun h => by cases h) (hcl _ _ hcls (noHalo_within hcg hi hlen hlu _))
    rw [show (noHalo g h.levlnum).vnohnbr = l.length from hsz] at this
    refine this.mono ?_
    rintro ⟨r, o', c⟩ ⟨r1, r2⟩
    rw [Meets_pure]
    refine ⟨r1, ?_⟩
    intro hr
    obtain ⟨π, hπ⟩ := r2 hr
    have htr := hπ.tree
    have hcb := hπ.cblk
    refine ⟨hπ.bnd, ?_, ?_, ?_, fun i => l.getD (π (i - n01) - h.s.baseval).toNat 0, ?_⟩
    · intro i hi'
      exact hπ.frame i (by show _ ∨ _ + g.vertnbr ≤ i; rw [hsz]; exact hi')
    · dsimp only at htr ⊢; rw [nodesL, nodesL]; omega
    · dsimp only at hcb ⊢; rw [widthL_cons]; unfold widthL leavesL; rw [List.length_nil]; omega
    · unfold seps
      rw [if_neg h0]
      unfold Chunks Chunks
      exact ⟨hπ.chunk hs, trivial⟩

theorem ndGo_holds {env : Env} (hal : env.al = 1 ∨ env.al = 2) {cls : Graph → Prop} (hcl : Hered cls) {tot sure : Bool} {sep : Nat → Separ.Vgraph → M (Option Separ.Vgraph)} {ole ose : Method} (hsep : SepOk cls tot sure sep)
    (hole : Orders cls tot true false ole) (hose : Orders cls tot sure false ose) : ∀ (fuel : Nat) (h : Hgraph) (ordenum : Int) (o : Ord), HCons h → HAlloc h → 0 ≤ h.s.baseval → 1 ≤ h.vnohnbr → o.peritab.lo ≤ ordenum → ordenum + h.vnohnbr ≤ o.peritab.hi →
    h.vnohnbr.toNat < fuel → cls (unhalo h) → Meets tot (ndGo env sep ole ose fuel h ordenum o (leafBlock h.vnohnbr)) (fun r => (sure = true → r.1 = 0) ∧ (r.1 = 0 → ∃ π, Placed h ordenum o r.2.1 r.2.2 π))
  | 0, _, _, _, _, _, _, _, _, _, hf, _ => by omega
  | fuel + 1, h, ordenum, o, hc, ha, hb, hn, h1, h2, hf, hcls => by
    unfold ndGo
    rw [Meets_bind]
    refine Meets.mono (hsep (o.tick + 1) (ndGraph env h o.tick) ⟨hc.part, ndGraph_alloc env hc ha _, ndGraph_valid env hc _, hb, hn, by unfold ndGraph; dsimp only; omega⟩ hcls) ?_
    rintro r ⟨r1, r2⟩
    cases r with
    | none =>
      rw [Meets_pure]
      exact ⟨fun hs => absurd rfl (r1 hs), fun h => by cases h⟩
    | some b =>
      obtain ⟨hsame, hv⟩ := r2 b rfl
      have hbs : b.s = unhalo h := hsame.s
      have hab : Separ.Alloc b := by
        have := hsame.bounds
        have ha0 := ndGraph_alloc env hc ha o.tick
        refine ⟨by rw [hbs]; exact ha.part, ?_, ?_⟩
        · rw [this.1, this.2.1, hbs]; exact ha0.part
        · rw [this.2.2.1, this.2.2.2, hbs]; exact ha0.fron
      dsimp only
      by_cases hz : b.compsize0 = 0 ∨ b.compsize1 = 0
      · rw [if_pos hz, Meets_bind]
        refine Meets.mono (hole h ordenum { o with tick := o.tick + 2 } hc ha hb hn h1 h2 (fun h => by cases h) hcls) ?_
        rintro ⟨r, o', c⟩ ⟨q1, q2⟩
        rw [Meets_pure]
        obtain ⟨π, hπ⟩ := q2 (q1 rfl)
        exact ⟨fun _ => rfl, fun _ => ⟨π, ⟨hπ.bnd, hπ.frame, hπ.vertex, hπ.inj, hπ.peri, hπ.size, hπ.coherent, hπ.alloc, hπ.tree, hπ.cblk, hπ.separates⟩⟩⟩
      · rw [if_neg hz, Meets_bind]
        refine (Meets.of_holds (ndList_holds (by rw [hbs]; exact consE_iff.2 hc.part) hab hv)).mono ?_
        rintro t ⟨tlo, thi, e0, e1, e2, hsum, f0, f1, f2⟩
        have hfr := hab.fron
        have hsum' : b.fronnbr + b.compsize0 + b.compsize1 = h.vnohnbr := by rw [hsum, hbs]; rfl
        rw [hsum] at hsum'
        rw [cells_eq (by omega) (by omega), ok_bind, cells_eq (by omega) (by omega), ok_bind, cells_eq (by omega) (by omega), ok_bind]
        rw [← hsum'] at hn h2 hf
        obtain ⟨n0, m0, z0⟩ := e0.slice
        obtain ⟨n1, m1, z1⟩ := e1.slice
        obtain ⟨n2, m2, z2⟩ := e2.slice
        generalize slice t b.fronnbr b.compsize0.toNat = l0 at n0 m0 z0 ⊢
        generalize slice t (b.fronnbr + b.compsize0) b.compsize1.toNat = l1 at n1 m1 z1 ⊢
        generalize slice t 0 b.fronnbr.toNat = l2 at n2 m2 z2 ⊢
        have hsep' : Separ.Separated (unhalo h) b.part := by have := hv.sep; rw [hbs] at this; exact this
        have hparts : ∀ v, (unhalo h).Vertex v → b.part v = 0 ∨ b.part v = 1 ∨ b.part v = 2 := by have := hv.parts; rw [hbs] at this; exact this
        rw [hbs] at m0 m1 m2
        have hs2 : b.fronnbr = Bipart.over (unhalo h) b.part 2 (fun _ => 1) := by have := hv.size2; rw [hbs] at this; exact this
        have w0 : ∀ v ∈ l0, h.s.Vertex v := fun v hv => vertex_of_unhalo hc ((m0 v).1 hv).1
        have w1 : ∀ v ∈ l1, h.s.Vertex v := fun v hv => vertex_of_unhalo hc ((m1 v).1 hv).1
        have w2 : ∀ v ∈ l2, h.s.Vertex v := fun v hv => vertex_of_unhalo hc ((m2 v).1 hv).1
        have u0 : ∀ v ∈ l0, (unhalo h).Vertex v := fun v hv => ((m0 v).1 hv).1
        have u1 : ∀ v ∈ l1, (unhalo h).Vertex v := fun v hv => ((m1 v).1 hv).1
        rw [Meets_bind]
        refine (ndSep_holds hal hcl hose hc ha hb (ordenum := ordenum) (n01 := b.compsize0 + b.compsize1) (o := { o with tick := o.tick + 2 }) n2 w2 hcls (fun v hv => ((m2 v).1 hv).1) (by omega) (by dsimp only; omega) (by dsimp only; omega)).mono ?_
        rintro ⟨r2, o1, c2⟩ ⟨s1, s2⟩
        dsimp only at s1 s2 ⊢
        by_cases hr2 : r2 = 0
        · rw [if_neg (fun h => h hr2)]
          obtain ⟨b1, fr1, tr1, cb1, π2, ch2⟩ := s2 hr2
          rw [Meets_bind]
          have cap : ∀ (k : Int) (l : List Int), (k = 0 ∨ k = 1) → (∀ v, v ∈ l ↔ (unhalo h).Vertex v ∧ b.part v = k) → Band.total h.s (fun x => x ∉ l ∧ ∃ y ∈ l, Adj h.s y x) (fun _ => 1) ≤ b.fronnbr + h.s.vertnbr - h.vnohnbr := by
            intro k l hk hl
            rw [hs2]
            exact nd_cap hc hsep' hparts hk hl
          refine (Meets.of_holds (hinduce_holds (env.hmem o1.tick) hc ha hb n0 w0 (by have := hc.nbr; omega) (cap 0 l0 (Or.inl rfl) m0))).mono ?_
          rintro h0 ⟨hc0, ha0, g0, hi0⟩
          have sb0 := hi0.sub hc0
          have sz0 := sb0.size
          rw [Meets_bind]
          have ih0 := ndGo_holds hal hcl hsep hole hose fuel h0 ordenum { o1 with tick := o1.tick + 1 } hc0 ha0 (by rw [hi0.baseval]; exact hb) (by omega) (by dsimp only; omega) (by dsimp only; omega) (by omega)
            (hcl _ _ hcls (hi0.within hc0 (by omega) u0))
          rw [sz0, z0] at ih0
          refine ih0.mono ?_
          rintro ⟨r0, o2, c0⟩ ⟨t1, t2⟩
          dsimp only at t1 t2 ⊢
          by_cases hr0 : r0 = 0
          · rw [if_neg (fun h => h hr0)]
            obtain ⟨π0, P0⟩ := t2 hr0
            rw [Meets_bind]
            refine (Meets.of_holds (hinduce_holds (env.hmem o2.tick) hc ha hb n1 w1 (by have := hc.nbr; omega) (cap 1 l1 (Or.inr rfl) m1))).mono ?_
            rintro h1' ⟨hc1, ha1, g1, hi1⟩
            have sb1 := hi1.sub hc1
            have sz1 := sb1.size
            have B2 := P0.bnd
            dsimp only at B2
            rw [Meets_bind]
            have ih1 := ndGo_holds hal hcl hsep hole hose fuel h1' (ordenum + b.compsize0) { o2 with tick := o2.tick + 1 } hc1 ha1 (by rw [hi1.baseval]; exact hb) (by omega) (by dsimp only; omega) (by dsimp only; omega)
              (by omega) (hcl _ _ hcls (hi1.within hc1 (by omega) u1))
            rw [sz1, z1] at ih1
            refine ih1.mono ?_
            rintro ⟨r3, o3, c1⟩ ⟨u1, u2⟩
            dsimp only at u1 u2 ⊢
            rw [Meets_pure]
            constructor
            · intro hsu
              show (if r3 ≠ 0 then (1 : Int) else 0) = 0
              rw [if_neg (fun h => h (u1 hsu))]
            · intro hre
              have hr3 : r3 = 0 := by
                apply Classical.byContradiction
                intro hne
                have hre' : (if r3 ≠ 0 then (1 : Int) else 0) = 0 := hre
                rw [if_pos hne] at hre'
                cases hre'
              obtain ⟨π1, P1⟩ := u2 hr3
              have B3 := P1.bnd
              dsimp only at B3
              have F2 := P0.frame
              have F3 := P1.frame
              have T2 := P0.tree
              have T3 := P1.tree
              have K2 := P0.cblk
              have K3 := P1.cblk
              dsimp only at F2 F3 T2 T3 K2 K3
              rw [sz0, z0] at F2
              rw [sz1, z1] at F3
              have C0 : Chunk h l0 0 (fun i => o2.peritab.get (ordenum + i)) c0 (fun i => g0 (π0 (i - 0))) := Placed.chunk (a := 0) sb0 (by rw [Int.add_zero]; exact P0)
              have C1 : Chunk h l1 b.compsize0 (fun i => o3.peritab.get (ordenum + i)) c1 (fun i => g1 (π1 (i - b.compsize0))) := Placed.chunk sb1 P1
              have hfl : ([l0, l1].flatten ++ l2).length = h.vnohnbr := by
                simp only [List.flatten_cons, List.flatten_nil, List.append_nil, List.length_append]
                omega
              have hflat : (l0 :: l1 :: seps l2).flatten = l0 ++ (l1 ++ l2) := by
                rw [List.flatten_cons, List.flatten_cons, seps_flatten]
              refine ⟨fun i => if i < b.compsize0 then g0 (π0 (i - 0)) else if i < b.compsize0 + b.compsize1 then g1 (π1 (i - b.compsize0)) else π2 i, ?_⟩
              have hres := placed_of_chunks (h := h) (ordenum := ordenum) (o := o) (o' := o3) (ls := l0 :: l1 :: seps l2) (cs := c0 :: c1 :: c2) (t := ORDERCBLKNEDI)
                (π := fun i => if i < b.compsize0 then g0 (π0 (i - 0)) else if i < b.compsize0 + b.compsize1 then g1 (π1 (i - b.compsize0)) else π2 i) (by
                  unfold Chunks Chunks
                  refine ⟨C0.congr ?_ ?_, C1.congr' ?_ ?_ ?_, ?_⟩
                  · intro i i1 i2; exact F3 _ (by omega)
                  · intro i i1 i2; rw [if_pos (by omega)]
                  · omega
                  · intro i i1 i2; rfl
                  · intro i i1 i2; rw [if_neg (by omega), if_pos (by omega)]
                  · have hst : 0 + (l0.length : Int) + l1.length = b.compsize0 + b.compsize1 := by omega
                    rw [hst]
                    rw [← seps_flatten l2] at z2
                    refine Chunks.congr _ _ _ ch2 ?_ ?_
                    · intro i i1 i2
                      rw [F3 _ (by omega), F2 _ (by omega)]
                    · intro i i1 i2
                      rw [if_neg (by omega), if_neg (by omega)])
                ⟨by omega, by omega⟩ (by
                  intro i hi
                  rw [F3 _ (by omega), F2 _ (by omega), fr1 i (by omega)]) (by omega) (by
                  rw [hflat, List.length_append, List.length_append]; omega) (by
                  rw [hflat, List.nodup_append, List.nodup_append]
                  refine ⟨n0, ⟨n1, n2, ?_⟩, ?_⟩
                  · rintro x hx y hy rfl
                    have := ((m1 x).1 hx).2
                    have := ((m2 x).1 hy).2
                    omega
                  · rintro x hx y hy rfl
                    have := ((m0 x).1 hx).2
                    rcases List.mem_append.1 hy with hy | hy
                    · have := ((m1 x).1 hy).2; omega
                    · have := ((m2 x).1 hy).2; omega) (by
                  intro v hv
                  rw [hflat, List.mem_append, List.mem_append] at hv
                  rcases hv with hv | hv | hv
                  · exact ((m0 v).1 hv).1
                  · exact ((m1 v).1 hv).1
                  · exact ((m2 v).1 hv).1) (Or.inl rfl) (by simp) (by
                  intro _
                  refine ⟨?_, ?_⟩
                  · unfold seps
                    by_cases hl2 : l2 = []
                    · rw [if_pos hl2]; left; rfl
                    · rw [if_neg hl2]; right; rfl
                  · rw [show List.take 2 (l0 :: l1 :: seps l2) = [l0, l1] from rfl, List.pairwise_cons]
                    refine ⟨?_, List.pairwise_singleton _ _⟩
                    intro m hm
                    rw [List.mem_singleton] at hm
                    subst hm
                    have key : ∀ v ∈ l0, ∀ w ∈ m, ¬ Adj h.s v w := by
                      intro v hv w hw had
                      have hv' := (m0 v).1 hv
                      have hw' := (m1 w).1 hw
                      rcases part_ends hc hsep' hparts (Or.inl rfl) hv'.1 hv'.2 had with hh | ⟨_, hh | hh⟩
                      · have h1 : w < h.vnohnnd := hw'.1.2
                        omega
                      · omega
                      · omega
                    intro v hv w hw
                    exact ⟨key v hv w hw, fun had => key v hv w hw ((consE_iff.2 hc.whole).adj_symm (w1 w hw) had)⟩) (fun h => by cases h) (by
                  rw [nodesL, nodesL]; omega) (by
                  rw [widthL_cons, widthL_cons]; omega)
              rw [show (2 + (c2.length : Int)) = ((c0 :: c1 :: c2).length : Int) by rw [List.length_cons, List.length_cons]; omega]
              exact hres
          · rw [if_pos hr0, Meets_pure]
            exact ⟨fun hs => absurd (t1 hs) hr0, fun h => by cases h⟩
        · rw [if_pos hr2, Meets_pure]
          exact ⟨fun hs => absurd (s1 hs) hr2, fun h => absurd h hr2⟩

theorem orderNd_orders {env : Env} (hal : env.al = 1 ∨ env.al = 2) {cls : Graph → Prop} (hcl : Hered cls) {tot sure : Bool} (top : Bool) {sep : Nat → Separ.Vgraph → M (Option Separ.Vgraph)} {ole ose : Method} (hsep : SepOk cls tot sure sep)
    (hole : Orders cls tot true false ole) (hose : Orders cls tot sure false ose) : Orders cls tot sure top (orderNd env sep ole ose) := by
  intro h ordenum o hc ha hb hn h1 h2 _ hcls
  exact ndGo_holds hal hcl hsep hole hose _ h ordenum o hc ha hb hn h1 h2 (by omega) hcls

end Scotch.HOrder
