import Verif.Build.Spec
import Verif.Seg

/-! # Building graphs from arrays: proofs -/

set_option autoImplicit false
set_option linter.unusedSimpArgs false

namespace Scotch.Build
open Graph

section
variable {x : Args}

theorem sumI_shift (b n : Int) (f : Int → Int) : sumI b (n + b) f = sumI 0 n (fun i => f (b + i)) := by
  rw [← sum_seg, ← sum_seg, show b = 0 + b by omega, show n + (0 + b) = n + b by omega, seg_shift]
  congr 1
  exact seg_congr fun i _ _ => by rw [show (0 : Int) + b + i = i + b by omega]

theorem fields_vert (x : Args) (i : Int) : (fields x).vert (x.baseval + i) = x.baseval + x.first i := by
  show x.verttab.get (x.baseval + i - x.baseval) = _
  unfold Args.first
  rw [show x.baseval + i - x.baseval = i by omega]
  omega

theorem fields_vend (x : Args) (i : Int) : (fields x).vend (x.baseval + i) = x.baseval + x.last i := by
  unfold Graph.vend fields Args.last
  cases x.vendtab with
  | none =>
    show x.verttab.get (x.baseval + i + 1 - x.baseval) = _
    rw [show x.baseval + i + 1 - x.baseval = i + 1 by omega]
    dsimp only
    omega
  | some a =>
    show a.get (x.baseval + i - x.baseval) = _
    rw [show x.baseval + i - x.baseval = i by omega]
    dsimp only
    omega

theorem fields_dest (x : Args) (k : Int) : (fields x).dest (x.baseval + k) = x.edgetab.get k := by
  show x.edgetab.get (x.baseval + k - x.baseval) = _
  rw [show x.baseval + k - x.baseval = k by omega]

theorem fields_edlo (x : Args) (k : Int) : (fields x).edlo (x.baseval + k) = match x.edlotab with | none => 1 | some a => a.get k := by
  unfold Graph.edlo fields
  cases x.edlotab with
  | none => rfl
  | some a =>
    show a.get (x.baseval + k - x.baseval) = a.get k
    rw [show x.baseval + k - x.baseval = k by omega]

theorem fields_nbrs (x : Args) (i : Int) : (fields x).nbrs (x.baseval + i) = x.nbrs i := by
  unfold Graph.nbrs Graph.arcs Args.nbrs
  rw [List.map_map, fields_vert, fields_vend, show x.baseval + x.last i - (x.baseval + x.first i) = x.last i - x.first i by omega]
  refine List.map_congr_left fun k _ => ?_
  show ((fields x).dest (x.baseval + x.first i + (k : Int)), (fields x).edlo (x.baseval + x.first i + (k : Int))) = _
  rw [show x.baseval + x.first i + (k : Int) = x.baseval + (x.first i + (k : Int)) by omega, fields_dest, fields_edlo]
  cases x.edlotab <;> rfl

theorem fields_velo (x : Args) (i : Int) : (fields x).velo (x.baseval + i) = x.velo i := by
  unfold Graph.velo fields Args.velo
  cases x.velotab with
  | none => rfl
  | some a =>
    show a.get (x.baseval + i - x.baseval) = a.get i
    rw [show x.baseval + i - x.baseval = i by omega]

theorem fields_vlbl (x : Args) (i : Int) : (fields x).vlbl (x.baseval + i) = x.vlbl i := by
  unfold Graph.vlbl fields Args.vlbl
  cases x.vlbltab with
  | none => rfl
  | some a =>
    show a.get (x.baseval + i - x.baseval) = a.get i
    rw [show x.baseval + i - x.baseval = i by omega]

theorem mem_iff {x : Args} {v : Int} : (fields x).Vertex v ↔ ∃ i, v = x.baseval + i ∧ 0 ≤ i ∧ i < x.vertnbr := by
  constructor
  · intro h
    have h1 : x.baseval ≤ v := h.1
    have h2 : v < x.vertnbr + x.baseval := h.2
    exact ⟨v - x.baseval, by omega, by omega, by omega⟩
  · rintro ⟨i, rfl, h1, h2⟩
    exact ⟨show x.baseval ≤ x.baseval + i by omega, show x.baseval + i < x.vertnbr + x.baseval by omega⟩

theorem fields_alloc (S : x.Sized) : (fields x).Allocated := by
  have ho : ∀ (o : Option (Arr Int)), (∀ a, o = some a → a.lo ≤ 0 ∧ x.vertnbr ≤ a.hi) → ∀ a, o.map (based x.baseval) = some a → a.lo ≤ x.baseval ∧ x.vertnbr + x.baseval ≤ a.hi := by
    intro o h a ha
    cases o with
    | none => cases ha
    | some c =>
      obtain rfl : based x.baseval c = a := Option.some.inj ha
      have := h c rfl
      exact ⟨show c.lo + x.baseval ≤ _ by omega, show _ ≤ c.hi + x.baseval by omega⟩
  refine ⟨?_, ?_, ?_, ho _ S.vend, ho _ S.velo, (fun a h => by cases h), ho _ S.vlbl, ?_, ?_⟩
  · show x.verttab.lo + x.baseval ≤ x.baseval
    have := S.vert.1; omega
  · show x.vertnbr + x.baseval ≤ x.verttab.hi + x.baseval
    have := S.vert.2; omega
  · intro h
    show x.vertnbr + x.baseval + 1 ≤ x.verttab.hi + x.baseval
    have := S.vert' (Option.map_eq_none_iff.1 h); omega
  · intro v hv h
    obtain ⟨i, rfl, i1, i2⟩ := mem_iff.1 hv
    rw [fields_vert, fields_vend] at h ⊢
    have := S.edge i i1 i2 (by omega)
    exact ⟨show x.edgetab.lo + x.baseval ≤ _ by omega, show _ ≤ x.edgetab.hi + x.baseval by omega⟩
  · intro a ha v hv h
    obtain ⟨i, rfl, i1, i2⟩ := mem_iff.1 hv
    obtain ⟨c, hc, rfl⟩ := Option.map_eq_some_iff.1 ha
    rw [fields_vert, fields_vend] at h ⊢
    have := S.edlo c hc i i1 i2 (by omega)
    exact ⟨show c.lo + x.baseval ≤ _ by omega, show _ ≤ c.hi + x.baseval by omega⟩

end

section
variable {g : Graph}

theorem veloSum_holds (A : g.Allocated) (hn : 0 ≤ g.vertnbr) (hnd : g.vertnnd = g.vertnbr + g.baseval) : Holds (veloSum g) (fun s => s = sumI g.baseval g.vertnnd g.velo) := by
  unfold veloSum
  cases h : g.velotax with
  | none =>
    show g.vertnbr = _
    rw [sumI_congr (g := fun _ => 1) (fun i _ _ => by unfold Graph.velo; rw [h]), sumI_const (by omega)]
    omega
  | some a =>
    refine Holds_forUp (fun v s => s = sumI g.baseval v g.velo) (by omega) (sumI_empty (Int.le_refl _) _).symm ?_ (fun _ h => h)
    intro v s h1 h2 hs
    have := A.velo a h
    rw [Holds_bind, Holds_rd]
    refine ⟨⟨by omega, by omega⟩, ?_⟩
    show s + a.get v = _
    rw [sumI_succ h1, hs]
    unfold Graph.velo
    rw [h]

/-- Length of the range of a vertex, if it is not reversed. -/
theorem nbrs_len (g : Graph) (v : Int) : ((g.nbrs v).length : Int) = max 0 (g.vend v - g.vert v) := by
  unfold Graph.nbrs Graph.arcs
  rw [List.length_map, List.length_map, List.length_range]
  omega

/-- The largest degree of the vertices of a range. -/
def IsMax (g : Graph) (v d : Int) : Prop := 0 ≤ d ∧ (∀ u, g.baseval ≤ u → u < v → ((g.nbrs u).length : Int) ≤ d) ∧ (d = 0 ∨ ∃ u, g.baseval ≤ u ∧ u < v ∧ ((g.nbrs u).length : Int) = d)

theorem degrMax_holds (A : g.Allocated) {v d : Int} (h1 : g.baseval ≤ v) (h2 : v < g.vertnnd) (H : IsMax g v d) : Holds (degrMax g v d) (IsMax g (v + 1)) := by
  unfold degrMax
  rw [rdVend_eq A ⟨h1, h2⟩, rdVert_eq A ⟨h1, h2⟩]
  show IsMax g (v + 1) (if g.vend v - g.vert v > d then g.vend v - g.vert v else d)
  obtain ⟨a, b, c⟩ := H
  have hl := nbrs_len g v
  by_cases h : g.vend v - g.vert v > d
  · rw [if_pos h]
    refine ⟨by omega, ?_, .inr ⟨v, h1, by omega, by omega⟩⟩
    intro u u1 u2
    by_cases e : u = v
    · subst e; omega
    · have := b u u1 (by omega); omega
  · rw [if_neg h]
    refine ⟨a, ?_, ?_⟩
    · intro u u1 u2
      by_cases e : u = v
      · subst e; omega
      · exact b u u1 (by omega)
    · rcases c with c | ⟨u, u1, u2, u3⟩
      · exact .inl c
      · exact .inr ⟨u, u1, by omega, u3⟩

theorem sum_snd (g : Graph) (v : Int) : ((g.nbrs v).map Prod.snd).sum = sumI (g.vert v) (g.vend v) g.edlo := by
  rw [← sum_seg]
  unfold Graph.nbrs Graph.arcs seg
  rw [List.map_map, List.map_map]
  rfl

theorem edloSum_holds (A : g.Allocated) (hnd : g.baseval ≤ g.vertnnd) :
    Holds (edloSum g) (fun r => r.1 = (if g.edlotax.isNone then g.edgenbr else sumI g.baseval g.vertnnd (fun v => ((g.nbrs v).map Prod.snd).sum)) ∧ IsMax g g.vertnnd r.2) := by
  have h0 : IsMax g g.baseval 0 := ⟨Int.le_refl _, fun u u1 u2 => by omega, .inl rfl⟩
  unfold edloSum
  cases h : g.edlotax with
  | none =>
    rw [Holds_bind]
    refine Holds_forUp (IsMax g) hnd h0 (fun v d h1 h2 H => degrMax_holds A h1 h2 H) ?_
    intro d hd
    exact ⟨rfl, hd⟩
  | some a =>
    refine Holds_forUp (fun v r => r.1 = sumI g.baseval v (fun v => ((g.nbrs v).map Prod.snd).sum) ∧ IsMax g v r.2) hnd ⟨(sumI_empty (Int.le_refl _) _).symm, h0⟩ ?_ (fun _ h => h)
    intro v s h1 h2 ⟨hs, hd⟩
    have hv : g.Vertex v := ⟨h1, h2⟩
    rw [Holds_bind]
    refine Holds.mono (degrMax_holds A h1 h2 hd) ?_
    intro d hd
    rw [rdVert_eq A hv, ok_bind, rdVend_eq A hv, ok_bind, Holds_bind]
    by_cases hr : g.vend v ≤ g.vert v
    · rw [forUp_empty hr]
      refine ⟨?_, hd⟩
      show s.1 = _
      rw [hs, sumI_succ h1, sum_snd, sumI_empty hr]
      omega
    refine Holds_forUp (fun i t => t = s.1 + sumI (g.vert v) i g.edlo) (by omega) (by rw [sumI_empty (Int.le_refl _)]; omega) ?_ ?_
    · intro i t i1 i2 ht
      have := A.edlo a h v hv (by omega)
      rw [Holds_bind, Holds_rd]
      refine ⟨⟨by omega, by omega⟩, ?_⟩
      show t + a.get i = _
      rw [sumI_succ i1, ht]
      unfold Graph.edlo
      rw [h]
      dsimp only
      omega
    · intro t ht
      refine ⟨?_, hd⟩
      show t = _
      rw [ht, hs, sumI_succ h1, sum_snd]

/-- The adjacency lists and sums of a graph only depend on some of its fields. -/
theorem nbrs_congr {g g' : Graph} {v : Int} (h1 : g'.vert v = g.vert v) (h2 : g'.vend v = g.vend v) (h3 : ∀ e, g'.dest e = g.dest e) (h4 : ∀ e, g'.edlo e = g.edlo e) : g'.nbrs v = g.nbrs v := by
  unfold Graph.nbrs Graph.arcs
  rw [h1, h2]
  exact List.map_congr_left fun e _ => by rw [h3, h4]

end

theorem graphBuild_holds {x : Args} (S : x.Sized) : Holds (graphBuild x) (fun g => g.Allocated ∧ x.Represents g) := by
  have A := fields_alloc S
  have hn := S.vertnbr
  unfold graphBuild
  dsimp only
  rw [Holds_bind]
  refine Holds.mono (veloSum_holds A hn rfl) ?_
  intro w hw
  rw [Holds_bind]
  refine Holds.mono (edloSum_holds A (show x.baseval ≤ x.vertnbr + x.baseval by omega)) ?_
  rintro ⟨e, d⟩ ⟨he, hd⟩
  show Graph.Allocated { fields x with velosum := w, edlosum := e, degrmax := d } ∧ x.Represents { fields x with velosum := w, edlosum := e, degrmax := d }
  refine ⟨⟨A.vlo, A.vhi, A.vhi', A.ends, A.velo, A.vnum, A.vlbl, A.edge, A.edlo⟩, rfl, rfl, Int.add_comm _ _, rfl, fun i _ _ => ⟨fields_vert x i, fields_vend x i⟩, fun i _ _ => fields_nbrs x i, fun i _ _ => fields_velo x i, fun i _ _ => fields_vlbl x i, ?_, ?_, ?_⟩
  · show w = _
    rw [hw]
    show sumI x.baseval (x.vertnbr + x.baseval) (fields x).velo = _
    rw [sumI_shift]
    exact sumI_congr fun i _ _ => fields_velo x i
  · show e = _
    rw [show e = _ from he]
    cases h : x.edlotab with
    | none => rw [if_pos (show (fields x).edlotax.isNone = true by show (x.edlotab.map (based x.baseval)).isNone = true; rw [h]; rfl)]; rfl
    | some a =>
      rw [if_neg (show ¬ (fields x).edlotax.isNone = true by show ¬ (x.edlotab.map (based x.baseval)).isNone = true; rw [h]; exact Bool.noConfusion)]
      show sumI x.baseval (x.vertnbr + x.baseval) _ = _
      rw [sumI_shift]
      exact sumI_congr fun i _ _ => by rw [fields_nbrs]
  · obtain ⟨a, b, c⟩ := (hd : IsMax (fields x) (x.vertnbr + x.baseval) d)
    refine ⟨a, fun i i1 i2 => ?_, ?_⟩
    · have := b (x.baseval + i) (show x.baseval ≤ _ by omega) (show _ < x.vertnbr + x.baseval by omega)
      rwa [fields_nbrs] at this
    · rcases c with c | ⟨u, u1, u2, u3⟩
      · exact .inl c
      · have u1 : x.baseval ≤ u := u1
        have u2 : u < x.vertnbr + x.baseval := u2
        refine .inr ⟨u - x.baseval, by omega, by omega, ?_⟩
        rw [← fields_nbrs, show x.baseval + (u - x.baseval) = u by omega]
        exact u3

theorem Represents.consistent {x : Args} {g : Graph} (hn : 0 ≤ x.vertnbr) (R : x.Represents g) : g.Consistent ↔ x.Legal := by
  have hV : ∀ v, g.Vertex v ↔ x.baseval ≤ v ∧ v < x.baseval + x.vertnbr := by
    intro v
    unfold Graph.Vertex
    rw [R.baseval, R.vertnnd]
  have hI : ∀ {i}, 0 ≤ i → i < x.vertnbr → g.Vertex (x.baseval + i) := fun h1 h2 => (hV _).2 ⟨by omega, by omega⟩
  have hS : ∀ f : Int → Int, sumI g.baseval g.vertnnd f = sumI 0 x.vertnbr (fun i => f (x.baseval + i)) := by
    intro f
    rw [R.baseval, R.vertnnd, Int.add_comm, sumI_shift]
  constructor
  · intro C
    refine ⟨?_, ?_, ?_, ?_, ?_, ?_, ?_⟩
    · intro i i1 i2
      have := C.range _ (hI i1 i2)
      have := R.range i i1 i2
      have := R.baseval
      omega
    · intro i p i1 i2 hp
      rw [← R.nbrs i i1 i2] at hp
      have := C.inside _ p (hI i1 i2) hp
      have := (hV _).1 this.1
      omega
    · intro i p i1 i2 hp
      rw [← R.nbrs i i1 i2] at hp
      have h := C.inside _ p (hI i1 i2) hp
      have h := (hV _).1 h.1
      have := C.symm _ p (hI i1 i2) hp
      rwa [show p.1 = x.baseval + (p.1 - x.baseval) by omega, R.nbrs _ (by omega) (by omega)] at this
    · intro i i1 i2
      rw [← R.nbrs i i1 i2]
      exact C.simple _ (hI i1 i2)
    · rw [← R.edgenbr, C.edgenbr, hS]
      exact sumI_congr fun i i1 i2 => by rw [R.nbrs i i1 i2]
    · intro i i1 i2
      rw [← R.velo i i1 i2]
      exact C.velo _ (hI i1 i2)
    · intro i p i1 i2 hp
      rw [← R.nbrs i i1 i2] at hp
      exact C.edlo _ p (hI i1 i2) hp
  · intro L
    have hE : ∀ {v}, g.Vertex v → ∃ i, v = x.baseval + i ∧ 0 ≤ i ∧ i < x.vertnbr := by
      intro v hv
      have := (hV v).1 hv
      exact ⟨v - x.baseval, by omega, by omega, by omega⟩
    refine ⟨by rw [R.vertnbr]; exact hn, by rw [R.vertnnd, R.baseval, R.vertnbr], ?_, ?_, ?_, ?_, ?_, ?_, ?_, ?_, ?_, R.degrmax.1, ?_⟩
    · intro v hv
      obtain ⟨i, rfl, i1, i2⟩ := hE hv
      have := L.range i i1 i2
      have := R.range i i1 i2
      have := R.baseval
      omega
    · intro v p hv hp
      obtain ⟨i, rfl, i1, i2⟩ := hE hv
      rw [R.nbrs i i1 i2] at hp
      have := L.inside i p i1 i2 hp
      exact ⟨(hV _).2 ⟨this.1, this.2.1⟩, this.2.2⟩
    · intro v p hv hp
      obtain ⟨i, rfl, i1, i2⟩ := hE hv
      rw [R.nbrs i i1 i2] at hp
      have h := L.inside i p i1 i2 hp
      have := L.symm i p i1 i2 hp
      rw [show p.1 = x.baseval + (p.1 - x.baseval) by omega, R.nbrs _ (by omega) (by omega)]
      exact this
    · intro v hv
      obtain ⟨i, rfl, i1, i2⟩ := hE hv
      rw [R.nbrs i i1 i2]
      exact L.simple i i1 i2
    · rw [R.edgenbr, L.edgenbr, hS]
      exact sumI_congr fun i i1 i2 => by rw [R.nbrs i i1 i2]
    · intro v hv
      obtain ⟨i, rfl, i1, i2⟩ := hE hv
      rw [R.velo i i1 i2]
      exact L.velo i i1 i2
    · rw [R.velosum, hS]
      exact sumI_congr fun i i1 i2 => (R.velo i i1 i2).symm
    · intro v p hv hp
      obtain ⟨i, rfl, i1, i2⟩ := hE hv
      rw [R.nbrs i i1 i2] at hp
      exact L.edlo i p i1 i2 hp
    · rw [R.edlosum, hS]
      have hc : sumI 0 x.vertnbr (fun i => ((g.nbrs (x.baseval + i)).map Prod.snd).sum) = sumI 0 x.vertnbr (fun i => ((x.nbrs i).map Prod.snd).sum) :=
        sumI_congr fun i i1 i2 => by rw [R.nbrs i i1 i2]
      rw [hc]
      cases h : x.edlotab with
      | some a => rfl
      | none =>
        rw [if_pos (show Option.isNone none = true from rfl), L.edgenbr]
        refine sumI_congr fun i _ _ => ?_
        unfold Args.nbrs
        rw [h, List.length_map, List.map_map]
        show _ = ((List.range _).map (fun _ => (1 : Int))).sum
        rw [List.map_const', List.sum_replicate, List.length_range]
        simp
    · intro v hv
      obtain ⟨i, rfl, i1, i2⟩ := hE hv
      rw [R.nbrs i i1 i2]
      exact R.degrmax.2.1 i i1 i2

end Scotch.Build
