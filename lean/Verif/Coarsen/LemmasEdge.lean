import Verif.Coarsen.LemmasHash
import Verif.Coarsen.LemmasAcc
import Verif.Coarsen.LemmasNum
import Verif.Graph.LemmasInduce
import Verif.Match.Lemmas

set_option autoImplicit false
set_option linter.unusedSimpArgs false

namespace Scotch.Coarsen

/-! ## Arcs of a coarse vertex -/

/-- The arcs of the current coarse vertex are `acc`. -/
structure ERel (msk c start : Int) (acc : List (Int × Int)) (s : EState) : Prop where
  tab : Table s.tab (msk + 1) c start (acc.map Prod.fst)
  num : s.num = start + acc.length
  nodup : (acc.map Prod.fst).Nodup
  cont : ∀ i (h : i < acc.length), s.edge.get (start + i) = acc[i].1 ∧ s.edlo.get (start + i) = acc[i].2

/-- Arrays keep their bounds, and the cells before `start`. -/
structure EFrame (start : Int) (s0 s : EState) : Prop where
  elo : s.edge.lo = s0.edge.lo
  ehi : s.edge.hi = s0.edge.hi
  llo : s.edlo.lo = s0.edlo.lo
  lhi : s.edlo.hi = s0.edlo.hi
  edge : ∀ x, x < start → s.edge.get x = s0.edge.get x
  edlo : ∀ x, x < start → s.edlo.get x = s0.edlo.get x

theorem EFrame.refl (start : Int) (s : EState) : EFrame start s s := ⟨rfl, rfl, rfl, rfl, fun _ _ => rfl, fun _ _ => rfl⟩

theorem EFrame.trans {a b : Int} {s0 s1 s2 : EState} (h1 : EFrame a s0 s1) (h2 : EFrame b s1 s2) (hab : a ≤ b) : EFrame a s0 s2 :=
  ⟨h2.elo.trans h1.elo, h2.ehi.trans h1.ehi, h2.llo.trans h1.llo, h2.lhi.trans h1.lhi, fun x hx => (h2.edge x (by omega)).trans (h1.edge x hx),
    fun x hx => (h2.edlo x (by omega)).trans (h1.edlo x hx)⟩

theorem addArcM_holds {numMax msk c start k l : Int} {acc : List (Int × Int)} {s s0 : EState} (hm : IsMask msk) (R : ERel msk c start acc s) (F : EFrame start s0 s) (hk : 0 ≤ k)
    (hov : k * hashPrime ≤ numMax) (hlen : (acc.length : Int) < msk + 1) (e1 : s0.edge.lo ≤ start) (e2 : start + acc.length < s0.edge.hi) (e3 : s0.edlo.lo ≤ start)
    (e4 : start + acc.length < s0.edlo.hi) :
    Holds (addArcM numMax msk c k l s) (fun s' => ERel msk c start (addA acc k l) s' ∧ EFrame start s0 s' ∧ s'.adj = s.adj) := by
  unfold addArcM
  have hs := search_holds (numMax := numMax) hm R.tab (by rw [List.length_map]; exact hlen) k hk hov
  rw [Holds_bind] at hs ⊢
  refine hs.mono ?_
  intro h hh
  rw [Holds_bind]
  refine hh.mono ?_
  rintro ⟨x, b⟩ ⟨⟨x1, x2⟩, hT, hF⟩
  dsimp only at x1 x2 hT hF ⊢
  have t1 := R.tab.lo
  have t2 := R.tab.hi
  have f1 := F.elo
  have f2 := F.ehi
  have f3 := F.llo
  have f4 := F.lhi
  have hn := R.num
  cases b with
  | true =>
    obtain ⟨hnot, hT⟩ := hT rfl
    have hT := hT s.num (by rw [List.length_map]; exact hn)
    rw [if_pos rfl, Holds_bind, Arr.wr_ok _ _ (by omega) (by omega), Holds_ok, Holds_bind, Arr.wr_ok _ _ (by omega) (by omega), Holds_ok, Holds_bind, Arr.wr_ok _ _ (by omega) (by omega), Holds_ok,
      Holds_pure]
    have ha : addA acc k l = acc ++ [(k, l)] := if_neg hnot
    rw [ha]
    refine ⟨⟨?_, ?_, ?_, ?_⟩, ⟨f1, f2, f3, f4, ?_, ?_⟩, rfl⟩
    · rw [List.map_append]; exact hT
    · rw [List.length_append, List.length_singleton]; dsimp only; push_cast; omega
    · rw [← ha]; exact keys_addA_nodup R.nodup k l
    · intro i hi
      dsimp only
      by_cases hil : i < acc.length
      · rw [List.getElem_append_left hil, Arr.set_get_ne _ _ (by omega), Arr.set_get_ne _ _ (by omega)]
        exact R.cont i hil
      · have hie : i = acc.length := by rw [List.length_append, List.length_singleton] at hi; omega
        subst hie
        rw [List.getElem_append_right (Nat.le_refl _), ← hn, Arr.set_get, Arr.set_get, if_pos rfl, if_pos rfl]
        simp
    · intro x hx; dsimp only; rw [Arr.set_get_ne _ _ (by omega)]; exact F.edge x hx
    · intro x hx; dsimp only; rw [Arr.set_get_ne _ _ (by omega)]; exact F.edlo x hx
  | false =>
    obtain ⟨i, hi, hki, hcell⟩ := hF rfl
    rw [List.length_map] at hi
    rw [List.getElem_map] at hki
    rw [if_neg (by simp), Holds_bind, Arr.rd_ok _ (by omega) (by omega), Holds_ok, hcell, Holds_bind]
    dsimp only
    rw [Arr.rd_ok _ (by omega) (by omega), Holds_ok, Holds_bind, Arr.wr_ok _ _ (by omega) (by omega), Holds_ok, Holds_pure]
    have hmem : k ∈ acc.map Prod.fst := by rw [← hki]; exact List.mem_map_of_mem (List.getElem_mem hi)
    have ha : addA acc k l = acc.map (fun p => if p.1 = k then (p.1, p.2 + l) else p) := if_pos hmem
    refine ⟨⟨?_, ?_, keys_addA_nodup R.nodup k l, ?_⟩, ⟨f1, f2, f3, f4, F.edge, ?_⟩, rfl⟩
    · rw [keys_addA, if_pos hmem]; exact R.tab
    · rw [ha, List.length_map]; exact hn
    · intro j hj
      have hj' : j < acc.length := by rw [ha, List.length_map] at hj; exact hj
      have hg : (addA acc k l)[j] = if acc[j].1 = k then (acc[j].1, acc[j].2 + l) else acc[j] := by
        simp only [ha, List.getElem_map]
      have hcj := R.cont j hj'
      dsimp only
      rw [hg]
      by_cases e : j = i
      · subst e
        rw [if_pos hki, Arr.set_get, if_pos rfl]
        exact ⟨hcj.1, by rw [hcj.2]⟩
      · have hne : acc[j].1 ≠ k := by
          intro h
          have := (List.Nodup.getElem_inj_iff R.nodup (i := j) (j := i) (hi := by rw [List.length_map]; exact hj') (hj := by rw [List.length_map]; exact hi)).1
            (by rw [List.getElem_map, List.getElem_map, h, hki])
          exact e this
        rw [if_neg hne, Arr.set_get_ne _ _ (by omega)]
        exact hcj
    · intro x hx; dsimp only; rw [Arr.set_get_ne _ _ (by omega)]; exact F.edlo x hx

/-- What is assumed of the fine graph and of the fine-to-coarse array. -/
structure Pre (numMax : Int) (g : Graph) (coar : Arr Int) : Prop where
  cons : g.Consistent
  alloc : g.Allocated
  clo : coar.lo ≤ g.baseval
  chi : g.vertnnd ≤ coar.hi
  val : ∀ v, g.Vertex v → 0 ≤ coar.get v ∧ coar.get v * hashPrime ≤ numMax

variable {numMax : Int} {g : Graph} {coar : Arr Int}

theorem fineEdlo_ok (A : g.Allocated) {v e : Int} (hv : g.Vertex v) (h1 : g.vert v ≤ e) (h2 : e < g.vend v) : fineEdlo g e = .ok (g.edlo e) := by
  unfold fineEdlo Graph.edlo
  cases he : g.edlotax with
  | none => rfl
  | some a =>
    have := A.edlo a he v hv (by omega)
    dsimp only
    rw [Arr.rd_ok _ (by omega) (by omega)]

theorem fineVelo_ok (A : g.Allocated) {v : Int} (hv : g.Vertex v) : fineVelo g v = .ok (g.velo v) := by
  have := hv.1
  have := hv.2
  unfold fineVelo Graph.velo
  cases he : g.velotax with
  | none => rfl
  | some a =>
    have := A.velo a he
    dsimp only
    rw [Arr.rd_ok _ (by omega) (by omega)]

theorem nbrs_length (g : Graph) {v : Int} (h : g.vert v ≤ g.vend v) : ((g.nbrs v).length : Int) = g.vend v - g.vert v := by
  rw [Graph.nbrs_seg, seg_length _ h]

theorem verttax_ok (A : g.Allocated) {v : Int} (hv : g.Vertex v) : g.verttax.rd v = .ok (g.vert v) := by
  have := hv.1
  have := hv.2
  have := A.vlo
  have := A.vhi
  rw [Arr.rd_ok _ (by omega) (by omega)]; rfl

theorem fineBody_holds (P : Pre numMax g coar) {msk c start v : Int} {acc : List (Int × Int)} {s s0 : EState} (hm : IsMask msk) (R : ERel msk c start acc s) (F : EFrame start s0 s)
    (hv : g.Vertex v) (hlen : (acc.length : Int) + (g.nbrs v).length ≤ msk) (e1 : s0.edge.lo ≤ start) (e2 : start + acc.length + (g.nbrs v).length ≤ s0.edge.hi) (e3 : s0.edlo.lo ≤ start)
    (e4 : start + acc.length + (g.nbrs v).length ≤ s0.edlo.hi) :
    Holds (fineBody numMax g coar msk c v s) (fun s' => ERel msk c start ((g.nbrs v).foldl (stepA coar.get c) acc) s' ∧ EFrame start s0 s' ∧ s'.adj = s.adj - loadTo coar.get (g.nbrs v) c) := by
  have hr := (P.cons.range v hv).2
  rw [nbrs_length g hr] at hlen e2 e4
  unfold fineBody
  rw [Holds_bind, verttax_ok P.alloc hv, Holds_ok, Holds_bind, Match.rdVend_holds P.alloc hv, Holds_ok]
  rw [Graph.nbrs_seg]
  refine (Holds_forUp (fun e (s' : EState) => ERel msk c start ((seg (fun e => (g.dest e, g.edlo e)) (g.vert v) e).foldl (stepA coar.get c) acc) s' ∧ EFrame start s0 s' ∧
    s'.adj = s.adj - loadTo coar.get (seg (fun e => (g.dest e, g.edlo e)) (g.vert v) e) c ∧
    ((seg (fun e => (g.dest e, g.edlo e)) (g.vert v) e).foldl (stepA coar.get c) acc).length ≤ acc.length + (e - g.vert v).toNat) hr ?_ ?_ (fun a h => h)).mono
    (fun s h => ⟨h.1, h.2.1, h.2.2.1⟩)
  · rw [seg_empty _ (Int.le_refl _), loadTo_nil]
    exact ⟨R, F, by omega, by simp⟩
  · rintro e s' h1 h2 ⟨R', F', hadj, hl⟩
    have hin := P.cons.inside v _ hv (Match.nbr_of_arc h1 h2)
    have ha := P.alloc.edge v hv (by omega)
    have hval := P.val _ hin.1
    have := hin.1.1
    have := hin.1.2
    have := P.clo
    have := P.chi
    rw [seg_succ _ h1, List.foldl_append, loadTo_append, loadTo_single]
    unfold arcBody
    rw [Holds_bind, Arr.rd_ok _ (by omega) (by omega), Holds_ok]
    rw [show g.edgetax.get e = g.dest e from rfl]
    dsimp only at hval
    rw [Holds_bind, Arr.rd_ok _ (by omega) (by omega), Holds_ok, Holds_bind, fineEdlo_ok P.alloc hv h1 h2, Holds_ok]
    dsimp only [List.foldl_cons, List.foldl_nil]
    unfold stepA
    dsimp only
    by_cases hc : coar.get (g.dest e) ≠ c
    · rw [if_pos hc, if_pos hc, if_neg hc]
      refine (addArcM_holds (l := g.edlo e) hm R' F' hval.1 hval.2 (by omega) e1 (by omega) e3 (by omega)).mono ?_
      rintro s2 ⟨q1, q2, q3⟩
      refine ⟨q1, q2, by omega, ?_⟩
      have := (length_addA (List.foldl (stepA coar.get c) acc (seg (fun e => (g.dest e, g.edlo e)) (g.vert v) e)) (coar.get (g.dest e)) (g.edlo e)).1
      unfold stepA at this hl
      omega
    · rw [if_neg hc, if_neg hc, if_pos (Classical.not_not.1 hc), Holds_pure]
      refine ⟨⟨R'.tab, R'.num, R'.nodup, R'.cont⟩, ⟨F'.elo, F'.ehi, F'.llo, F'.lhi, F'.edge, F'.edlo⟩, ?_, ?_⟩
      · dsimp only; omega
      · unfold stepA at hl; omega

/-- Arcs of the fine vertices of a coarse vertex. -/
def arcsOf (g : Graph) (p : Int × Int) : List (Int × Int) := g.nbrs p.1 ++ if p.1 ≠ p.2 then g.nbrs p.2 else []

/-- Load of the fine vertices of a coarse vertex. -/
def veloOf (g : Graph) (p : Int × Int) : Int := g.velo p.1 + if p.1 ≠ p.2 then g.velo p.2 else 0

/-- Arcs of a coarse vertex. -/
def accOf (g : Graph) (coar : Int → Int) (c : Int) (p : Int × Int) : List (Int × Int) := (arcsOf g p).foldl (stepA coar c) []

theorem accOf_spec (g : Graph) (coar : Int → Int) (c : Int) (p : Int × Int) : AccOf coar c (arcsOf g p) (accOf g coar c p) := AccOf.foldl _ _ _

theorem pairBody_holds (P : Pre numMax g coar) {msk c start : Int} {p : Int × Int} {s s0 : EState} (hm : IsMask msk) (R : ERel msk c start [] s) (F : EFrame start s0 s)
    (h1 : g.Vertex p.1) (h2 : g.Vertex p.2) (hlen : ((arcsOf g p).length : Int) ≤ msk) (e1 : s0.edge.lo ≤ start) (e2 : start + (arcsOf g p).length ≤ s0.edge.hi) (e3 : s0.edlo.lo ≤ start)
    (e4 : start + (arcsOf g p).length ≤ s0.edlo.hi) :
    Holds (pairBody numMax g coar msk c p s) (fun r => ERel msk c start (accOf g coar.get c p) r.1 ∧ EFrame start s0 r.1 ∧ r.1.adj = s.adj - loadTo coar.get (arcsOf g p) c ∧ r.2 = veloOf g p) := by
  have hL : (arcsOf g p).length = (g.nbrs p.1).length + if p.1 ≠ p.2 then (g.nbrs p.2).length else 0 := by
    unfold arcsOf; split <;> simp
  unfold pairBody
  rw [Holds_bind, fineVelo_ok P.alloc h1, Holds_ok, Holds_bind]
  refine (fineBody_holds P hm R F h1 (by rw [List.length_nil]; split at hL <;> omega) e1 (by rw [List.length_nil]; split at hL <;> omega) e3
    (by rw [List.length_nil]; split at hL <;> omega)).mono ?_
  rintro s1 ⟨R1, F1, a1⟩
  have hk := (AccOf.foldl coar.get c (g.nbrs p.1)).length
  unfold accOf arcsOf veloOf
  by_cases hp : p.1 ≠ p.2
  · rw [if_pos hp] at hL
    rw [if_pos hp, if_pos hp, if_pos hp, Holds_bind, fineVelo_ok P.alloc h2, Holds_ok, Holds_bind]
    refine (fineBody_holds P hm R1 F1 h2 (by omega) e1 (by omega) e3 (by omega)).mono ?_
    rintro s2 ⟨R2, F2, a2⟩
    rw [Holds_pure, List.foldl_append, loadTo_append]
    exact ⟨R2, F2, by dsimp only; omega, rfl⟩
  · rw [if_neg hp, if_neg hp, if_neg hp, Holds_pure, List.append_nil]
    exact ⟨R1, F1, a1, by omega⟩

end Scotch.Coarsen
