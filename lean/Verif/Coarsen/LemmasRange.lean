import Verif.Coarsen.LemmasEdge

set_option autoImplicit false
set_option linter.unusedSimpArgs false

namespace Scotch.Coarsen

/-- What is assumed of the multinode array. -/
structure PreC (numMax : Int) (g : Graph) (coar : Arr Int) (mult : Arr (Int × Int)) (cnbr : Int) : Prop extends Pre numMax g coar where
  base : 0 ≤ g.baseval
  mlo : mult.lo ≤ g.baseval
  mhi : g.baseval + cnbr ≤ mult.hi
  pair : ∀ c, g.baseval ≤ c → c < g.baseval + cnbr → g.Vertex (mult.get c).1 ∧ g.Vertex (mult.get c).2

variable {numMax : Int} {g : Graph} {coar : Arr Int} {mult : Arr (Int × Int)} {cnbr : Int}

/-- Arcs of a coarse vertex. -/
def accC (g : Graph) (coar : Arr Int) (mult : Arr (Int × Int)) (c : Int) : List (Int × Int) := accOf g coar.get c (mult.get c)

def lenC (g : Graph) (coar : Arr Int) (mult : Arr (Int × Int)) (c : Int) : Int := (accC g coar mult c).length

def degC (g : Graph) (mult : Arr (Int × Int)) (c : Int) : Int := (arcsOf g (mult.get c)).length

def intC (g : Graph) (coar : Arr Int) (mult : Arr (Int × Int)) (c : Int) : Int := loadTo coar.get (arcsOf g (mult.get c)) c

theorem lenC_bounds (g : Graph) (coar : Arr Int) (mult : Arr (Int × Int)) (c : Int) : 0 ≤ lenC g coar mult c ∧ lenC g coar mult c ≤ degC g mult c := by
  have := (accOf_spec g coar.get c (mult.get c)).length
  unfold lenC degC accC
  omega

theorem degC_le (P : PreC numMax g coar mult cnbr) {msk c : Int} (hm : 4 * g.degrmax + 3 ≤ msk) (h1 : g.baseval ≤ c) (h2 : c < g.baseval + cnbr) : ((arcsOf g (mult.get c)).length : Int) ≤ msk := by
  obtain ⟨p1, p2⟩ := P.pair c h1 h2
  have d0 := P.cons.degrmax.1
  have d1 := P.cons.degrmax.2 _ p1
  have d2 := P.cons.degrmax.2 _ p2
  unfold arcsOf
  split <;> simp <;> omega

/-- Cells `[bas, nnd)` of an array have been written. -/
structure Filled {α : Type} (bas nnd : Int) (f : Int → α) (a0 a : Arr α) : Prop where
  lo : a.lo = a0.lo
  hi : a.hi = a0.hi
  val : ∀ c, bas ≤ c → c < nnd → a.get c = f c
  frame : ∀ c, ¬ (bas ≤ c ∧ c < nnd) → a.get c = a0.get c

theorem Filled.refl {α : Type} (bas : Int) (f : Int → α) (a : Arr α) : Filled bas bas f a a := ⟨rfl, rfl, fun c h1 h2 => by omega, fun _ _ => rfl⟩

theorem Filled.set {α : Type} {bas c : Int} {f : Int → α} {a0 a : Arr α} (F : Filled bas c f a0 a) (h : bas ≤ c) : Filled bas (c + 1) f a0 (a.set c (f c)) :=
  ⟨F.lo, F.hi, fun x h1 h2 => by
      rw [Arr.set_get]
      by_cases e : x = c
      · rw [if_pos e, e]
      · rw [if_neg e]; exact F.val x h1 (by omega),
    fun x hx => by rw [Arr.set_get_ne _ _ (by omega)]; exact F.frame x (by omega)⟩

/-- Same, when the array exists. -/
def FilledO {α : Type} (bas nnd : Int) (f : Int → α) (a0 a : Option (Arr α)) : Prop :=
  match a0, a with
  | none, none => True
  | some b0, some b => Filled bas nnd f b0 b
  | _, _ => False

/-- The arrays cover the coarse vertices `[bas, nnd)`, and the arc indices `[num, end)`. -/
structure Room (bas nnd : Int) (num last : Int) (s : CState) : Prop where
  vlo : s.vert.lo ≤ bas
  vhi : nnd ≤ s.vert.hi
  wlo : s.velo.lo ≤ bas
  whi : nnd ≤ s.velo.hi
  ends : ∀ a, s.vend = some a → a.lo ≤ bas ∧ nnd ≤ a.hi
  elo : s.es.edge.lo ≤ num
  ehi : last ≤ s.es.edge.hi
  llo : s.es.edlo.lo ≤ num
  lhi : last ≤ s.es.edlo.hi

/-- Result of building coarse vertices `[bas, nnd)` from arc index `num` on. -/
structure Built (g : Graph) (coar : Arr Int) (mult : Arr (Int × Int)) (bas nnd num : Int) (s0 s : CState) : Prop where
  pos : s.es.num = num + sumI bas nnd (lenC g coar mult)
  vert : Filled bas nnd (fun c => num + sumI bas c (lenC g coar mult)) s0.vert s.vert
  ends : FilledO bas nnd (fun c => num + sumI bas c (lenC g coar mult) + lenC g coar mult c) s0.vend s.vend
  velo : Filled bas nnd (fun c => veloOf g (mult.get c)) s0.velo s.velo
  cont : ∀ c, bas ≤ c → c < nnd → ∀ i (h : i < (accC g coar mult c).length), s.es.edge.get (num + sumI bas c (lenC g coar mult) + i) = (accC g coar mult c)[i].1 ∧
    s.es.edlo.get (num + sumI bas c (lenC g coar mult) + i) = (accC g coar mult c)[i].2
  frame : EFrame num s0.es s.es
  adj : s.es.adj = - sumI bas nnd (intC g coar mult)
  degr : 0 ≤ s.degrmax ∧ ∀ c, bas ≤ c → c < nnd → lenC g coar mult c ≤ s.degrmax
  tight : s.degrmax = 0 ∨ ∃ c, bas ≤ c ∧ c < nnd ∧ lenC g coar mult c = s.degrmax

theorem wrVend_holds {bas nnd c : Int} {f : Int → Int} {a0 a : Option (Arr Int)} (F : FilledO bas c f a0 a) (h0 : bas ≤ c) (h1 : c < nnd) (hr : ∀ b, a0 = some b → b.lo ≤ bas ∧ nnd ≤ b.hi) :
    Holds (wrVend a c (f c)) (fun r => FilledO bas (c + 1) f a0 r) := by
  unfold wrVend
  cases a with
  | none =>
    cases a0 with
    | none => dsimp only; rw [Holds_pure]; trivial
    | some b => exact F.elim
  | some b =>
    cases a0 with
    | none => exact F.elim
    | some b0 =>
      have F' : Filled bas c f b0 b := F
      have := hr b0 rfl
      have := F'.lo
      have := F'.hi
      dsimp only
      rw [Holds_bind, Arr.wr_ok _ _ (by omega) (by omega), Holds_ok, Holds_pure]
      exact F'.set h0

theorem edgeRange_holds (P : PreC numMax g coar mult cnbr) {msk bas nnd num : Int} {s0 : CState} (hm : IsMask msk) (hmsk : 4 * g.degrmax + 3 ≤ msk) (h1 : g.baseval ≤ bas) (h2 : bas ≤ nnd)
    (h3 : nnd ≤ g.baseval + cnbr) (R : Room bas nnd num (num + sumI bas nnd (degC g mult)) s0) :
    Holds (edgeRange numMax g coar mult msk bas nnd num s0) (fun s => Built g coar mult bas nnd num s0 s) := by
  unfold edgeRange
  have hmn := hm.nonneg
  refine (Holds_forUp (fun c (s : CState) => Built g coar mult bas c num s0 s ∧ s.es.tab.lo = 0 ∧ s.es.tab.hi = msk + 1 ∧ ∀ x, 0 ≤ x → x < msk + 1 → (s.es.tab.get x).org < c) h2 ?_ ?_
    (fun a h => h)).mono (fun s h => h.1)
  · refine ⟨⟨?_, Filled.refl _ _ _, ?_, Filled.refl _ _ _, fun c h h' => by omega, ⟨rfl, rfl, rfl, rfl, fun _ _ => rfl, fun _ _ => rfl⟩, ?_, ⟨Int.le_refl _, fun c h h' => by omega⟩, Or.inl rfl⟩,
      rfl, rfl, ?_⟩
    · rw [sumI_empty (Int.le_refl _)]; simp
    · dsimp only
      cases s0.vend with
      | none => trivial
      | some a => exact Filled.refl _ _ _
    · rw [sumI_empty (Int.le_refl _)]; rfl
    · intro x _ _
      have := P.base
      show (-1 : Int) < bas
      omega
  · rintro c s c1 c2 ⟨B, t1, t2, t3⟩
    obtain ⟨p1, p2⟩ := P.pair c (by omega) (by omega)
    have hlen := degC_le P hmsk (c := c) (by omega) (by omega)
    have hnn : 0 ≤ sumI bas c (lenC g coar mult) := sumI_nonneg fun i _ _ => (lenC_bounds g coar mult i).1
    have hb1 : sumI bas c (lenC g coar mult) ≤ sumI bas c (degC g mult) := sumI_mono fun i _ _ => (lenC_bounds g coar mult i).2
    have hb2 : sumI bas c (degC g mult) + degC g mult c ≤ sumI bas nnd (degC g mult) := by
      rw [← sumI_succ c1, sumI_split (mid := c + 1) (hi := nnd) (by omega) (by omega)]
      have : 0 ≤ sumI (c + 1) nnd (degC g mult) := sumI_nonneg fun i _ _ => by unfold degC; omega
      omega
    have hdeg : degC g mult c = (arcsOf g (mult.get c)).length := rfl
    obtain ⟨r1, r2, r3, r4, r5, r6, r7, r8, r9⟩ := R
    have f1 := B.frame.elo
    have f2 := B.frame.ehi
    have f3 := B.frame.llo
    have f4 := B.frame.lhi
    have v1 := B.vert.lo
    have v2 := B.vert.hi
    have w1 := B.velo.lo
    have w2 := B.velo.hi
    have m1 := P.mlo
    have m2 := P.mhi
    have hnum := B.pos
    unfold coarBody
    rw [Holds_bind, Arr.wr_ok _ _ (by omega) (by omega), Holds_ok, Holds_bind, Arr.rd_ok _ (by omega) (by omega), Holds_ok, Holds_bind]
    refine (pairBody_holds P.toPre (s0 := s.es) (start := s.es.num) hm (⟨Table.start t1 t2 (by omega) t3 _, by simp, by simp, fun i hi => by simp at hi⟩) (EFrame.refl _ _) p1 p2 hlen (by omega) (by omega)
      (by omega) (by omega)).mono ?_
    rintro ⟨s1, l⟩ ⟨E, F, a1, a2⟩
    dsimp only at E F a1 a2 ⊢
    rw [Holds_bind, Arr.wr_ok _ _ (by omega) (by omega), Holds_ok, Holds_bind]
    have hEn := E.num
    have hE : s1.num = num + sumI bas c (lenC g coar mult) + lenC g coar mult c := by rw [hEn, hnum]; rfl
    rw [hE]
    refine (wrVend_holds (nnd := nnd) B.ends c1 c2 r5).mono ?_
    intro vd hvd
    rw [Holds_pure]
    refine ⟨⟨?_, ?_, hvd, ?_, ?_, B.frame.trans F (by omega), ?_, ?_, ?_⟩, ?_, ?_, ?_⟩
    · rw [sumI_succ c1]; dsimp only; rw [hE]; omega
    · have := B.vert.set c1
      rw [hnum]; exact this
    · have := B.velo.set c1
      rw [a2]; exact this
    · intro x x1 x2 i hi
      dsimp only
      by_cases e : x = c
      · subst e
        rw [← hnum]
        exact E.cont i hi
      · have hx : sumI bas x (lenC g coar mult) + lenC g coar mult x ≤ sumI bas c (lenC g coar mult) := by
          rw [← sumI_succ x1, sumI_split (mid := x + 1) (hi := c) (by omega) (by omega)]
          have : 0 ≤ sumI (x + 1) c (lenC g coar mult) := sumI_nonneg fun i _ _ => (lenC_bounds g coar mult i).1
          omega
        have hl : lenC g coar mult x = (accC g coar mult x).length := rfl
        rw [F.edge _ (by omega), F.edlo _ (by omega)]
        exact B.cont x x1 (by omega) i hi
    · rw [sumI_succ c1]; dsimp only; rw [a1, B.adj]; unfold intC; omega
    · refine ⟨by have := B.degr.1; dsimp only; omega, ?_⟩
      intro x x1 x2
      dsimp only
      by_cases e : x = c
      · subst e; omega
      · have := B.degr.2 x x1 (by omega); omega
    · dsimp only
      by_cases hd : s.degrmax ≤ lenC g coar mult c
      · right; exact ⟨c, c1, by omega, by omega⟩
      · rcases B.tight with h | ⟨x, x1, x2, x3⟩
        · have := (lenC_bounds g coar mult c).1; omega
        · right; exact ⟨x, x1, by omega, by omega⟩
    · exact E.tab.lo
    · exact E.tab.hi
    · intro x x1 x2
      have := E.tab.old x x1 x2
      dsimp only
      omega

/-! ## Number of slots -/

theorem ctFine_holds (P : Pre numMax g coar) {msk c start v : Int} {acc : List (Int × Int)} {s : Arr Cell × Int} (hm : IsMask msk) (T : Table s.1 (msk + 1) c start (acc.map Prod.fst))
    (hs : s.2 = start + acc.length) (hv : g.Vertex v) (hlen : (acc.length : Int) + (g.nbrs v).length ≤ msk) :
    Holds (ctFine numMax g coar msk c v s) (fun s' => Table s'.1 (msk + 1) c start (((g.nbrs v).foldl (stepA coar.get c) acc).map Prod.fst) ∧
      s'.2 = start + ((g.nbrs v).foldl (stepA coar.get c) acc).length) := by
  have hr := (P.cons.range v hv).2
  rw [nbrs_length g hr] at hlen
  unfold ctFine
  rw [Holds_bind, verttax_ok P.alloc hv, Holds_ok, Holds_bind, Match.rdVend_holds P.alloc hv, Holds_ok]
  rw [Graph.nbrs_seg]
  refine (Holds_forUp (fun e (s' : Arr Cell × Int) => (Table s'.1 (msk + 1) c start (((seg (fun e => (g.dest e, g.edlo e)) (g.vert v) e).foldl (stepA coar.get c) acc).map Prod.fst) ∧
    s'.2 = start + ((seg (fun e => (g.dest e, g.edlo e)) (g.vert v) e).foldl (stepA coar.get c) acc).length) ∧
    ((seg (fun e => (g.dest e, g.edlo e)) (g.vert v) e).foldl (stepA coar.get c) acc).length ≤ acc.length + (e - g.vert v).toNat) hr ?_ ?_ (fun a h => h)).mono
    (fun s h => h.1)
  · rw [seg_empty _ (Int.le_refl _)]
    exact ⟨⟨T, hs⟩, by simp⟩
  · rintro e ⟨t, n⟩ h1 h2 ⟨⟨T', hs'⟩, hl⟩
    have hin := P.cons.inside v _ hv (Match.nbr_of_arc h1 h2)
    have ha := P.alloc.edge v hv (by omega)
    have hval := P.val _ hin.1
    have := hin.1.1
    have := hin.1.2
    have := P.clo
    have := P.chi
    rw [seg_succ _ h1, List.foldl_append]
    unfold ctArc
    rw [Holds_bind, Arr.rd_ok _ (by omega) (by omega), Holds_ok]
    rw [show g.edgetax.get e = g.dest e from rfl]
    dsimp only at hval T' hs' ⊢
    rw [Holds_bind, Arr.rd_ok _ (by omega) (by omega), Holds_ok]
    generalize List.foldl (stepA coar.get c) acc (seg (fun e => (g.dest e, g.edlo e)) (g.vert v) e) = A at *
    dsimp only [List.foldl_cons, List.foldl_nil]
    unfold stepA
    dsimp only
    by_cases hc : coar.get (g.dest e) ≠ c
    · rw [if_pos hc, if_pos hc]
      have hs := search_holds (numMax := numMax) hm T' (by rw [List.length_map]; omega) _ hval.1 hval.2
      rw [Holds_bind] at hs ⊢
      refine hs.mono ?_
      intro h hh
      rw [Holds_bind]
      refine hh.mono ?_
      rintro ⟨x, b⟩ ⟨⟨x1, x2⟩, hT, hF⟩
      have t1 := T'.lo
      have t2 := T'.hi
      dsimp only at x1 x2 hT hF ⊢
      have hla := (length_addA A (coar.get (g.dest e)) (g.edlo e)).1
      cases b with
      | true =>
        obtain ⟨hnot, hT⟩ := hT rfl
        have hT := hT n (by rw [List.length_map]; exact hs')
        have hA : addA A (coar.get (g.dest e)) (g.edlo e) = A ++ [(coar.get (g.dest e), g.edlo e)] := if_neg hnot
        rw [if_pos rfl, Holds_bind, Arr.wr_ok _ _ (by omega) (by omega), Holds_ok, Holds_pure]
        refine ⟨⟨?_, ?_⟩, by omega⟩
        · rw [keys_addA, if_neg hnot]; exact hT
        · rw [hA, List.length_append, List.length_singleton]; dsimp only; push_cast; omega
      | false =>
        obtain ⟨i, hi, hki, -⟩ := hF rfl
        have hmem : coar.get (g.dest e) ∈ A.map Prod.fst := by rw [← hki]; exact List.getElem_mem hi
        have hA : addA A (coar.get (g.dest e)) (g.edlo e) = A.map (fun p => if p.1 = coar.get (g.dest e) then (p.1, p.2 + g.edlo e) else p) := if_pos hmem
        rw [if_neg (by simp), Holds_pure]
        refine ⟨⟨?_, ?_⟩, by omega⟩
        · rw [keys_addA, if_pos hmem]; exact T'
        · rw [hA, List.length_map]; exact hs'
    · rw [if_neg hc, if_neg hc, Holds_pure]
      exact ⟨⟨T', hs'⟩, by omega⟩

theorem ctRange_holds (P : PreC numMax g coar mult cnbr) {msk bas nnd : Int} (hm : IsMask msk) (hmsk : 4 * g.degrmax + 3 ≤ msk) (h1 : g.baseval ≤ bas) (h2 : bas ≤ nnd)
    (h3 : nnd ≤ g.baseval + cnbr) : Holds (ctRange numMax g coar mult msk bas nnd) (fun n => n = sumI bas nnd (lenC g coar mult)) := by
  have hmn := hm.nonneg
  unfold ctRange
  rw [Holds_bind]
  refine (Holds_forUp (fun c (s : Arr Cell × Int) => s.2 = sumI bas c (lenC g coar mult) ∧ s.1.lo = 0 ∧ s.1.hi = msk + 1 ∧ ∀ x, 0 ≤ x → x < msk + 1 → (s.1.get x).org < c) h2 ?_ ?_
    (fun a h => h)).mono (fun s h => (Holds_pure _ _).2 h.1)
  · refine ⟨(sumI_empty (Int.le_refl _) _).symm, rfl, rfl, ?_⟩
    intro x _ _
    have := P.base
    show (-1 : Int) < bas
    omega
  · rintro c ⟨t, n⟩ c1 c2 ⟨hn, t1, t2, t3⟩
    obtain ⟨p1, p2⟩ := P.pair c (by omega) (by omega)
    have hlen := degC_le P hmsk (c := c) (by omega) (by omega)
    have m1 := P.mlo
    have m2 := P.mhi
    dsimp only at hn t1 t2 t3
    unfold ctCoar
    rw [Holds_bind, Arr.rd_ok _ (by omega) (by omega), Holds_ok, Holds_bind]
    have hL : (arcsOf g (mult.get c)).length = (g.nbrs (mult.get c).1).length + if (mult.get c).1 ≠ (mult.get c).2 then (g.nbrs (mult.get c).2).length else 0 := by
      unfold arcsOf; split <;> simp
    have hk := (AccOf.foldl coar.get c (g.nbrs (mult.get c).1)).length
    refine (ctFine_holds P.toPre (start := n) (acc := []) hm (Table.start t1 t2 (by omega) t3 _) (by simp) p1 (by rw [List.length_nil]; split at hL <;> omega)).mono ?_
    rintro s1 ⟨T1, n1⟩
    rw [sumI_succ c1]
    have hacc : lenC g coar mult c = ((arcsOf g (mult.get c)).foldl (stepA coar.get c) []).length := rfl
    by_cases hp : (mult.get c).1 ≠ (mult.get c).2
    · rw [if_pos hp]
      rw [if_pos hp] at hL
      refine (ctFine_holds P.toPre hm T1 n1 p2 (by omega)).mono ?_
      rintro s2 ⟨T2, n2⟩
      unfold arcsOf at hacc
      rw [if_pos hp, List.foldl_append] at hacc
      refine ⟨by omega, T2.lo, T2.hi, ?_⟩
      intro x x1 x2
      have := T2.old x x1 x2
      omega
    · rw [if_neg hp, Holds_pure]
      unfold arcsOf at hacc
      rw [if_neg hp, List.append_nil] at hacc
      refine ⟨by omega, T1.lo, T1.hi, ?_⟩
      intro x x1 x2
      have := T1.old x x1 x2
      omega

theorem degRange_holds (P : PreC numMax g coar mult cnbr) {bas nnd : Int} (h1 : g.baseval ≤ bas) (h2 : bas ≤ nnd) (h3 : nnd ≤ g.baseval + cnbr) :
    Holds (degRange g mult bas nnd) (fun n => n = sumI bas nnd (degC g mult)) := by
  unfold degRange
  refine Holds_forUp (fun c (n : Int) => n = sumI bas c (degC g mult)) h2 (sumI_empty (Int.le_refl _) _).symm ?_ (fun a h => h)
  intro c n c1 c2 hn
  obtain ⟨p1, p2⟩ := P.pair c (by omega) (by omega)
  have m1 := P.mlo
  have m2 := P.mhi
  have l1 := nbrs_length g (P.cons.range _ p1).2
  have l2 := nbrs_length g (P.cons.range _ p2).2
  rw [sumI_succ c1]
  unfold degC arcsOf
  rw [Holds_bind, Arr.rd_ok _ (by omega) (by omega), Holds_ok, Holds_bind, Match.rdVend_holds P.alloc p1, Holds_ok, Holds_bind, verttax_ok P.alloc p1, Holds_ok]
  by_cases hp : (mult.get c).1 ≠ (mult.get c).2
  · rw [if_pos hp, if_pos hp, Holds_bind, Match.rdVend_holds P.alloc p2, Holds_ok, Holds_bind, verttax_ok P.alloc p2, Holds_ok, Holds_pure]
    rw [List.length_append]; push_cast
    unfold degC arcsOf at hn
    omega
  · rw [if_neg hp, if_neg hp, Holds_pure, List.append_nil]
    unfold degC arcsOf at hn
    omega

theorem slotsOf_holds (P : PreC numMax g coar mult cnbr) {msk bas nnd : Int} (hm : IsMask msk) (hmsk : 4 * g.degrmax + 3 ≤ msk) (h1 : g.baseval ≤ bas) (h2 : bas ≤ nnd)
    (h3 : nnd ≤ g.baseval + cnbr) (compact : Bool) :
    Holds (slotsOf numMax g coar mult msk compact bas nnd) (fun n => n = sumI bas nnd (if compact then lenC g coar mult else degC g mult)) := by
  unfold slotsOf
  cases compact with
  | true => exact ctRange_holds P hm hmsk h1 h2 h3
  | false => exact degRange_holds P h1 h2 h3

end Scotch.Coarsen
