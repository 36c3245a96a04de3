import Verif.Coarsen.LemmasPhase

set_option autoImplicit false
set_option linter.unusedSimpArgs false

namespace Scotch.Coarsen

/-! ## Fibers -/

/-- The multinode array describes the fibers of the fine-to-coarse array. -/
structure Fib (g : Graph) (coar : Arr Int) (mult : Arr (Int × Int)) (cnbr : Int) : Prop where
  inside : ∀ v, g.Vertex v → g.baseval ≤ coar.get v ∧ coar.get v < g.baseval + cnbr
  pair : ∀ c, g.baseval ≤ c → c < g.baseval + cnbr → g.Vertex (mult.get c).1 ∧ g.Vertex (mult.get c).2
  fiber : ∀ c v, g.baseval ≤ c → c < g.baseval + cnbr → g.Vertex v → (coar.get v = c ↔ v = (mult.get c).1 ∨ v = (mult.get c).2)

variable {numMax : Int} {g : Graph} {coar : Arr Int} {mult : Arr (Int × Int)} {cnbr : Int} {mate : Int → Int}

theorem NumOk.image (P : Pairing g mate) (hle : g.baseval ≤ g.vertnnd) (N : NumOk g mate coar mult) {c : Int} (h1 : g.baseval ≤ c) (h2 : c < g.baseval + pairs g mate) :
    g.Vertex (mult.get c).1 ∧ Lead mate (mult.get c).1 ∧ (mult.get c).2 = mate (mult.get c).1 ∧ rank g mate (mult.get c).1 = c := by
  obtain ⟨x, x1, x2, x3⟩ := rank_surj' (mate := mate) hle h1 h2
  have := N.mult x x1 x2
  rw [x3] at this
  rw [this]
  exact ⟨x1, x2, rfl, x3⟩

theorem coarOf_eq_iff (P : Pairing g mate) {v x : Int} (hv : g.Vertex v) (hx : g.Vertex x) (hl : Lead mate x) : coarOf g mate v = rank g mate x ↔ v = x ∨ v = mate x := by
  obtain ⟨l1, l2, l3, -⟩ := lead_vertex P hv
  constructor
  · intro h
    have : lead mate v = x := rank_inj l1.1 hx.1 l2 hl h
    rwa [this] at l3
  · rintro (h | h)
    · unfold coarOf; rw [h, lead_of_Lead hl]
    · unfold coarOf; rw [h, lead_mate P hx, lead_of_Lead hl]

theorem NumOk.fib (P : Pairing g mate) (hle : g.baseval ≤ g.vertnnd) (N : NumOk g mate coar mult) : Fib g coar mult (pairs g mate) := by
  refine ⟨?_, ?_, ?_⟩
  · intro v hv
    obtain ⟨l1, l2, -, -⟩ := lead_vertex P hv
    rw [N.coar v hv]
    exact rank_lt_end P l1 l2
  · intro c h1 h2
    obtain ⟨a1, a2, a3, a4⟩ := N.image P hle h1 h2
    exact ⟨a1, by rw [a3]; exact P.inside _ a1⟩
  · intro c v h1 h2 hv
    obtain ⟨a1, a2, a3, a4⟩ := N.image P hle h1 h2
    rw [N.coar v hv, a3, ← coarOf_eq_iff P hv a1 a2, a4]

theorem fiber_sum (F : Fib g coar mult cnbr) {c : Int} (h1 : g.baseval ≤ c) (h2 : c < g.baseval + cnbr) (f : Int → Int) :
    sumI g.baseval g.vertnnd (fun v => if coar.get v = c then f v else 0) = f (mult.get c).1 + if (mult.get c).1 ≠ (mult.get c).2 then f (mult.get c).2 else 0 := by
  obtain ⟨p1, p2⟩ := F.pair c h1 h2
  rw [← sumI_single p1.1 p1.2 f]
  by_cases hp : (mult.get c).1 ≠ (mult.get c).2
  · rw [if_pos hp, ← sumI_single p2.1 p2.2 f, ← sumI_add_dist]
    refine sumI_congr fun v v1 v2 => ?_
    have hf := F.fiber c v h1 h2 ⟨v1, v2⟩
    by_cases e1 : v = (mult.get c).1
    · rw [if_pos (hf.2 (Or.inl e1)), if_pos e1, if_neg (fun e2 => hp (e1.symm.trans e2))]; omega
    · by_cases e2 : v = (mult.get c).2
      · rw [if_pos (hf.2 (Or.inr e2)), if_neg e1, if_pos e2]; omega
      · rw [if_neg (fun h => by rcases hf.1 h with h | h; exact e1 h; exact e2 h), if_neg e1, if_neg e2]; omega
  · rw [if_neg hp, Int.add_zero]
    have hp' := Classical.not_not.1 hp
    refine sumI_congr fun v v1 v2 => ?_
    have hf := F.fiber c v h1 h2 ⟨v1, v2⟩
    rw [← hp', or_self] at hf
    by_cases e1 : v = (mult.get c).1
    · rw [if_pos (hf.2 e1), if_pos e1]
    · rw [if_neg (fun h => e1 (hf.1 h)), if_neg e1]

/-- Summing over fibers is summing over vertices. -/
theorem fibers_sum (F : Fib g coar mult cnbr) (f : Int → Int) :
    sumI g.baseval (g.baseval + cnbr) (fun c => f (mult.get c).1 + if (mult.get c).1 ≠ (mult.get c).2 then f (mult.get c).2 else 0) = sumI g.baseval g.vertnnd f := by
  rw [sumI_congr (fun c c1 c2 => (fiber_sum F c1 c2 f).symm), sumI_comm]
  refine sumI_congr fun v v1 v2 => ?_
  obtain ⟨i1, i2⟩ := F.inside v ⟨v1, v2⟩
  refine Eq.trans ?_ (sumI_single i1 i2 (fun _ => f v))
  refine sumI_congr fun c _ _ => ?_
  by_cases e : coar.get v = c
  · rw [if_pos e, if_pos e.symm]
  · rw [if_neg e, if_neg (fun h => e h.symm)]

theorem mem_arcsOf (g : Graph) (p q : Int × Int) : q ∈ arcsOf g p ↔ q ∈ g.nbrs p.1 ∨ q ∈ g.nbrs p.2 := by
  unfold arcsOf
  rw [List.mem_append]
  by_cases h : p.1 ≠ p.2
  · rw [if_pos h]
  · rw [if_neg h]
    rw [Classical.not_not.1 h]
    simp

theorem degC_sum (C : g.Consistent) (F : Fib g coar mult cnbr) : sumI g.baseval (g.baseval + cnbr) (degC g mult) = g.edgenbr := by
  rw [C.edgenbr, ← fibers_sum F]
  refine sumI_congr fun c _ _ => ?_
  unfold degC arcsOf
  split <;> simp

theorem loadTo_arcsOf (F : Fib g coar mult cnbr) {c d : Int} (h1 : g.baseval ≤ c) (h2 : c < g.baseval + cnbr) : loadTo coar.get (arcsOf g (mult.get c)) d = arcLoad g coar.get c d := by
  unfold arcLoad
  rw [fiber_sum F h1 h2 (fun v => (((g.nbrs v).filter (fun p => decide (coar.get p.1 = d))).map Prod.snd).sum)]
  unfold arcsOf
  rw [loadTo_append]
  by_cases h : (mult.get c).1 ≠ (mult.get c).2
  · rw [if_pos h, if_pos h]; rfl
  · rw [if_neg h, if_neg h]; rfl

/-! ## Symmetry -/

/-- Load from a vertex to another. -/
def loadAt (L : List (Int × Int)) (w : Int) : Int := ((L.filter (fun p => decide (p.1 = w))).map Prod.snd).sum

theorem loadAt_of_mem {L : List (Int × Int)} (hn : (L.map Prod.fst).Nodup) {p : Int × Int} (hp : p ∈ L) : loadAt L p.1 = p.2 := by
  induction L with
  | nil => simp at hp
  | cons q t ih =>
    rw [List.map_cons, List.nodup_cons] at hn
    unfold loadAt
    rw [List.mem_cons] at hp
    rcases hp with rfl | hp
    · have : t.filter (fun x => decide (x.1 = p.1)) = [] := by
        rw [List.filter_eq_nil_iff]
        intro x hx
        rw [decide_eq_true_iff]
        intro e
        exact hn.1 (by rw [← e]; exact List.mem_map_of_mem hx)
      rw [List.filter_cons_of_pos (by simp), this]; simp
    · have hne : q.1 ≠ p.1 := fun e => hn.1 (by rw [e]; exact List.mem_map_of_mem hp)
      rw [List.filter_cons_of_neg (by simpa using hne)]
      exact ih hn.2 hp

theorem loadAt_of_not_mem {L : List (Int × Int)} {w : Int} (h : ∀ p ∈ L, p.1 ≠ w) : loadAt L w = 0 := by
  unfold loadAt
  rw [List.filter_eq_nil_iff.2]
  · rfl
  · intro x hx
    rw [decide_eq_true_iff]
    exact h x hx

theorem loadAt_symm (C : g.Consistent) {v w : Int} (hv : g.Vertex v) (hw : g.Vertex w) : loadAt (g.nbrs v) w = loadAt (g.nbrs w) v := by
  by_cases h : ∃ p ∈ g.nbrs v, p.1 = w
  · obtain ⟨p, hp, e⟩ := h
    have h2 := C.symm v p hv hp
    rw [e] at h2
    have a1 := loadAt_of_mem (C.simple v hv) hp
    have a2 := loadAt_of_mem (C.simple w hw) h2
    rw [e] at a1
    rw [a1]; exact a2.symm
  · rw [loadAt_of_not_mem (fun p hp e => h ⟨p, hp, e⟩), loadAt_of_not_mem]
    intro p hp e
    have h2 := C.symm w p hw hp
    rw [e] at h2
    exact h ⟨_, h2, rfl⟩

theorem loadTo_sum (f : Int → Int) (d lo hi : Int) (L : List (Int × Int)) (h : ∀ p ∈ L, lo ≤ p.1 ∧ p.1 < hi) : loadTo f L d = sumI lo hi (fun w => if f w = d then loadAt L w else 0) := by
  induction L with
  | nil =>
    rw [loadTo_nil, sumI_congr (g := fun _ => 0)]
    · by_cases hh : lo ≤ hi
      · rw [sumI_const hh]; omega
      · rw [sumI_empty (by omega)]
    · intro i _ _
      have : loadAt [] i = 0 := rfl
      rw [this]; split <;> rfl
  | cons q t ih =>
    have hq := h q (by simp)
    rw [show q :: t = [q] ++ t from rfl, loadTo_append, loadTo_single, ih (fun p hp => h p (List.mem_cons_of_mem _ hp))]
    rw [← sumI_single hq.1 hq.2 (fun w => if f w = d then q.2 else 0), ← sumI_add_dist]
    refine sumI_congr fun w _ _ => ?_
    have hl : loadAt ([q] ++ t) w = (if w = q.1 then q.2 else 0) + loadAt t w := by
      unfold loadAt
      rw [List.filter_append, List.map_append, List.sum_append]
      by_cases e : q.1 = w
      · rw [if_pos e.symm]; simp [e]
      · rw [if_neg (fun h => e h.symm)]; simp [e]
    rw [hl]
    by_cases e1 : w = q.1
    · by_cases e2 : f w = d
      · rw [if_pos e1, if_pos e1, if_pos e2, if_pos e2, if_pos e2]
      · rw [if_pos e1, if_pos e1, if_neg e2, if_neg e2, if_neg e2]; rfl
    · rw [if_neg e1, if_neg e1]; simp

theorem arcLoad_symm (C : g.Consistent) (f : Int → Int) (c d : Int) : arcLoad g f c d = arcLoad g f d c := by
  have key : ∀ c d, arcLoad g f c d = sumI g.baseval g.vertnnd (fun v => sumI g.baseval g.vertnnd (fun w => if f v = c ∧ f w = d then loadAt (g.nbrs v) w else 0)) := by
    intro c d
    unfold arcLoad
    refine sumI_congr fun v v1 v2 => ?_
    have := loadTo_sum f d g.baseval g.vertnnd (g.nbrs v) (fun p hp => (C.inside v p ⟨v1, v2⟩ hp).1)
    unfold loadTo at this
    by_cases e : f v = c
    · rw [if_pos e, this]
      refine sumI_congr fun w _ _ => ?_
      simp [e]
    · rw [if_neg e]
      symm
      rw [sumI_congr (g := fun _ => 0) (fun w _ _ => if_neg (fun h => e h.1)), sumI_const (by omega)]; omega
  rw [key c d, key d c, sumI_comm]
  refine sumI_congr fun w w1 w2 => sumI_congr fun v v1 v2 => ?_
  rw [loadAt_symm C ⟨v1, v2⟩ ⟨w1, w2⟩]
  by_cases h : f v = c ∧ f w = d
  · rw [if_pos h, if_pos ⟨h.2, h.1⟩]
  · rw [if_neg h, if_neg (fun h' => h ⟨h'.2, h'.1⟩)]

/-! ## Arcs of coarse vertices -/

theorem mem_accC (F : Fib g coar mult cnbr) {c : Int} (h1 : g.baseval ≤ c) (h2 : c < g.baseval + cnbr) (d l : Int) :
    (d, l) ∈ accC g coar mult c ↔ d ≠ c ∧ (∃ v p, g.Vertex v ∧ coar.get v = c ∧ p ∈ g.nbrs v ∧ coar.get p.1 = d) ∧ l = arcLoad g coar.get c d := by
  have A := accOf_spec g coar.get c (mult.get c)
  obtain ⟨p1, p2⟩ := F.pair c h1 h2
  have hex : (∃ q ∈ arcsOf g (mult.get c), coar.get q.1 = d) ↔ ∃ v p, g.Vertex v ∧ coar.get v = c ∧ p ∈ g.nbrs v ∧ coar.get p.1 = d := by
    constructor
    · rintro ⟨q, hq, e⟩
      rcases (mem_arcsOf g _ q).1 hq with h | h
      · exact ⟨_, q, p1, (F.fiber c _ h1 h2 p1).2 (Or.inl rfl), h, e⟩
      · exact ⟨_, q, p2, (F.fiber c _ h1 h2 p2).2 (Or.inr rfl), h, e⟩
    · rintro ⟨v, p, hv, e, hp, e'⟩
      refine ⟨p, (mem_arcsOf g _ p).2 ?_, e'⟩
      rcases (F.fiber c v h1 h2 hv).1 e with h | h
      · rw [← h]; exact Or.inl hp
      · rw [← h]; exact Or.inr hp
  rw [← hex]
  constructor
  · intro h
    have hk := (A.keys d).1 (List.mem_map_of_mem (f := Prod.fst) h)
    refine ⟨hk.1, hk.2, ?_⟩
    exact (A.val _ h).trans (loadTo_arcsOf F h1 h2)
  · rintro ⟨a1, a2, a3⟩
    obtain ⟨p, hp, e⟩ := List.mem_map.1 ((A.keys d).2 ⟨a1, a2⟩)
    have hv := A.val p hp
    rw [loadTo_arcsOf F h1 h2, e, ← a3] at hv
    have : p = (d, l) := by rw [← e, ← hv]
    rw [← this]; exact hp

/-- The assembled graph. -/
structure Out (g : Graph) (coar : Arr Int) (mult : Arr (Int × Int)) (cnbr : Int) (g' : Graph) : Prop where
  baseval : g'.baseval = g.baseval
  vertnbr : g'.vertnbr = cnbr
  vertnnd : g'.vertnnd = g.baseval + cnbr
  range : ∀ c, g.baseval ≤ c → c < g.baseval + cnbr → g.baseval ≤ g'.vert c ∧ g'.vend c = g'.vert c + lenC g coar mult c
  nbrs : ∀ c, g.baseval ≤ c → c < g.baseval + cnbr → g'.nbrs c = accC g coar mult c
  velo : ∀ c, g.baseval ≤ c → c < g.baseval + cnbr → g'.velo c = veloOf g (mult.get c)
  velosum : g'.velosum = g.velosum
  edgenbr : g'.edgenbr = sumI g.baseval (g.baseval + cnbr) (lenC g coar mult)
  edlosum : g'.edlosum = g.edlosum - sumI g.baseval (g.baseval + cnbr) (intC g coar mult)
  degrmax : 0 ≤ g'.degrmax ∧ ∀ c, g.baseval ≤ c → c < g.baseval + cnbr → lenC g coar mult c ≤ g'.degrmax
  tight : g'.degrmax = 0 ∨ ∃ c, g.baseval ≤ c ∧ c < g.baseval + cnbr ∧ lenC g coar mult c = g'.degrmax
  alloc : g'.Allocated
  disjoint : g'.Disjoint

theorem assemble_holds (hc : 0 ≤ cnbr) (hsum : sumI g.baseval (g.baseval + cnbr) (degC g mult) = g.edgenbr) {compact : Bool} {num : Int} {s : CState} {r : Sums}
    (D : Done g coar mult cnbr compact (g.baseval + cnbr) num s r) : Holds (assemble g cnbr compact s r) (Out g coar mult cnbr) := by
  have v1 := D.vlo
  have v2 := D.vhi
  have hL : ∀ c, 0 ≤ lenC g coar mult c := fun c => (lenC_bounds g coar mult c).1
  unfold assemble
  rw [Holds_bind]
  have hlast : Holds (wrLast compact s.vert (g.baseval + cnbr) (r.edgenbr + g.baseval)) (fun vert => vert.lo = s.vert.lo ∧ vert.hi = s.vert.hi ∧ (∀ c, c < g.baseval + cnbr → vert.get c = s.vert.get c) ∧
      (compact = true → vert.get (g.baseval + cnbr) = r.edgenbr + g.baseval)) := by
    unfold wrLast
    cases compact with
    | true =>
      rw [if_pos rfl] at v2
      rw [if_pos rfl, Arr.wr_ok _ _ (by omega) (by omega), Holds_ok]
      exact ⟨rfl, rfl, fun c hc => Arr.set_get_ne _ _ (by omega), fun _ => by rw [Arr.set_get, if_pos rfl]⟩
    | false =>
      rw [if_neg (by simp), Holds_pure]
      exact ⟨rfl, rfl, fun _ _ => rfl, fun h => by cases h⟩
  refine hlast.mono ?_
  rintro vert ⟨l1, l2, l3, l4⟩
  rw [Holds_pure]
  have hE := D.edgenbr
  have hend : ∀ c, g.baseval ≤ c → c < g.baseval + cnbr → (match s.vend with | none => vert.get (c + 1) | some a => a.get c) = s.vert.get c + lenC g coar mult c := by
    intro c c1 c2
    cases hs : s.vend with
    | some a => exact D.ends a hs c c1 c2
    | none =>
      have hcm : compact = true := by
        have := D.vend.1
        rw [hs] at this
        cases compact with
        | true => rfl
        | false => simp at this
      dsimp only
      have h0 := D.cpt hcm c c1 c2
      by_cases e : c + 1 < g.baseval + cnbr
      · rw [l3 _ e, D.cpt hcm (c + 1) (by omega) e, sumI_succ c1, h0]; omega
      · have e' : g.baseval + cnbr = c + 1 := by omega
        have := l4 hcm
        rw [e', sumI_succ c1] at hE
        rw [e'] at this
        rw [this, h0, hE]; omega
  have hvert : ∀ c, g.baseval ≤ c → c < g.baseval + cnbr → vert.get c = s.vert.get c := fun c _ c2 => l3 c c2
  -- bounds of the edge arrays
  have hlim : ∀ c, g.baseval ≤ c → c < g.baseval + cnbr → s.vert.get c + lenC g coar mult c ≤ if compact then g.baseval + r.edgenbr else g.baseval + g.edgenbr := by
    intro c c1 c2
    cases compact with
    | true =>
      rw [if_pos rfl, D.cpt rfl c c1 c2, hE, sumI_split (mid := c + 1) (hi := g.baseval + cnbr) (by omega) (by omega), sumI_succ c1]
      have : 0 ≤ sumI (c + 1) (g.baseval + cnbr) (lenC g coar mult) := sumI_nonneg fun i _ _ => hL i
      omega
    | false =>
      rw [if_neg (by simp)]
      have h0 := (D.low c c1 c2).2
      have h1 := D.start
      have : sumI g.baseval (g.baseval + cnbr) (slotC g coar mult false) = g.edgenbr := hsum
      omega
  refine ⟨rfl, rfl, by dsimp only; omega, ?_, ?_, ?_, rfl, hE, ?_, D.degr, D.tight, ?_, ?_⟩
  · intro c c1 c2
    refine ⟨?_, ?_⟩
    · show g.baseval ≤ vert.get c
      rw [hvert c c1 c2]; exact (D.low c c1 c2).1
    · show (match s.vend with | none => vert.get (c + 1) | some a => a.get c) = vert.get c + _
      rw [hend c c1 c2, hvert c c1 c2]
  · intro c c1 c2
    rw [Graph.nbrs_seg]
    have hv : ∀ x : Graph, x.verttax = vert → x.vert c = s.vert.get c := by
      intro x hx; unfold Graph.vert; rw [hx]; exact hvert c c1 c2
    have hv' : ∀ x : Graph, x.verttax = vert → x.vendtax = s.vend → x.vend c = s.vert.get c + (accC g coar mult c).length := by
      intro x hx hx'; unfold Graph.vend; rw [hx, hx']; exact hend c c1 c2
    rw [hv _ rfl, hv' _ rfl rfl]
    refine (seg_of_list (accC g coar mult c) _ _ ?_)
    intro i hi
    have hco := D.cont c c1 c2 i hi
    unfold Graph.dest Graph.edlo
    dsimp only
    cases compact with
    | true => exact Prod.ext hco.1 hco.2
    | false => exact Prod.ext hco.1 hco.2
  · intro c c1 c2; exact D.velo c c1 c2
  · dsimp only; rw [D.loadj]; omega
  · refine ⟨?_, ?_, ?_, ?_, ?_, ?_, ?_, ?_, ?_⟩
    · dsimp only; omega
    · dsimp only; rw [l2, v2]; split <;> omega
    · intro hn
      dsimp only at hn ⊢
      have hcm : compact = true := by
        have := D.vend.1
        rw [hn] at this
        cases compact with
        | true => rfl
        | false => simp at this
      rw [if_pos hcm] at v2
      omega
    · intro a ha
      have := D.vend.2 a ha
      dsimp only; omega
    · intro a ha
      dsimp only at ha ⊢
      cases ha
      have := D.wlo
      have := D.whi
      omega
    · intro a ha; cases ha
    · intro a ha; cases ha
    · intro c hv _
      have c1 : g.baseval ≤ c := hv.1
      have c2 : c < g.baseval + cnbr := by have : c < cnbr + g.baseval := hv.2; omega
      have h1 : vert.get c = _ := hvert c c1 c2
      have h3 := (D.low c c1 c2).1
      have h4 := hlim c c1 c2
      have h5 := D.elo
      have h6 := D.ehi
      cases compact with
      | true =>
        refine ⟨?_, ?_⟩
        · show s.es.edge.lo ≤ vert.get c; omega
        · show (match s.vend with | none => vert.get (c + 1) | some a => a.get c) ≤ g.baseval + r.edgenbr
          rw [hend c c1 c2]; simpa using h4
      | false =>
        refine ⟨?_, ?_⟩
        · show s.es.edge.lo ≤ vert.get c; omega
        · show (match s.vend with | none => vert.get (c + 1) | some a => a.get c) ≤ s.es.edge.hi
          rw [hend c c1 c2, h6]; simpa using h4
    · intro a ha c hv _
      have c1 : g.baseval ≤ c := hv.1
      have c2 : c < g.baseval + cnbr := by have : c < cnbr + g.baseval := hv.2; omega
      have h1 : vert.get c = _ := hvert c c1 c2
      have h3 := (D.low c c1 c2).1
      have h4 := hlim c c1 c2
      have h5 := D.llo
      have h6 := D.lhi
      dsimp only at ha
      cases ha
      cases compact with
      | true =>
        refine ⟨?_, ?_⟩
        · show s.es.edlo.lo ≤ vert.get c; omega
        · show (match s.vend with | none => vert.get (c + 1) | some a => a.get c) ≤ g.baseval + r.edgenbr
          rw [hend c c1 c2]; simpa using h4
      | false =>
        refine ⟨?_, ?_⟩
        · show s.es.edlo.lo ≤ vert.get c; omega
        · show (match s.vend with | none => vert.get (c + 1) | some a => a.get c) ≤ s.es.edlo.hi
          rw [hend c c1 c2, h6]; simpa using h4
  · intro c d e hc' hd' hec hed
    have c1 : g.baseval ≤ c := hc'.1
    have c2 : c < g.baseval + cnbr := by have : c < cnbr + g.baseval := hc'.2; omega
    have d1 : g.baseval ≤ d := hd'.1
    have d2 : d < g.baseval + cnbr := by have : d < cnbr + g.baseval := hd'.2; omega
    rw [Graph.mem_arcs] at hec hed
    have k1 : vert.get c ≤ e := hec.1
    have k2 : e < (match s.vend with | none => vert.get (c + 1) | some a => a.get c) := hec.2
    have k3 : vert.get d ≤ e := hed.1
    have k4 : e < (match s.vend with | none => vert.get (d + 1) | some a => a.get d) := hed.2
    rw [hend c c1 c2] at k2
    rw [hend d d1 d2] at k4
    rw [hvert c c1 c2] at k1
    rw [hvert d d1 d2] at k3
    rcases Int.lt_trichotomy c d with h | h | h
    · have := D.order c d c1 h d2; omega
    · exact h
    · have := D.order d c d1 h c2; omega

theorem Out.consistent (C : g.Consistent) (F : Fib g coar mult cnbr) (hc : 0 ≤ cnbr) {g' : Graph} (O : Out g coar mult cnbr g') : g'.Consistent := by
  have hv : ∀ c, g'.Vertex c ↔ g.baseval ≤ c ∧ c < g.baseval + cnbr := by
    intro c; unfold Graph.Vertex; rw [O.baseval, O.vertnnd]
  refine ⟨by rw [O.vertnbr]; exact hc, by rw [O.vertnnd, O.baseval, O.vertnbr], ?_, ?_, ?_, ?_, ?_, ?_, ?_, ?_, ?_, ?_⟩
  · intro c h
    have := O.range c ((hv c).1 h).1 ((hv c).1 h).2
    have := (lenC_bounds g coar mult c).1
    rw [O.baseval]; omega
  · rintro c ⟨d, l⟩ h hp
    obtain ⟨c1, c2⟩ := (hv c).1 h
    rw [O.nbrs c c1 c2, mem_accC F c1 c2] at hp
    obtain ⟨a1, ⟨v, p, v1, v2, v3, v4⟩, a3⟩ := hp
    refine ⟨(hv d).2 ?_, a1⟩
    rw [← v4]
    exact F.inside _ (C.inside v p v1 v3).1
  · rintro c ⟨d, l⟩ h hp
    obtain ⟨c1, c2⟩ := (hv c).1 h
    rw [O.nbrs c c1 c2, mem_accC F c1 c2] at hp
    obtain ⟨a1, ⟨v, p, v1, v2, v3, v4⟩, a3⟩ := hp
    have hp1 := (C.inside v p v1 v3).1
    have hd : g.baseval ≤ d ∧ d < g.baseval + cnbr := by rw [← v4]; exact F.inside _ hp1
    dsimp only
    rw [O.nbrs d hd.1 hd.2, mem_accC F hd.1 hd.2]
    exact ⟨fun e => a1 e.symm, ⟨p.1, (v, p.2), hp1, v4, C.symm v p v1 v3, v2⟩, by rw [a3, arcLoad_symm C]⟩
  · intro c h
    obtain ⟨c1, c2⟩ := (hv c).1 h
    rw [O.nbrs c c1 c2]
    exact (accOf_spec g coar.get c (mult.get c)).nodup
  · rw [O.edgenbr, O.baseval, O.vertnnd]
    refine sumI_congr fun c c1 c2 => ?_
    rw [O.nbrs c c1 c2]; rfl
  · intro c h
    obtain ⟨c1, c2⟩ := (hv c).1 h
    rw [O.velo c c1 c2]
    obtain ⟨p1, p2⟩ := F.pair c c1 c2
    have := C.velo _ p1
    have := C.velo _ p2
    unfold veloOf
    split <;> omega
  · rw [O.velosum, C.velosum, O.baseval, O.vertnnd, ← fibers_sum F]
    refine sumI_congr fun c c1 c2 => ?_
    rw [O.velo c c1 c2]; rfl
  · rintro c ⟨d, l⟩ h hp
    obtain ⟨c1, c2⟩ := (hv c).1 h
    rw [O.nbrs c c1 c2, mem_accC F c1 c2] at hp
    dsimp only
    rw [hp.2.2]
    unfold arcLoad
    refine sumI_nonneg fun v v1 v2 => ?_
    split
    · refine List.sum_nonneg ?_
      intro x hx
      obtain ⟨p, hp, rfl⟩ := List.mem_map.1 hx
      exact C.edlo v p ⟨v1, v2⟩ (List.mem_of_mem_filter hp)
    · exact Int.le_refl _
  · rw [O.edlosum, C.edlosum, O.baseval, O.vertnnd, ← fibers_sum F]
    have : sumI g.baseval (g.baseval + cnbr) (fun c => ((g'.nbrs c).map Prod.snd).sum) + sumI g.baseval (g.baseval + cnbr) (intC g coar mult) =
        sumI g.baseval (g.baseval + cnbr) (fun c => ((g.nbrs (mult.get c).1).map Prod.snd).sum + if (mult.get c).1 ≠ (mult.get c).2 then ((g.nbrs (mult.get c).2).map Prod.snd).sum else 0) := by
      rw [← sumI_add_dist]
      refine sumI_congr fun c c1 c2 => ?_
      rw [O.nbrs c c1 c2]
      have := (accOf_spec g coar.get c (mult.get c)).sum
      unfold accC intC
      rw [this]
      unfold arcsOf
      rw [List.map_append, List.sum_append]
      split <;> simp
    omega
  · refine ⟨O.degrmax.1, ?_⟩
    intro c h
    obtain ⟨c1, c2⟩ := (hv c).1 h
    rw [O.nbrs c c1 c2]
    exact O.degrmax.2 c c1 c2

theorem Out.merged (F : Fib g coar mult cnbr) {g' : Graph} (O : Out g coar mult cnbr g') : Merged g coar.get g' := by
  have hv : ∀ c, g'.Vertex c ↔ g.baseval ≤ c ∧ c < g.baseval + cnbr := by
    intro c; unfold Graph.Vertex; rw [O.baseval, O.vertnnd]
  refine ⟨O.baseval, ?_, O.velosum, ?_⟩
  · intro c h
    obtain ⟨c1, c2⟩ := (hv c).1 h
    rw [O.velo c c1 c2, fiber_sum F c1 c2]; rfl
  · intro c d l h
    obtain ⟨c1, c2⟩ := (hv c).1 h
    rw [O.nbrs c c1 c2]
    exact mem_accC F c1 c2 d l

theorem contracted (P : Pairing g mate) (C : g.Consistent) (N : NumOk g mate coar mult) {g' : Graph} (O : Out g coar mult (pairs g mate) g') : Contracted g mate ⟨g', coar, mult⟩ := by
  have hle : g.baseval ≤ g.vertnnd := by have := C.vertnbr; have := C.vertnnd; omega
  have F := N.fib P hle
  have hc : 0 ≤ pairs g mate := sumI_nonneg fun i _ _ => by split <;> omega
  have hv : ∀ c, g'.Vertex c ↔ g.baseval ≤ c ∧ c < g.baseval + pairs g mate := by
    intro c; unfold Graph.Vertex; rw [O.baseval, O.vertnnd]
  refine ⟨O.vertnbr, ?_, ?_, ?_, ?_, O.merged F, O.consistent C F hc, O.alloc, O.disjoint, ⟨N.clo, N.chi, ?_, ?_⟩, ?_⟩
  · intro v h; exact (hv _).2 (F.inside v h)
  · intro v w h h'
    dsimp only
    rw [N.coar v h, N.coar w h']
    obtain ⟨l1, l2, l3, -⟩ := lead_vertex P h
    rw [show coarOf g mate v = rank g mate (lead mate v) from rfl, eq_comm, coarOf_eq_iff P h' l1 l2]
    have hm := P.recip _ l1
    rcases l3 with e | e
    · rw [← e]
    · constructor
      · rintro (h1 | h1)
        · right
          rw [h1]
          conv_rhs => rw [e]
          exact hm.symm
        · left; rw [h1, ← e]
      · rintro (h1 | h1)
        · right; rw [h1, ← e]
        · left
          have h2 : mate v = lead mate v := by
            conv_lhs => rw [e]
            exact hm
          rw [h1, h2]
  · intro v w h h' hl hl' hlt
    dsimp only
    rw [N.coar v h, N.coar w h']
    unfold coarOf
    rw [lead_of_Lead hl, lead_of_Lead hl']
    exact rank_strict h.1 hl hlt
  · intro c h
    obtain ⟨c1, c2⟩ := (hv c).1 h
    obtain ⟨a1, a2, a3, a4⟩ := N.image P hle c1 c2
    refine ⟨a1, ?_, a3, ?_⟩
    · dsimp only; rw [N.coar _ a1]; unfold coarOf; rw [lead_of_Lead a2, a4]
    · dsimp only; rw [a3]; exact a2
  · dsimp only; rw [O.baseval]; exact N.mlo
  · dsimp only; rw [O.vertnnd]; exact N.mhi
  · rcases O.tight with h | ⟨c, c1, c2, c3⟩
    · left; exact h
    · right
      refine ⟨c, (hv c).2 ⟨c1, c2⟩, ?_⟩
      dsimp only
      rw [O.nbrs c c1 c2]; exact c3

theorem NumOk.preC (P : Pairing g mate) (C : g.Consistent) (A : g.Allocated) (hb : 0 ≤ g.baseval) (hov : (g.vertnnd - 1) * hashPrime ≤ numMax) (N : NumOk g mate coar mult) :
    PreC numMax g coar mult (pairs g mate) := by
  have hle : g.baseval ≤ g.vertnnd := by have := C.vertnbr; have := C.vertnnd; omega
  have F := N.fib P hle
  refine ⟨⟨C, A, N.clo, N.chi, ?_⟩, hb, N.mlo, N.mhi, F.pair⟩
  intro v hv
  have h1 := F.inside v hv
  obtain ⟨l1, l2, -, l4⟩ := lead_vertex P hv
  have h2 : coar.get v ≤ v := by
    rw [N.coar v hv]
    have := (rank_le (g := g) (mate := mate) l1.1).2
    unfold coarOf; omega
  have := hv.2
  unfold hashPrime at *
  omega

/-! ## Building -/

theorem buildSeq_holds {m : Arr Int} (P : Pairing g m.get) (C : g.Consistent) (A : g.Allocated) (hb : 0 ≤ g.baseval) (hov : (g.vertnnd - 1) * hashPrime ≤ numMax) (m1 : m.lo ≤ g.baseval)
    (m2 : g.vertnnd ≤ m.hi) (J : Junk) : Holds (buildSeq numMax g m (pairs g m.get) J) (fun r => Contracted g m.get r) := by
  have hle : g.baseval ≤ g.vertnnd := by have := C.vertnbr; have := C.vertnnd; omega
  have hc : 0 ≤ pairs g m.get := sumI_nonneg fun i _ _ => by split <;> omega
  unfold buildSeq
  rw [Holds_bind]
  refine (hashMask_holds g.degrmax).mono ?_
  rintro msk ⟨k1, -, k3⟩
  rw [Holds_bind]
  refine (numberSeq_holds P hle (fun _ _ => rfl) m1 m2 (mult := ⟨g.baseval, g.baseval + pairs g m.get, J.mult⟩) (Int.le_refl _) (Int.le_refl _)).mono ?_
  intro n N
  have F := N.fib P hle
  have hs := degC_sum C F
  rw [Holds_bind]
  refine (edgeSeq_holds (N.preC P C A hb hov) k3 k1 hs hc J).mono ?_
  rintro s ⟨num, D⟩
  rw [Holds_bind]
  refine (assemble_holds hc hs D).mono ?_
  intro cg O
  rw [Holds_pure]
  exact contracted P C N O

theorem buildThr_holds {m : Arr Int} (P : Pairing g m.get) (C : g.Consistent) (A : g.Allocated) (hb : 0 ≤ g.baseval) (hov : (g.vertnnd - 1) * hashPrime ≤ numMax) (m1 : m.lo ≤ g.baseval)
    (m2 : g.vertnnd ≤ m.hi) (J : Junk) (compact : Bool) {n : Nat} {fbas cbas : Nat → Int} (R : Bounds g.baseval g.vertnnd n fbas) (R' : Bounds g.baseval (g.baseval + pairs g m.get) n cbas) :
    Holds (buildThr numMax g m (pairs g m.get) J compact n fbas cbas) (fun r => Contracted g m.get r) := by
  have hle : g.baseval ≤ g.vertnnd := by have := C.vertnbr; have := C.vertnnd; omega
  have hc : 0 ≤ pairs g m.get := sumI_nonneg fun i _ _ => by split <;> omega
  unfold buildThr
  rw [Holds_bind]
  refine (hashMask_holds g.degrmax).mono ?_
  rintro msk ⟨k1, -, k3⟩
  rw [Holds_bind]
  have hmp := multPhase_holds P (fun _ _ => rfl) m1 m2 R (mult0 := ⟨g.baseval, g.baseval + pairs g m.get, J.mult⟩) (Int.le_refl _) (Int.le_refl _) n 0 ⟨g.baseval, g.baseval + pairs g m.get, J.mult⟩ (by omega)
    ⟨rfl, rfl, fun x hx _ h => by rw [R.first] at h; have := hx.1; omega⟩
  rw [R.first, rank_base] at hmp
  refine hmp.mono ?_
  rintro mult ⟨u1, u2, u3⟩
  rw [Holds_bind]
  have u3' : ∀ x, g.Vertex x → Lead m.get x → mult.get (rank g m.get x) = (x, m.get x) := fun x hx hl => u3 x hx hl hx.2
  refine (coarPhase_holds P hle (by rw [u1]) (by rw [u2]) u3' R' n 0 m (by omega) m1 m2 ?_).mono ?_
  · intro x hx h
    rw [R'.first] at h
    have := (rank_le (g := g) (mate := m.get) (lead_vertex P hx).1.1).1
    unfold coarOf at h
    omega
  rintro coar ⟨q1, q2, q3⟩
  have N : NumOk g m.get coar mult := ⟨q1, q2, by rw [u1], by rw [u2], q3, u3'⟩
  have F := N.fib P hle
  have hs := degC_sum C F
  rw [Holds_bind]
  refine (edgePhase_holds (N.preC P C A hb hov) k3 k1 hs R' (compact := compact) n 0 g.baseval (initState g (pairs g m.get) compact J) ⟨0, 0, 0⟩ (by omega) (by
    rw [R'.first]; exact Done.init g coar mult (pairs g m.get) compact J)).mono ?_
  rintro r ⟨num, D⟩
  rw [Holds_bind]
  refine (assemble_holds hc hs D).mono ?_
  intro cg O
  rw [Holds_pure]
  exact contracted P C N O

end Scotch.Coarsen
