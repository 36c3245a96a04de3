import Verif.Graph.LemmasIO3

/-! # Graphs: loading a saved graph (assembly) -/

set_option autoImplicit false
set_option linter.unusedSimpArgs false

namespace Scotch
open Text
namespace Graph
variable {g : Graph} {numMax B : Int} {noVert noEdge : Bool}

/-! ### Relabelling -/

theorem relabelIndex_holds (hc : ConsE g) (hf : Fits numMax g B) (hl : g.vlbltax.isSome = true) {vlblmax : Int} {a : Arr Int}
    (hlo : a.lo = B) (hhi : a.hi = B + g.vertnbr)
    (ha : ∀ v, g.Vertex v → a.get (v + (B - g.baseval)) = g.vlbl v) (hm : ∀ v, g.Vertex v → g.vlbl v ≤ vlblmax) :
    Holds (relabelIndex B (B + g.vertnbr) vlblmax a) (OSat (fun t => (t.lo = 0 ∧ t.hi = vlblmax + 1) ∧
      ∀ v, g.Vertex v → t.get (g.vlbl v) = v + (B - g.baseval)) False) := by
  have hnn := hc.vertnnd
  have hn := hc.vertnbr
  have hb := hf.base
  have hinj : ∀ v w, g.Vertex v → g.Vertex w → g.vlbl v = g.vlbl w → v = w := by
    cases he : g.vlbltax with
    | none => rw [he] at hl; cases hl
    | some b =>
      intro v w hv hw
      rw [vlbl_some he, vlbl_some he]
      exact hf.distinct b he v w hv hw
  unfold relabelIndex
  refine Holds_loopO (fun j t => (t.lo = 0 ∧ t.hi = vlblmax + 1) ∧
    (∀ v, g.Vertex v → v + (B - g.baseval) < j → t.get (g.vlbl v) = v + (B - g.baseval)) ∧
    ∀ l, (∀ v, g.Vertex v → v + (B - g.baseval) < j → g.vlbl v ≠ l) → t.get l = -1) False (by omega) ?_ ?_ ?_ (fun h => h)
  · exact ⟨⟨rfl, rfl⟩, fun v hv h => (by have := hv.1; omega), fun l _ => rfl⟩
  · intro j t j1 j2 ⟨⟨t1, t2⟩, t3, t4⟩
    obtain ⟨v, rfl⟩ : ∃ v, j = v + (B - g.baseval) := ⟨j - (B - g.baseval), by omega⟩
    have hv : g.Vertex v := ⟨by omega, by omega⟩
    have hr := vlbl_range hf hv
    have hmv := hm v hv
    have hfree : t.get (g.vlbl v) = -1 := by
      apply t4
      intro w hw hlt he
      have := hinj w v hw hv he
      omega
    rw [Holds_bind, Holds_rd, ha v hv]
    refine ⟨by omega, ?_⟩
    rw [Holds_bind, Holds_rd, hfree]
    refine ⟨by omega, ?_⟩
    rw [if_neg (by omega), Holds_bind, Holds_wr]
    refine ⟨by omega, ⟨t1, t2⟩, ?_, ?_⟩
    · intro w hw hlt
      rw [Arr.set_get]
      split
      · rename_i he
        rw [hinj w v hw hv he]
      · rename_i he
        have : w ≠ v := fun h => he (by rw [h])
        exact t3 w hw (by omega)
    · intro l hne
      rw [Arr.set_get_ne _ _ (fun h => hne v hv (by omega) h.symm)]
      exact t4 l (fun w hw hlt => hne w hw (by omega))
  · intro t ⟨h1, h2, _⟩
    exact ⟨h1, fun v hv => h2 v hv (by have := hv.2; omega)⟩

theorem load2_holds (hc : ConsE g) (hf : Fits numMax g B) (hl : g.vlbltax.isSome = true) {vlblmax : Int} {a verttax edgetax : Arr Int}
    (hlo : a.lo = B) (hhi : a.hi = B + g.vertnbr)
    (ha : ∀ v, g.Vertex v → a.get (v + (B - g.baseval)) = g.vlbl v) (hm : ∀ v, g.Vertex v → g.vlbl v ≤ vlblmax)
    (hm' : 0 ≤ vlblmax + 1 ∧ vlblmax < numMax)
    (hvb : verttax.lo = B ∧ verttax.hi = B + (g.vertnbr + 1))
    (hvt : ∀ v, g.baseval ≤ v → v ≤ g.vertnnd → verttax.get (v + (B - g.baseval)) = g.cpos B v)
    (heb : edgetax.lo = B ∧ edgetax.hi = B + g.edgenbr)
    (het : ∀ v u, g.Done g.vertnnd 0 v u → edgetax.get (g.cpos B v + u) = g.raw B (g.vert v + u)) :
    Holds (load2 numMax B (B + g.vertnbr) verttax edgetax vlblmax a) (OSat (fun t => (t.lo = B ∧ t.hi = B + g.edgenbr) ∧
      ∀ v u, g.Done g.vertnnd 0 v u → t.get (g.cpos B v + u) = g.dest (g.vert v + u) + (B - g.baseval)) False) := by
  have hnn := hc.vertnnd
  have hn := hc.vertnbr
  have hb := hf.base
  have hraw : ∀ v u, g.Done g.vertnnd 0 v u → g.raw B (g.vert v + u) = g.vlbl (g.dest (g.vert v + u)) := by
    intro v u _
    unfold raw endNum adjOf
    rw [if_pos hl]
    omega
  have hin : ∀ v u, g.Done g.vertnnd 0 v u → g.Vertex (g.dest (g.vert v + u)) := by
    rintro v u ⟨d1, _, d3, d4, d5⟩
    unfold deg at d5
    exact (hc.inside v _ ⟨d1, d3⟩ (by omega) (by omega)).1
  unfold load2
  rw [chk_ok (by omega), Holds_bind, Holds_ok, if_neg (by omega), Holds_andThen]
  refine (relabelIndex_holds hc hf hl hlo hhi ha hm).mono ?_
  intro r hr
  cases r with
  | none => exact hr
  | some x =>
    obtain ⟨⟨x1, x2⟩, x3⟩ := hr
    dsimp only
    refine Holds_loopO (fun j t => (t.lo = B ∧ t.hi = B + g.edgenbr) ∧
      (∀ v u, g.Done g.vertnnd 0 v u → v + (B - g.baseval) < j → t.get (g.cpos B v + u) = g.dest (g.vert v + u) + (B - g.baseval)) ∧
      (∀ v u, g.Done g.vertnnd 0 v u → ¬ v + (B - g.baseval) < j → t.get (g.cpos B v + u) = g.vlbl (g.dest (g.vert v + u))))
      False (by omega) ?_ ?_ ?_ (fun h => h)
    · refine ⟨heb, fun v u hd h => (by have := hd.1; omega), ?_⟩
      intro v u hd _
      rw [het v u hd, hraw v u hd]
    · intro j t j1 j2 ⟨t1, t2, t3⟩
      obtain ⟨i, rfl⟩ : ∃ i, j = i + (B - g.baseval) := ⟨j - (B - g.baseval), by omega⟩
      have hi : g.Vertex i := ⟨by omega, by omega⟩
      have hd := deg_nonneg hc hi
      rw [Holds_bind, Holds_rd, hvt i (by omega) (by omega)]
      refine ⟨by omega, ?_⟩
      rw [Holds_bind, Holds_rd, show i + (B - g.baseval) + 1 = (i + 1) + (B - g.baseval) by omega,
        hvt (i + 1) (by omega) (by omega), cpos_succ g B hi.1]
      refine ⟨by omega, ?_⟩
      refine Holds_loopO (fun k t => (t.lo = B ∧ t.hi = B + g.edgenbr) ∧
        (∀ v u, g.Done g.vertnnd 0 v u → (v < i ∨ (v = i ∧ u < k - g.cpos B i)) →
          t.get (g.cpos B v + u) = g.dest (g.vert v + u) + (B - g.baseval)) ∧
        (∀ v u, g.Done g.vertnnd 0 v u → ¬ (v < i ∨ (v = i ∧ u < k - g.cpos B i)) →
          t.get (g.cpos B v + u) = g.vlbl (g.dest (g.vert v + u))))
        False (by omega) ?_ ?_ ?_ (fun h => h)
      · refine ⟨t1, fun v u q h => t2 v u q ?_, fun v u q h => t3 v u q ?_⟩
        · have := q.2.2.2.1
          omega
        · omega
      · intro k b k1 k2 ⟨b1, b2, b3⟩
        obtain ⟨u, rfl⟩ : ∃ u, k = g.cpos B i + u := ⟨k - g.cpos B i, by omega⟩
        have hdone : g.Done g.vertnnd 0 i u := ⟨hi.1, Or.inl hi.2, hi.2, by omega, by omega⟩
        have hget := b3 i u hdone (by omega)
        have hcell := cell_range hc B hi (t := u) (by omega) (by omega)
        have hv := hin i u hdone
        have hr := vlbl_range hf hv
        have hmv := hm _ hv
        have hx := x3 _ hv
        unfold relabelArc
        rw [Holds_bind, Holds_rd, hget]
        refine ⟨by omega, ?_⟩
        rw [if_neg (by omega), Holds_bind, Holds_rd, hx]
        refine ⟨by omega, ?_⟩
        have hvl := hv.1
        rw [if_neg (by omega), Holds_bind, Holds_wr]
        refine ⟨by omega, b1, ?_, ?_⟩
        · intro v w q h
          rw [Arr.set_get]
          split
          · rename_i he
            obtain ⟨rfl, rfl⟩ := cell_inj hc B ⟨q.1, q.2.2.1⟩ hi q.2.2.2.1 q.2.2.2.2 (by omega) (by omega) he
            rfl
          · rename_i he
            apply b2 v w q
            by_cases hvi : v = i
            · subst hvi
              right
              refine ⟨rfl, ?_⟩
              omega
            · left; omega
        · intro v w q h
          rw [Arr.set_get_ne]
          · exact b3 v w q (by omega)
          · intro he
            obtain ⟨rfl, rfl⟩ := cell_inj hc B ⟨q.1, q.2.2.1⟩ hi q.2.2.2.1 q.2.2.2.2 (by omega) (by omega) he
            omega
      · intro b ⟨b1, b2, b3⟩
        refine ⟨b1, fun v u q h => b2 v u q ?_, fun v u q h => b3 v u q ?_⟩
        · have := q.2.2.2.2
          by_cases hvi : v = i
          · subst hvi; right; exact ⟨rfl, by omega⟩
          · left; omega
        · omega
    · intro t ⟨h1, h2, _⟩
      exact ⟨h1, fun v u q => h2 v u q (by have := q.2.2.1; omega)⟩

/-! ### The loaded graph -/

/-- Loaded graph: arrays hold the same graph in compact form. -/
structure LD (g : Graph) (B : Int) (noVert noEdge : Bool) (g' : Graph) : Prop where
  baseval : g'.baseval = B
  vertnbr : g'.vertnbr = g.vertnbr
  vertnnd : g'.vertnnd = B + g.vertnbr
  edgenbr : g'.edgenbr = g.edgenbr
  vendtax : g'.vendtax = none
  vnumtax : g'.vnumtax = none
  vb : g'.verttax.lo = B ∧ g'.verttax.hi = B + (g.vertnbr + 1)
  vt : ∀ v, g.baseval ≤ v → v ≤ g.vertnnd → g'.verttax.get (v + (B - g.baseval)) = g.cpos B v
  ve : OptOk (g.velotax.isSome && !noVert) B g.vertnbr
    (fun a => ∀ v, g.Vertex v → a.get (v + (B - g.baseval)) = g.velo v) g'.velotax
  vs : sumOk g'.velotax g.vertnbr g.velosum g'.velosum
  vl : OptOk g.vlbltax.isSome B g.vertnbr
    (fun a => ∀ v, g.Vertex v → a.get (v + (B - g.baseval)) = g.vlbl v) g'.vlbltax
  dm : 0 ≤ g'.degrmax ∧ (∀ v, g.Vertex v → g.deg v ≤ g'.degrmax) ∧
    (g'.degrmax = 0 ∨ ∃ v, g.Vertex v ∧ g.deg v = g'.degrmax)
  eb : g'.edgetax.lo = B ∧ g'.edgetax.hi = B + g.edgenbr
  et : ∀ v u, g.Vertex v → 0 ≤ u → u < g.deg v → g'.edgetax.get (g.cpos B v + u) = g.dest (g.vert v + u) + (B - g.baseval)
  el : OptOk (g.edlotax.isSome && !noEdge) B g.edgenbr
    (fun a => ∀ v u, g.Vertex v → 0 ≤ u → u < g.deg v → a.get (g.cpos B v + u) = g.edlo (g.vert v + u)) g'.edlotax
  es : sumOk g'.edlotax g.edgenbr g.edlosum g'.edlosum

/-- Header of a saved graph. -/
def hdrOf (g : Graph) : Header :=
  ⟨g.vertnbr, g.edgenbr, g.baseval, g.vlbltax.isSome, g.edlotax.isSome, g.velotax.isSome⟩

theorem done_of {v u : Int} (hv : g.Vertex v) (h1 : 0 ≤ u) (h2 : u < g.deg v) : g.Done g.vertnnd 0 v u :=
  ⟨hv.1, Or.inl hv.2, hv.2, h1, h2⟩

theorem loadEnd_holds (hc : ConsE g) (hf : Fits numMax g B) {st : LoadSt}
    (hv : LV g numMax B noVert g.vertnnd st) (h : LA g B noEdge g.vertnnd 0 st) :
    Holds (loadEnd numMax g.hdrOf B (B + g.vertnbr) { st with verttax := st.verttax.set (B + g.vertnbr) st.edgenum })
      (OSat (fun r => LD g B noVert noEdge r.1 ∧ r.2 = st.s) False) := by
  have hnn := hc.vertnnd
  have hn := hc.vertnbr
  have hb := hf.base
  have hnum := h.num
  have hvb := hv.vb
  have hlm := hv.lm
  have hvt : ∀ v, g.baseval ≤ v → v ≤ g.vertnnd →
      (st.verttax.set (B + g.vertnbr) st.edgenum).get (v + (B - g.baseval)) = g.cpos B v := by
    intro v v1 v2
    rw [Arr.set_get]
    split
    · rw [show v = g.vertnnd by omega, hnum]; omega
    · exact hv.vt v v1 (by omega)
  have hes : g.edSum g.vertnnd 0 = g.edlosum := by
    unfold edSum
    rw [← hc.edlosum, sumI_empty (by omega)]
    omega
  have hfin : ∀ t : Arr Int, (t.lo = B ∧ t.hi = B + g.edgenbr) →
      (∀ v u, g.Done g.vertnnd 0 v u → t.get (g.cpos B v + u) = g.dest (g.vert v + u) + (B - g.baseval)) →
      LD g B noVert noEdge ⟨B, g.vertnbr, B + g.vertnbr, st.verttax.set (B + g.vertnbr) st.edgenum, none, st.velotax,
        st.velosum, none, st.vlbltax, g.edgenbr, t, st.edlotax, st.edlosum, st.degrmax⟩ := by
    intro t t1 t2
    refine ⟨rfl, rfl, rfl, rfl, rfl, rfl, hvb, hvt, hv.ve.mono (fun a q v w => q v w.1 w.2), ?_,
      hv.vl.mono (fun a q v w => q v w.1 w.2), ⟨hv.dm.1, fun v w => hv.dm.2.1 v w.1 w.2, ?_⟩, t1,
      fun v u q1 q2 q3 => t2 v u (done_of q1 q2 q3), h.el.mono (fun a q v u q1 q2 q3 => q v u (done_of q1 q2 q3)), ?_⟩
    · rw [hc.velosum]
      exact hv.vs
    · rcases hv.dm.2.2 with h | ⟨v, v1, v2, v3⟩
      · exact Or.inl h
      · exact Or.inr ⟨v, ⟨v1, v2⟩, v3⟩
    · rw [← hes]
      exact h.es
  have hraw0 : g.vlbltax.isSome = false → ∀ e, g.raw B e = g.dest e + (B - g.baseval) := by
    intro hx e
    unfold raw endNum adjOf
    rw [if_neg (by rw [hx]; simp)]
    cases he : g.vlbltax with
    | none => rw [vlbl_none he]
    | some b => rw [he] at hx; cases hx
  unfold loadEnd
  cases hl : st.vlbltax with
  | none =>
    have := hfin st.edgetax h.eb (by
      intro v u q
      rw [h.et v u q]
      rcases hv.vl.1 hl with hx | hx
      · exact hraw0 hx _
      · have := q.1
        have := q.2.2.1
        omega)
    rw [hl] at this
    exact ⟨this, rfl⟩
  | some a =>
    obtain ⟨a0, a1, a2, a3⟩ := hv.vl.2 a hl
    dsimp only
    rw [Holds_andThen]
    refine (load2_holds (verttax := st.verttax.set (B + g.vertnbr) st.edgenum) hc hf a0 a1 a2
      (fun v w => a3 v w.1 w.2) (fun v w => hv.lm' a0 v w.1 w.2) (by omega) hvb hvt h.eb h.et).mono ?_
    intro r hr
    cases r with
    | none => exact hr
    | some t =>
      have := hfin t hr.1 hr.2
      rw [hl] at this
      exact ⟨this, rfl⟩

theorem loadBody_holds (hc : ConsE g) (hf : Fits numMax g B) (b : Int) (hb : (b = -1 ∧ B = g.baseval) ∨ (b = B))
    (junk : LoadJunk) (rest : Stream) :
    Holds (loadBody numMax b noVert noEdge junk g.hdrOf (10 :: (g.vertsText g.baseval g.vertnnd ++ rest)))
      (OSat (fun r => LD g B noVert noEdge r.1 ∧ r.2 = 10 :: rest) False) := by
  have hnn := hc.vertnnd
  have hn := hc.vertnbr
  have hbase := hf.base
  have hnnd := hf.nnd
  have hvn := hf.vertnbr
  have hen := hf.edgenbr
  have hm0 : 0 ≤ g.edgenbr := by
    have := cpos_mono hc B (v := g.baseval) (w := g.vertnnd) (Int.le_refl _) (by omega) (Int.le_refl _)
    rw [cpos_base, cpos_end hc] at this
    omega
  have hB : (if b = -1 then g.hdrOf.filebase else b) = B := by
    show (if b = -1 then g.baseval else b) = B
    split <;> omega
  have hadj : loadAdj numMax b g.hdrOf = .ok (g.adjOf B) := by
    unfold loadAdj adjOf
    show (if b = -1 then _ else (do
      let adj ← chk numMax (b - g.baseval)
      return if g.vlbltax.isSome then 0 else adj)) = _
    split
    · have : B - g.baseval = 0 := by omega
      rw [this]
      simp
      rfl
    · rw [chk_ok (by omega)]
      rw [show b = B by omega]
      rfl
  unfold loadBody
  dsimp only
  rw [hB, hadj, Holds_bind, Holds_ok]
  rw [show g.hdrOf.vertnbr = g.vertnbr from rfl, show g.hdrOf.edgenbr = g.edgenbr from rfl,
    show g.hdrOf.lbl = g.vlbltax.isSome from rfl, show g.hdrOf.vel = g.velotax.isSome from rfl,
    show g.hdrOf.edl = g.edlotax.isSome from rfl]
  rw [chk_ok (by omega), Holds_bind, Holds_ok, chk_ok (by omega), Holds_bind, Holds_ok, chk_ok (by omega), Holds_bind, Holds_ok,
    chk_ok (by omega), Holds_bind, Holds_ok]
  rw [Holds_andThen, show g.vertnbr + B = B + g.vertnbr by omega, show g.edgenbr + B = B + g.edgenbr by omega]
  refine Holds_loopO (fun j st => LV g numMax B noVert (j - (B - g.baseval)) st ∧ LA g B noEdge (j - (B - g.baseval)) 0 st ∧
    st.s = 10 :: (g.vertsText (j - (B - g.baseval)) g.vertnnd ++ rest)) False (by omega) ?_ ?_ ?_ (fun h => h)
  · rw [show B - (B - g.baseval) = g.baseval by omega]
    refine ⟨⟨⟨rfl, rfl⟩, fun v v1 v2 => by omega, optArr_ok _ _ _ _ _ (fun a v v1 v2 => by omega), ?_,
      optArr_ok _ _ _ _ _ (fun a v v1 v2 => by omega), ⟨by omg, by omg⟩, fun _ v v1 v2 => by omega,
      ⟨Int.le_refl _, fun v v1 v2 => by omega, Or.inl rfl⟩⟩, ⟨⟨rfl, rfl⟩, ?_, ?_, ?_, ?_⟩, rfl⟩
    · refine ⟨fun h => ?_, fun a h => ?_⟩
      · dsimp only at h ⊢
        rw [h]; rfl
      · dsimp only at h ⊢
        rw [h, sumI_empty (Int.le_refl _)]; rfl
    · rintro v u ⟨q1, q2, q3, q4, q5⟩
      omega
    · apply optArr_ok
      rintro a v u ⟨q1, q2, q3, q4, q5⟩
      omega
    · refine ⟨fun h => ?_, fun a h => ?_⟩
      · dsimp only at h ⊢
        rw [h]; rfl
      · dsimp only at h ⊢
        rw [h]
        unfold edSum
        rw [sumI_empty (Int.le_refl _), sumI_empty (by omega)]; rfl
    · rw [cpos_base]; omg
  · intro j st j1 j2 ⟨h1, h2, h3⟩
    have hv : g.Vertex (j - (B - g.baseval)) := ⟨by omega, by omega⟩
    have hs : st.s = 10 :: (g.vertText (j - (B - g.baseval)) ++
        (g.vertsText (j - (B - g.baseval) + 1) g.vertnnd ++ rest)) := by
      rw [h3]
      conv_lhs => unfold vertsText
      rw [seg_cons _ hv.2]
      unfold vertsText
      simp
    have := loadVert_holds (noVert := noVert) (noEdge := noEdge) hc hf g.hdrOf rfl rfl hv h1 h2 hs
    rw [show j - (B - g.baseval) + (B - g.baseval) = j by omega] at this
    refine this.mono ?_
    intro r hr
    cases r with
    | none => exact hr
    | some st' =>
      rw [show j - (B - g.baseval) + 1 = j + 1 - (B - g.baseval) by omega] at hr
      exact hr
  · intro st ⟨h1, h2, h3⟩
    rw [show B + g.vertnbr - (B - g.baseval) = g.vertnnd by omega] at h1 h2 h3
    have hvb := h1.vb
    have hnum := h2.num
    rw [cpos_end hc] at hnum
    dsimp only
    rw [Holds_bind, Holds_wr]
    refine ⟨by omega, ?_⟩
    rw [if_neg (by omega)]
    refine (loadEnd_holds hc hf h1 h2).mono ?_
    intro r hr
    cases r with
    | none => exact hr
    | some p =>
      refine ⟨hr.1, ?_⟩
      rw [hr.2, h3]
      unfold vertsText
      rw [seg_empty _ (Int.le_refl _)]
      rfl

theorem propChars (numMax : Int) (h : 111 ≤ numMax) (a b c : Option (Arr Int)) (rest : Stream) :
    ∃ p, getInt numMax (9 :: propChar a :: propChar b :: propChar c :: 10 :: rest) = .ok (some (p, 10 :: rest)) ∧
      0 ≤ p ∧ p ≤ 111 ∧ decide (p / 100 ≠ 0) = a.isSome ∧ decide (p / 10 % 10 ≠ 0) = b.isSome ∧
      decide (p % 10 ≠ 0) = c.isSome := by
  have key : ∀ x y z : Nat, x ≤ 1 → y ≤ 1 → z ≤ 1 →
      getInt numMax (9 :: (48 + x) :: (48 + y) :: (48 + z) :: 10 :: rest) = .ok (some (100 * x + 10 * y + z, 10 :: rest)) := by
    intro x y z hx hy hz
    unfold getInt
    have h1 := intLoad_spaces (intMax := numMax) (ws := [9]) (s := [48 + x, 48 + y, 48 + z] ++ 10 :: rest) (by
      intro d hd
      rw [List.mem_singleton] at hd
      subst hd
      rfl)
    have hval : value 0 [48 + x, 48 + y, 48 + z] = 100 * x + 10 * y + z := by
      simp only [value]
      omega
    have h2 := intLoad_digits (intMax := numMax) (s := [48 + x, 48 + y, 48 + z]) (rest := 10 :: rest) (by
      intro d hd
      simp only [List.mem_cons, List.not_mem_nil, or_false] at hd
      omega) (by simp) (by simp [NoDigit]) (by rw [hval]; omega)
    rw [hval] at h2
    rw [h2] at h1
    simp only [List.cons_append, List.nil_append] at h1
    rw [h1]
    rfl
  have hp : ∀ o : Option (Arr Int), ∃ x : Nat, x ≤ 1 ∧ propChar o = 48 + x ∧ (x = 1 ↔ o.isSome = true) := by
    intro o
    cases o with
    | none => exact ⟨0, by omega, rfl, by simp⟩
    | some a => exact ⟨1, by omega, rfl, by simp⟩
  obtain ⟨x, x1, x2, x3⟩ := hp a
  obtain ⟨y, y1, y2, y3⟩ := hp b
  obtain ⟨z, z1, z2, z3⟩ := hp c
  refine ⟨100 * x + 10 * y + z, by rw [x2, y2, z2]; exact key x y z x1 y1 z1, by omega, by omega, ?_, ?_, ?_⟩
  · rw [Bool.eq_iff_iff, decide_eq_true_iff, ← x3]; omega
  · rw [Bool.eq_iff_iff, decide_eq_true_iff, ← y3]; omega
  · rw [Bool.eq_iff_iff, decide_eq_true_iff, ← z3]; omega

theorem loadHeader_saved (hc : ConsE g) (hf : Fits numMax g B) (heven : g.edgenbr % 2 = 0) (rest : Stream) :
    loadHeader numMax (g.saveHeader ++ rest) = .ok (some (g.hdrOf, 10 :: rest)) := by
  have hnn := hc.vertnnd
  have hn := hc.vertnbr
  have hbase := hf.base
  have hnnd := hf.nnd
  have hvn := hf.vertnbr
  have hen := hf.edgenbr
  have hpr := hf.prop
  have hm0 : 0 ≤ g.edgenbr := by
    have := cpos_mono hc B (v := g.baseval) (w := g.vertnnd) (Int.le_refl _) (by omega) (Int.le_refl _)
    rw [cpos_base, cpos_end hc] at this
    omega
  obtain ⟨p, p0, p1, p2, p3, p4, p5⟩ := propChars numMax hpr g.vlbltax g.edlotax g.velotax rest
  have hs : g.saveHeader ++ rest = printInt 0 ++ (10 :: (printInt g.vertnbr ++ (9 :: (printInt g.edgenbr ++ (10 ::
      (printInt g.baseval ++ (9 :: propChar g.vlbltax :: propChar g.edlotax :: propChar g.velotax :: 10 :: rest))))))) := by
    unfold saveHeader
    have : printInt 0 = [48] := by decide +kernel
    rw [this]
    simp
  unfold loadHeader
  rw [hs, getInt_print0 _ _ _ (by omega) (by omega) (by simp [NoDigit]), andThen_ok]
  dsimp only
  rw [guardO_true rfl, andThen_ok, getInt_print1 _ _ _ _ (Or.inr rfl) (by omega) (by omega) (by simp [NoDigit]), andThen_ok]
  dsimp only
  rw [getInt_print1 _ _ _ _ (Or.inl rfl) (by omega) (by omega) (by simp [NoDigit]), andThen_ok]
  dsimp only
  rw [getInt_print1 _ _ _ _ (Or.inr rfl) (by omega) (by omega) (by simp [NoDigit]), andThen_ok]
  dsimp only
  rw [p0, andThen_ok]
  dsimp only
  rw [guardO_true (by omega), andThen_ok, guardO_true (by omega), andThen_ok, guardO_true (by omega), andThen_ok, p3, p4, p5]
  rfl

theorem load_saved (hc : ConsE g) (heven : g.edgenbr % 2 = 0) (ha : Allocated g) (hf : Fits numMax g B) (b : Int)
    (hb : (b = -1 ∧ B = g.baseval) ∨ (b = B)) (junk : LoadJunk) (rest : Stream) :
    ∃ text g', g.save = .ok text ∧ load numMax b noVert noEdge junk (text ++ rest) = .ok (some (g', 10 :: rest)) ∧
      LD g B noVert noEdge g' := by
  have h := loadBody_holds (noVert := noVert) (noEdge := noEdge) hc hf b hb junk rest
  obtain ⟨r, e, hr⟩ := Holds_iff_exists.1 h
  cases r with
  | none => exact False.elim hr
  | some p =>
    obtain ⟨g', s'⟩ := p
    obtain ⟨h1, h2⟩ := hr
    dsimp only at h1 h2
    subst h2
    refine ⟨_, g', save_text ha hc, ?_, h1⟩
    unfold load
    rw [List.append_assoc, loadHeader_saved hc hf heven, andThen_ok]
    exact e

end Graph
end Scotch
