import Verif.Graph.LemmasIO2

/-! # Graphs: loading a saved graph (vertices, header, relabelling) -/

set_option autoImplicit false
set_option linter.unusedSimpArgs false

namespace Scotch
open Text
namespace Graph
variable {g : Graph} {numMax B : Int} {noVert noEdge : Bool}

theorem optText_some {o : Option (Arr Int)} {a : Arr Int} (h : o = some a) (i : Int) : optText o i = printInt (a.get i) ++ [9] := by
  subst h; rfl
theorem optText_none {o : Option (Arr Int)} (h : o = none) (i : Int) : optText o i = [] := by subst h; rfl

theorem OptOk.none_of {use : Bool} {lo n : Int} {C : Arr Int → Prop} {o : Option (Arr Int)} (h : OptOk use lo n C o)
    (hu : use = false) : o = none := by
  cases ho : o with
  | none => rfl
  | some a => have := (h.2 a ho).1; rw [hu] at this; cases this

theorem OptOk.some_of {use : Bool} {lo n : Int} {C : Arr Int → Prop} {o : Option (Arr Int)} (h : OptOk use lo n C o)
    (hu : use = true) (hn : n ≠ 0) : ∃ a, o = some a ∧ a.lo = lo ∧ a.hi = lo + n ∧ C a := by
  cases ho : o with
  | none =>
    rcases h.1 ho with h | h
    · rw [hu] at h; cases h
    · exact absurd h hn
  | some a => exact ⟨a, rfl, (h.2 a ho).2⟩

/-- Vertex part of the invariant while the data of vertex `i` are being read: the label has been read. -/
structure LVl (g : Graph) (numMax B : Int) (i : Int) (st : LoadSt) : Prop where
  vl : OptOk g.vlbltax.isSome B g.vertnbr
    (fun a => ∀ v, g.baseval ≤ v → v < i + 1 → a.get (v + (B - g.baseval)) = g.vlbl v) st.vlbltax
  lm : B + g.vertnbr - 1 ≤ st.vlblmax ∧ st.vlblmax < numMax
  lm' : g.vlbltax.isSome = true → ∀ v, g.baseval ≤ v → v < i + 1 → g.vlbl v ≤ st.vlblmax

theorem LV.lt {i : Int} {st : LoadSt} (h : LV g numMax B noVert i st) (hc : ConsE g) (hi : g.Vertex i) : g.vertnbr ≠ 0 := by
  have := hc.vertnnd
  have := hi.1
  have := hi.2
  omega

theorem loadVlbl_holds (hc : ConsE g) (hf : Fits numMax g B) {i : Int} {st : LoadSt} {tail : Stream} (hi : g.Vertex i)
    (hv : LV g numMax B noVert i st) (h : LA g B noEdge i 0 st)
    (hs : st.s = 10 :: (optText g.vlbltax i ++ tail)) :
    Holds (loadVlbl numMax (i + (B - g.baseval)) st) (OSat (fun st' => LV g numMax B noVert i st' ∧ LVl g numMax B i st' ∧
      LA g B noEdge i 0 st' ∧ ∃ c, (c = 9 ∨ c = 10) ∧ st'.s = c :: tail) False) := by
  have hn := hv.lt hc hi
  have i1 := hi.1
  have i2 := hi.2
  have hnn := hc.vertnnd
  unfold loadVlbl
  cases he : g.vlbltax with
  | none =>
    rw [he] at hs
    have hu : g.vlbltax.isSome = false := by rw [he]; rfl
    have hx := hv.vl.none_of hu
    rw [hx]
    refine ⟨hv, ⟨⟨fun _ => Or.inl hu, ?_⟩, hv.lm, ?_⟩, h, 10, Or.inr rfl, hs⟩
    · intro a ha
      rw [hx] at ha
      cases ha
    · intro hh
      rw [hu] at hh; cases hh
  | some b =>
    have hu : g.vlbltax.isSome = true := by rw [he]; rfl
    obtain ⟨a, ha, a1, a2, a3⟩ := hv.vl.some_of hu hn
    rw [ha]
    dsimp only
    have hr := hf.labels b he i hi
    rw [← vlbl_some he] at hr
    rw [optText_some he, ← vlbl_some he, List.append_assoc] at hs
    rw [Holds_andThen, hs, getInt_print1 _ _ _ _ (Or.inr rfl) (by omega) (by omega) (by
      simp only [List.cons_append, NoDigit]; omega), Holds_ok]
    dsimp only
    rw [Holds_bind, Holds_wr, Holds_pure]
    have hcell : ∀ v, g.baseval ≤ v → v < i + 1 →
        (a.set (i + (B - g.baseval)) (g.vlbl i)).get (v + (B - g.baseval)) = g.vlbl v := by
      intro v v1 v2
      rw [Arr.set_get]
      split
      · rw [show v = i by omega]
      · exact a3 v v1 (by omega)
    have hmax : ∀ x : Int, x ≤ st.vlblmax ∨ x = g.vlbl i → x ≤ (if g.vlbl i > st.vlblmax then g.vlbl i else st.vlblmax) := by
      intro x hx
      split <;> omega
    have hlm := hv.lm
    have hlm2 : B + g.vertnbr - 1 ≤ (if g.vlbl i > st.vlblmax then g.vlbl i else st.vlblmax) ∧
        (if g.vlbl i > st.vlblmax then g.vlbl i else st.vlblmax) < numMax := by
      split <;> omega
    refine ⟨by omega, ⟨hv.vb, hv.vt, hv.ve, hv.vs, ?_, hlm2, ?_, hv.dm⟩, ⟨?_, hlm2, ?_⟩,
      ⟨h.eb, h.et, h.el, h.es, h.num⟩, 9, Or.inl rfl, rfl⟩
    · refine ⟨fun hh => (by cases hh), ?_⟩
      rintro c ⟨⟩
      exact ⟨hu, a1, a2, fun v v1 v2 => hcell v v1 (by omega)⟩
    · intro _ v v1 v2
      exact hmax _ (Or.inl (hv.lm' hu v v1 v2))
    · refine ⟨fun hh => (by cases hh), ?_⟩
      rintro c ⟨⟩
      exact ⟨hu, a1, a2, hcell⟩
    · intro _ v v1 v2
      by_cases hvi : v = i
      · exact hmax _ (Or.inr (by rw [hvi]))
      · exact hmax _ (Or.inl (hv.lm' hu v v1 (by omega)))

/-- Vertex load has been read. -/
structure LVe (g : Graph) (B : Int) (noVert : Bool) (i : Int) (st : LoadSt) : Prop where
  ve : OptOk (g.velotax.isSome && !noVert) B g.vertnbr
    (fun a => ∀ v, g.baseval ≤ v → v < i + 1 → a.get (v + (B - g.baseval)) = g.velo v) st.velotax
  vs : sumOk st.velotax g.vertnbr (sumI g.baseval (i + 1) g.velo) st.velosum

theorem loadVelo_holds (hc : ConsE g) (hf : Fits numMax g B) {i : Int} {st : LoadSt} {tail : Stream} (hi : g.Vertex i)
    (hv : LV g numMax B noVert i st) (hl : LVl g numMax B i st) (h : LA g B noEdge i 0 st) (c : Nat) (hcc : c = 9 ∨ c = 10)
    (hs : st.s = c :: (optText g.velotax i ++ tail)) :
    Holds (loadVelo numMax g.velotax.isSome (i + (B - g.baseval)) st) (OSat (fun st' =>
      LVe g B noVert i st' ∧ LVl g numMax B i st' ∧ (st'.verttax = st.verttax ∧ st'.degrmax = st.degrmax) ∧
      LA g B noEdge i 0 st' ∧ ∃ c, (c = 9 ∨ c = 10) ∧ st'.s = c :: tail) False) := by
  have hn := hv.lt hc hi
  have i1 := hi.1
  have i2 := hi.2
  have hnn := hc.vertnnd
  obtain ⟨r1, r2, r3, r4⟩ := veloSum_range hc hi
  have := hf.velosum
  unfold loadVelo
  cases he : g.velotax with
  | none =>
    rw [he] at hs
    have hu : (g.velotax.isSome && !noVert) = false := by rw [he]; rfl
    have hx := hv.ve.none_of hu
    simp only [Option.isSome, Bool.false_eq_true, if_false]
    refine ⟨⟨⟨fun _ => Or.inl hu, ?_⟩, hv.vs.1, ?_⟩, hl, ⟨rfl, rfl⟩, h, c, hcc, hs⟩
    · intro a ha
      rw [hx] at ha
      cases ha
    · intro a ha
      rw [hx] at ha
      cases ha
  | some b =>
    have hx : b.get i = g.velo i := by unfold velo; rw [he]
    rw [optText_some he, hx, List.append_assoc] at hs
    simp only [Option.isSome, if_true]
    rw [Holds_andThen, hs, getInt_print1 _ _ _ _ hcc (by omega) (by omega) (by
      simp only [List.cons_append, NoDigit]; omega), Holds_ok]
    dsimp only
    rw [Holds_bind]
    refine (loadSum_holds (v := g.velo i) (x := sumI g.baseval i g.velo) hv.ve hv.vs (by omega) (by omega)
      (C' := fun a => ∀ v, g.baseval ≤ v → v < i + 1 → a.get (v + (B - g.baseval)) = g.velo v) ?_ (by intro _; omega)).mono ?_
    · intro a ha v v1 v2
      rw [Arr.set_get]
      split
      · rw [show v = i by omega]
      · exact ha v v1 (by omega)
    · rintro ⟨x, y⟩ ⟨h1, h2⟩
      rw [← r3] at h2
      exact ⟨⟨h1, h2⟩, ⟨hl.vl, hl.lm, hl.lm'⟩, ⟨rfl, rfl⟩, ⟨h.eb, h.et, h.el, h.es, h.num⟩, 9, Or.inl rfl, rfl⟩

theorem loadVert_holds (hc : ConsE g) (hf : Fits numMax g B) (hd : Header) (hvel : hd.vel = g.velotax.isSome)
    (hedl : hd.edl = g.edlotax.isSome) {i : Int} {st : LoadSt} {tail : Stream} (hi : g.Vertex i)
    (hv : LV g numMax B noVert i st) (h : LA g B noEdge i 0 st)
    (hs : st.s = 10 :: (g.vertText i ++ tail)) :
    Holds (loadVert numMax (g.adjOf B) (B + g.edgenbr) hd (i + (B - g.baseval)) st)
      (OSat (fun st' => LV g numMax B noVert (i + 1) st' ∧ LA g B noEdge (i + 1) 0 st' ∧ st'.s = 10 :: tail) False) := by
  have i1 := hi.1
  have i2 := hi.2
  have hnn := hc.vertnnd
  have hdeg := deg_nonneg hc hi
  have hpe := cpos_le hc B hi (w := g.vertnnd) i2 (Int.le_refl _)
  rw [cpos_end hc] at hpe
  have hp0 := cpos_mono hc B (v := g.baseval) (w := i) (Int.le_refl _) i1 (by omega)
  rw [cpos_base] at hp0
  have hem := hf.edgenbr
  have hbase := hf.base
  have hnum0 := h.num
  unfold loadVert
  unfold vertText at hs
  rw [List.append_assoc] at hs
  rw [Holds_andThen]
  refine (loadVlbl_holds hc hf hi hv h hs).mono ?_
  have hvb := hv.vb
  have hvt := hv.vt
  have hdm := hv.dm
  intro r hr
  cases r with
  | none => exact hr
  | some st1 =>
    obtain ⟨hv1, hl1, ha1, c, hcc, hs1⟩ := hr
    dsimp only
    rw [List.append_assoc] at hs1
    rw [Holds_andThen, hvel]
    refine (loadVelo_holds hc hf hi hv1 hl1 ha1 c hcc hs1).mono ?_
    intro r hr
    cases r with
    | none => exact hr
    | some st2 =>
      obtain ⟨he2, hl2, ⟨v2, d2⟩, ha2, c', hcc', hs2⟩ := hr
      dsimp only
      rw [List.append_assoc, List.append_assoc] at hs2
      have hdd : g.vend i - g.vert i = g.deg i := rfl
      have hnd : NoDigit ([10] ++ tail) := by simp only [List.cons_append, NoDigit]; omega
      rw [Holds_andThen, hs2, hdd, getInt_print1 _ _ _ _ hcc' (by omega) (by omega) (noDigit_arcs g _ _ _ hnd), Holds_ok]
      dsimp only
      have hvb1 := hv1.vb
      have hvt1 := hv1.vt
      have hdm1 := hv1.dm
      have hnum := ha2.num
      rw [Holds_bind, Holds_wr, v2]
      refine ⟨by omega, ?_⟩
      rw [chk_ok (by omega), Holds_bind, Holds_ok, if_neg (by omega)]
      have hI : LV g numMax B noVert (i + 1) { st2 with
          s := g.arcsText (g.vert i) (g.vend i) ++ ([10] ++ tail)
          degrmax := if st2.degrmax < g.deg i then g.deg i else st2.degrmax
          verttax := st1.verttax.set (i + (B - g.baseval)) st2.edgenum } := by
        refine ⟨hvb1, ?_, he2.ve, he2.vs, hl2.vl, hl2.lm, hl2.lm', ?_⟩
        · intro v w1 w2
          dsimp only
          rw [Arr.set_get]
          split
          · rw [show v = i by omega, hnum]; omega
          · exact hvt1 v w1 (by omega)
        · dsimp only
          rw [d2]
          have hle : ∀ x : Int, x ≤ st1.degrmax ∨ x = g.deg i → x ≤ (if st1.degrmax < g.deg i then g.deg i else st1.degrmax) := by
            intro x hx
            split <;> omega
          refine ⟨hle 0 (Or.inl hdm1.1), ?_, ?_⟩
          · intro v w1 w2
            by_cases hvi : v = i
            · exact hle _ (Or.inr (by rw [hvi]))
            · exact hle _ (Or.inl (hdm1.2.1 v w1 (by omega)))
          · split
            · exact Or.inr ⟨i, i1, by omega, rfl⟩
            · rcases hdm1.2.2 with h | ⟨v, w1, w2, w3⟩
              · exact Or.inl h
              · exact Or.inr ⟨v, w1, by omega, w3⟩
      refine Holds_loopO (fun k st' => LV g numMax B noVert (i + 1) st' ∧ LA g B noEdge i (k - g.cpos B i) st' ∧
        st'.s = g.arcsText (g.vert i + (k - g.cpos B i)) (g.vend i) ++ ([10] ++ tail)) False (by omega) ?_ ?_ ?_ (fun h => h)
      · refine ⟨hI, ?_, ?_⟩
        · rw [show st2.edgenum - g.cpos B i = 0 by omega]
          exact ⟨ha2.eb, ha2.et, ha2.el, ha2.es, ha2.num⟩
        · rw [show g.vert i + (st2.edgenum - g.cpos B i) = g.vert i by omega]
      · intro k st3 k1 k2 ⟨b1, b2, b3⟩
        rw [hedl]
        refine (loadArc_holds hc hf hi (by omega) (by omega) b1 b2 b3 hnd).mono ?_
        intro r hr
        cases r with
        | none => exact hr
        | some st4 =>
          rw [show k - g.cpos B i + 1 = k + 1 - g.cpos B i by omega] at hr
          exact hr
      · intro st3 ⟨b1, b2, b3⟩
        rw [show g.deg i + st2.edgenum - g.cpos B i = g.deg i by omega] at b2 b3
        have hvd : g.vert i + g.deg i = g.vend i := by unfold deg; omega
        have hdone : ∀ v u, g.Done (i + 1) 0 v u → g.Done i (g.deg i) v u := by
          rintro v u ⟨q1, q2, q3, q4, q5⟩
          refine ⟨q1, ?_, q3, q4, q5⟩
          by_cases hvi : v = i
          · right; subst hvi; exact ⟨rfl, q5⟩
          · left; omega
        refine ⟨b1, ⟨b2.eb, fun v u q => b2.et v u (hdone v u q),
          b2.el.mono (fun a q v u r => q v u (hdone v u r)), ?_, ?_⟩, ?_⟩
        · have : g.edSum (i + 1) 0 = g.edSum i (g.deg i) := by
            unfold edSum
            rw [sumI_succ i1, hvd, sumI_empty (show g.vert (i + 1) + 0 ≤ g.vert (i + 1) by omega)]
            omega
          rw [this]
          exact b2.es
        · rw [b2.num, cpos_succ g B i1]; omega
        · rw [b3, hvd]
          unfold arcsText
          rw [seg_empty _ (Int.le_refl _)]
          rfl

end Graph
end Scotch
