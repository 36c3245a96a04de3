import Verif.Separ.LemmasEs1

/-! # Vertex covers: markings -/

set_option autoImplicit false
set_option linter.unusedSimpArgs false

namespace Scotch.Separ
open Graph

/-- Effect of a marking that starts at `c`: new marks are put on vertices that satisfy `R` only. -/
structure MarkPost (g : Graph) (mate : Arr Int) (side R : Int → Prop) (A B : Int) (typ typ' : Arr Int) (c : Int) : Prop where
  bounds : typ'.lo = typ.lo ∧ typ'.hi = typ.hi
  chg : ∀ x, g.Vertex x → typ'.get x = typ.get x ∨ (R x ∧ side x ∧ typ'.get x = A) ∨ (R x ∧ ¬ side x ∧ typ'.get x = B)
  start : typ'.get c = A
  newA : ∀ x, g.Vertex x → side x → typ.get x ≠ A → typ'.get x = A →
    (∀ w, g.Adj x w → typ'.get w = B) ∧ (x = c ∨ (mate.get x ≠ -1 ∧ typ'.get (mate.get x) = B))
  newB : ∀ w, g.Vertex w → ¬ side w → typ.get w ≠ B → typ'.get w = B → mate.get w ≠ -1 → typ'.get (mate.get w) = A

open Classical in
/-- Number of vertices of a side that are not marked yet. -/
noncomputable def unmarked (g : Graph) (side : Int → Prop) (A : Int) (typ : Arr Int) : Nat :=
  ((Finset.Ico g.baseval g.vertnnd).filter fun x => side x ∧ typ.get x ≠ A).card

theorem unmarked_le {g : Graph} {side : Int → Prop} {A : Int} {t t' : Arr Int}
    (h : ∀ x, g.Vertex x → side x → t.get x = A → t'.get x = A) : unmarked g side A t' ≤ unmarked g side A t := by
  classical
  unfold unmarked
  apply Finset.card_le_card
  intro x hx
  simp only [Finset.mem_filter, Finset.mem_Ico] at hx ⊢
  exact ⟨hx.1, hx.2.1, fun hA => hx.2.2 (h x hx.1 hx.2.1 hA)⟩

theorem unmarked_lt {g : Graph} {side : Int → Prop} {A : Int} {t t' : Arr Int}
    (h : ∀ x, g.Vertex x → side x → t.get x = A → t'.get x = A) {c : Int} (hc : g.Vertex c) (hs : side c) (h1 : t.get c ≠ A)
    (h2 : t'.get c = A) : unmarked g side A t' < unmarked g side A t := by
  classical
  unfold unmarked
  apply Finset.card_lt_card
  rw [Finset.ssubset_iff_of_subset]
  · refine ⟨c, ?_, ?_⟩
    · simp only [Finset.mem_filter, Finset.mem_Ico]
      exact ⟨hc, hs, h1⟩
    · simp only [Finset.mem_filter, Finset.mem_Ico, not_and]
      exact fun _ _ => fun hn => hn h2
  · intro x hx
    simp only [Finset.mem_filter, Finset.mem_Ico] at hx ⊢
    exact ⟨hx.1, hx.2.1, fun hA => hx.2.2 (h x hx.1 hx.2.1 hA)⟩

theorem unmarked_bound {g : Graph} {side : Int → Prop} {A : Int} {t : Arr Int} (hn : g.vertnnd = g.baseval + g.vertnbr) :
    unmarked g side A t ≤ g.vertnbr.toNat := by
  classical
  unfold unmarked
  refine (Finset.card_filter_le _ _).trans ?_
  rw [Int.card_Ico]
  omega

/-- State of a marking between two arcs of `c`. -/
structure MarkInv (g : Graph) (mate : Arr Int) (side R : Int → Prop) (A B : Int) (typ t : Arr Int) (c e : Int) : Prop where
  bounds : t.lo = typ.lo ∧ t.hi = typ.hi
  chg : ∀ x, g.Vertex x → t.get x = typ.get x ∨ (R x ∧ side x ∧ t.get x = A) ∨ (R x ∧ ¬ side x ∧ t.get x = B)
  start : t.get c = A
  done : ∀ e', g.vert c ≤ e' → e' < e → t.get (g.dest e') = B
  newA : ∀ x, g.Vertex x → side x → typ.get x ≠ A → t.get x = A → x ≠ c →
    (∀ w, g.Adj x w → t.get w = B) ∧ mate.get x ≠ -1 ∧ t.get (mate.get x) = B
  newB : ∀ w, g.Vertex w → ¬ side w → typ.get w ≠ B → t.get w = B → mate.get w ≠ -1 → t.get (mate.get w) = A

variable {g : Graph} {P : Int} {mate : Arr Int} {side R : Int → Prop} {A B : Int}

theorem esMark_holds (hb : Bip g P) (hm : Mates g mate) (hside : ∀ v w, g.Vertex v → g.Adj v w → (side v ↔ ¬ side w))
    (hR1 : ∀ x w, g.Vertex x → side x → R x → g.Adj x w → R w)
    (hR2 : ∀ w, g.Vertex w → ¬ side w → R w → mate.get w ≠ -1 → R (mate.get w)) :
    ∀ (fuel : Nat) (c : Int) (typ : Arr Int), g.Vertex c → side c → R c → typ.lo ≤ g.baseval → g.vertnnd ≤ typ.hi →
      unmarked g side A typ < fuel →
      Holds (esMark g mate A B fuel c typ) (fun t => MarkPost g mate side R A B typ t c) := by
  intro fuel
  induction fuel with
  | zero => intro c typ _ _ _ _ _ h; omega
  | succ n ih =>
    intro c typ hc hsc hRc tl th hμ
    have hc1 := hc.1
    have hc2 := hc.2
    have hbase := hb.base
    obtain ⟨m1, m2⟩ := hm.bounds
    unfold esMark
    rw [Arr.rd_ok typ (by omega) (by omega), ok_bind, Holds_ite]
    constructor
    · intro hA
      rw [Holds_pure]
      exact ⟨⟨rfl, rfl⟩, fun x _ => Or.inl rfl, hA, fun x _ _ h1 h2 => absurd h2 h1, fun w _ _ h1 h2 => absurd h2 h1⟩
    · intro hA
      rw [Arr.wr_ok typ A (by omega) (by omega), ok_bind]
      refine Holds_forArcs hb.alloc hc (hb.range c hc) (fun e t => MarkInv g mate side R A B typ t c e) ?_ ?_ ?_
      · refine ⟨⟨rfl, rfl⟩, ?_, Arr.set_get_same _ _ _, fun e' h1 h2 => by omega, ?_, ?_⟩
        · intro x hx
          by_cases h : x = c
          · subst h
            exact Or.inr (Or.inl ⟨hRc, hsc, Arr.set_get_same _ _ _⟩)
          · exact Or.inl (Arr.set_get_ne _ _ h)
        · intro x hx _ h1 h2 h3
          rw [Arr.set_get_ne _ _ h3] at h2
          exact absurd h2 h1
        · intro w hw hs h1 h2
          rw [Arr.set_get_ne _ _ (fun h => hs (by rw [h]; exact hsc))] at h2
          exact absurd h2 h1
      · intro e t e1 e2 I
        have hadj : g.Adj c (g.dest e) := ⟨e, e1, e2, rfl⟩
        have hw := hb.inside c _ hc hadj
        have hsw : ¬ side (g.dest e) := (hside c _ hc hadj).1 hsc
        have hRw := hR1 c _ hc hsc hRc hadj
        obtain ⟨ib1, ib2⟩ := I.bounds
        generalize hde : g.dest e = w at hadj hw hsw hRw ⊢
        have hw1 := hw.1
        have hw2 := hw.2
        have hwc : w ≠ c := fun h => hsw (by rw [h]; exact hsc)
        rw [Arr.rd_ok t (by omega) (by omega), ok_bind, Holds_ite]
        have hdone : ∀ t' : Arr Int, (∀ x, g.Vertex x → ¬ side x → t.get x = B → t'.get x = B) → t'.get w = B →
            ∀ e', g.vert c ≤ e' → e' < e + 1 → t'.get (g.dest e') = B := by
          intro t' h1 h2 e' k1 k2
          by_cases h : e' = e
          · rw [h, hde]; exact h2
          · have ha : g.Adj c (g.dest e') := ⟨e', k1, by omega, rfl⟩
            exact h1 _ (hb.inside c _ hc ha) ((hside c _ hc ha).1 hsc) (I.done e' k1 (by omega))
        constructor
        · intro hB
          rw [Holds_pure]
          exact ⟨I.bounds, I.chg, I.start, hdone t (fun _ _ _ h => h) hB, I.newA, I.newB⟩
        · intro hB
          rw [Arr.wr_ok t B (by omega) (by omega), ok_bind, Arr.rd_ok mate (by omega) (by omega), ok_bind]
          have hset : ∀ x, side x → (t.set w B).get x = t.get x := fun x hx => Arr.set_get_ne _ _ (fun h => hsw (by rw [← h]; exact hx))
          have hsetB : ∀ x, t.get x = B → (t.set w B).get x = B := by
            intro x hx
            by_cases h : x = w
            · rw [h]; exact Arr.set_get_same _ _ _
            · rw [Arr.set_get_ne _ _ h]; exact hx
          have hchg : ∀ x, g.Vertex x → (t.set w B).get x = typ.get x ∨ (R x ∧ side x ∧ (t.set w B).get x = A) ∨
              (R x ∧ ¬ side x ∧ (t.set w B).get x = B) := by
            intro x hx
            by_cases h : x = w
            · subst h
              exact Or.inr (Or.inr ⟨hRw, hsw, Arr.set_get_same _ _ _⟩)
            · rw [Arr.set_get_ne _ _ h]; exact I.chg x hx
          rw [Holds_ite]
          constructor
          · intro hne
            have hmadj := hm.adj w hw hne
            have hmv := hb.inside w _ hw hmadj
            have hms : side (mate.get w) := by
              have := hside w _ hw hmadj
              exact Classical.byContradiction fun h => hsw (this.2 h)
            have hinv := hm.inv w hw hne
            refine Holds.mono (ih (mate.get w) (t.set w B) hmv hms (hR2 w hw hsw hRw hne) (by show t.lo ≤ _; omega) (by show _ ≤ t.hi; omega) ?_) ?_
            · have : unmarked g side A (t.set w B) < unmarked g side A typ := by
                refine unmarked_lt ?_ hc hsc hA ?_
                · intro x hx hs hx'
                  rw [hset x hs]
                  rcases I.chg x hx with h | h | h
                  · rw [h]; exact hx'
                  · exact h.2.2
                  · exact absurd hs h.2.1
                · rw [hset c hsc]; exact I.start
              omega
            · intro t2 Q
              obtain ⟨qb1, qb2⟩ := Q.bounds
              have kA : ∀ x, g.Vertex x → side x → (t.set w B).get x = A → t2.get x = A := by
                intro x hx hs h
                rcases Q.chg x hx with k | k | k
                · rw [k]; exact h
                · exact k.2.2
                · exact absurd hs k.2.1
              have kB : ∀ x, g.Vertex x → ¬ side x → (t.set w B).get x = B → t2.get x = B := by
                intro x hx hs h
                rcases Q.chg x hx with k | k | k
                · rw [k]; exact h
                · exact absurd k.2.1 hs
                · exact k.2.2
              refine ⟨⟨qb1.trans ib1, qb2.trans ib2⟩, ?_, ?_, ?_, ?_, ?_⟩
              · intro x hx
                rcases Q.chg x hx with k | k | k
                · rw [k]; exact hchg x hx
                · exact Or.inr (Or.inl k)
                · exact Or.inr (Or.inr k)
              · exact kA c hc hsc (by rw [hset c hsc]; exact I.start)
              · exact hdone t2 (fun x hx hs h => kB x hx hs (hsetB x h)) (kB w hw hsw (Arr.set_get_same _ _ _))
              · intro x hx hs h1 h2 h3
                by_cases h : t.get x = A
                · obtain ⟨p, q, r⟩ := I.newA x hx hs h1 h h3
                  refine ⟨fun u hu => kB u (hb.inside x u hx hu) ((hside x u hx hu).1 hs) (hsetB u (p u hu)), q, ?_⟩
                  have ha := hm.adj x hx q
                  exact kB _ (hb.inside x _ hx ha) ((hside x _ hx ha).1 hs) (hsetB _ r)
                · obtain ⟨p, q⟩ := Q.newA x hx hs (by rw [hset x hs]; exact h) h2
                  refine ⟨p, ?_⟩
                  rcases q with q | q
                  · rw [q, hinv]
                    exact ⟨by omega, kB w hw hsw (Arr.set_get_same _ _ _)⟩
                  · exact q
              · intro u hu hs h1 h2 hne'
                have ha := hm.adj u hu hne'
                have hsm : side (mate.get u) := Classical.byContradiction fun h => hs ((hside u _ hu ha).2 h)
                have hvm := hb.inside u _ hu ha
                by_cases huw : u = w
                · rw [huw]; exact Q.start
                · by_cases h : t.get u = B
                  · have := I.newB u hu hs h1 h hne'
                    exact kA _ hvm hsm (by rw [hset _ hsm]; exact this)
                  · exact Q.newB u hu hs (by rw [Arr.set_get_ne _ _ huw]; exact h) h2 hne'
          · intro hne
            have hne : mate.get w = -1 := Classical.byContradiction hne
            rw [Holds_pure]
            refine ⟨I.bounds, hchg, ?_, ?_, ?_, ?_⟩
            · rw [hset c hsc]; exact I.start
            · exact hdone _ (fun x _ _ h => hsetB x h) (Arr.set_get_same _ _ _)
            · intro x hx hs h1 h2 h3
              rw [hset x hs] at h2
              obtain ⟨p, q, r⟩ := I.newA x hx hs h1 h2 h3
              exact ⟨fun u hu => hsetB u (p u hu), q, hsetB _ r⟩
            · intro u hu hs h1 h2 hne'
              have ha := hm.adj u hu hne'
              have hsm : side (mate.get u) := Classical.byContradiction fun h => hs ((hside u _ hu ha).2 h)
              rw [hset _ hsm]
              by_cases huw : u = w
              · rw [huw] at hne'; exact absurd hne hne'
              · rw [Arr.set_get_ne _ _ huw] at h2
                exact I.newB u hu hs h1 h2 hne'
      · intro t I
        refine ⟨I.bounds, I.chg, I.start, ?_, I.newB⟩
        intro x hx hs h1 h2
        by_cases h : x = c
        · subst h
          refine ⟨?_, Or.inl rfl⟩
          rintro w ⟨e, e1, e2, rfl⟩
          exact I.done e e1 e2
        · obtain ⟨p, q⟩ := I.newA x hx hs h1 h2 h
          exact ⟨p, Or.inr q⟩

end Scotch.Separ
