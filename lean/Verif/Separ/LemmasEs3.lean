import Verif.Separ.LemmasEs2
import Verif.Separ.SpecEs

/-! # Vertex covers: types of vertices -/

set_option autoImplicit false
set_option linter.unusedSimpArgs false

namespace Scotch.Separ
open Graph

/-- A marking that is complete. -/
structure MarkAll (g : Graph) (mate : Arr Int) (side R : Int → Prop) (A B : Int) (typ t : Arr Int) : Prop where
  bounds : t.lo = typ.lo ∧ t.hi = typ.hi
  chg : ∀ x, g.Vertex x → t.get x = typ.get x ∨ (R x ∧ side x ∧ t.get x = A) ∨ (R x ∧ ¬ side x ∧ t.get x = B)
  closedA : ∀ x, g.Vertex x → side x → t.get x = A → (∀ w, g.Adj x w → t.get w = B) ∧ (mate.get x ≠ -1 → t.get (mate.get x) = B)
  closedB : ∀ w, g.Vertex w → ¬ side w → t.get w = B → mate.get w ≠ -1 → t.get (mate.get w) = A

variable {g : Graph} {P : Int} {mate : Arr Int} {side R : Int → Prop} {A B : Int}

theorem esMarkAll_holds (hb : Bip g P) (hm : Mates g mate) (hside : ∀ v w, g.Vertex v → g.Adj v w → (side v ↔ ¬ side w))
    (hR1 : ∀ x w, g.Vertex x → side x → R x → g.Adj x w → R w)
    (hR2 : ∀ w, g.Vertex w → ¬ side w → R w → mate.get w ≠ -1 → R (mate.get w))
    {lo hi : Int} (hle : lo ≤ hi) (hv : ∀ v, lo ≤ v → v < hi → g.Vertex v ∧ side v) (hR : ∀ v, lo ≤ v → v < hi → mate.get v = -1 → R v)
    {typ : Arr Int} (tl : typ.lo ≤ g.baseval) (th : g.vertnnd ≤ typ.hi)
    (n1 : ∀ x, g.Vertex x → side x → typ.get x ≠ A) (n2 : ∀ x, g.Vertex x → ¬ side x → typ.get x ≠ B) :
    Holds (esMarkAll g mate A B lo hi typ) (fun t => MarkAll g mate side R A B typ t ∧ ∀ v, lo ≤ v → v < hi → mate.get v = -1 → t.get v = A) := by
  obtain ⟨m1, m2⟩ := hm.bounds
  unfold esMarkAll
  refine Holds_forUp (fun i t => MarkAll g mate side R A B typ t ∧ ∀ v, lo ≤ v → v < i → mate.get v = -1 → t.get v = A) hle
    ⟨⟨⟨rfl, rfl⟩, fun x _ => Or.inl rfl, fun x hx hs h => absurd h (n1 x hx hs), fun x hx hs h => absurd h (n2 x hx hs)⟩, fun v _ _ => by omega⟩ ?_
    (fun _ h => h)
  rintro i t i1 i2 ⟨I, hdone⟩
  obtain ⟨hvi, hsi⟩ := hv i i1 i2
  have h1 := hvi.1
  have h2 := hvi.2
  obtain ⟨b1, b2⟩ := I.bounds
  rw [Arr.rd_ok mate (by omega) (by omega), ok_bind, Holds_ite]
  constructor
  · intro hmi
    have := unmarked_bound (g := g) (side := side) (A := A) (t := t) hb.vertnnd
    refine Holds.mono (esMark_holds hb hm hside hR1 hR2 _ i t hvi hsi (hR i i1 i2 hmi) (by omega) (by omega) (by omega)) ?_
    intro t2 Q
    obtain ⟨q1, q2⟩ := Q.bounds
    have kA : ∀ x, g.Vertex x → side x → t.get x = A → t2.get x = A := by
      intro x hx hs h
      rcases Q.chg x hx with k | k | k
      · rw [k]; exact h
      · exact k.2.2
      · exact absurd hs k.2.1
    have kB : ∀ x, g.Vertex x → ¬ side x → t.get x = B → t2.get x = B := by
      intro x hx hs h
      rcases Q.chg x hx with k | k | k
      · rw [k]; exact h
      · exact absurd k.2.1 hs
      · exact k.2.2
    refine ⟨⟨⟨q1.trans b1, q2.trans b2⟩, ?_, ?_, ?_⟩, ?_⟩
    · intro x hx
      rcases Q.chg x hx with k | k | k
      · rw [k]; exact I.chg x hx
      · exact Or.inr (Or.inl k)
      · exact Or.inr (Or.inr k)
    · intro x hx hs hA
      by_cases h : t.get x = A
      · obtain ⟨p, q⟩ := I.closedA x hx hs h
        refine ⟨fun w hw => kB w (hb.inside x w hx hw) ((hside x w hx hw).1 hs) (p w hw), fun hne => ?_⟩
        have ha := hm.adj x hx hne
        exact kB _ (hb.inside x _ hx ha) ((hside x _ hx ha).1 hs) (q hne)
      · obtain ⟨p, q⟩ := Q.newA x hx hs h hA
        refine ⟨p, fun hne => ?_⟩
        rcases q with q | q
        · rw [q] at hne; exact absurd hmi hne
        · exact q.2
    · intro w hw hs hB hne
      by_cases h : t.get w = B
      · have ha := hm.adj w hw hne
        exact kA _ (hb.inside w _ hw ha) (Classical.byContradiction fun h' => hs ((hside w _ hw ha).2 h')) (I.closedB w hw hs h hne)
      · exact Q.newB w hw hs h hB hne
    · intro v v1 v2 hmv
      by_cases h : v = i
      · rw [h]; exact Q.start
      · obtain ⟨hv1, hv2⟩ := hv v v1 (by omega)
        exact kA v hv1 hv2 (hdone v v1 (by omega) hmv)
  · intro hmi
    rw [Holds_pure]
    refine ⟨I, fun v v1 v2 hmv => ?_⟩
    by_cases h : v = i
    · rw [h] at hmv; exact absurd hmv hmi
    · exact hdone v v1 (by omega) hmv

/-- Types of vertices. -/
structure Typed (g : Graph) (P : Int) (mate typ : Arr Int) : Prop where
  bounds : typ.lo ≤ g.baseval ∧ g.vertnnd ≤ typ.hi
  bit : ∀ v, g.Vertex v → (esBitC (typ.get v) = 0 ∨ esBitC (typ.get v) = 1) ∧ (esBitR (typ.get v) = 0 ∨ esBitR (typ.get v) = 1)
  coverC : ∀ v w, g.Vertex v → g.Adj v w → esBitC (typ.get v) = 1 ∨ esBitC (typ.get w) = 1
  coverR : ∀ v w, g.Vertex v → g.Adj v w → esBitR (typ.get v) = 1 ∨ esBitR (typ.get w) = 1
  tightC : NoAugment g P mate.get → ∀ v, g.Vertex v → esBitC (typ.get v) = 1 → mate.get v ≠ -1 ∧ esBitC (typ.get (mate.get v)) = 0
  tightR : NoAugment g P mate.get → ∀ v, g.Vertex v → esBitR (typ.get v) = 1 → mate.get v ≠ -1 ∧ esBitR (typ.get (mate.get v)) = 0

theorem esTypes_holds (hb : Bip g P) (hm : Mates g mate) (junk : Int → Int) :
    Holds (esTypes g (P - g.baseval) mate ⟨g.baseval, g.vertnnd, junk⟩) (Typed g P mate) := by
  have hl := hb.left
  have hr := hb.right
  unfold esTypes
  rw [show P - g.baseval + g.baseval = P by omega, Holds_bind]
  refine (fill_holds g.baseval P ⟨g.baseval, g.vertnnd, junk⟩ esSC (Int.le_refl _) hr).mono ?_
  rintro t1 ⟨a1, a2, a3, -⟩
  dsimp only at a1 a2
  rw [Holds_bind]
  refine (fill_holds _ _ _ _ (by omega) (by omega)).mono ?_
  rintro t2 ⟨b1, b2, b3, b4⟩
  have hcol : ∀ v, g.Vertex v → v < P → t2.get v = esSC := fun v hv h => by rw [b4 v (by omega)]; exact a3 v hv.1 h
  have hrow : ∀ v, g.Vertex v → ¬ v < P → t2.get v = esSR := fun v hv h => b3 v (by omega) hv.2
  rw [Holds_bind]
  refine (esMarkAll_holds (side := fun v => v < P) (R := Alternating g P mate.get) hb hm hb.cross ?_ ?_ hl (fun v v1 v2 => ⟨⟨v1, by omega⟩, v2⟩)
    (fun v v1 v2 h => .start v ⟨v1, by omega⟩ v2 h) (by omega) (by omega) ?_ ?_).mono ?_
  · exact fun x w hx hs hRx ha => .row x w hRx hx hs ha
  · exact fun w hw hs hRw hne => .col w hRw hw hs hne
  · intro x hx hs; rw [hcol x hx hs]; decide
  · intro x hx hs; rw [hrow x hx hs]; decide
  rintro t3 ⟨M1, s1⟩
  obtain ⟨c1, c2⟩ := M1.bounds
  have hcol3 : ∀ v, g.Vertex v → v < P → t3.get v = esSC ∨ t3.get v = esHC := by
    intro v hv h
    rcases M1.chg v hv with k | k | k
    · rw [k]; exact Or.inl (hcol v hv h)
    · exact Or.inr k.2.2
    · exact absurd h k.2.1
  have hrow3 : ∀ v, g.Vertex v → ¬ v < P → t3.get v = esSR ∨ (t3.get v = esHR ∧ Alternating g P mate.get v) := by
    intro v hv h
    rcases M1.chg v hv with k | k | k
    · rw [k]; exact Or.inl (hrow v hv h)
    · exact absurd k.2.1 h
    · exact Or.inr ⟨k.2.2, k.1⟩
  have hside : ∀ v w, g.Vertex v → g.Adj v w → ((¬ v < P) ↔ ¬ ¬ w < P) := by
    intro v w hv ha
    have := hb.cross v w hv ha
    constructor
    · intro h h'; exact h (this.2 h')
    · intro h h'; exact h (this.1 h')
  have hmark : ∀ (R : Int → Prop), (∀ x w, g.Vertex x → ¬ x < P → R x → g.Adj x w → R w) →
      (∀ w, g.Vertex w → ¬ ¬ w < P → R w → mate.get w ≠ -1 → R (mate.get w)) → (∀ v, P ≤ v → v < g.vertnnd → mate.get v = -1 → R v) →
      Holds (esMarkAll g mate esVR esVC P g.vertnnd t3) (fun t => MarkAll g mate (fun v => ¬ v < P) R esVR esVC t3 t ∧
        ∀ v, P ≤ v → v < g.vertnnd → mate.get v = -1 → t.get v = esVR) := by
    intro R r1 r2 r3
    refine esMarkAll_holds (side := fun v => ¬ v < P) (R := R) hb hm hside r1 r2 hr (fun v v1 v2 => ⟨⟨by omega, v2⟩, by omega⟩) r3 (by omega) (by omega) ?_ ?_
    · intro x hx hs
      rcases hrow3 x hx hs with h | h
      · rw [h]; decide
      · rw [h.1]; decide
    · intro x hx hs
      rcases hcol3 x hx (Classical.byContradiction hs) with h | h <;> rw [h] <;> decide
  have hall := hmark (fun _ => True) (fun _ _ _ _ _ _ => trivial) (fun _ _ _ _ _ => trivial) (fun _ _ _ _ => trivial)
  obtain ⟨t, ht, M2, s2⟩ := Holds_iff_exists.1 hall
  refine Holds.of_eq ht ?_
  obtain ⟨d1, d2⟩ := M2.bounds
  have hcol4 : ∀ v, g.Vertex v → v < P → (t.get v = esSC ∧ t3.get v = esSC) ∨ (t.get v = esHC ∧ t3.get v = esHC) ∨ t.get v = esVC := by
    intro v hv h
    rcases M2.chg v hv with k | k | k
    · rw [k]
      rcases hcol3 v hv h with h3 | h3
      · exact Or.inl ⟨h3, h3⟩
      · exact Or.inr (Or.inl ⟨h3, h3⟩)
    · exact absurd h k.2.1
    · exact Or.inr (Or.inr k.2.2)
  have hrow4 : ∀ v, g.Vertex v → ¬ v < P → (t.get v = esSR ∧ t3.get v = esSR) ∨ (t.get v = esHR ∧ t3.get v = esHR) ∨ t.get v = esVR := by
    intro v hv h
    rcases M2.chg v hv with k | k | k
    · rw [k]
      rcases hrow3 v hv h with h3 | h3
      · exact Or.inl ⟨h3, h3⟩
      · exact Or.inr (Or.inl ⟨h3.1, h3.1⟩)
    · exact Or.inr (Or.inr k.2.2)
    · exact absurd h k.2.1
  -- covers, from a column to a row
  have hcov : ∀ c r, g.Vertex c → c < P → g.Adj c r → (esBitC (t.get c) = 1 ∨ esBitC (t.get r) = 1) ∧ (esBitR (t.get c) = 1 ∨ esBitR (t.get r) = 1) := by
    intro c r hc hcP ha
    have hrv := hb.inside c r hc ha
    have hrP := (hb.cross c r hc ha).1 hcP
    have hVR : t.get r = esVR → t.get c = esVC := fun h => (M2.closedA r hrv hrP h).1 c (hb.symm c r hc ha)
    have hHC : t3.get c = esHC → t3.get r = esHR := fun h => (M1.closedA c hc hcP h).1 r ha
    rcases hrow4 r hrv hrP with h | h | h
    · refine ⟨?_, Or.inr (by rw [h.1]; decide)⟩
      rcases hcol4 c hc hcP with k | k | k
      · exact Or.inl (by rw [k.1]; decide)
      · have := hHC k.2
        rw [h.2] at this
        exact absurd this (by decide)
      · exact Or.inl (by rw [k]; decide)
    · exact ⟨Or.inr (by rw [h.1]; decide), Or.inr (by rw [h.1]; decide)⟩
    · rw [hVR h]; exact ⟨Or.inl (by decide), Or.inl (by decide)⟩
  have hcov' : ∀ v w, g.Vertex v → g.Adj v w → (esBitC (t.get v) = 1 ∨ esBitC (t.get w) = 1) ∧ (esBitR (t.get v) = 1 ∨ esBitR (t.get w) = 1) := by
    intro v w hv ha
    by_cases h : v < P
    · exact hcov v w hv h ha
    · have hw := hb.inside v w hv ha
      have hwP : w < P := Classical.byContradiction fun h' => h ((hb.cross v w hv ha).2 h')
      have := hcov w v hw hwP (hb.symm v w hv ha)
      exact ⟨this.1.symm, this.2.symm⟩
  -- tight covers
  have htight : NoAugment g P mate.get → ∀ v, g.Vertex v →
      (esBitC (t.get v) = 1 → mate.get v ≠ -1 ∧ esBitC (t.get (mate.get v)) = 0) ∧ (esBitR (t.get v) = 1 → mate.get v ≠ -1 ∧ esBitR (t.get (mate.get v)) = 0) := by
    intro hna
    have hHR : ∀ v, g.Vertex v → ¬ v < P → t3.get v = esHR → mate.get v ≠ -1 := by
      intro v hv hP h
      rcases hrow3 v hv hP with k | k
      · rw [h] at k; exact absurd k (by decide)
      · exact hna v hv hP k.2
    have hM := hmark (fun v => if v < P then t3.get v ≠ esHC else t3.get v ≠ esHR) (by
      intro r c hrv hrP hR ha
      have hcv := hb.inside r c hrv ha
      have hcP : c < P := Classical.byContradiction fun h' => hrP ((hb.cross r c hrv ha).2 h')
      rw [if_neg hrP] at hR
      rw [if_pos hcP]
      intro h
      exact hR ((M1.closedA c hcv hcP h).1 r (hb.symm r c hrv ha))) (by
      intro c hcv hcP hR hne
      have hcP := Classical.byContradiction hcP
      have ha := hm.adj c hcv hne
      have hrP := (hb.cross c _ hcv ha).1 hcP
      have hrv := hb.inside c _ hcv ha
      rw [if_pos hcP] at hR
      rw [if_neg hrP]
      intro h
      have hi := hm.inv c hcv hne
      have := M1.closedB _ hrv hrP h (by rw [hi]; have := hb.base; have := hcv.1; omega)
      rw [hi] at this
      exact hR this) (by
      intro r r1 r2 hmr
      rw [if_neg (by omega)]
      exact fun h => hHR r ⟨by omega, r2⟩ (by omega) h hmr)
    obtain ⟨t', ht', M2', -⟩ := Holds_iff_exists.1 hM
    rw [ht] at ht'
    injection ht' with ht'
    subst ht'
    have hVC : ∀ c, g.Vertex c → c < P → t.get c = esVC → t3.get c = esSC := by
      intro c hc hcP h
      rcases M2'.chg c hc with k | k | k
      · rcases hcol3 c hc hcP with h3 | h3
        · exact h3
        · rw [k, h3] at h; exact absurd h (by decide)
      · exact absurd hcP k.2.1
      · have h3 := k.1
        rw [if_pos hcP] at h3
        exact (hcol3 c hc hcP).resolve_right h3
    have hHC : ∀ c, g.Vertex c → c < P → t3.get c = esHC → t.get c = esHC := by
      intro c hc hcP h
      rcases hcol4 c hc hcP with k | k | k
      · rw [h] at k; exact absurd k.2 (by decide)
      · exact k.1
      · have := hVC c hc hcP k; rw [h] at this; exact absurd this (by decide)
    intro v hv
    have hbase := hb.base
    by_cases hP : v < P
    · -- columns
      have hmate : t3.get v = esSC → mate.get v ≠ -1 := by
        intro h hm1
        have := s1 v hv.1 hP hm1
        rw [h] at this
        exact absurd this (by decide)
      rcases hcol4 v hv hP with k | k | k
      · -- SC
        have hne := hmate k.2
        have ha := hm.adj v hv hne
        have hrv := hb.inside v _ hv ha
        have hrP := (hb.cross v _ hv ha).1 hP
        have hi := hm.inv v hv hne
        have hsr : t.get (mate.get v) = esSR := by
          rcases hrow4 _ hrv hrP with j | j | j
          · exact j.1
          · have := M1.closedB _ hrv hrP j.2 (by rw [hi]; have := hv.1; omega)
            rw [hi, k.2] at this; exact absurd this (by decide)
          · have := (M2.closedA _ hrv hrP j).1 v (hb.symm v _ hv ha)
            rw [k.1] at this; exact absurd this (by decide)
        rw [k.1, hsr]
        exact ⟨fun _ => ⟨hne, by decide⟩, fun h => absurd h (by decide)⟩
      · rw [k.1]; exact ⟨fun h => absurd h (by decide), fun h => absurd h (by decide)⟩
      · -- VC
        have hne := hmate (hVC v hv hP k)
        have := M2.closedB v hv (fun h => h hP) k hne
        rw [this]
        exact ⟨fun _ => ⟨hne, by decide⟩, fun _ => ⟨hne, by decide⟩⟩
    · -- rows
      rcases hrow4 v hv hP with k | k | k
      · -- SR
        have hne : mate.get v ≠ -1 := by
          intro hm1
          have := s2 v (by omega) hv.2 hm1
          rw [k.1] at this; exact absurd this (by decide)
        have ha := hm.adj v hv hne
        have hcv := hb.inside v _ hv ha
        have hcP : mate.get v < P := Classical.byContradiction fun h' => hP ((hb.cross v _ hv ha).2 h')
        have hi := hm.inv v hv hne
        have hsc : t.get (mate.get v) = esSC := by
          rcases hcol4 _ hcv hcP with j | j | j
          · exact j.1
          · have := (M1.closedA _ hcv hcP j.2).1 v (hb.symm v _ hv ha)
            rw [k.2] at this; exact absurd this (by decide)
          · have := M2.closedB _ hcv (fun h => h hcP) j (by rw [hi]; have := hv.1; omega)
            rw [hi, k.1] at this; exact absurd this (by decide)
        rw [k.1, hsc]
        exact ⟨fun h => absurd h (by decide), fun _ => ⟨hne, by decide⟩⟩
      · -- HR
        have hne := hHR v hv hP k.2
        have h3 := M1.closedB v hv hP k.2 hne
        have ha := hm.adj v hv hne
        have hcv := hb.inside v _ hv ha
        have hcP : mate.get v < P := Classical.byContradiction fun h' => hP ((hb.cross v _ hv ha).2 h')
        rw [hHC _ hcv hcP h3]
        exact ⟨fun _ => ⟨hne, by decide⟩, fun _ => ⟨hne, by decide⟩⟩
      · rw [k]; exact ⟨fun h => absurd h (by decide), fun h => absurd h (by decide)⟩
  refine ⟨⟨by omega, by omega⟩, ?_, fun v w hv ha => (hcov' v w hv ha).1, fun v w hv ha => (hcov' v w hv ha).2, fun h v hv => (htight h v hv).1,
    fun h v hv => (htight h v hv).2⟩
  intro v hv
  by_cases hP : v < P
  · rcases hcol4 v hv hP with k | k | k
    · rw [k.1]; decide
    · rw [k.1]; decide
    · rw [k]; decide
  · rcases hrow4 v hv hP with k | k | k
    · rw [k.1]; decide
    · rw [k.1]; decide
    · rw [k]; decide

end Scotch.Separ
