import Verif.Coarsen.Spec

set_option autoImplicit false
set_option linter.unusedSimpArgs false

namespace Scotch.Coarsen

variable {g : Graph} {mate : Int → Int}

/-- First vertex of a pair. -/
def Lead (mate : Int → Int) (v : Int) : Prop := v ≤ mate v

instance (v : Int) : Decidable (Lead mate v) := inferInstanceAs (Decidable (_ ≤ _))

def lead (mate : Int → Int) (v : Int) : Int := if v ≤ mate v then v else mate v

def ind (mate : Int → Int) (v : Int) : Int := if v ≤ mate v then 1 else 0

/-- Number of the coarse vertex of a first vertex. -/
def rank (g : Graph) (mate : Int → Int) (v : Int) : Int := g.baseval + sumI g.baseval v (ind mate)

theorem ind_cases (mate : Int → Int) (v : Int) : (Lead mate v ∧ ind mate v = 1) ∨ (¬ Lead mate v ∧ ind mate v = 0) := by
  unfold ind Lead
  by_cases h : v ≤ mate v
  · left; exact ⟨h, if_pos h⟩
  · right; exact ⟨h, if_neg h⟩

theorem rank_base (g : Graph) (mate : Int → Int) : rank g mate g.baseval = g.baseval := by
  unfold rank; rw [sumI_empty (Int.le_refl _)]; omega

theorem rank_succ {v : Int} (h : g.baseval ≤ v) : rank g mate (v + 1) = rank g mate v + ind mate v := by
  unfold rank; rw [sumI_succ h]; omega

theorem rank_end (g : Graph) (mate : Int → Int) : rank g mate g.vertnnd = g.baseval + pairs g mate := rfl

theorem rank_mono {v w : Int} (h : g.baseval ≤ v) (hvw : v ≤ w) : rank g mate v ≤ rank g mate w := by
  unfold rank
  rw [sumI_split h hvw]
  have : 0 ≤ sumI v w (ind mate) := sumI_nonneg fun i _ _ => by rcases ind_cases mate i with h | h <;> omega
  omega

theorem rank_strict {v w : Int} (h : g.baseval ≤ v) (hl : Lead mate v) (hvw : v < w) : rank g mate v < rank g mate w := by
  have h1 := rank_succ (mate := mate) h
  have h2 := rank_mono (g := g) (mate := mate) (v := v + 1) (w := w) (by omega) (by omega)
  rcases ind_cases mate v with h3 | h3
  · omega
  · exact absurd hl h3.1

theorem rank_inj {v w : Int} (hv : g.baseval ≤ v) (hw : g.baseval ≤ w) (h1 : Lead mate v) (h2 : Lead mate w) (h : rank g mate v = rank g mate w) : v = w := by
  rcases Int.lt_trichotomy v w with h3 | h3 | h3
  · have := rank_strict hv h1 h3; omega
  · exact h3
  · have := rank_strict hw h2 h3; omega

theorem rank_le {v : Int} (h : g.baseval ≤ v) : g.baseval ≤ rank g mate v ∧ rank g mate v ≤ v := by
  have h1 := rank_mono (g := g) (mate := mate) (Int.le_refl _) h
  rw [rank_base] at h1
  refine ⟨h1, ?_⟩
  unfold rank
  have : sumI g.baseval v (ind mate) ≤ sumI g.baseval v (fun _ => 1) := sumI_mono fun i _ _ => by rcases ind_cases mate i with h | h <;> omega
  rw [sumI_const h] at this
  omega

theorem rank_surj {c : Int} (h1 : g.baseval ≤ c) : ∀ (n : Nat), c < rank g mate (g.baseval + n) → ∃ x, g.baseval ≤ x ∧ x < g.baseval + n ∧ Lead mate x ∧ rank g mate x = c := by
  intro n
  induction n with
  | zero => intro h; rw [Int.natCast_zero, Int.add_zero, rank_base] at h; omega
  | succ n ih =>
    intro h
    rw [show g.baseval + ((n + 1 : Nat) : Int) = g.baseval + n + 1 by omega, rank_succ (by omega)] at h
    by_cases hc : c < rank g mate (g.baseval + n)
    · obtain ⟨x, x1, x2, x3, x4⟩ := ih hc
      exact ⟨x, x1, by omega, x3, x4⟩
    · rcases ind_cases mate (g.baseval + n) with h3 | h3
      · exact ⟨g.baseval + n, by omega, by omega, h3.1, by omega⟩
      · omega

theorem rank_surj' {c : Int} (h0 : g.baseval ≤ g.vertnnd) (h1 : g.baseval ≤ c) (h2 : c < g.baseval + pairs g mate) : ∃ x, g.Vertex x ∧ Lead mate x ∧ rank g mate x = c := by
  obtain ⟨x, x1, x2, x3, x4⟩ := rank_surj (g := g) (mate := mate) h1 (g.vertnnd - g.baseval).toNat (by
    rw [show g.baseval + ((g.vertnnd - g.baseval).toNat : Int) = g.vertnnd by omega, rank_end]; exact h2)
  exact ⟨x, ⟨x1, by omega⟩, x3, x4⟩

theorem lead_vertex (P : Pairing g mate) {v : Int} (hv : g.Vertex v) : g.Vertex (lead mate v) ∧ Lead mate (lead mate v) ∧ (v = lead mate v ∨ v = mate (lead mate v)) ∧ lead mate v ≤ v := by
  unfold lead Lead
  by_cases h : v ≤ mate v
  · rw [if_pos h]; exact ⟨hv, h, Or.inl rfl, Int.le_refl _⟩
  · rw [if_neg h, P.recip v hv]
    exact ⟨P.inside v hv, by omega, Or.inr rfl, by omega⟩

theorem lead_mate (P : Pairing g mate) {v : Int} (hv : g.Vertex v) : lead mate (mate v) = lead mate v := by
  unfold lead
  rw [P.recip v hv]
  by_cases h : v ≤ mate v
  · rw [if_pos h]
    by_cases h' : mate v ≤ v
    · rw [if_pos h']; omega
    · rw [if_neg h']
  · rw [if_neg h, if_pos (by omega)]

theorem lead_of_Lead {v : Int} (h : Lead mate v) : lead mate v = v := if_pos h

/-- Coarse vertex of a fine vertex. -/
def coarOf (g : Graph) (mate : Int → Int) (v : Int) : Int := rank g mate (lead mate v)

/-- What numbering ensures. -/
structure NumOk (g : Graph) (mate : Int → Int) (coar : Arr Int) (mult : Arr (Int × Int)) : Prop where
  clo : coar.lo ≤ g.baseval
  chi : g.vertnnd ≤ coar.hi
  mlo : mult.lo ≤ g.baseval
  mhi : g.baseval + pairs g mate ≤ mult.hi
  coar : ∀ v, g.Vertex v → coar.get v = coarOf g mate v
  mult : ∀ v, g.Vertex v → Lead mate v → mult.get (rank g mate v) = (v, mate v)

theorem rank_lt_end (_P : Pairing g mate) {v : Int} (hv : g.Vertex v) (hl : Lead mate v) : g.baseval ≤ rank g mate v ∧ rank g mate v < g.baseval + pairs g mate := by
  have h1 := rank_le (g := g) (mate := mate) hv.1
  have h2 := rank_strict hv.1 hl hv.2
  rw [rank_end] at h2
  exact ⟨h1.1, h2⟩

theorem numberSeq_holds (P : Pairing g mate) (hle : g.baseval ≤ g.vertnnd) {m : Arr Int} (hm : ∀ v, g.Vertex v → m.get v = mate v) (m1 : m.lo ≤ g.baseval) (m2 : g.vertnnd ≤ m.hi)
    {mult : Arr (Int × Int)} (u1 : mult.lo ≤ g.baseval) (u2 : g.baseval + pairs g mate ≤ mult.hi) :
    Holds (numberSeq g m mult) (fun s => NumOk g mate s.coar s.mult) := by
  unfold numberSeq
  refine (Holds_forUp (fun v (s : NState) => s.coar.lo = m.lo ∧ s.coar.hi = m.hi ∧ s.mult.lo = mult.lo ∧ s.mult.hi = mult.hi ∧ s.num = rank g mate v ∧
    (∀ x, g.Vertex x → lead mate x < v → s.coar.get x = coarOf g mate x) ∧ (∀ x, g.Vertex x → v ≤ lead mate x → s.coar.get x = mate x) ∧
    (∀ x, g.Vertex x → Lead mate x → x < v → s.mult.get (rank g mate x) = (x, mate x))) hle ?_ ?_ (fun a h => h)).mono ?_
  · refine ⟨rfl, rfl, rfl, rfl, (rank_base g mate).symm, ?_, fun x hx _ => hm x hx, fun x hx _ h => ?_⟩
    · intro x hx h
      have := (lead_vertex P hx).1.1
      omega
    · have := hx.1; omega
  · rintro v s v1 v2 ⟨c1, c2, c3, c4, c5, c6, c7, c8⟩
    have hv : g.Vertex v := ⟨v1, v2⟩
    unfold numberBody
    rw [Holds_bind, Arr.rd_ok _ (by omega) (by omega), Holds_ok]
    rcases ind_cases mate v with ⟨hl, hi⟩ | ⟨hl, hi⟩
    · have hld := lead_of_Lead hl
      have hcv := c7 v hv (by omega)
      have hr := rank_lt_end P hv hl
      have hmv := P.inside v hv
      have := hmv.1
      have := hmv.2
      unfold Lead at hl
      rw [hcv, if_pos (by omega), Holds_bind, Arr.wr_ok _ _ (by omega) (by omega), Holds_ok, Holds_bind, Arr.wr_ok _ _ (by omega) (by omega), Holds_ok, Holds_bind,
        Arr.wr_ok _ _ (by simp only [Arr.set_lo]; omega) (by simp only [Arr.set_hi]; omega), Holds_ok, Holds_pure]
      have hco : ∀ x, g.Vertex x → lead mate x = v → x = v ∨ x = mate v := by
        intro x hx he
        have := (lead_vertex P hx).2.2.1
        rwa [he] at this
      refine ⟨c1, c2, c3, c4, ?_, ?_, ?_, ?_⟩
      · dsimp only; rw [c5, rank_succ v1, hi]
      · intro x hx h
        dsimp only
        simp only [Arr.set_get]
        by_cases e1 : x = mate v
        · rw [if_pos e1, c5]; unfold coarOf; rw [e1, lead_mate P hv, hld]
        · rw [if_neg e1]
          by_cases e2 : x = v
          · rw [if_pos e2, c5]; unfold coarOf; rw [e2, hld]
          · rw [if_neg e2]
            refine c6 x hx ?_
            apply Classical.byContradiction
            intro hn
            rcases hco x hx (by omega) with h' | h'
            · exact e2 h'
            · exact e1 h'
      · intro x hx h
        dsimp only
        simp only [Arr.set_get]
        have e1 : x ≠ mate v := by
          intro e; rw [e, lead_mate P hv, hld] at h; omega
        have e2 : x ≠ v := by intro e; rw [e, hld] at h; omega
        rw [if_neg e1, if_neg e2]
        exact c7 x hx (by omega)
      · intro x hx h1 h2
        dsimp only
        simp only [Arr.set_get]
        by_cases e : x = v
        · rw [e, c5, if_pos rfl]
        · have hne : rank g mate x ≠ s.num := by
            rw [c5]; intro h; exact e (rank_inj hx.1 v1 h1 hl h)
          rw [if_neg hne]
          exact c8 x hx h1 (by omega)
    · have hlt : lead mate v < v := by
        unfold lead Lead at *; rw [if_neg hl]; omega
      have hcv := c6 v hv hlt
      have hlv := lead_vertex P hv
      have h3 := rank_le (g := g) (mate := mate) hlv.1.1
      have : coarOf g mate v < v := by unfold coarOf; omega
      rw [hcv, if_neg (by omega), Holds_pure]
      refine ⟨c1, c2, c3, c4, ?_, ?_, ?_, ?_⟩
      · rw [c5, rank_succ v1, hi]; omega
      · intro x hx h
        refine c6 x hx ?_
        apply Classical.byContradiction
        intro hn
        have h4 := (lead_vertex P hx).2.1
        rw [show lead mate x = v by omega] at h4
        exact hl h4
      · intro x hx h; exact c7 x hx (by omega)
      · intro x hx h1 h2
        refine c8 x hx h1 ?_
        apply Classical.byContradiction
        intro hn
        rw [show x = v by omega] at h1
        exact hl h1
  · rintro s ⟨c1, c2, c3, c4, c5, c6, c7, c8⟩
    refine ⟨by omega, by omega, by omega, by omega, ?_, ?_⟩
    · intro v hv
      have := (lead_vertex P hv).1.2
      exact c6 v hv this
    · intro v hv hl
      exact c8 v hv hl hv.2

/-! ## Threads -/

theorem countRange_holds {m : Arr Int} (hm : ∀ v, g.Vertex v → m.get v = mate v) (m1 : m.lo ≤ g.baseval) (m2 : g.vertnnd ≤ m.hi) {bas nnd : Int} (h1 : g.baseval ≤ bas) (h2 : bas ≤ nnd)
    (h3 : nnd ≤ g.vertnnd) : Holds (countRange m bas nnd) (fun n => n = rank g mate nnd - rank g mate bas) := by
  unfold countRange
  refine Holds_forUp (fun v (n : Int) => n = rank g mate v - rank g mate bas) h2 (by omega) ?_ (fun a h => h)
  intro v n v1 v2 hn
  rw [Holds_bind, Arr.rd_ok _ (by omega) (by omega), Holds_ok, hm v ⟨by omega, by omega⟩]
  rw [rank_succ (by omega)]
  rcases ind_cases mate v with ⟨hl, hi⟩ | ⟨hl, hi⟩
  · unfold Lead at hl; rw [if_pos (by omega), Holds_pure]; omega
  · unfold Lead at hl; rw [if_neg (by omega), Holds_pure]; omega

/-- The multinode array is filled for first vertices before `v`; other cells are unchanged. -/
structure MultUpTo (g : Graph) (mate : Int → Int) (v : Int) (mult0 mult : Arr (Int × Int)) : Prop where
  lo : mult.lo = mult0.lo
  hi : mult.hi = mult0.hi
  val : ∀ x, g.Vertex x → Lead mate x → x < v → mult.get (rank g mate x) = (x, mate x)

theorem multRange_holds (P : Pairing g mate) {m : Arr Int} (hm : ∀ v, g.Vertex v → m.get v = mate v) (m1 : m.lo ≤ g.baseval) (m2 : g.vertnnd ≤ m.hi) {bas nnd : Int} (h1 : g.baseval ≤ bas)
    (h2 : bas ≤ nnd) (h3 : nnd ≤ g.vertnnd) {mult0 mult : Arr (Int × Int)} (u1 : mult0.lo ≤ g.baseval) (u2 : g.baseval + pairs g mate ≤ mult0.hi) (hU : MultUpTo g mate bas mult0 mult) :
    Holds (multRange m bas nnd (rank g mate bas) mult) (fun r => MultUpTo g mate nnd mult0 r.1 ∧ ∀ c, ¬ (rank g mate bas ≤ c ∧ c < rank g mate nnd) → r.1.get c = mult.get c) := by
  unfold multRange
  refine (Holds_forUp (fun v (s : Arr (Int × Int) × Int) => (MultUpTo g mate v mult0 s.1 ∧ ∀ c, ¬ (rank g mate bas ≤ c ∧ c < rank g mate v) → s.1.get c = mult.get c) ∧
    s.2 = rank g mate v) h2 ⟨⟨hU, fun _ _ => rfl⟩, rfl⟩ ?_ (fun a h => h)).mono (fun r h => h.1)
  rintro v ⟨s, n⟩ v1 v2 ⟨⟨⟨a1, a2, a3⟩, a4⟩, a5⟩
  have hv : g.Vertex v := ⟨by omega, by omega⟩
  dsimp only at a1 a2 a3 a4 a5 ⊢
  rw [Holds_bind, Arr.rd_ok _ (by omega) (by omega), Holds_ok, hm v hv]
  have hmo := rank_mono (g := g) (mate := mate) (v := bas) (w := v) (by omega) v1
  rcases ind_cases mate v with ⟨hl, hi⟩ | ⟨hl, hi⟩
  · have hr := rank_lt_end P hv hl
    have hl' := hl
    unfold Lead at hl'
    rw [if_pos (by omega), Holds_bind, Arr.wr_ok _ _ (by omega) (by omega), Holds_ok, Holds_pure]
    refine ⟨⟨⟨a1, a2, ?_⟩, ?_⟩, ?_⟩
    · intro x hx h1 h2
      simp only [Arr.set_get]
      by_cases e : x = v
      · rw [e, a5, if_pos rfl]
      · rw [if_neg (by rw [a5]; intro h; exact e (rank_inj hx.1 hv.1 h1 hl h))]
        exact a3 x hx h1 (by omega)
    · intro c hc
      rw [rank_succ hv.1, hi] at hc
      rw [Arr.set_get_ne _ _ (by omega)]
      exact a4 c (by omega)
    · dsimp only; rw [rank_succ hv.1, hi]; omega
  · have hl' := hl
    unfold Lead at hl'
    rw [if_neg (by omega), Holds_pure]
    refine ⟨⟨⟨a1, a2, ?_⟩, ?_⟩, ?_⟩
    · intro x hx h1 h2
      by_cases e : x = v
      · rw [e] at h1; exact absurd h1 hl
      · exact a3 x hx h1 (by omega)
    · intro c hc
      rw [rank_succ hv.1, hi] at hc
      exact a4 c (by omega)
    · dsimp only; rw [rank_succ hv.1, hi]; omega

/-- Bounds of the ranges of `n` threads. -/
structure Bounds (lo hi : Int) (n : Nat) (bas : Nat → Int) : Prop where
  first : bas 0 = lo
  last : bas n = hi
  mono : ∀ i, i < n → bas i ≤ bas (i + 1)

theorem Bounds.le {lo hi : Int} {n : Nat} {bas : Nat → Int} (R : Bounds lo hi n bas) : ∀ j i, i ≤ j → j ≤ n → bas i ≤ bas j := by
  intro j
  induction j with
  | zero => intro i h _; rw [show i = 0 by omega]
  | succ j ih =>
    intro i h1 h2
    by_cases e : i = j + 1
    · rw [e]
    · have := ih i (by omega) (by omega)
      have := R.mono j (by omega)
      omega

theorem Bounds.in {lo hi : Int} {n : Nat} {bas : Nat → Int} (R : Bounds lo hi n bas) {i : Nat} (h : i ≤ n) : lo ≤ bas i ∧ bas i ≤ hi := by
  have h1 := R.le i 0 (by omega) h
  have h2 := R.le n i h (Nat.le_refl _)
  rw [R.first] at h1
  rw [R.last] at h2
  exact ⟨h1, h2⟩

theorem multPhase_holds (P : Pairing g mate) {m : Arr Int} (hm : ∀ v, g.Vertex v → m.get v = mate v) (m1 : m.lo ≤ g.baseval) (m2 : g.vertnnd ≤ m.hi) {n : Nat} {fbas : Nat → Int}
    (R : Bounds g.baseval g.vertnnd n fbas) {mult0 : Arr (Int × Int)} (u1 : mult0.lo ≤ g.baseval) (u2 : g.baseval + pairs g mate ≤ mult0.hi) : ∀ (k i : Nat) (mult : Arr (Int × Int)), i + k = n →
    MultUpTo g mate (fbas i) mult0 mult → Holds (multPhase m fbas k i (rank g mate (fbas i)) mult) (fun r => MultUpTo g mate g.vertnnd mult0 r) := by
  intro k
  induction k with
  | zero =>
    intro i mult hi hU
    unfold multPhase
    rw [Holds_ok, ← R.last, show n = i by omega]
    exact hU
  | succ k ih =>
    intro i mult hi hU
    have b1 := R.in (i := i) (by omega)
    have b2 := R.in (i := i + 1) (by omega)
    have b3 := R.mono i (by omega)
    unfold multPhase
    rw [Holds_bind]
    refine (countRange_holds (mate := mate) hm m1 m2 b1.1 b3 b2.2).mono ?_
    rintro c rfl
    rw [Holds_bind]
    refine (multRange_holds P hm m1 m2 b1.1 b3 b2.2 u1 u2 hU).mono ?_
    rintro r ⟨hr, -⟩
    rw [show rank g mate (fbas i) + (rank g mate (fbas (i + 1)) - rank g mate (fbas i)) = rank g mate (fbas (i + 1)) by omega]
    exact ih (i + 1) r.1 (by omega) hr

theorem coarRange_holds (P : Pairing g mate) (hle : g.baseval ≤ g.vertnnd) {mult : Arr (Int × Int)} (u1 : mult.lo ≤ g.baseval) (u2 : g.baseval + pairs g mate ≤ mult.hi)
    (hmult : ∀ x, g.Vertex x → Lead mate x → mult.get (rank g mate x) = (x, mate x)) {bas nnd : Int} (h1 : g.baseval ≤ bas) (h2 : bas ≤ nnd) (h3 : nnd ≤ g.baseval + pairs g mate)
    {coar : Arr Int} (m1 : coar.lo ≤ g.baseval) (m2 : g.vertnnd ≤ coar.hi) (hc : ∀ x, g.Vertex x → coarOf g mate x < bas → coar.get x = coarOf g mate x) :
    Holds (coarRange mult bas nnd coar) (fun r => r.lo = coar.lo ∧ r.hi = coar.hi ∧ (∀ x, g.Vertex x → coarOf g mate x < nnd → r.get x = coarOf g mate x) ∧
      (∀ x, ¬ (g.Vertex x ∧ bas ≤ coarOf g mate x ∧ coarOf g mate x < nnd) → r.get x = coar.get x)) := by
  unfold coarRange
  refine Holds_forUp (fun c (r : Arr Int) => r.lo = coar.lo ∧ r.hi = coar.hi ∧ (∀ x, g.Vertex x → coarOf g mate x < c → r.get x = coarOf g mate x) ∧
      (∀ x, ¬ (g.Vertex x ∧ bas ≤ coarOf g mate x ∧ coarOf g mate x < c) → r.get x = coar.get x)) h2 ⟨rfl, rfl, hc, fun _ _ => rfl⟩ ?_ (fun a h => h)
  rintro c r c1 c2 ⟨a1, a2, a3, a4⟩
  obtain ⟨y, y1, y2, y3⟩ := rank_surj' (mate := mate) hle (c := c) (by omega) (by omega)
  have hmy := hmult y y1 y2
  have hvm := P.inside y y1
  have := y1.1
  have := y1.2
  have := hvm.1
  have := hvm.2
  have cy : coarOf g mate y = c := by unfold coarOf; rw [lead_of_Lead y2]; exact y3
  have cm : coarOf g mate (mate y) = c := by unfold coarOf; rw [lead_mate P y1, lead_of_Lead y2]; exact y3
  rw [y3] at hmy
  rw [Holds_bind, Arr.rd_ok _ (by omega) (by omega), Holds_ok, hmy, Holds_bind, Arr.wr_ok _ _ (by omega) (by omega), Holds_ok,
    Arr.wr_ok _ _ (by simp only [Arr.set_lo]; omega) (by simp only [Arr.set_hi]; omega), Holds_ok]
  refine ⟨a1, a2, ?_, ?_⟩
  · intro x hx hlt
    simp only [Arr.set_get]
    by_cases e1 : x = y
    · rw [if_pos e1, e1, cy]
    · rw [if_neg e1]
      by_cases e2 : x = mate y
      · rw [if_pos e2, e2, cm]
      · rw [if_neg e2]
        refine a3 x hx ?_
        apply Classical.byContradiction
        intro hn
        have hxe : coarOf g mate x = c := by omega
        obtain ⟨l1, l2, l3, l4⟩ := lead_vertex P hx
        have : lead mate x = y := rank_inj l1.1 y1.1 l2 y2 (by unfold coarOf at hxe; omega)
        rw [this] at l3
        rcases l3 with h | h
        · exact e1 h
        · exact e2 h
  · intro x hx
    simp only [Arr.set_get]
    have e1 : x ≠ y := by intro e; apply hx; rw [e]; exact ⟨y1, by omega, by omega⟩
    have e2 : x ≠ mate y := by intro e; apply hx; rw [e]; exact ⟨hvm, by omega, by omega⟩
    rw [if_neg e1, if_neg e2]
    exact a4 x (fun h => hx ⟨h.1, h.2.1, by omega⟩)

theorem coarPhase_holds (P : Pairing g mate) (hle : g.baseval ≤ g.vertnnd) {mult : Arr (Int × Int)} (u1 : mult.lo ≤ g.baseval) (u2 : g.baseval + pairs g mate ≤ mult.hi)
    (hmult : ∀ x, g.Vertex x → Lead mate x → mult.get (rank g mate x) = (x, mate x)) {n : Nat} {cbas : Nat → Int} (R : Bounds g.baseval (g.baseval + pairs g mate) n cbas) :
    ∀ (k i : Nat) (coar : Arr Int), i + k = n → coar.lo ≤ g.baseval → g.vertnnd ≤ coar.hi → (∀ x, g.Vertex x → coarOf g mate x < cbas i → coar.get x = coarOf g mate x) →
    Holds (coarPhase mult cbas k i coar) (fun r => r.lo ≤ g.baseval ∧ g.vertnnd ≤ r.hi ∧ ∀ x, g.Vertex x → r.get x = coarOf g mate x) := by
  intro k
  induction k with
  | zero =>
    intro i coar hi h1 h2 h3
    unfold coarPhase
    rw [Holds_ok]
    refine ⟨h1, h2, fun x hx => h3 x hx ?_⟩
    have e : cbas i = g.baseval + pairs g mate := by rw [show i = n by omega]; exact R.last
    obtain ⟨l1, l2, -, -⟩ := lead_vertex P hx
    have := (rank_lt_end P l1 l2).2
    unfold coarOf
    omega
  | succ k ih =>
    intro i coar hi h1 h2 h3
    have b1 := R.in (i := i) (by omega)
    have b2 := R.in (i := i + 1) (by omega)
    have b3 := R.mono i (by omega)
    unfold coarPhase
    rw [Holds_bind]
    refine (coarRange_holds P hle u1 u2 hmult b1.1 b3 b2.2 h1 h2 h3).mono ?_
    rintro r ⟨a1, a2, a3, -⟩
    exact ih (i + 1) r (by omega) (by omega) (by omega) a3

end Scotch.Coarsen
