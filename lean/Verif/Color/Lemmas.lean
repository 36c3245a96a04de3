import Verif.Color.Spec
import Verif.Match.Lemmas

set_option autoImplicit false
set_option linter.unusedSimpArgs false

namespace Scotch.Color

/-- `w` goes before `v`. -/
def Before (rand : Int → Int) (w v : Int) : Prop := rand w > rand v ∨ (rand w = rand v ∧ w > v)

theorem Before.total {rand : Int → Int} {v w : Int} (h : v ≠ w) : Before rand v w ∨ Before rand w v := by unfold Before; omega
theorem Before.trans {rand : Int → Int} {u v w : Int} (h1 : Before rand u v) (h2 : Before rand v w) : Before rand u w := by unfold Before at *; omega
theorem Before.asymm {rand : Int → Int} {v w : Int} (h : Before rand v w) : ¬ Before rand w v := by unfold Before at *; omega

/-- Among finitely many vertices, one has none before it. -/
theorem exists_first (rand q : Int → Int) (lo : Int) : ∀ n : Nat, 0 < n → ∃ j, lo ≤ j ∧ j < lo + n ∧ ∀ i, lo ≤ i → i < lo + n → ¬ Before rand (q i) (q j) := by
  intro n
  induction n with
  | zero => intro h; omega
  | succ n ih =>
    intro _
    by_cases hn : n = 0
    · subst hn
      refine ⟨lo, by omega, by omega, ?_⟩
      intro i h1 h2
      rw [show i = lo by omega]
      unfold Before; omega
    · obtain ⟨j, j1, j2, j3⟩ := ih (by omega)
      by_cases hb : Before rand (q (lo + n)) (q j)
      · refine ⟨lo + n, by omega, by omega, ?_⟩
        intro i h1 h2 h
        by_cases e : i = lo + n
        · rw [e] at h; unfold Before at h; omega
        · exact j3 i h1 (by omega) (h.trans hb)
      · refine ⟨j, j1, by omega, ?_⟩
        intro i h1 h2
        by_cases e : i = lo + n
        · rw [e]; exact hb
        · exact j3 i h1 (by omega)

variable {g : Graph} {rand : Arr Int}

/-- What is assumed. -/
structure Pre (g : Graph) (rand : Arr Int) : Prop where
  cons : g.Consistent
  alloc : g.Allocated
  rlo : rand.lo ≤ g.baseval
  rhi : g.vertnnd ≤ rand.hi

theorem nbrs_holds (P : Pre g rand) {colo : Arr Int} (c1 : colo.lo = g.baseval) (c2 : colo.hi = g.vertnnd) {v : Int} (hv : g.Vertex v) :
    Holds (forUpB (g.vert v) (g.vend v) () (nbrBody g rand colo v (rand.get v))) (fun r => (r = .next () ∧ ∀ w, Adj g v w → colo.get w < 0 → ¬ Before rand.get w v) ∨
      (r = .brk () ∧ ∃ w, Adj g v w ∧ colo.get w < 0 ∧ Before rand.get w v)) := by
  refine Holds_forUpB (fun e _ => ∀ x, g.vert v ≤ x → x < e → colo.get (g.dest x) < 0 → ¬ Before rand.get (g.dest x) v) (fun _ => ∃ w, Adj g v w ∧ colo.get w < 0 ∧ Before rand.get w v)
    (P.cons.range v hv).2 (fun x h1 h2 => by omega) ?_ ?_ ?_
  · intro e _ h1 h2 hI
    have hn := Match.nbr_of_arc h1 h2
    have hin := (P.cons.inside v _ hv hn).1
    have ha := P.alloc.edge v hv (by omega)
    have := hin.1
    have := hin.2
    have := P.rlo
    have := P.rhi
    unfold nbrBody
    rw [Holds_bind, Arr.rd_ok _ (by omega) (by omega), Holds_ok, show g.edgetax.get e = g.dest e from rfl, Holds_bind, Arr.rd_ok _ (by omega) (by omega), Holds_ok]
    have hnext : (colo.get (g.dest e) < 0 → ¬ Before rand.get (g.dest e) v) → ∀ x, g.vert v ≤ x → x < e + 1 → colo.get (g.dest x) < 0 → ¬ Before rand.get (g.dest x) v := by
      intro h x x1 x2
      by_cases he : x = e
      · rw [he]; exact h
      · exact hI x x1 (by omega)
    by_cases hc : colo.get (g.dest e) ≥ 0
    · rw [if_pos hc, Holds_pure, Loop.Sat_next]
      exact hnext (fun h => by omega)
    · rw [if_neg hc, Holds_bind, Arr.rd_ok _ (by omega) (by omega), Holds_ok]
      by_cases hb : rand.get (g.dest e) > rand.get v ∨ (rand.get (g.dest e) = rand.get v ∧ g.dest e > v)
      · rw [if_pos hb, Holds_pure, Loop.Sat_brk]
        exact ⟨g.dest e, ⟨_, hn⟩, by omega, hb⟩
      · rw [if_neg hb, Holds_pure, Loop.Sat_next]
        exact hnext (fun _ => hb)
  · intro _ hI
    left
    refine ⟨rfl, ?_⟩
    rintro w ⟨l, hw⟩ hc
    obtain ⟨e, he, hq⟩ := List.mem_map.1 hw
    rw [Match.mem_arcs] at he
    have : g.dest e = w := congrArg Prod.fst hq
    rw [← this] at hc ⊢
    exact hI e he.1 he.2 hc
  · intro _ h
    exact Or.inr ⟨rfl, h⟩

/-- State between passes: the queue `q` holds the vertices without colour. -/
structure Inv (g : Graph) (rand : Arr Int) (queunnd colonum : Int) (colo : Arr Int) (q : Int → Int) : Prop where
  clo : colo.lo = g.baseval
  chi : colo.hi = g.vertnnd
  n0 : 0 ≤ colonum
  nnd : g.baseval ≤ queunnd ∧ queunnd ≤ g.vertnnd
  inside : ∀ i, g.baseval ≤ i → i < queunnd → g.Vertex (q i) ∧ colo.get (q i) < 0
  mono : ∀ i j, g.baseval ≤ i → i < j → j < queunnd → q i < q j
  all : ∀ v, g.Vertex v → colo.get v < 0 → ∃ i, g.baseval ≤ i ∧ i < queunnd ∧ q i = v
  range : ∀ v, g.Vertex v → colo.get v < colonum
  used : ∀ k, 0 ≤ k → k < colonum → ∃ v, g.Vertex v ∧ colo.get v = k
  edge : ∀ v w, g.Vertex v → Adj g v w → v < w → 0 ≤ colo.get v → colo.get v = colo.get w → rand.get w < rand.get v

/-- State within a pass, before index `i`. -/
structure Pass (g : Graph) (rand : Arr Int) (queunnd colonum : Int) (colo0 : Arr Int) (q : Int → Int) (i : Int) (s : PState) : Prop where
  clo : s.colo.lo = g.baseval
  chi : s.colo.hi = g.vertnnd
  qlo : s.queu.lo = g.baseval
  qhi : s.queu.hi = g.vertnnd
  new : g.baseval ≤ s.new ∧ s.new ≤ i
  rest : ∀ j, i ≤ j → j < queunnd → (queunnd ≠ g.vertnnd → s.queu.get j = q j) ∧ s.colo.get (q j) < 0
  kept : ∀ k, g.baseval ≤ k → k < s.new → ∃ j, g.baseval ≤ j ∧ j < i ∧ s.queu.get k = q j ∧ s.colo.get (q j) < 0
  mono : ∀ k l, g.baseval ≤ k → k < l → l < s.new → s.queu.get k < s.queu.get l
  done : ∀ j, g.baseval ≤ j → j < i → s.colo.get (q j) = colonum ∨ ∃ k, g.baseval ≤ k ∧ k < s.new ∧ s.queu.get k = q j
  old : ∀ v, g.Vertex v → 0 ≤ colo0.get v → s.colo.get v = colo0.get v
  fresh : ∀ v, g.Vertex v → colo0.get v < 0 → s.colo.get v < 0 ∨ (s.colo.get v = colonum ∧ ∃ j, g.baseval ≤ j ∧ j < i ∧ q j = v)
  first : ∀ v, g.Vertex v → s.colo.get v = colonum → ∀ w, Adj g v w → s.colo.get w < 0 → ¬ Before rand.get w v
  edge : ∀ v w, g.Vertex v → Adj g v w → v < w → 0 ≤ s.colo.get v → s.colo.get v = s.colo.get w → rand.get w < rand.get v
  progress : ∀ j, g.baseval ≤ j → j < i → (∀ k, g.baseval ≤ k → k < queunnd → ¬ Before rand.get (q k) (q j)) → s.colo.get (q j) = colonum ∧ s.new < i

theorem Adj.symm (C : g.Consistent) {v w : Int} (hv : g.Vertex v) (h : Adj g v w) : Adj g w v := by
  obtain ⟨l, h⟩ := h
  exact ⟨l, C.symm v _ hv h⟩

theorem Adj.inside (C : g.Consistent) {v w : Int} (hv : g.Vertex v) (h : Adj g v w) : g.Vertex w ∧ w ≠ v := by
  obtain ⟨l, h⟩ := h
  exact C.inside v _ hv h

theorem passBody_holds (P : Pre g rand) {queunnd colonum : Int} {colo0 : Arr Int} {q : Int → Int} (I : Inv g rand queunnd colonum colo0 q) (hq : queunnd = g.vertnnd → ∀ i, q i = i) {i : Int} (h1 : g.baseval ≤ i)
    (h2 : i < queunnd) {s : PState} (S : Pass g rand queunnd colonum colo0 q i s) : Holds (passBody g rand colonum queunnd i s) (Pass g rand queunnd colonum colo0 q (i + 1)) := by
  have hn := I.nnd
  obtain ⟨hv, hcv0⟩ := I.inside i h1 h2
  have hq' : queueAt g queunnd s.queu i = .ok (q i) := by
    unfold queueAt
    have := S.qlo
    have := S.qhi
    by_cases e : queunnd = g.vertnnd
    · rw [if_pos e, hq e]; rfl
    · rw [if_neg e, Arr.rd_ok _ (by omega) (by omega), (S.rest i (Int.le_refl _) h2).1 e]
  have v1 := hv.1
  have v2 := hv.2
  have r1 := P.rlo
  have r2 := P.rhi
  have a1 := P.alloc.vlo
  have a2 := P.alloc.vhi
  unfold passBody
  rw [Holds_bind, hq', Holds_ok, Holds_bind, Arr.rd_ok _ (by omega) (by omega), Holds_ok, Holds_bind, Arr.rd_ok _ (by omega) (by omega), Holds_ok, Holds_bind, Match.rdVend_holds P.alloc hv, Holds_ok, Holds_bind]
  refine (nbrs_holds P S.clo S.chi hv).mono ?_
  have hnew := S.new
  have hcv := (S.rest i (Int.le_refl _) h2).2
  have hinj : ∀ j, g.baseval ≤ j → j < queunnd → q j = q i → j = i := by
    intro j j1 j2 e
    rcases Int.lt_trichotomy j i with h | h | h
    · have := I.mono j i j1 h h2; omega
    · exact h
    · have := I.mono i j h1 h j2; omega
  have c1 := S.clo
  have c2 := S.chi
  have q1 := S.qlo
  have q2 := S.qhi
  rintro r (⟨rfl, hr⟩ | ⟨rfl, w, hw, hwc, hwb⟩)
  · -- the vertex takes the colour
    unfold endBody
    dsimp only
    rw [Holds_bind, Arr.wr_ok _ _ (by omega) (by omega), Holds_ok, Holds_pure]
    have hne : ∀ j, g.baseval ≤ j → j < queunnd → j ≠ i → q j ≠ q i := fun j j1 j2 h e => h (hinj j j1 j2 e)
    have hneg : ∀ w, (s.colo.set (q i) colonum).get w < 0 → w ≠ q i ∧ s.colo.get w < 0 := by
      intro w h
      rw [Arr.set_get] at h
      by_cases e : w = q i
      · rw [if_pos e] at h; have := I.n0; omega
      · rw [if_neg e] at h; exact ⟨e, h⟩
    have n0 := I.n0
    refine ⟨c1, c2, q1, q2, ⟨hnew.1, by dsimp only; omega⟩, ?_, ?_, S.mono, ?_, ?_, ?_, ?_, ?_, ?_⟩
    · intro j j1 j2
      obtain ⟨b1, b2⟩ := S.rest j (by omega) j2
      refine ⟨b1, ?_⟩
      dsimp only
      rw [Arr.set_get_ne _ _ (hne j (by omega) j2 (by omega))]
      exact b2
    · intro k k1 k2
      obtain ⟨j, j1, j2, j3, j4⟩ := S.kept k k1 k2
      refine ⟨j, j1, by omega, j3, ?_⟩
      dsimp only
      rw [Arr.set_get_ne _ _ (hne j (by omega) (by omega) (by omega))]
      exact j4
    · intro j j1 j2
      dsimp only
      by_cases e : j = i
      · left; rw [e, Arr.set_get, if_pos rfl]
      · rw [Arr.set_get_ne _ _ (hne j j1 (by omega) e)]
        exact S.done j j1 (by omega)
    · intro x hx hc
      dsimp only
      rw [Arr.set_get_ne _ _ (by intro e; rw [e] at hc; omega)]
      exact S.old x hx hc
    · intro x hx hc
      dsimp only
      by_cases e : x = q i
      · right; rw [e, Arr.set_get, if_pos rfl]; exact ⟨rfl, i, h1, by omega, rfl⟩
      · rw [Arr.set_get_ne _ _ e]
        rcases S.fresh x hx hc with h | ⟨h, j, j1, j2, j3⟩
        · exact Or.inl h
        · exact Or.inr ⟨h, j, j1, by omega, j3⟩
    · intro x hx hc w hw hwc
      dsimp only at hc hwc
      obtain ⟨b1, b2⟩ := hneg w hwc
      by_cases e : x = q i
      · rw [e] at hw ⊢; exact hr w hw b2
      · rw [Arr.set_get_ne _ _ e] at hc
        exact S.first x hx hc w hw b2
    · intro x w hx hw hlt h0 he
      dsimp only at h0 he
      obtain ⟨wv, wn⟩ := hw.inside P.cons hx
      have hold : ∀ y, g.Vertex y → s.colo.get y = colonum → y < q i := by
        intro y hy hc
        have : colo0.get y < 0 := by
          apply Classical.byContradiction
          intro h
          have e1 := S.old y hy (by omega)
          have e2 := I.range y hy
          omega
        rcases S.fresh y hy this with h | ⟨-, j, j1, j2, j3⟩
        · omega
        · rw [← j3]; exact I.mono j i j1 j2 h2
      by_cases ew : w = q i
      · rw [ew, Arr.set_get (j := q i), if_pos rfl, Arr.set_get_ne _ _ (by omega)] at he
        have := S.first x hx he (q i) (by rw [← ew]; exact hw) hcv
        unfold Before at this
        rw [ew]; omega
      · rw [Arr.set_get_ne (j := w) _ _ ew] at he
        by_cases ex : x = q i
        · rw [ex, Arr.set_get, if_pos rfl] at he
          have := hold w wv he.symm
          omega
        · rw [Arr.set_get_ne _ _ ex] at he h0
          exact S.edge x w hx hw hlt h0 he
    · intro j j1 j2 hf
      dsimp only
      by_cases e : j = i
      · rw [e, Arr.set_get, if_pos rfl]; exact ⟨rfl, by omega⟩
      · obtain ⟨b1, b2⟩ := S.progress j j1 (by omega) hf
        rw [Arr.set_get_ne _ _ (hne j j1 (by omega) e)]
        exact ⟨b1, by omega⟩
  · -- the vertex goes to the next queue
    unfold endBody
    dsimp only
    rw [Holds_bind, Arr.wr_ok _ _ (by omega) (by omega), Holds_ok, Holds_pure]
    refine ⟨c1, c2, q1, q2, ⟨by dsimp only; omega, by dsimp only; omega⟩, ?_, ?_, ?_, ?_, S.old, ?_, S.first, S.edge, ?_⟩
    · intro j j1 j2
      obtain ⟨b1, b2⟩ := S.rest j (by omega) j2
      refine ⟨fun e => ?_, b2⟩
      dsimp only
      rw [Arr.set_get_ne _ _ (by omega)]
      exact b1 e
    · intro k k1 k2
      dsimp only at k2 ⊢
      by_cases e : k = s.new
      · refine ⟨i, h1, by omega, ?_, hcv⟩
        rw [e, Arr.set_get, if_pos rfl]
      · obtain ⟨j, j1, j2, j3, j4⟩ := S.kept k k1 (by omega)
        refine ⟨j, j1, by omega, ?_, j4⟩
        rw [Arr.set_get_ne _ _ e]; exact j3
    · intro k l k1 k2 k3
      dsimp only at k3 ⊢
      rw [Arr.set_get_ne (j := k) _ _ (by omega)]
      by_cases e : l = s.new
      · rw [e, Arr.set_get, if_pos rfl]
        obtain ⟨j, j1, j2, j3, -⟩ := S.kept k k1 (by omega)
        rw [j3]; exact I.mono j i j1 j2 h2
      · rw [Arr.set_get_ne _ _ e]
        exact S.mono k l k1 k2 (by omega)
    · intro j j1 j2
      dsimp only
      by_cases e : j = i
      · right; exact ⟨s.new, by omega, by omega, by rw [Arr.set_get, if_pos rfl, e]⟩
      · rcases S.done j j1 (by omega) with h | ⟨k, k1, k2, k3⟩
        · left; exact h
        · right; exact ⟨k, k1, by omega, by rw [Arr.set_get_ne _ _ (by omega)]; exact k3⟩
    · intro x hx hc
      rcases S.fresh x hx hc with h | ⟨h, j, j1, j2, j3⟩
      · exact Or.inl h
      · exact Or.inr ⟨h, j, j1, by omega, j3⟩
    · intro j j1 j2 hf
      dsimp only
      by_cases e : j = i
      · exfalso
        obtain ⟨wv, -⟩ := hw.inside P.cons hv
        have hc0 : colo0.get w < 0 := by
          apply Classical.byContradiction
          intro h
          have := S.old w wv (by omega)
          omega
        obtain ⟨k, k1, k2, k3⟩ := I.all w wv hc0
        apply hf k k1 k2
        rw [k3, e]; exact hwb
      · obtain ⟨b1, b2⟩ := S.progress j j1 (by omega) hf
        exact ⟨b1, by omega⟩

/-- View of the queue. -/
def view (g : Graph) (queunnd : Int) (queu : Arr Int) (i : Int) : Int := if queunnd = g.vertnnd then i else queu.get i

theorem colorWith_holds (P : Pre g rand) (qjunk : Int → Int) :
    Holds (colorWith g rand qjunk) (fun r => Coloured g r.1.get r.2 ∧ ∀ v w, g.Vertex v → Adj g v w → v < w → r.1.get v = r.1.get w → rand.get w < rand.get v) := by
  have h0 := P.cons.vertnbr
  have h0' := P.cons.vertnnd
  unfold colorWith
  refine Holds_loopM (fun s => Inv g rand s.queunnd s.colonum s.colo (view g s.queunnd s.queu) ∧ s.queu.lo = g.baseval ∧ s.queu.hi = g.vertnnd) (fun s => (s.queunnd - g.baseval).toNat) ?_ _ _ ?_ ?_
  · rintro s ⟨I, q1, q2⟩
    unfold colorStep
    have hn := I.nnd
    by_cases hgt : s.queunnd > g.baseval
    · rw [if_pos hgt, Holds_bind]
      refine (Holds_forUp (Pass g rand s.queunnd s.colonum s.colo (view g s.queunnd s.queu)) hn.1 ?_ (fun i s' i1 i2 S => passBody_holds P I (fun e i => if_pos e) i1 i2 S) (fun a h => h)).mono ?_
      · refine ⟨I.clo, I.chi, q1, q2, ⟨Int.le_refl _, Int.le_refl _⟩, ?_, ?_, ?_, ?_, ?_, ?_, ?_, ?_, ?_⟩
        · intro j j1 j2
          refine ⟨fun e => ?_, (I.inside j j1 j2).2⟩
          unfold view; rw [if_neg e]
        · intro k k1 k2; dsimp only at k2; omega
        · intro k l k1 k2 k3; dsimp only at k3; omega
        · intro j j1 j2; omega
        · intro v _ _; rfl
        · intro v hv h; exact Or.inl h
        · intro v hv h; have := I.range v hv; dsimp only at h; omega
        · exact I.edge
        · intro j j1 j2; omega
      · intro r S
        rw [Holds_pure, Loop.Sat_next]
        obtain ⟨j, j1, j2, j3⟩ := exists_first rand.get (view g s.queunnd s.queu) g.baseval (s.queunnd - g.baseval).toNat (by omega)
        have hp := S.progress j j1 (by omega) (fun k k1 k2 => j3 k k1 (by omega))
        have hview : view g r.new r.queu = r.queu.get := by
          funext k; unfold view; rw [if_neg (by omega)]
        refine ⟨⟨?_, S.qlo, S.qhi⟩, by dsimp only; have := S.new; omega⟩
        dsimp only
        rw [hview]
        have hnew := S.new
        have hn0 := I.n0
        refine ⟨S.clo, S.chi, by omega, by omega, ?_, S.mono, ?_, ?_, ?_, S.edge⟩
        · intro k k1 k2
          obtain ⟨i, i1, i2, i3, i4⟩ := S.kept k k1 k2
          rw [i3]
          exact ⟨(I.inside i i1 i2).1, i4⟩
        · intro v hv hc
          have : s.colo.get v < 0 := by
            apply Classical.byContradiction
            intro h
            have := S.old v hv (by omega)
            omega
          obtain ⟨i, i1, i2, i3⟩ := I.all v hv this
          rcases S.done i i1 i2 with h | ⟨k, k1, k2, k3⟩
          · rw [i3] at h; omega
          · exact ⟨k, k1, k2, by rw [k3, i3]⟩
        · intro v hv
          by_cases hc : s.colo.get v < 0
          · rcases S.fresh v hv hc with h | ⟨h, -⟩ <;> omega
          · have := S.old v hv (by omega)
            have := I.range v hv
            omega
        · intro k k1 k2
          by_cases e : k = s.colonum
          · exact ⟨_, (I.inside j j1 (by omega)).1, by rw [e]; exact hp.1⟩
          · obtain ⟨v, v1, v2⟩ := I.used k k1 (by omega)
            exact ⟨v, v1, by rw [S.old v v1 (by omega)]; exact v2⟩
    · rw [if_neg hgt, Holds_pure, Loop.Sat_brk]
      have hall : ∀ v, g.Vertex v → 0 ≤ s.colo.get v := by
        intro v hv
        apply Classical.byContradiction
        intro h
        obtain ⟨i, i1, i2, -⟩ := I.all v hv (by omega)
        omega
      exact ⟨⟨fun v hv => ⟨hall v hv, I.range v hv⟩, I.used⟩, fun v w hv hw hlt he => I.edge v w hv hw hlt (hall v hv) he⟩
  · refine ⟨⟨rfl, rfl, Int.le_refl _, by dsimp only; omega, ?_, ?_, ?_, ?_, ?_, ?_⟩, rfl, rfl⟩
    · intro i i1 i2
      dsimp only
      unfold view
      rw [if_pos rfl]
      exact ⟨⟨i1, i2⟩, by show (-1 : Int) < 0; omega⟩
    · intro i j _ h _
      dsimp only; unfold view; rw [if_pos rfl, if_pos rfl]; exact h
    · intro v hv _
      refine ⟨v, hv.1, hv.2, ?_⟩
      dsimp only; unfold view; rw [if_pos rfl]
    · intro v _; show (-1 : Int) < 0; omega
    · intro k k1 k2; dsimp only at k2; omega
    · intro v w _ _ _ h; exact absurd h (by show ¬ (0 : Int) ≤ -1; omega)
  · dsimp only; omega

theorem drawAll_holds (w : Nat) (g : Graph) (hle : g.baseval ≤ g.vertnnd) (junk : Int → Int) (c : Rand.Ctx) : Holds (drawAll w g junk c) (fun r => r.1.lo = g.baseval ∧ r.1.hi = g.vertnnd) := by
  unfold drawAll
  refine Holds_forUp (fun _ (s : Arr Int × Rand.Ctx) => s.1.lo = g.baseval ∧ s.1.hi = g.vertnnd) hle ⟨rfl, rfl⟩ ?_ (fun a h => h)
  rintro v s v1 v2 ⟨s1, s2⟩
  unfold Rand.val
  rw [Holds_bind]
  dsimp only
  rw [if_neg (by omega), Holds_ok, Holds_bind, Arr.wr_ok _ _ (by omega) (by omega), Holds_ok, Holds_pure]
  exact ⟨s1, s2⟩

end Scotch.Color
