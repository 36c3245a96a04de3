import Verif.Band.Spec
import Verif.Bipart.LemmasGpGrow
import Verif.Graph.Weight

/-! # Band graphs: proofs -/

set_option autoImplicit false
set_option linter.unusedSimpArgs false

namespace Scotch.Band
open Graph
variable {g : Graph} {F : Int → Prop} {pfix : Option (Arr Int)}

theorem Within.mono {n m : Nat} {v : Int} (h : Within g F n v) (hle : n ≤ m) : Within g F m v := by
  induction h generalizing m with
  | start n hf => exact .start m hf
  | step _ hp ih =>
    obtain ⟨k, rfl⟩ : ∃ k, m = k + 1 := ⟨m - 1, by omega⟩
    exact .step (ih (by omega)) hp

theorem within_zero {v : Int} : Within g F 0 v ↔ F v := by
  constructor
  · intro h; cases h; assumption
  · exact .start 0

theorem within_succ {n : Nat} {v : Int} : Within g F (n + 1) v ↔ Within g F n v ∨ ∃ u, Within g F n u ∧ g.Adj u v := by
  constructor
  · intro h
    cases h with
    | start _ hf => exact Or.inl (.start n hf)
    | step h hp => exact Or.inr ⟨_, h, (adj_iff _ _).2 ⟨_, hp, rfl⟩⟩
  · rintro (h | ⟨u, h, ha⟩)
    · exact h.mono (by omega)
    · obtain ⟨p, hp, rfl⟩ := (adj_iff _ _).1 ha
      exact .step h hp

theorem within_vertex (hc : ConsE g) (hF : ∀ v, F v → g.Vertex v) {n : Nat} {v : Int} (h : Within g F n v) : g.Vertex v := by
  induction h with
  | start _ hf => exact hF _ hf
  | step _ hp ih => exact (hc.adj_vertex ih ((adj_iff _ _).2 ⟨_, hp, rfl⟩)).1

open Classical in
/-- 1 for vertices that are not fixed. -/
noncomputable def nf (pfix : Option (Arr Int)) (v : Int) : Int := if Fixed pfix v then 0 else 1

theorem nf_bnd (pfix : Option (Arr Int)) (v : Int) : 0 ≤ nf pfix v ∧ nf pfix v ≤ 1 := by unfold nf; split <;> omega

open Classical in
/-- State of the search when the elements of `P` have been reached. -/
structure Inv (g : Graph) (pfix : Option (Arr Int)) (P : Int → Prop) (s : St) : Prop where
  bnd : s.vnum.lo = g.baseval ∧ s.vnum.hi = g.vertnnd
  sub : ∀ v, P v → g.Vertex v
  enum : Enum s.queu s.next P
  num : ∀ i, 0 ≤ i → i < s.next → s.vnum.get (s.queu.get i) = if Fixed pfix (s.queu.get i) then -2 else g.baseval + sumI 0 i (fun j => nf pfix (s.queu.get j))
  out : ∀ v, ¬ P v → s.vnum.get v = -1
  vertnum : s.vertnum = g.baseval + sumI 0 s.next (fun j => nf pfix (s.queu.get j))
  vfixnbr : s.vfixnbr = s.next - sumI 0 s.next (fun j => nf pfix (s.queu.get j))
  edgenbr : s.edgenbr = sumI 0 s.next (fun j => g.vend (s.queu.get j) - g.vert (s.queu.get j))

theorem Inv.congr {P Q : Int → Prop} {s : St} (h : Inv g pfix P s) (e : ∀ v, P v ↔ Q v) : Inv g pfix Q s := by
  have : P = Q := by funext v; exact propext (e v)
  rw [← this]; exact h

theorem isFix_holds (hb : ∀ a, pfix = some a → a.lo ≤ g.baseval ∧ g.vertnnd ≤ a.hi) {v : Int} (hv : g.Vertex v) :
    Holds (isFix pfix v) (fun r => r = true ↔ Fixed pfix v) := by
  unfold isFix
  cases pfix with
  | none =>
    dsimp only
    rw [Holds_pure]
    refine ⟨fun h => (by cases h), ?_⟩
    rintro ⟨a, h, _⟩
    cases h
  | some a =>
    have := hb a rfl
    have v1 := hv.1
    have v2 := hv.2
    dsimp only
    rw [Arr.rd_ok _ (by omega) (by omega), ok_bind, Holds_pure, decide_eq_true_iff]
    constructor
    · intro h; exact ⟨a, rfl, h⟩
    · rintro ⟨a', h, h'⟩
      cases h
      exact h'

open Classical in
/-- State after a vertex has been reached. -/
noncomputable def after (g : Graph) (pfix : Option (Arr Int)) (w : Int) (s : St) : St :=
  { s with
    vnum := s.vnum.set w (if Fixed pfix w then -2 else s.vertnum), vertnum := s.vertnum + nf pfix w, vfixnbr := s.vfixnbr + 1 - nf pfix w,
    edgenbr := s.edgenbr + (g.vend w - g.vert w) }

theorem reach_holds (ha : Allocated g) (hb : ∀ a, pfix = some a → a.lo ≤ g.baseval ∧ g.vertnnd ≤ a.hi) {w : Int} (hw : g.Vertex w) {s : St}
    (hv : s.vnum.lo = g.baseval ∧ s.vnum.hi = g.vertnnd) : Holds (reach g pfix w s) (fun t => t = after g pfix w s) := by
  have w1 := hw.1
  have w2 := hw.2
  unfold reach
  rw [Holds_bind]
  refine (isFix_holds hb hw).mono ?_
  intro fix hf
  rw [Arr.wr_ok _ _ (by omega) (by omega), ok_bind, rdVert_eq ha hw, ok_bind, rdVend_eq ha hw, ok_bind, Holds_pure]
  unfold after nf
  by_cases h : Fixed pfix w
  · rw [hf.2 h]
    simp only [if_pos h, if_true]
    congr 1 <;> omega
  · have : fix = false := by cases fix; rfl; exact absurd (hf.1 rfl) h
    rw [this]
    simp only [if_neg h, if_false, Bool.false_eq_true]
    congr 1; omega

theorem Inv.push {P : Int → Prop} {s : St} (h : Inv g pfix P s) {w : Int} (hw : g.Vertex w) (hP : ¬ P w) {q : Arr Int}
    (hq : ∀ i, 0 ≤ i → i < s.next → q.get i = s.queu.get i) (hqn : q.get s.next = w) :
    Inv g pfix (fun v => P v ∨ v = w) { after g pfix w s with queu := q, next := s.next + 1 } := by
  classical
  have h0 := h.enum.1
  have hnw : ∀ i, 0 ≤ i → i < s.next → s.queu.get i ≠ w := fun i i1 i2 e => hP (e ▸ h.enum.mem i1 i2)
  have hs : ∀ (f : Int → Int) (i : Int), i ≤ s.next → sumI 0 i (fun j => f (q.get j)) = sumI 0 i (fun j => f (s.queu.get j)) :=
    fun f i hi => sumI_congr fun j j1 j2 => by rw [hq j j1 (by omega)]
  refine ⟨h.bnd, ?_, ?_, ?_, ?_, ?_, ?_, ?_⟩
  · rintro v (hv | rfl)
    · exact h.sub v hv
    · exact hw
  · refine (h.enum.push hP).agree ?_
    intro i i1 i2
    dsimp only at i2 ⊢
    by_cases hi : i = s.next
    · rw [hi, hqn, Arr.set_get_same]
    · rw [hq i i1 (by omega), Arr.set_get_ne _ _ hi]
  · intro i i1 i2
    change i < s.next + 1 at i2
    change (s.vnum.set w _).get (q.get i) = if Fixed pfix (q.get i) then _ else g.baseval + sumI 0 i (fun j => nf pfix (q.get j))
    rw [hs _ _ (by omega)]
    by_cases hi : i = s.next
    · rw [hi, hqn, Arr.set_get_same, h.vertnum]
    · rw [hq i i1 (by omega), Arr.set_get_ne _ _ (hnw i i1 (by omega))]
      exact h.num i i1 (by omega)
  · intro v hv
    change (s.vnum.set w _).get v = -1
    rw [Arr.set_get_ne _ _ (fun e => hv (Or.inr e))]
    exact h.out v (fun e => hv (Or.inl e))
  · change s.vertnum + nf pfix w = g.baseval + sumI 0 (s.next + 1) (fun j => nf pfix (q.get j))
    rw [sumI_succ h0, hqn, hs _ _ (Int.le_refl _), h.vertnum]; omega
  · change s.vfixnbr + 1 - nf pfix w = s.next + 1 - sumI 0 (s.next + 1) (fun j => nf pfix (q.get j))
    rw [sumI_succ h0, hqn, hs _ _ (Int.le_refl _), h.vfixnbr]; omega
  · change s.edgenbr + (g.vend w - g.vert w) = sumI 0 (s.next + 1) (fun j => g.vend (q.get j) - g.vert (q.get j))
    rw [sumI_succ h0, hqn, hs (fun v => g.vend v - g.vert v) _ (Int.le_refl _), h.edgenbr]

/-- Reached vertices have numbers other than −1. -/
theorem Inv.reached {P : Int → Prop} {s : St} (h : Inv g pfix P s) (hb : 0 ≤ g.baseval) {v : Int} : s.vnum.get v = -1 ↔ ¬ P v := by
  constructor
  · intro e hp
    obtain ⟨i, i1, i2, rfl⟩ := (h.enum.2.2 v).1 hp
    rw [h.num i i1 i2] at e
    have : 0 ≤ sumI 0 i (fun j => nf pfix (s.queu.get j)) := sumI_nonneg fun j _ _ => (nf_bnd pfix _).1
    split at e <;> omega
  · exact h.out v

/-- The queue is sorted by distances. -/
def Sorted (g : Graph) (F : Int → Prop) (s : St) : Prop :=
  ∀ i j, 0 ≤ i → i < j → j < s.next → ∀ n, Within g F n (s.queu.get j) → Within g F n (s.queu.get i)

variable {qlo qhi : Int}

/-- State while a level is explored: `P` is between the elements at distance `n` and the ones at distance `n + 1`. -/
structure Mid (g : Graph) (F : Int → Prop) (pfix : Option (Arr Int)) (qlo qhi : Int) (n : Nat) (s0 s : St) (P : Int → Prop) : Prop where
  inv : Inv g pfix P s
  qb : s.queu.lo = qlo ∧ s.queu.hi = qhi
  lower : ∀ v, Within g F n v → P v
  upper : ∀ v, P v → Within g F (n + 1) v
  sorted : Sorted g F s
  keep : s0.next ≤ s.next ∧ ∀ i, 0 ≤ i → i < s0.next → s.queu.get i = s0.queu.get i

theorem arcs_holds (hc : ConsE g) (ha : Allocated g) (hb : 0 ≤ g.baseval) (hq : qlo ≤ 0 ∧ g.vertnbr ≤ qhi) (hpf : ∀ a, pfix = some a → a.lo ≤ g.baseval ∧ g.vertnnd ≤ a.hi)
    {n : Nat} {s0 s : St} {P : Int → Prop} (h : Mid g F pfix qlo qhi n s0 s P) {v : Int} (hv : g.Vertex v) (hw : Within g F n v) :
    Holds (g.forArcs v s (arc g pfix)) (fun t => ∃ P' : Int → Prop, Mid g F pfix qlo qhi n s0 t P' ∧ (∀ x, P x → P' x) ∧ ∀ x, g.Adj v x → P' x) := by
  have hn := hc.vertnbr
  have hnn := hc.vertnnd
  refine Holds_forArcs ha hv (hc.range v hv).2 (fun e t => ∃ P' : Int → Prop, Mid g F pfix qlo qhi n s0 t P' ∧ (∀ x, P x → P' x) ∧
    ∀ i, g.vert v ≤ i → i < e → P' (g.dest i)) ?_ ?_ ?_
  · exact ⟨P, h, fun _ h => h, fun i h1 h2 => by omega⟩
  · rintro e t h1 h2 ⟨P', m, i1, i2⟩
    have hin := (hc.inside v e hv h1 h2).1
    have hadj : g.Adj v (g.dest e) := ⟨e, h1, h2, rfl⟩
    have d1 := hin.1
    have d2 := hin.2
    have hvb := m.inv.bnd
    unfold arc
    rw [Arr.rd_ok _ (by omega) (by omega), ok_bind]
    have hre := m.inv.reached hb (v := g.dest e)
    by_cases hx : t.vnum.get (g.dest e) = -1
    · have hP := hre.1 hx
      rw [if_neg (fun h => h hx), Holds_bind]
      refine (reach_holds ha hpf hin hvb).mono ?_
      rintro _ rfl
      have hlt := m.inv.enum.lt (lo := g.baseval) (hi := g.vertnnd) (fun w hw => m.inv.sub w hw) hP hin.1 hin.2
      have h0 := m.inv.enum.1
      have hqb := m.qb
      change Holds (t.queu.wr t.next (g.dest e) >>= _) _
      rw [Arr.wr_ok _ _ (by omega) (by omega), ok_bind, Holds_pure]
      have hk := m.keep
      refine ⟨fun x => P' x ∨ x = g.dest e, ⟨?_, m.qb, fun x hx => Or.inl (m.lower x hx), ?_, ?_, ?_, ?_⟩, fun x hx => Or.inl (i1 x hx), ?_⟩
      · exact m.inv.push hin hP (fun i i1 i2 => Arr.set_get_ne _ _ (by omega)) (Arr.set_get_same _ _ _)
      · rintro x (hx | rfl)
        · exact m.upper x hx
        · exact within_succ.2 (Or.inr ⟨v, hw, hadj⟩)
      · intro i j k1 k2 k3 l hl
        change j < t.next + 1 at k3
        change Within g F l ((t.queu.set t.next _).get j) at hl
        change Within g F l ((t.queu.set t.next _).get i)
        rw [Arr.set_get_ne _ _ (by omega)]
        by_cases hj : j = t.next
        · rw [hj, Arr.set_get_same] at hl
          have hln : n < l := by
            refine Classical.byContradiction fun hle => hP (m.lower _ (hl.mono (by omega)))
          exact (m.upper _ (m.inv.enum.mem k1 (by omega))).mono (by omega)
        · rw [Arr.set_get_ne _ _ hj] at hl
          exact m.sorted i j k1 k2 (by omega) l hl
      · change s0.next ≤ t.next + 1; omega
      · intro i k1 k2
        change (t.queu.set t.next _).get i = _
        rw [Arr.set_get_ne _ _ (by omega)]
        exact hk.2 i k1 k2
      · intro i k1 k2
        by_cases hi : i = e
        · exact Or.inr (by rw [hi])
        · exact Or.inl (i2 i k1 (by omega))
    · rw [if_pos hx, Holds_pure]
      refine ⟨P', m, i1, ?_⟩
      intro i k1 k2
      by_cases hi : i = e
      · rw [hi]; exact Classical.byContradiction fun h => hx (hre.2 h)
      · exact i2 i k1 (by omega)
  · rintro t ⟨P', m, i1, i2⟩
    refine ⟨P', m, i1, ?_⟩
    rintro x ⟨e, h1, h2, rfl⟩
    exact i2 e h1 h2

/-- State between two levels. -/
structure Lev (g : Graph) (F : Int → Prop) (pfix : Option (Arr Int)) (qlo qhi : Int) (n : Nat) (s : St) (hd : Int) : Prop where
  inv : Inv g pfix (Within g F n) s
  qb : s.queu.lo = qlo ∧ s.queu.hi = qhi
  sorted : Sorted g F s
  head : 0 ≤ hd ∧ hd ≤ s.next
  old : ∀ v, (∃ m, m < n ∧ Within g F m v) ↔ ∃ i, 0 ≤ i ∧ i < hd ∧ s.queu.get i = v

theorem level_holds (hc : ConsE g) (ha : Allocated g) (hb : 0 ≤ g.baseval) (hq : qlo ≤ 0 ∧ g.vertnbr ≤ qhi) (hpf : ∀ a, pfix = some a → a.lo ≤ g.baseval ∧ g.vertnnd ≤ a.hi)
    (hF : ∀ v, F v → g.Vertex v) {n : Nat} {s : St} {head lvl : Int} (h : Lev g F pfix qlo qhi n s head) :
    Holds (level g pfix (s, head, lvl)) (fun r => Lev g F pfix qlo qhi (n + 1) r.1 r.2.1 ∧ r.2.1 = s.next ∧ r.2.2 = g.baseval + sumI 0 s.next (fun j => nf pfix (r.1.queu.get j))) := by
  have hh := h.head
  have hle := h.inv.enum.le (lo := g.baseval) (hi := g.vertnnd) (by have := hc.vertnbr; have := hc.vertnnd; omega) (fun v hv => h.inv.sub v hv)
  have hnn := hc.vertnnd
  unfold level
  dsimp only
  rw [Holds_bind]
  refine Holds_forUp (fun i t => ∃ P, Mid g F pfix qlo qhi n s t P ∧ ∀ k x, head ≤ k → k < i → g.Adj (s.queu.get k) x → P x) hh.2 ?_ ?_ ?_
  · exact ⟨Within g F n, ⟨h.inv, h.qb, fun _ h => h, fun _ h => h.mono (by omega), h.sorted, Int.le_refl _, fun _ _ _ => rfl⟩, fun k x h1 h2 => by omega⟩
  · rintro i t h1 h2 ⟨P, m, i1⟩
    have hqb := m.qb
    rw [Arr.rd_ok _ (by omega) (by omega), ok_bind, m.keep.2 i (by omega) h2]
    have hw := h.inv.enum.mem (show 0 ≤ i by omega) h2
    refine (arcs_holds hc ha hb hq hpf m (within_vertex hc hF hw) hw).mono ?_
    rintro t' ⟨P', j1, j2, j3⟩
    refine ⟨P', j1, ?_⟩
    intro k x k1 k2 hx
    by_cases hk : k = i
    · exact j3 x (hk ▸ hx)
    · exact j2 x (i1 k x k1 (by omega) hx)
  · rintro t ⟨P, m, i1⟩
    rw [Holds_pure]
    dsimp only
    have hP : ∀ v, P v ↔ Within g F (n + 1) v := by
      intro v
      refine ⟨m.upper v, ?_⟩
      intro hv
      rcases within_succ.1 hv with hv | ⟨u, hu, hadj⟩
      · exact m.lower v hv
      · obtain ⟨k, k1, k2, rfl⟩ := (h.inv.enum.2.2 u).1 hu
        by_cases hk : head ≤ k
        · exact i1 k v hk k2 hadj
        · obtain ⟨m', m1, m2⟩ := (h.old (s.queu.get k)).2 ⟨k, k1, by omega, rfl⟩
          exact m.lower v ((within_succ.2 (Or.inr ⟨_, m2, hadj⟩)).mono (by omega))
    refine ⟨⟨m.inv.congr hP, m.qb, m.sorted, ⟨by omega, m.keep.1⟩, ?_⟩, rfl, ?_⟩
    · intro v
      constructor
      · rintro ⟨k, k1, k2⟩
        obtain ⟨i, i1, i2, i3⟩ := (h.inv.enum.2.2 v).1 (k2.mono (by omega))
        exact ⟨i, i1, i2, by rw [m.keep.2 i i1 i2]; exact i3⟩
      · rintro ⟨i, i1, i2, rfl⟩
        rw [m.keep.2 i i1 i2]
        exact ⟨n, by omega, h.inv.enum.mem i1 i2⟩
    · rw [h.inv.vertnum]
      congr 1
      exact sumI_congr fun j j1 j2 => by rw [m.keep.2 j j1 j2]

theorem sum_lt {f : Int → Int} (hf : ∀ j, 0 ≤ f j ∧ f j ≤ 1) {i j : Int} (h0 : 0 ≤ i) (h : i < j) : sumI 0 i f + f i ≤ sumI 0 j f := by
  rw [sumI_split (show (0 : Int) ≤ i + 1 by omega) (show i + 1 ≤ j by omega), sumI_succ h0]
  have : 0 ≤ sumI (i + 1) j f := sumI_nonneg fun k _ _ => (hf k).1
  omega

theorem length_nbrs (hc : ConsE g) {v : Int} (hv : g.Vertex v) : ((g.nbrs v).length : Int) = g.vend v - g.vert v := by
  have := (hc.range v hv).2
  unfold nbrs arcs
  rw [List.length_map]
  simp [Int.toNat_of_nonneg, this]

/-- Sum over the queue. -/
theorem total_queue {P : Int → Prop} {a : Arr Int} {n : Int} (h : Enum a n P) (hs : ∀ v, P v → g.Vertex v) (f : Int → Int) :
    sumI 0 n (fun i => f (a.get i)) = total g P f := by
  classical
  rw [sumI_enum a.get f g.baseval g.vertnnd 0 n h.1 (fun i j i1 i2 j1 j2 => h.2.1 i j i1 i2 j1 j2) (fun i i1 i2 => hs _ (h.mem i1 i2))]
  unfold total
  apply sumI_congr
  intro v _ _
  by_cases hv : P v
  · rw [if_pos hv, if_pos ((h.2.2 v).1 hv)]
  · rw [if_neg hv, if_neg (fun h' => hv ((h.2.2 v).2 h'))]

theorem surj01 {f : Int → Int} (hf : ∀ j, 0 ≤ f j ∧ f j ≤ 1) (n : Nat) : ∀ k, 0 ≤ k → k < sumI 0 n f → ∃ i, 0 ≤ i ∧ i < (n : Int) ∧ f i = 1 ∧ sumI 0 i f = k := by
  induction n with
  | zero => intro k h1 h2; rw [sumI_empty (by omega)] at h2; omega
  | succ n ih =>
    intro k h1 h2
    have e : ((n + 1 : Nat) : Int) = (n : Int) + 1 := by omega
    rw [e, sumI_succ (by omega)] at h2
    have := hf n
    by_cases h : k < sumI 0 n f
    · obtain ⟨i, i1, i2, i3⟩ := ih k h1 h
      exact ⟨i, i1, by omega, i3⟩
    · exact ⟨n, by omega, by omega, by omega, by omega⟩

/-- Where the last level starts. -/
def Last (g : Graph) (F : Int → Prop) (pfix : Option (Arr Int)) (n : Nat) (s : St) (head lvl : Int) : Prop :=
  0 < n → lvl = g.baseval + sumI 0 head (fun j => nf pfix (s.queu.get j)) ∧ ∀ v, Within g F (n - 1) v ↔ ∃ i, 0 ≤ i ∧ i < head ∧ s.queu.get i = v

theorem band_holds (hc : ConsE g) (hb : 0 ≤ g.baseval) {queunbr : Int} {queu : Arr Int} (hi : Input g F queunbr queu pfix) (distmax lvl : Int) :
    Holds (band g queunbr queu distmax pfix lvl) (Exact g F distmax.toNat pfix) := by
  classical
  obtain ⟨ha, hF, hfr, hq, hpf⟩ := hi
  have hn := hc.vertnbr
  have hnn := hc.vertnnd
  have hle := hfr.le (lo := g.baseval) (hi := g.vertnnd) (by omega) hF
  unfold band
  rw [Holds_bind]
  refine Holds_forUp (fun i (s : St) => s.queu = queu ∧ Inv g pfix (fun v => ∃ k, 0 ≤ k ∧ k < i ∧ queu.get k = v) { s with next := i }) hfr.1 ?_ ?_ ?_
  · refine ⟨rfl, ⟨rfl, hnn.symm⟩, ?_, ?_, ?_, fun _ _ => rfl, ?_, ?_, ?_⟩
    · rintro v ⟨k, h1, h2, _⟩; omega
    · refine (Enum.empty _).congr fun v => ⟨False.elim, ?_⟩
      rintro ⟨k, h1, h2, _⟩; omega
    · intro i h1 h2; dsimp only at h2; omega
    · dsimp only; rw [sumI_empty (Int.le_refl _)]; omega
    · dsimp only; rw [sumI_empty (Int.le_refl _)]; omega
    · dsimp only; rw [sumI_empty (Int.le_refl _)]
  · rintro i s h1 h2 ⟨e, h⟩
    rw [e, Arr.rd_ok _ (by omega) (by omega), ok_bind]
    have hw := hF _ (hfr.mem h1 h2)
    refine (reach_holds (s := s) ha hpf hw h.bnd).mono ?_
    rintro _ rfl
    refine ⟨e, ?_⟩
    have hp := h.push (w := queu.get i) hw (by
      rintro ⟨k, k1, k2, k3⟩
      have := hfr.2.1 k i k1 (by omega) h1 h2 k3
      omega) (q := queu) (fun k _ _ => by dsimp only; rw [e]) rfl
    have e2 : { after g pfix (queu.get i) s with next := i + 1 } = { after g pfix (queu.get i) { s with next := i } with queu := queu, next := i + 1 } := by
      unfold after; rw [← e]
    rw [e2]
    refine hp.congr fun v => ?_
    constructor
    · rintro (⟨k, k1, k2, k3⟩ | rfl)
      · exact ⟨k, k1, by omega, k3⟩
      · exact ⟨i, h1, by omega, rfl⟩
    · rintro ⟨k, k1, k2, k3⟩
      by_cases hk : k = i
      · right; rw [← k3, hk]
      · left; exact ⟨k, k1, by omega, k3⟩
  · rintro s ⟨e, h⟩
    have h0 : Lev g F pfix queu.lo queu.hi 0 { s with next := queunbr } 0 := by
      refine ⟨h.congr fun v => ?_, by dsimp only; rw [e]; exact ⟨rfl, rfl⟩, ?_, ⟨Int.le_refl _, hfr.1⟩, ?_⟩
      · rw [within_zero, hfr.2.2 v]
      · intro i j k1 k2 k3 n _
        dsimp only at k3 ⊢
        rw [e]
        exact .start n (hfr.mem k1 (by omega))
      · intro v
        constructor
        · rintro ⟨m, h1, _⟩; omega
        · rintro ⟨i, h1, h2, _⟩; omega
    rw [Holds_bind]
    refine Holds_forUp' (fun i (r : St × Int × Int) => Lev g F pfix queu.lo queu.hi i.toNat r.1 r.2.1 ∧ Last g F pfix i.toNat r.1 r.2.1 r.2.2) ⟨h0, fun h => by omega⟩ ?_ ?_
    · rintro i ⟨t, head, l⟩ i1 i2 ⟨j1, j2⟩
      refine (level_holds hc ha hb hq hpf hF j1).mono ?_
      rintro r ⟨r1, r2, r3⟩
      have ei : (i + 1).toNat = i.toNat + 1 := by omega
      rw [ei]
      refine ⟨r1, fun _ => ⟨by rw [r2]; exact r3, ?_⟩⟩
      intro v
      rw [← r1.old v]
      constructor
      · intro hv; exact ⟨i.toNat, by omega, hv⟩
      · rintro ⟨m, m1, m2⟩; exact m2.mono (by omega)
    · rintro ⟨t, head, l⟩ ⟨j1, j2⟩
      dsimp only at j1 j2
      rw [show (max 0 distmax).toNat = distmax.toNat by omega] at j1 j2
      dsimp only
      rw [Holds_pure]
      obtain ⟨inv, qb, so, hh, old⟩ := j1
      have hmem := fun (v : Int) => inv.enum.2.2 v
      have hvx : ∀ v, Within g F distmax.toNat v → g.Vertex v := inv.sub
      have hsn : ∀ i, 0 ≤ sumI 0 i (fun j => nf pfix (t.queu.get j)) := fun i => sumI_nonneg fun j _ _ => (nf_bnd pfix _).1
      have hnfb := fun j => nf_bnd pfix (t.queu.get j)
      have key : ∀ v, 0 ≤ t.vnum.get v → ∃ i, 0 ≤ i ∧ i < t.next ∧ t.queu.get i = v ∧ ¬ Fixed pfix v ∧ t.vnum.get v = g.baseval + sumI 0 i (fun j => nf pfix (t.queu.get j)) := by
        intro v hv
        have hP : Within g F distmax.toNat v := Classical.byContradiction fun h => by have := inv.out v h; omega
        obtain ⟨i, k1, k2, k3⟩ := (hmem v).1 hP
        have := inv.num i k1 k2
        rw [k3] at this
        by_cases hf : Fixed pfix v
        · rw [if_pos hf] at this; omega
        · rw [if_neg hf] at this; exact ⟨i, k1, k2, k3, hf, this⟩
      have keylt : ∀ i j, 0 ≤ i → i < j → ¬ Fixed pfix (t.queu.get i) → sumI 0 i (fun j => nf pfix (t.queu.get j)) < sumI 0 j (fun j => nf pfix (t.queu.get j)) := by
        intro i j k1 k2 hf
        have := sum_lt (f := fun j => nf pfix (t.queu.get j)) hnfb k1 k2
        have e1 : nf pfix (t.queu.get i) = 1 := by unfold nf; rw [if_neg hf]
        omega
      refine ⟨fun v hv => inv.reached hb, ?_, ?_, ?_, ?_, ?_, ?_, ?_, ?_, ?_, ?_⟩
      · intro v hv
        dsimp only
        constructor
        · intro h2
          have hP : Within g F distmax.toNat v := Classical.byContradiction fun h => by have := inv.out v h; omega
          refine ⟨hP, Classical.byContradiction fun hf => ?_⟩
          obtain ⟨i, k1, k2, k3⟩ := (hmem v).1 hP
          have := inv.num i k1 k2
          rw [k3, if_neg hf] at this
          have := hsn i
          omega
        · rintro ⟨hP, hf⟩
          obtain ⟨i, k1, k2, k3⟩ := (hmem v).1 hP
          have := inv.num i k1 k2
          rw [k3, if_pos hf] at this
          exact this
      · intro v hv hP hf
        obtain ⟨i, k1, k2, k3⟩ := (hmem v).1 hP
        have := inv.num i k1 k2
        rw [k3, if_neg hf] at this
        have h1 := hsn i
        have h2 := keylt i t.next k1 k2 (by rw [k3]; exact hf)
        have h3 := inv.vertnum
        dsimp only
        omega
      · intro v w hv hw h1 h2
        dsimp only at h1 h2
        obtain ⟨i, i1, i2, i3, i4, i5⟩ := key v h1
        obtain ⟨j, k1, k2, k3, k4, k5⟩ := key w (by omega)
        rw [← i3, ← k3]
        by_cases hij : i < j
        · have := keylt i j i1 hij (by rw [i3]; exact i4); omega
        · by_cases hji : j < i
          · have := keylt j i k1 hji (by rw [k3]; exact k4); omega
          · rw [show i = j by omega]
      · intro i h1 h2
        have h3 := inv.vertnum
        dsimp only at h2
        have h0 := inv.enum.1
        obtain ⟨k, k1, k2, k3, k4⟩ := surj01 (f := fun j => nf pfix (t.queu.get j)) hnfb t.next.toNat (i - g.baseval) (by omega) (by rw [Int.toNat_of_nonneg h0]; omega)
        have hk2 : k < t.next := by omega
        refine ⟨t.queu.get k, hvx _ (inv.enum.mem k1 hk2), ?_⟩
        dsimp only
        rw [inv.num k k1 hk2, if_neg, k4]
        · omega
        · intro hf
          unfold nf at k3
          rw [if_pos hf] at k3
          omega
      · intro v w n hv hw h1 h2 hn'
        dsimp only at h1 h2
        obtain ⟨i, i1, i2, i3, i4, i5⟩ := key v h1
        obtain ⟨j, k1, k2, k3, k4, k5⟩ := key w (by omega)
        by_cases hij : i < j
        · rw [← i3]; exact so i j i1 hij k2 n (by rw [k3]; exact hn')
        · by_cases hji : j < i
          · have := keylt j i k1 hji (by rw [k3]; exact k4); omega
          · have : v = w := by rw [← i3, ← k3, show i = j by omega]
            rw [this]; exact hn'
      · intro hd v hv h1
        dsimp only at h1 ⊢
        obtain ⟨l1, l2⟩ := j2 hd
        obtain ⟨i, i1, i2, i3, i4, i5⟩ := key v h1
        rw [l2 v]
        constructor
        · intro hlt
          refine ⟨i, i1, Classical.byContradiction fun hge => ?_, i3⟩
          by_cases he : i = head
          · rw [he] at i5; omega
          · have := sum_lt (f := fun j => nf pfix (t.queu.get j)) hnfb (i := head) (j := i) hh.1 (by omega)
            have := hnfb head
            omega
        · rintro ⟨k, k1, k2, k3⟩
          have hik : i = k := inv.enum.2.1 i k i1 i2 k1 (by omega) (by rw [i3, k3])
          have := keylt i head i1 (by omega) (by rw [i3]; exact i4)
          omega
      · have h3 := inv.vertnum
        dsimp only
        have := total_queue (g := g) inv.enum hvx (nf pfix)
        have e3 : t.vertnum - g.baseval = total g (Within g F distmax.toNat) (nf pfix) := by omega
        rw [e3]
        apply sumI_congr
        intro v _ _
        unfold nf
        dsimp only
        by_cases hv : Within g F distmax.toNat v
        · by_cases hf : Fixed pfix v
          · rw [if_pos hv, if_pos hf, if_neg (fun h => h.2 hf)]
          · rw [if_pos hv, if_neg hf, if_pos ⟨hv, hf⟩]
        · rw [if_neg hv, if_neg (fun h => hv h.1)]
      · have h3 := inv.vfixnbr
        dsimp only
        have := total_queue (g := g) inv.enum hvx (fun v => 1 - nf pfix v)
        rw [sumI_sub_dist, sumI_const inv.enum.1] at this
        have e3 : t.vfixnbr = total g (Within g F distmax.toNat) (fun v => 1 - nf pfix v) := by omega
        rw [e3]
        apply sumI_congr
        intro v _ _
        unfold nf
        dsimp only
        by_cases hv : Within g F distmax.toNat v
        · by_cases hf : Fixed pfix v
          · rw [if_pos hv, if_pos hf, if_pos ⟨hv, hf⟩]; decide
          · rw [if_pos hv, if_neg hf, if_neg (fun h => hf h.2)]; decide
        · rw [if_neg hv, if_neg (fun h => hv h.1)]
      · dsimp only
        rw [inv.edgenbr, total_queue (g := g) inv.enum hvx (fun v => g.vend v - g.vert v)]
        apply sumI_congr
        intro v v1 v2
        dsimp only
        rw [length_nbrs hc ⟨v1, v2⟩]
      · refine ⟨t.next, inv.enum, ?_⟩
        intro i j k1 k2 k3 h1 h2
        dsimp only at h1 h2 ⊢
        obtain ⟨i', i1, i2, i3, i4, i5⟩ := key _ h1
        obtain ⟨j', j1, j2, j3, j4, j5⟩ := key _ h2
        have ei := inv.enum.2.1 i' i i1 i2 k1 (by omega) i3
        have ej := inv.enum.2.1 j' j j1 j2 (by omega) k3 j3
        rw [i5, j5, ei, ej]
        have := keylt i j k1 k2 i4
        omega

end Scotch.Band
