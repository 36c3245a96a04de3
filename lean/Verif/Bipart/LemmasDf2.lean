import Verif.Bipart.LemmasDf1
import Verif.Bipart.LemmasCut
import Verif.Bipart.LemmasBd2

/-! # Bipartition by diffusion: lemmas on parts -/

set_option autoImplicit false
set_option linter.unusedSimpArgs false

namespace Scotch.Bipart
open Graph

variable {env : DfEnv} {b : Bgraph} {S : Int → Int}

/-! ## Parts -/

theorem dfParts_holds (hc : ConsE b.s) (ha : Alloc b) (R : DfRun env b S) {difo : Arr env.flo.F} (D : DfArr b difo) :
    Holds (forUp 0 env.thrdnbr b.parttax (dfParts env b difo)) (fun p => p.lo = b.parttax.lo ∧ p.hi = b.parttax.hi ∧ Parts b.s p.get) := by
  have hn := R.nbr
  have hnn := hc.vertnnd
  obtain ⟨p1, p2⟩ := ha.part
  obtain ⟨d1, d2⟩ := D
  refine Holds_forUp (fun t (p : Arr Int) => p.lo = b.parttax.lo ∧ p.hi = b.parttax.hi ∧ ∀ v, b.s.baseval ≤ v → v < S t → p.get v = 0 ∨ p.get v = 1) (by omega) ⟨rfl, rfl, ?_⟩ ?_ ?_
  · intro v v1 v2
    rw [R.first] at v2; omega
  · rintro t p t1 t2 ⟨i1, i2, i3⟩
    have B1 := R.bnd t1 (by omega)
    have B2 := R.bnd (t := t + 1) (by omega) (by omega)
    unfold dfParts
    rw [R.start t t1 t2, ok_bind, R.fin t t1 t2, ok_bind]
    refine Holds_forUp (fun x (p : Arr Int) => p.lo = b.parttax.lo ∧ p.hi = b.parttax.hi ∧ ∀ v, b.s.baseval ≤ v → v < x → p.get v = 0 ∨ p.get v = 1) (R.le t t1 t2) ⟨i1, i2, i3⟩ ?_ (fun _ h => h)
    rintro x p x1 x2 ⟨j1, j2, j3⟩
    rw [Arr.rd_ok _ (by omega) (by omega), ok_bind, Arr.wr_ok _ _ (by omega) (by omega), Holds_ok]
    refine ⟨j1, j2, ?_⟩
    intro v v1 v2
    by_cases hv : v = x
    · subst hv
      rw [Arr.set_get_same]
      split <;> simp
    · rw [Arr.set_get_ne _ _ hv]
      exact j3 v v1 (by omega)
  · rintro p ⟨i1, i2, i3⟩
    refine ⟨i1, i2, ?_⟩
    rintro v ⟨v1, v2⟩
    exact i3 v v1 (by rw [R.last]; exact v2)

/-! ## Values of threads -/

/-- Load of the edges that join a vertex to the other part. -/
def lk (g : Graph) (p : Int → Int) (v : Int) : Int := sumI (g.vert v) (g.vend v) (fun e => g.edlo e * (if p (g.dest e) = p v then 0 else 1))

theorem lk_frontier (hl : Loaded b.s) {p : Int → Int} {v : Int} (hv : b.s.Vertex v) : lk b.s p v ≠ 0 ↔ Frontier b.s p v := by
  unfold Frontier lk
  constructor
  · intro h
    refine ⟨hv, ?_⟩
    by_contra hn
    apply h
    apply sumI_eq_zero
    intro e e1 e2
    rw [if_pos, Int.mul_zero]
    by_contra hne
    exact hn ⟨(b.s.dest e, b.s.edlo e), (mem_nbrs _ _ _).2 ⟨e, e1, e2, rfl, rfl⟩, hne⟩
  · rintro ⟨-, x, hx, hne⟩
    obtain ⟨e, e1, e2, e3, -⟩ := (mem_nbrs _ _ _).1 hx
    rw [← e3] at hne
    have h0 : ∀ i, b.s.vert v ≤ i → i < b.s.vend v → 0 ≤ b.s.edlo i * (if p (b.s.dest i) = p v then 0 else 1) := by
      intro i i1 i2
      have := hl v i hv i1 i2
      split <;> omega
    have hs : sumI (b.s.vert v) (b.s.vend v) (fun x => if x = e then b.s.edlo x * (if p (b.s.dest x) = p v then 0 else 1) else 0) ≤ sumI (b.s.vert v) (b.s.vend v) (fun i => b.s.edlo i * (if p (b.s.dest i) = p v then 0 else 1)) := by
      refine sumI_mono fun i i1 i2 => ?_
      have := h0 i i1 i2
      split <;> omega
    rw [sumI_single e1 e2] at hs
    rw [if_neg hne] at hs
    have := hl v e hv e1 e2
    omega

theorem lk_cut (hc : ConsE b.s) {p : Int → Int} (hp : Parts b.s p) : sumI b.s.baseval b.s.vertnnd (lk b.s p) = 2 * cut b.s p := by
  have e1 : sumI b.s.baseval b.s.vertnnd (lk b.s p) = cut b.s p + cut b.s p := by
    rw [show cut b.s p + cut b.s p = sumI b.s.baseval b.s.vertnnd (fun v => sumI b.s.baseval b.s.vertnnd (fun w => b.s.wgt v w * ((1 - p v) * p w)))
      + sumI b.s.baseval b.s.vertnnd (fun v => sumI b.s.baseval b.s.vertnnd (fun w => b.s.wgt v w * (p v * (1 - p w)))) by rw [← cut_sum hc hp, ← cut_sum' hc hp], ← sumI_add_dist]
    apply sumI_congr
    intro v v1 v2
    rw [← sumI_add_dist]
    unfold lk
    rw [arc_sum hc ⟨v1, v2⟩ (fun w => if p w = p v then 0 else 1)]
    apply sumI_congr
    intro w w1 w2
    rcases hp v ⟨v1, v2⟩ with h | h <;> rcases hp w ⟨w1, w2⟩ with h' | h' <;> rw [h, h'] <;> simp
  omega

/-- What a thread has computed, for vertices from `lo` to `hi`. -/
structure DfVal (b : Bgraph) (p : Int → Int) (lo hi : Int) (s : DfSum) : Prop where
  fron : Enum s.fron s.nbr (fun w => lo ≤ w ∧ w < hi ∧ Frontier b.s p w)
  load1 : s.load1 = sumI lo hi (fun v => p v * b.s.velo v)
  size1 : s.size1 = sumI lo hi (fun v => p v * 1)
  extn : s.extn = sumI lo hi (fun v => p v * b.veex v)
  intn : s.intn = sumI lo hi (lk b.s p)
  gain : s.gain = sumI lo hi (fun v => (1 - p v) * b.veex v - p v * b.veex v)

theorem dfSumVert_holds (hc : ConsE b.s) (ha : Alloc b) (hl : Loaded b.s) {part : Arr Int} (hb : part.lo ≤ b.s.baseval ∧ b.s.vertnnd ≤ part.hi) (hp : Parts b.s part.get) {v lo hi : Int} (hv : b.s.Vertex v) (h1 : lo ≤ v) (h2 : v < hi) {s : DfSum}
    (hf : s.fron.lo ≤ 0 ∧ hi - lo ≤ s.fron.hi) (h : DfVal b part.get lo v s) : Holds (dfSumVert b part v s) (fun s' => DfVal b part.get lo (v + 1) s' ∧ s'.fron.lo = s.fron.lo ∧ s'.fron.hi = s.fron.hi) := by
  obtain ⟨v1, v2⟩ := id hv
  unfold dfSumVert
  rw [Arr.rd_ok _ (by omega) (by omega), ok_bind, rdVelo_eq ha.graph hv, ok_bind, rdVeex_eq ha hv, ok_bind, Holds_bind]
  refine Holds_forArcs ha.graph hv (hc.range v hv).2 (fun e c => c = sumI (b.s.vert v) e (fun e => b.s.edlo e * (if part.get (b.s.dest e) = part.get v then 0 else 1))) (sumI_empty (Int.le_refl _) _).symm ?_ ?_
  · intro e c e1 e2 hc'
    have hw := (hc.inside v e hv e1 e2).1
    obtain ⟨w1, w2⟩ := id hw
    rw [Arr.rd_ok _ (by omega) (by omega), ok_bind, rdEdlo_eq ha.graph hv e1 e2, ok_bind, Holds_pure, sumI_succ e1, ← hc', xorP_eq (hp v hv) (hp _ hw)]
    congr 1
    by_cases hq : part.get v = part.get (b.s.dest e)
    · rw [if_pos hq, if_pos hq.symm]; simp
    · rw [if_neg hq, if_neg (fun h => hq h.symm)]; simp
  · intro c hc'
    change c = lk b.s part.get v at hc'
    subst hc'
    have G : s.load1 + part.get v * b.s.velo v = sumI lo (v + 1) (fun v => part.get v * b.s.velo v) ∧ s.size1 + part.get v = sumI lo (v + 1) (fun v => part.get v * 1) ∧
        s.extn + b.veex v * part.get v = sumI lo (v + 1) (fun v => part.get v * b.veex v) ∧ s.intn + lk b.s part.get v = sumI lo (v + 1) (lk b.s part.get) ∧
        s.gain + b.veex v * (1 - 2 * part.get v) = sumI lo (v + 1) (fun v => (1 - part.get v) * b.veex v - part.get v * b.veex v) := by
      rw [sumI_succ h1, sumI_succ h1, sumI_succ h1, sumI_succ h1, sumI_succ h1, h.load1, h.size1, h.extn, h.intn, h.gain]
      refine ⟨rfl, by omega, by rw [Int.mul_comm], rfl, ?_⟩
      congr 1; ring
    obtain ⟨G1, G2, G3, G4, G5⟩ := G
    dsimp only
    by_cases hk : lk b.s part.get v ≠ 0
    · have hF := (lk_frontier hl hv).1 hk
      have hN := h.fron.le h1 (fun w hw => ⟨hw.1, hw.2.1⟩)
      have hN0 := h.fron.1
      rw [if_pos hk, Arr.wr_ok _ _ (by omega) (by omega), ok_bind, Holds_pure]
      refine ⟨⟨?_, G1, G2, G3, G4, G5⟩, rfl, rfl⟩
      refine (h.fron.push (x := v) (by omega)).congr fun w => ?_
      constructor
      · rintro (⟨a1, a2, a3⟩ | rfl)
        · exact ⟨a1, by omega, a3⟩
        · exact ⟨h1, by omega, hF⟩
      · rintro ⟨a1, a2, a3⟩
        by_cases hw : w = v
        · exact Or.inr hw
        · exact Or.inl ⟨a1, by omega, a3⟩
    · have hF : ¬ Frontier b.s part.get v := fun h => hk ((lk_frontier hl hv).2 h)
      rw [if_neg hk, Holds_pure]
      refine ⟨⟨?_, G1, G2, G3, G4, G5⟩, rfl, rfl⟩
      refine h.fron.congr fun w => ?_
      constructor
      · rintro ⟨a1, a2, a3⟩
        exact ⟨a1, by omega, a3⟩
      · rintro ⟨a1, a2, a3⟩
        by_cases hw : w = v
        · subst hw; exact absurd a3 hF
        · exact ⟨a1, by omega, a3⟩

/-- What all threads have computed. -/
def DfTab (b : Bgraph) (p : Int → Int) (S : Int → Int) (tab : Int → DfSum) (t : Int) : Prop :=
  ∀ u, 0 ≤ u → u < t → DfVal b p (S u) (S (u + 1)) (tab u) ∧ (tab u).fron.lo ≤ 0 ∧ S (u + 1) - S u ≤ (tab u).fron.hi ∧ (u = 0 → (tab u).fron.lo = b.frontab.lo ∧ (tab u).fron.hi = b.frontab.hi)

theorem dfSums_holds (hc : ConsE b.s) (ha : Alloc b) (hl : Loaded b.s) (R : DfRun env b S) {part : Arr Int} (hb : part.lo ≤ b.s.baseval ∧ b.s.vertnnd ≤ part.hi) (hp : Parts b.s part.get) (tab : Int → DfSum) :
    Holds (forUp 0 env.thrdnbr tab (dfSumThread env b part)) (fun tab => DfTab b part.get S tab env.thrdnbr) := by
  have hn := R.nbr
  have hnn := hc.vertnnd
  obtain ⟨f1, f2⟩ := ha.fron
  refine Holds_forUp (fun t tab => DfTab b part.get S tab t) (by omega) (fun u h1 h2 => by omega) ?_ (fun _ h => h)
  intro t tab t1 t2 hI
  have B1 := R.bnd t1 (by omega)
  have B2 := R.bnd (t := t + 1) (by omega) (by omega)
  have hle := R.le t t1 t2
  unfold dfSumThread
  rw [R.start t t1 t2, ok_bind, R.fin t t1 t2, ok_bind]
  dsimp only
  rw [Holds_bind]
  have key : ∀ f : Arr Int, f.lo ≤ 0 → S (t + 1) - S t ≤ f.hi → (t = 0 → f.lo = b.frontab.lo ∧ f.hi = b.frontab.hi) →
      Holds (forUp (S t) (S (t + 1)) ⟨f, 0, 0, 0, 0, 0, 0⟩ (dfSumVert b part)) (fun s => Holds (pure (fun u => if u = t then s else tab u) : M (Int → DfSum)) (fun tab => DfTab b part.get S tab (t + 1))) := by
    intro f a1 a2 a3
    refine Holds_forUp (fun v s => DfVal b part.get (S t) v s ∧ s.fron.lo = f.lo ∧ s.fron.hi = f.hi) hle ⟨⟨?_, ?_, ?_, ?_, ?_, ?_⟩, rfl, rfl⟩ ?_ ?_
    · exact (Enum.empty f).congr (fun w => ⟨False.elim, fun ⟨q1, q2, _⟩ => by omega⟩)
    · rw [sumI_empty (Int.le_refl _)]
    · rw [sumI_empty (Int.le_refl _)]
    · rw [sumI_empty (Int.le_refl _)]
    · rw [sumI_empty (Int.le_refl _)]
    · rw [sumI_empty (Int.le_refl _)]
    · rintro v s v1 v2 ⟨h1, h2, h3⟩
      refine (dfSumVert_holds hc ha hl hb hp (hi := S (t + 1)) ⟨by omega, by omega⟩ v1 v2 ⟨by omega, by omega⟩ h1).mono ?_
      rintro s' ⟨q1, q2, q3⟩
      exact ⟨q1, by omega, by omega⟩
    · rintro s ⟨h1, h2, h3⟩
      rw [Holds_pure]
      intro u u1 u2
      dsimp only
      by_cases hu : u = t
      · subst hu
        rw [if_pos rfl]
        refine ⟨h1, by omega, by omega, fun h => ?_⟩
        rw [h2, h3]; exact a3 h
      · rw [if_neg hu]; exact hI u u1 (by omega)
  by_cases ht : t = 0
  · rw [if_neg (by simpa using ht)]
    exact key _ f1 (by omega) (fun _ => ⟨rfl, rfl⟩)
  · rw [if_pos ht]
    exact key _ (Int.le_refl 0) (Int.le_refl _) (fun h => absurd h ht)

/-- Number of frontier vertices of the first threads. -/
def dfNbr (tab : Int → DfSum) (t : Int) : Int := sumI 0 t (fun u => (tab u).nbr)

theorem dfCopies_holds (hc : ConsE b.s) (ha : Alloc b) (R : DfRun env b S) {p : Int → Int} {tab : Int → DfSum} (hT : DfTab b p S tab env.thrdnbr) :
    Holds (forUp 1 env.thrdnbr (tab 0).fron (dfCopy tab)) (fun f => f.lo = b.frontab.lo ∧ f.hi = b.frontab.hi ∧ Enum f (dfNbr tab env.thrdnbr) (Frontier b.s p)) := by
  have hn := R.nbr
  have hnn := hc.vertnnd
  obtain ⟨f1, f2⟩ := ha.fron
  obtain ⟨z1, z2, z3, z4⟩ := hT 0 (by omega) (by omega)
  refine Holds_forUp (fun t (f : Arr Int) => f.lo = b.frontab.lo ∧ f.hi = b.frontab.hi ∧ Enum f (dfNbr tab t) (fun w => w < S t ∧ Frontier b.s p w)) hn ⟨(z4 rfl).1, (z4 rfl).2, ?_⟩ ?_ ?_
  · have : dfNbr tab 1 = (tab 0).nbr := by
      unfold dfNbr
      rw [show (1 : Int) = 0 + 1 by omega, sumI_succ (by omega), sumI_empty (Int.le_refl _)]; omega
    rw [this]
    refine z1.fron.congr fun w => ?_
    rw [R.first]
    exact ⟨fun h => ⟨h.2.1, h.2.2⟩, fun h => ⟨h.2.1.1, h.1, h.2⟩⟩
  · rintro t f t1 t2 ⟨i1, i2, i3⟩
    obtain ⟨y1, y2, y3, -⟩ := hT t (by omega) t2
    have B2 := R.bnd (t := t + 1) (by omega) (by omega)
    have hle := R.le t (by omega) t2
    have eN : dfNbr tab (t + 1) = dfNbr tab t + (tab t).nbr := by
      unfold dfNbr
      rw [sumI_succ (by omega)]
    have eS : dfScan (fun u => (tab u).nbr) t - (tab t).nbr = dfNbr tab t := by
      unfold dfScan dfNbr
      rw [sumI_succ (by omega)]; omega
    have hy := y1.fron.le hle (fun w hw => ⟨hw.1, hw.2.1⟩)
    have hi0 := i3.1
    unfold dfCopy
    refine Holds_forUp (fun i (f : Arr Int) => f.lo = b.frontab.lo ∧ f.hi = b.frontab.hi ∧ Enum f (dfNbr tab t + i) (fun w => (w < S t ∧ Frontier b.s p w) ∨ ∃ j, 0 ≤ j ∧ j < i ∧ (tab t).fron.get j = w)) y1.fron.1 ⟨i1, i2, ?_⟩ ?_ ?_
    · rw [Int.add_zero]
      exact i3.congr (fun w => ⟨Or.inl, fun h => h.elim id (fun ⟨j, j1, j2, _⟩ => by omega)⟩)
    · rintro i f x1 x2 ⟨j1, j2, j3⟩
      have hm := y1.fron.mem x1 x2
      have hx : ¬ ((((tab t).fron.get i) < S t ∧ Frontier b.s p ((tab t).fron.get i)) ∨ ∃ j, 0 ≤ j ∧ j < i ∧ (tab t).fron.get j = (tab t).fron.get i) := by
        rintro (⟨q, -⟩ | ⟨j, q1, q2, q3⟩)
        · omega
        · have := y1.fron.2.1 j i q1 (by omega) x1 x2 q3
          omega
      have hlt := j3.lt (lo := b.s.baseval) (hi := b.s.vertnnd) (by
        rintro w (⟨-, q⟩ | ⟨j, q1, q2, rfl⟩)
        · exact q.1
        · exact (y1.fron.mem q1 (by omega)).2.2.1) hx hm.2.2.1.1 hm.2.2.1.2
      rw [eS, Arr.rd_ok _ (by omega) (by omega), ok_bind, Arr.wr_ok _ _ (by omega) (by omega), Holds_ok]
      refine ⟨j1, j2, ?_⟩
      rw [← Int.add_assoc]
      refine (j3.push hx).congr fun w => ?_
      constructor
      · rintro ((q | ⟨j, q1, q2, q3⟩) | rfl)
        · exact Or.inl q
        · exact Or.inr ⟨j, q1, by omega, q3⟩
        · exact Or.inr ⟨i, x1, by omega, rfl⟩
      · rintro (q | ⟨j, q1, q2, q3⟩)
        · exact Or.inl (Or.inl q)
        · by_cases hj : j = i
          · subst hj; exact Or.inr q3.symm
          · exact Or.inl (Or.inr ⟨j, q1, by omega, q3⟩)
    · rintro f ⟨j1, j2, j3⟩
      refine ⟨j1, j2, ?_⟩
      rw [eN]
      refine j3.congr fun w => ?_
      constructor
      · rintro (⟨q1, q2⟩ | ⟨j, q1, q2, rfl⟩)
        · exact ⟨by omega, q2⟩
        · exact (y1.fron.mem q1 q2).2
      · rintro ⟨q1, q2⟩
        by_cases hw : w < S t
        · exact Or.inl ⟨hw, q2⟩
        · exact Or.inr ((y1.fron.2.2 w).1 ⟨by omega, q1, q2⟩)
  · rintro f ⟨i1, i2, i3⟩
    refine ⟨i1, i2, i3.congr fun w => ?_⟩
    rw [R.last]
    exact ⟨fun h => h.2, fun h => ⟨h.1.2, h⟩⟩

/-! ## Bipartition -/

theorem bipartDf_holds (hc : ConsE b.s) (ha : Alloc b) (h2 : 2 ≤ b.s.vertnbr) (hl : Loaded b.s) (hn : 1 ≤ env.thrdnbr) (hnan : ∀ x, env.flo.isnan x = false) (para : DfParam) :
    Holds (bipartDf env para b) (fun b' => SameProblem b b' ∧ Valid b') := by
  obtain ⟨S, R⟩ := dfRun (env := env) hc h2 hn
  unfold bipartDf
  dsimp only
  rw [Holds_bind]
  refine (dfInit_holds hc ha h2 R _).mono ?_
  rintro ⟨difo, iels⟩ ⟨D, L⟩
  dsimp only at D L ⊢
  rw [Holds_bind]
  refine (dfPasses_holds hc ha h2 hnan R L D _ _).mono ?_
  intro difo D
  rw [Holds_bind]
  refine (dfParts_holds hc ha R D).mono ?_
  rintro part ⟨p1, p2, hp⟩
  have hb : part.lo ≤ b.s.baseval ∧ b.s.vertnnd ≤ part.hi := by rw [p1, p2]; exact ha.part
  rw [Holds_bind]
  refine (dfSums_holds hc ha hl R hb hp _).mono ?_
  intro tab hT
  rw [Holds_bind]
  refine (dfCopies_holds hc ha R hT).mono ?_
  rintro fron ⟨k1, k2, k3⟩
  rw [Holds_pure]
  have tot : ∀ (f : DfSum → Int) (F : Int → Int), (∀ u, 0 ≤ u → u < env.thrdnbr → f (tab u) = sumI (S u) (S (u + 1)) F) → dfScan (fun u => f (tab u)) (env.thrdnbr - 1) = sumI b.s.baseval b.s.vertnnd F := by
    intro f F hf
    unfold dfScan
    rw [show env.thrdnbr - 1 + 1 = env.thrdnbr by omega, ← R.last, ← R.sum F (by omega) (Int.le_refl _)]
    exact sumI_congr fun u u1 u2 => hf u u1 u2
  have o1 := over_add hp b.s.velo
  have o2 := over_add hp (fun _ => 1)
  rw [size_eq hc] at o2
  rw [← hc.velosum] at o1
  refine ⟨⟨rfl, rfl, ⟨p1, p2, k1, k2⟩, ⟨rfl, rfl, rfl⟩, ⟨rfl, rfl⟩, ⟨rfl, rfl, rfl⟩, ⟨rfl, rfl⟩⟩, ⟨hp, ?_, rfl, ?_, ?_, ?_, ?_⟩⟩
  · change b.s.velosum - dfScan (fun u => (tab u).load1) (env.thrdnbr - 1) = over b.s part.get 0 b.s.velo
    rw [tot DfSum.load1 _ (fun u u1 u2 => (hT u u1 u2).1.load1), ← over_one hp]
    omega
  · change b.s.vertnbr - dfScan (fun u => (tab u).size1) (env.thrdnbr - 1) = over b.s part.get 0 (fun _ => 1)
    rw [tot DfSum.size1 _ (fun u u1 u2 => (hT u u1 u2).1.size1), ← over_one hp (fun _ => 1)]
    omega
  · change dfScan (fun u => (tab u).extn) (env.thrdnbr - 1) + b.commloadextn0 + (dfScan (fun u => (tab u).intn) (env.thrdnbr - 1)).tdiv 2 * b.domndist = cut b.s part.get * b.domndist + b.commloadextn0 + over b.s part.get 1 b.veex
    rw [tot DfSum.extn _ (fun u u1 u2 => (hT u u1 u2).1.extn), ← over_one hp, tot DfSum.intn _ (fun u u1 u2 => (hT u u1 u2).1.intn), lk_cut hc hp, Int.mul_tdiv_cancel_left _ (by decide)]
    omega
  · change dfScan (fun u => (tab u).gain) (env.thrdnbr - 1) = over b.s part.get 0 b.veex - over b.s part.get 1 b.veex
    rw [tot DfSum.gain _ (fun u u1 u2 => (hT u u1 u2).1.gain), over_zero hp, over_one hp, sumI_sub_dist]
  · have : dfScan (fun u => (tab u).nbr) (env.thrdnbr - 1) = dfNbr tab env.thrdnbr := by
      unfold dfScan dfNbr
      rw [show env.thrdnbr - 1 + 1 = env.thrdnbr by omega]
    change Enum fron (dfScan (fun u => (tab u).nbr) (env.thrdnbr - 1)) (Frontier b.s part.get)
    rw [this]
    exact k3

end Scotch.Bipart
