import Verif.Ovl.Spec
import Verif.Separ.LemmasBasic

/-! # Partitioning with overlap: loads of parts -/

set_option autoImplicit false
set_option linter.unusedSimpArgs false

namespace Scotch.Ovl
open Graph Bipart

theorem fill_holds {a : Arr Int} {lo hi x : Int} (hle : lo ≤ hi) (h1 : a.lo ≤ lo) (h2 : hi ≤ a.hi) :
    Holds (fill a lo hi x) (fun a' => (a'.lo = a.lo ∧ a'.hi = a.hi) ∧ (∀ i, lo ≤ i → i < hi → a'.get i = x) ∧ ∀ i, i < lo ∨ hi ≤ i → a'.get i = a.get i) := by
  unfold fill
  refine Holds_forUp (fun k (a' : Arr Int) => (a'.lo = a.lo ∧ a'.hi = a.hi) ∧ (∀ i, lo ≤ i → i < k → a'.get i = x) ∧ ∀ i, i < lo ∨ k ≤ i → a'.get i = a.get i) hle ?_ ?_ ?_
  · exact ⟨⟨rfl, rfl⟩, fun i h1 h2 => by omega, fun _ _ => rfl⟩
  · rintro k a' k1 k2 ⟨⟨e1, e2⟩, e3, e4⟩
    rw [Arr.wr_ok _ _ (by omega) (by omega), Holds_ok]
    refine ⟨⟨e1, e2⟩, ?_, ?_⟩
    · intro i i1 i2
      rw [Arr.set_get]
      split
      · rfl
      · exact e3 i i1 (by omega)
    · intro i hi
      rw [Arr.set_get_ne _ _ (by omega)]
      exact e4 i (by omega)
  · intro a' h; exact h

variable {g : Graph} {part : Int → Int} {n : Int}

theorem belongs_adj (k v : Int) : Belongs g part k v ↔ part v = k ∨ (part v = -1 ∧ ∃ e, g.vert v ≤ e ∧ e < g.vend v ∧ part (g.dest e) = k) := by
  unfold Belongs
  have : (∃ p ∈ g.nbrs v, part p.1 = k) ↔ ∃ e, g.vert v ≤ e ∧ e < g.vend v ∧ part (g.dest e) = k := by
    constructor
    · rintro ⟨p, hp, e⟩
      obtain ⟨e', h1, h2, h3, h4⟩ := (mem_nbrs g v p).1 hp
      exact ⟨e', h1, h2, by rw [h3]; exact e⟩
    · rintro ⟨e, h1, h2, h3⟩
      exact ⟨_, nbrs_mk g v h1 h2, h3⟩
  rw [this]

/-- State of the loop on vertices. -/
structure CInv (g : Graph) (part : Int → Int) (n : Int) (lo hi lo' hi' : Int) (v : Int) (s : CostState) : Prop where
  load : s.load.lo = lo ∧ s.load.hi = hi
  size : s.size.lo = lo' ∧ s.size.hi = hi'
  flag : s.flag.lo = -1 ∧ s.flag.hi = n
  low : ∀ k, 0 ≤ k → k < n → s.flag.get k < v
  loads : ∀ k, 0 ≤ k → k < n → s.load.get k = sumI g.baseval v (fun u => if Belongs g part k u then g.velo u else 0)
  sizes : ∀ k, 0 ≤ k → k < n → s.size.get k = sumI g.baseval v (fun u => if Belongs g part k u then 1 else 0)
  frlo : s.frlo = sumI g.baseval v (fun u => if part u = -1 then g.velo u else 0)

/-- A part has been seen among the ends of the first arcs. -/
def Seen (g : Graph) (part : Int → Int) (v e k : Int) : Prop := ∃ e', g.vert v ≤ e' ∧ e' < e ∧ part (g.dest e') = k

theorem Seen.next {v e k : Int} (he : g.vert v ≤ e) : Seen g part v (e + 1) k ↔ Seen g part v e k ∨ part (g.dest e) = k := by
  constructor
  · rintro ⟨e', h1, h2, h3⟩
    by_cases h : e' = e
    · rw [h] at h3; exact Or.inr h3
    · exact Or.inl ⟨e', h1, by omega, h3⟩
  · rintro (⟨e', h1, h2, h3⟩ | h)
    · exact ⟨e', h1, by omega, h3⟩
    · exact ⟨e, he, by omega, h⟩

/-- State of the loop on arcs. -/
structure AInv (g : Graph) (part : Int → Int) (n v velo : Int) (s0 : CostState) (e : Int) (s : CostState) : Prop where
  load : s.load.lo = s0.load.lo ∧ s.load.hi = s0.load.hi
  size : s.size.lo = s0.size.lo ∧ s.size.hi = s0.size.hi
  flag : s.flag.lo = -1 ∧ s.flag.hi = n
  own : s.flag.get (-1) = v
  low : ∀ k, 0 ≤ k → k < n → s.flag.get k ≤ v
  mark : ∀ k, 0 ≤ k → k < n → (s.flag.get k = v ↔ Seen g part v e k)
  yes : ∀ k, 0 ≤ k → k < n → Seen g part v e k → s.load.get k = s0.load.get k + velo ∧ s.size.get k = s0.size.get k + 1
  no : ∀ k, 0 ≤ k → k < n → ¬ Seen g part v e k → s.load.get k = s0.load.get k ∧ s.size.get k = s0.size.get k
  frlo : s.frlo = s0.frlo

theorem costArc_holds {a : Arr Int} {v velo e : Int} {s0 s : CostState} (ha : a.get = part) (hv : g.vert v ≤ e) (hw : a.lo ≤ g.dest e ∧ g.dest e < a.hi) (hr : -1 ≤ part (g.dest e) ∧ part (g.dest e) < n)
    (hl : s0.load.lo ≤ 0 ∧ n ≤ s0.load.hi) (hs : s0.size.lo ≤ 0 ∧ n ≤ s0.size.hi) (I : AInv g part n v velo s0 e s) :
    Holds (costArc a v velo (g.dest e) s) (AInv g part n v velo s0 (e + 1)) := by
  unfold costArc
  rw [Arr.rd_ok _ hw.1 hw.2, ok_bind, ha]
  have i1 := I.load
  have i2 := I.size
  have i3 := I.flag
  generalize hk : part (g.dest e) = k at hr
  rw [Arr.rd_ok _ (by omega) (by omega), ok_bind, Holds_ite]
  refine ⟨fun hne => ?_, fun he => ?_⟩
  · have k0 : 0 ≤ k := by
      by_contra h
      have : k = -1 := by omega
      rw [this] at hne
      exact hne I.own
    have hns : ¬ Seen g part v e k := fun h => hne ((I.mark k k0 hr.2).2 h)
    rw [Arr.wr_ok _ _ (by omega) (by omega), ok_bind, Arr.rd_ok _ (by omega) (by omega), ok_bind, Arr.wr_ok _ _ (by omega) (by omega), ok_bind,
      Arr.rd_ok _ (by omega) (by omega), ok_bind, Arr.wr_ok _ _ (by omega) (by omega), ok_bind, Holds_pure]
    refine ⟨i1, i2, i3, ?_, ?_, ?_, ?_, ?_, I.frlo⟩
    · show (s.flag.set k v).get (-1) = v
      rw [Arr.set_get_ne _ _ (by omega)]; exact I.own
    · intro j j1 j2
      show (s.flag.set k v).get j ≤ v
      rw [Arr.set_get]
      split
      · omega
      · exact I.low j j1 j2
    · intro j j1 j2
      show (s.flag.set k v).get j = v ↔ _
      rw [Seen.next hv, hk, Arr.set_get]
      by_cases hj : j = k
      · rw [if_pos hj]; exact ⟨fun _ => Or.inr hj.symm, fun _ => rfl⟩
      · rw [if_neg hj, I.mark j j1 j2]; exact ⟨Or.inl, fun h => h.elim id (fun h => absurd h.symm hj)⟩
    · intro j j1 j2 hj
      show (s.load.set k _).get j = _ ∧ (s.size.set k _).get j = _
      by_cases hjk : j = k
      · subst hjk
        obtain ⟨n1, n2⟩ := I.no j j1 j2 hns
        rw [Arr.set_get_same, Arr.set_get_same, n1, n2]; exact ⟨rfl, rfl⟩
      · rw [Arr.set_get_ne _ _ hjk, Arr.set_get_ne _ _ hjk]
        refine I.yes j j1 j2 ?_
        rcases (Seen.next hv).1 hj with h | h
        · exact h
        · exact absurd (h.symm.trans hk) hjk
    · intro j j1 j2 hj
      show (s.load.set k _).get j = _ ∧ (s.size.set k _).get j = _
      have hjk : j ≠ k := fun h => hj ((Seen.next hv).2 (Or.inr (hk.trans h.symm)))
      rw [Arr.set_get_ne _ _ hjk, Arr.set_get_ne _ _ hjk]
      exact I.no j j1 j2 (fun h => hj ((Seen.next hv).2 (Or.inl h)))
  · have he' : s.flag.get k = v := Classical.not_not.1 he
    have same : ∀ j, 0 ≤ j → j < n → (Seen g part v (e + 1) j ↔ Seen g part v e j) := by
      intro j j1 j2
      rw [Seen.next hv]
      refine ⟨fun h => h.elim id (fun h => ?_), Or.inl⟩
      have : j = k := h.symm.trans hk
      rw [this] at j1 j2 ⊢
      exact (I.mark k j1 j2).1 he'
    rw [Holds_pure]
    exact ⟨i1, i2, i3, I.own, I.low, fun j j1 j2 => (I.mark j j1 j2).trans (same j j1 j2).symm, fun j j1 j2 h => I.yes j j1 j2 ((same j j1 j2).1 h), fun j j1 j2 h => I.no j j1 j2 (fun k => h ((same j j1 j2).2 k)), I.frlo⟩

theorem costVertex_holds {a : Arr Int} {lo hi lo' hi' v : Int} {s : CostState} (hE : ConsE g) (hA : g.Allocated) (ha : a.lo ≤ g.baseval ∧ g.vertnnd ≤ a.hi) (hr : ∀ v, g.Vertex v → -1 ≤ a.get v ∧ a.get v < n)
    (hl : lo ≤ 0 ∧ n ≤ hi) (hs : lo' ≤ 0 ∧ n ≤ hi') (hv : g.Vertex v) (I : CInv g a.get n lo hi lo' hi' v s) : Holds (costVertex g a v s) (CInv g a.get n lo hi lo' hi' (v + 1)) := by
  unfold costVertex
  have hv1 := hv.1
  have hv2 := hv.2
  have hrv := hr v hv
  have i1 := I.load
  have i2 := I.size
  have i3 := I.flag
  rw [rdVelo_eq hA hv, ok_bind, Arr.rd_ok _ (by omega) (by omega), ok_bind, Holds_ite]
  refine ⟨fun h0 => ?_, fun h0 => ?_⟩
  · have bel : ∀ k, 0 ≤ k → (Belongs g a.get k v ↔ k = a.get v) := by
      intro k k0
      rw [belongs_adj]
      exact ⟨fun h => by rcases h with h | ⟨h, -⟩ <;> omega, fun h => Or.inl h.symm⟩
    rw [Arr.rd_ok _ (by omega) (by omega), ok_bind, Arr.wr_ok _ _ (by omega) (by omega), ok_bind, Arr.rd_ok _ (by omega) (by omega), ok_bind, Arr.wr_ok _ _ (by omega) (by omega), ok_bind, Holds_pure]
    refine ⟨i1, i2, i3, fun k k1 k2 => by have := I.low k k1 k2; show s.flag.get k < v + 1; omega, ?_, ?_, ?_⟩
    · intro k k1 k2
      show (s.load.set (a.get v) _).get k = _
      rw [sumI_succ hv1, Arr.set_get]
      by_cases hk : k = a.get v
      · rw [if_pos hk, if_pos ((bel k k1).2 hk), ← hk, I.loads k k1 k2]
      · rw [if_neg hk, if_neg (fun h => hk ((bel k k1).1 h)), I.loads k k1 k2]; omega
    · intro k k1 k2
      show (s.size.set (a.get v) _).get k = _
      rw [sumI_succ hv1, Arr.set_get]
      by_cases hk : k = a.get v
      · rw [if_pos hk, if_pos ((bel k k1).2 hk), ← hk, I.sizes k k1 k2]
      · rw [if_neg hk, if_neg (fun h => hk ((bel k k1).1 h)), I.sizes k k1 k2]; omega
    · show s.frlo = _
      rw [sumI_succ hv1, if_neg (by omega), I.frlo]; omega
  · have hm : a.get v = -1 := by omega
    rw [Arr.wr_ok _ _ (by omega) (by omega), ok_bind]
    have hrg := hE.range v hv
    refine Holds_forArcs hA hv hrg.2 (AInv g a.get n v (g.velo v) { s with flag := s.flag.set (-1) v, frlo := s.frlo + g.velo v }) ?_ ?_ ?_
    · have nos : ∀ k, ¬ Seen g a.get v (g.vert v) k := fun k ⟨e', h1, h2, _⟩ => by omega
      refine ⟨⟨rfl, rfl⟩, ⟨rfl, rfl⟩, i3, Arr.set_get_same _ _ _, ?_, ?_, fun k _ _ h => absurd h (nos k), fun k _ _ _ => ⟨rfl, rfl⟩, rfl⟩
      · intro k k1 k2
        show (s.flag.set (-1) v).get k ≤ v
        rw [Arr.set_get_ne _ _ (by omega)]
        have := I.low k k1 k2
        omega
      · intro k k1 k2
        show (s.flag.set (-1) v).get k = v ↔ _
        rw [Arr.set_get_ne _ _ (by omega)]
        have := I.low k k1 k2
        exact ⟨fun h => by omega, fun h => absurd h (nos k)⟩
    · intro e s' e1 e2 J
      have hd := (hE.inside v e hv e1 e2).1
      have hd1 := hd.1
      have hd2 := hd.2
      exact costArc_holds rfl e1 ⟨by omega, by omega⟩ (hr _ hd) (by show s.load.lo ≤ 0 ∧ n ≤ s.load.hi; omega) (by show s.size.lo ≤ 0 ∧ n ≤ s.size.hi; omega) J
    · intro s' J
      have bel : ∀ k, 0 ≤ k → (Belongs g a.get k v ↔ Seen g a.get v (g.vend v) k) := by
        intro k k0
        rw [belongs_adj]
        exact ⟨fun h => by rcases h with h | ⟨-, h⟩; exacts [absurd h (by omega), h], fun h => Or.inr ⟨hm, h⟩⟩
      refine ⟨?_, ?_, J.flag, fun k k1 k2 => by have := J.low k k1 k2; omega, ?_, ?_, ?_⟩
      · have := J.load; dsimp only at this; omega
      · have := J.size; dsimp only at this; omega
      · intro k k1 k2
        rw [sumI_succ hv1]
        have il := I.loads k k1 k2
        by_cases hk : Seen g a.get v (g.vend v) k
        · rw [if_pos ((bel k k1).2 hk), (J.yes k k1 k2 hk).1, ← il]
        · rw [if_neg (fun h => hk ((bel k k1).1 h)), (J.no k k1 k2 hk).1, ← il]; exact (Int.add_zero _).symm
      · intro k k1 k2
        rw [sumI_succ hv1]
        have il := I.sizes k k1 k2
        by_cases hk : Seen g a.get v (g.vend v) k
        · rw [if_pos ((bel k k1).2 hk), (J.yes k k1 k2 hk).2, ← il]
        · rw [if_neg (fun h => hk ((bel k k1).1 h)), (J.no k k1 k2 hk).2, ← il]; exact (Int.add_zero _).symm
      · rw [sumI_succ hv1, if_pos hm, J.frlo, ← I.frlo]

/-- Loads are the ones of the parts. -/
theorem cost_holds {b : Wgraph} (C : b.s.Consistent) (A : Alloc b) (hb : 0 ≤ b.s.baseval) (hn : 1 ≤ b.partnbr) (hP : IsPartition b.s b.partnbr b.part) (hF : Enum b.frontab b.fronnbr (fun v => b.s.Vertex v ∧ b.part v = -1)) (junk : Int → Int) :
    Holds (cost junk b) (fun b' => SameProblem b b' ∧ Valid b' ∧ b'.parttax = b.parttax ∧ b'.frontab = b.frontab ∧ b'.fronnbr = b.fronnbr) := by
  unfold cost
  have hE := consE_iff.2 C
  have a1 := A.load
  have a2 := A.size
  have hnn := C.vertnnd
  have hn0 := C.vertnbr
  rw [Holds_bind]
  refine (fill_holds (by omega) a1.1 a1.2).mono ?_
  rintro load ⟨l1, l2, -⟩
  rw [Holds_bind]
  refine (fill_holds (by omega) a2.1 a2.2).mono ?_
  rintro size ⟨s1, s2, -⟩
  rw [Holds_bind]
  refine (fill_holds (a := ⟨-1, b.partnbr, junk⟩) (lo := 0) (hi := b.partnbr) (by omega) (by show (-1 : Int) ≤ 0; decide) (Int.le_refl _)).mono ?_
  rintro flag ⟨f1, f2, -⟩
  rw [Holds_bind]
  refine Holds_forUp (CInv b.s b.part b.partnbr b.compload.lo b.compload.hi b.compsize.lo b.compsize.hi) (by omega) ?_ ?_ ?_
  · refine ⟨l1, s1, f1, ?_, ?_, ?_, ?_⟩
    · intro k k1 k2; rw [f2 k k1 k2]; omega
    · intro k k1 k2; rw [sumI_empty (Int.le_refl _)]; exact l2 k k1 k2
    · intro k k1 k2; rw [sumI_empty (Int.le_refl _)]; exact s2 k k1 k2
    · rw [sumI_empty (Int.le_refl _)]
  · intro v s v1 v2 I
    exact costVertex_holds hE A.graph A.part hP.range a1 a2 ⟨v1, v2⟩ I
  · intro s I
    rw [Holds_pure]
    exact ⟨⟨rfl, rfl, ⟨rfl, rfl⟩, ⟨rfl, rfl⟩, I.load, I.size⟩, ⟨hP, hF, I.frlo, I.loads, I.sizes⟩, rfl, rfl, rfl⟩

theorem zero_holds {b : Wgraph} (C : b.s.Consistent) (A : Alloc b) (hn : 1 ≤ b.partnbr) : Holds (zero b) (fun b' => SameProblem b b' ∧ Valid b' ∧ b'.fronload = 0 ∧ ∀ v, b.s.Vertex v → b'.part v = 0) := by
  unfold zero
  have a1 := A.load
  have a2 := A.size
  have a3 := A.part
  have hnn := C.vertnnd
  have hn0 := C.vertnbr
  have hE := consE_iff.2 C
  rw [if_neg (by omega), Holds_bind]
  refine (fill_holds (by omega) (by omega) a1.2).mono ?_
  rintro load ⟨l1, l2, -⟩
  rw [Holds_bind]
  refine (fill_holds (by omega) (by omega) a2.2).mono ?_
  rintro size ⟨s1, s2, -⟩
  rw [Arr.wr_ok _ _ (by omega) (by omega), ok_bind, Arr.wr_ok _ _ (by omega) (by omega), ok_bind, Holds_bind]
  refine (fill_holds (by omega) a3.1 (by omega)).mono ?_
  rintro part ⟨p1, p2, -⟩
  rw [Holds_pure]
  have hp : ∀ v, b.s.Vertex v → part.get v = 0 := fun v hv => p2 v hv.1 (by have := hv.2; omega)
  have hd : ∀ v e, b.s.Vertex v → b.s.vert v ≤ e → e < b.s.vend v → part.get (b.s.dest e) = 0 := fun v e hv h1 h2 => hp _ (hE.inside v e hv h1 h2).1
  have bel : ∀ k v, b.s.Vertex v → (Belongs b.s part.get k v ↔ k = 0) := by
    intro k v hv
    rw [belongs_adj, hp v hv]
    exact ⟨fun h => by rcases h with h | ⟨h, -⟩ <;> omega, fun h => Or.inl h.symm⟩
  have wi : ∀ k f, within b.s part.get k f = if k = 0 then sumI b.s.baseval b.s.vertnnd f else 0 := by
    intro k f
    unfold within
    by_cases hk : k = 0
    · rw [if_pos hk]; exact sumI_congr fun v v1 v2 => if_pos ((bel k v ⟨v1, v2⟩).2 hk)
    · rw [if_neg hk, sumI_congr (g := fun _ => 0) (fun v v1 v2 => if_neg (fun h => hk ((bel k v ⟨v1, v2⟩).1 h))), sumI_const (by omega)]; omega
  refine ⟨⟨rfl, rfl, p1, ⟨rfl, rfl⟩, l1, s1⟩, ⟨⟨?_, ?_⟩, ?_, ?_, ?_, ?_⟩, rfl, hp⟩
  · intro v hv
    show -1 ≤ part.get v ∧ part.get v < b.partnbr
    rw [hp v hv]; omega
  · intro v p hv hpn _ _
    show part.get p.1 = part.get v
    obtain ⟨e', h1, h2, h3, h4⟩ := (mem_nbrs b.s v p).1 hpn
    rw [hp v hv, ← h3, hd v e' hv h1 h2]
  · refine (Enum.empty b.frontab).congr fun v => ⟨False.elim, ?_⟩
    rintro ⟨hv, h⟩
    have : part.get v = -1 := h
    rw [hp v hv] at this
    omega
  · show (0 : Int) = over b.s part.get (-1) _
    rw [Separ.over_const b.s hp, if_neg (by decide)]
  · intro k k1 k2
    show (load.set 0 b.s.velosum).get k = within b.s part.get k b.s.velo
    rw [wi, Arr.set_get]
    split
    · exact C.velosum
    · exact l2 k (by omega) k2
  · intro k k1 k2
    show (size.set 0 b.s.vertnbr).get k = within b.s part.get k _
    rw [wi, Arr.set_get]
    split
    · rw [sumI_const (by omega)]; omega
    · exact s2 k (by omega) k2

theorem SameProblem.refl (b : Wgraph) : SameProblem b b := ⟨rfl, rfl, ⟨rfl, rfl⟩, ⟨rfl, rfl⟩, ⟨rfl, rfl⟩, ⟨rfl, rfl⟩⟩

theorem SameProblem.trans {a b c : Wgraph} (h : SameProblem a b) (k : SameProblem b c) : SameProblem a c :=
  ⟨k.s.trans h.s, k.partnbr.trans h.partnbr, ⟨k.part.1.trans h.part.1, k.part.2.trans h.part.2⟩, ⟨k.fron.1.trans h.fron.1, k.fron.2.trans h.fron.2⟩,
    ⟨k.load.1.trans h.load.1, k.load.2.trans h.load.2⟩, ⟨k.size.1.trans h.size.1, k.size.2.trans h.size.2⟩⟩

theorem SameProblem.alloc {a b : Wgraph} (h : SameProblem a b) (A : Alloc a) : Alloc b := by
  obtain ⟨h1, h2, h3, h4, h5, h6⟩ := h
  obtain ⟨a1, a2, a3, a4, a5⟩ := A
  exact ⟨by rw [h1]; exact a1, by rw [h1, h3.1, h3.2]; exact a2, by rw [h1, h4.1, h4.2]; exact a3, by rw [h2, h5.1, h5.2]; exact a4, by rw [h2, h6.1, h6.2]; exact a5⟩

theorem SameProblem.pre {a b : Wgraph} (h : SameProblem a b) (P : Pre a) : Pre b :=
  ⟨by rw [h.s]; exact P.cons, h.alloc P.alloc, by rw [h.s]; exact P.base, by rw [h.s]; exact P.size, by rw [h.s]; exact P.vnum, by rw [h.partnbr]; exact P.parts⟩

end Scotch.Ovl
