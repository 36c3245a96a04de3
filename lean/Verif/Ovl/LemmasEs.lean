import Verif.Ovl.ModelEs
import Verif.Ovl.LemmasSt
import Verif.Separ.LemmasEs5

/-! # Partitioning with overlap: separators from mappings -/

set_option autoImplicit false
set_option linter.unusedSimpArgs false

namespace Scotch.Ovl
open Graph Bipart

variable {g : Graph} {n : Int} {m : KMap}

/-- Part of a vertex, before the separator is removed. -/
def KMap.num (m : KMap) (v : Int) : Int := m.dom.get (m.part.get v)

/-- Loads of parts. -/
theorem esLoad_holds (H : MapGood g n m) (hn : 0 ≤ n) {a : Arr Int} (ha : a.lo ≤ 0 ∧ n ≤ a.hi) : Holds (forUp 0 n a fun k a => do a.wr (← m.dom.rd k) (← m.load.rd k)) (fun a' => (a'.lo = a.lo ∧ a'.hi = a.hi) ∧
    ∀ j, 0 ≤ j → j < n → a'.get j = sumI g.baseval g.vertnnd (fun v => if m.num v = j then g.velo v else 0)) := by
  have d1 := H.mdom
  have d2 := H.mload
  refine Holds_forUp (fun i (a' : Arr Int) => (a'.lo = a.lo ∧ a'.hi = a.hi) ∧ ∀ k, 0 ≤ k → k < i → a'.get (m.dom.get k) = m.load.get k) hn ⟨⟨rfl, rfl⟩, fun k h1 h2 => by omega⟩ ?_ ?_
  · rintro i a' i1 i2 ⟨b1, b2⟩
    obtain ⟨e1, e2⟩ := H.num i i1 i2
    rw [Arr.rd_ok _ (by omega) (by omega), ok_bind, Arr.rd_ok _ (by omega) (by omega), ok_bind, Arr.wr_ok _ _ (by omega) (by omega)]
    refine ⟨b1, fun k k1 k2 => ?_⟩
    show (a'.set _ _).get _ = _
    rw [Arr.set_get]
    by_cases hk : m.dom.get k = m.dom.get i
    · rw [if_pos hk, H.inj k i k1 (by omega) i1 i2 hk]
    · rw [if_neg hk]
      have : k ≠ i := fun h => hk (by rw [h])
      exact b2 k k1 (by omega)
  · rintro a' ⟨b1, b2⟩
    refine ⟨b1, fun j j1 j2 => ?_⟩
    obtain ⟨k, k1, k2, rfl⟩ := H.surj j j1 j2
    rw [b2 k k1 k2, H.load k k1 k2]
    apply sumI_congr
    intro v v1 v2
    obtain ⟨p1, p2⟩ := H.part v ⟨v1, v2⟩
    by_cases h : m.part.get v = k
    · rw [if_pos h, if_pos (by unfold KMap.num; rw [h])]
    · rw [if_neg h, if_neg (fun e : m.num v = m.dom.get k => h (H.inj _ _ p1 p2 k1 k2 e))]

theorem KMap.num_range (H : MapGood g n m) {v : Int} (hv : g.Vertex v) : 0 ≤ m.num v ∧ m.num v < n := H.num _ (H.part v hv).1 (H.part v hv).2

/-- Parts, and sizes of parts. -/
theorem esVertex_holds (H : MapGood g n m) (hle : g.baseval ≤ g.vertnnd) {a z : Arr Int} (ha : a.lo ≤ g.baseval ∧ g.vertnnd ≤ a.hi) (hz : z.lo ≤ 0 ∧ n ≤ z.hi) (h0 : ∀ k, 0 ≤ k → k < n → z.get k = 0) :
    Holds (forUp g.baseval g.vertnnd (a, z) (esVertex m)) (fun r => (r.1.lo = a.lo ∧ r.1.hi = a.hi) ∧ (r.2.lo = z.lo ∧ r.2.hi = z.hi) ∧ (∀ v, g.Vertex v → r.1.get v = m.num v) ∧
      ∀ k, 0 ≤ k → k < n → r.2.get k = sumI g.baseval g.vertnnd (fun v => if m.num v = k then 1 else 0)) := by
  have d1 := H.mdom
  have d2 := H.mpart
  refine Holds_forUp (fun i (r : Arr Int × Arr Int) => (r.1.lo = a.lo ∧ r.1.hi = a.hi) ∧ (r.2.lo = z.lo ∧ r.2.hi = z.hi) ∧ (∀ v, g.baseval ≤ v → v < i → r.1.get v = m.num v) ∧
      ∀ k, 0 ≤ k → k < n → r.2.get k = sumI g.baseval i (fun v => if m.num v = k then 1 else 0)) hle ?_ ?_ ?_
  · refine ⟨⟨rfl, rfl⟩, ⟨rfl, rfl⟩, fun v h1 h2 => by omega, fun k k1 k2 => ?_⟩
    rw [sumI_empty (Int.le_refl _)]; exact h0 k k1 k2
  · rintro v ⟨x, y⟩ v1 v2 ⟨b1, b2, b3, b4⟩
    obtain ⟨p1, p2⟩ := H.part v ⟨v1, v2⟩
    obtain ⟨q1, q2⟩ := H.num _ p1 p2
    dsimp only at b1 b2 b3 b4
    unfold esVertex
    rw [Arr.rd_ok _ (by omega) (by omega), ok_bind, Arr.rd_ok _ (by omega) (by omega), ok_bind]
    dsimp only
    rw [Arr.wr_ok _ _ (by omega) (by omega), ok_bind, Arr.rd_ok _ (by omega) (by omega), ok_bind, Arr.wr_ok _ _ (by omega) (by omega), ok_bind, Holds_pure]
    refine ⟨b1, b2, ?_, ?_⟩
    · intro u u1 u2
      show (x.set v _).get u = _
      rw [Arr.set_get]
      by_cases h : u = v
      · rw [if_pos h, h]; rfl
      · rw [if_neg h]; exact b3 u u1 (by omega)
    · intro k k1 k2
      show (y.set _ _).get k = _
      rw [sumI_succ v1, Arr.set_get]
      by_cases h : k = m.dom.get (m.part.get v)
      · rw [if_pos h, if_pos (show m.num v = k from h.symm), ← h, b4 k k1 k2]
      · rw [if_neg h, if_neg (fun e : m.num v = k => h e.symm), b4 k k1 k2]; omega
  · rintro r ⟨b1, b2, b3, b4⟩
    exact ⟨b1, b2, fun v hv => b3 v hv.1 hv.2, b4⟩

/-- State of the first loop on the frontier. -/
structure FInv (g : Graph) (n : Int) (m : KMap) (L Z : Int → Int) (s0 : EsState) (i : Int) (s : EsState) : Prop where
  bl : s.load.lo = s0.load.lo ∧ s.load.hi = s0.load.hi
  bz : s.size.lo = s0.size.lo ∧ s.size.hi = s0.size.hi
  bp : s.part.lo = s0.part.lo ∧ s.part.hi = s0.part.hi
  bf : s.fron.lo = s0.fron.lo ∧ s.fron.hi = s0.fron.hi
  out : ∀ v, g.Vertex v → (∀ j, 0 ≤ j → j < i → m.fron.get j ≠ v) → s.part.get v = m.num v
  sep : ∀ j, 0 ≤ j → j < i → s.part.get (m.fron.get j) = -1
  load : ∀ k, 0 ≤ k → k < n → s.load.get k = L k - sumI 0 i (fun j => if m.num (m.fron.get j) = k then g.velo (m.fron.get j) else 0)
  size : ∀ k, 0 ≤ k → k < n → s.size.get k = Z k - sumI 0 i (fun j => if m.num (m.fron.get j) = k then 1 else 0)
  fron : ∀ j, 0 ≤ j → j < i → s.fron.get j = m.fron.get j
  frlo : s.frlo = sumI 0 i (fun j => g.velo (m.fron.get j))

theorem esFron_holds (H : MapGood g n m) (hA : g.Allocated) {L Z : Int → Int} {s0 s : EsState} (hl : s0.load.lo ≤ 0 ∧ n ≤ s0.load.hi) (hz : s0.size.lo ≤ 0 ∧ n ≤ s0.size.hi) (hp : s0.part.lo ≤ g.baseval ∧ g.vertnnd ≤ s0.part.hi)
    (hf : s0.fron.lo ≤ 0 ∧ m.fronnbr ≤ s0.fron.hi) {i : Int} (i1 : 0 ≤ i) (i2 : i < m.fronnbr) (I : FInv g n m L Z s0 i s) : Holds (esFron g m i s) (FInv g n m L Z s0 (i + 1)) := by
  have hv : g.Vertex (m.fron.get i) := (H.fron.mem i1 i2).1
  have hinj := H.fron.2.1
  have d1 := H.mfron
  have c1 := hv.1
  have c2 := hv.2
  obtain ⟨k1, k2⟩ := KMap.num_range H hv
  have q := I.out _ hv (fun j j1 j2 e => by have := hinj j i j1 (by omega) i1 i2 e; omega)
  have bl := I.bl
  have bz := I.bz
  have bp := I.bp
  have bf := I.bf
  unfold esFron
  rw [Arr.rd_ok _ (by omega) (by omega), ok_bind, rdVelo_eq hA hv, ok_bind, Arr.rd_ok _ (by omega) (by omega), ok_bind, q, Arr.rd_ok _ (by omega) (by omega), ok_bind, Arr.wr_ok _ _ (by omega) (by omega), ok_bind,
    Arr.rd_ok _ (by omega) (by omega), ok_bind, Arr.wr_ok _ _ (by omega) (by omega), ok_bind, Arr.wr_ok _ _ (by omega) (by omega), ok_bind, Arr.wr_ok _ _ (by omega) (by omega), ok_bind, Holds_pure]
  refine ⟨bl, bz, bp, bf, ?_, ?_, ?_, ?_, ?_, ?_⟩
  · intro v hv' h
    show (s.part.set _ _).get v = _
    rw [Arr.set_get_ne _ _ (fun e => h i i1 (by omega) e.symm)]
    exact I.out v hv' (fun j j1 j2 => h j j1 (by omega))
  · intro j j1 j2
    show (s.part.set _ _).get _ = _
    rw [Arr.set_get]
    split
    · rfl
    · rename_i hne
      have : j ≠ i := fun e => hne (by rw [e])
      exact I.sep j j1 (by omega)
  · intro k h1 h2
    show (s.load.set _ _).get k = _
    rw [sumI_succ i1, Arr.set_get]
    by_cases h : k = m.num (m.fron.get i)
    · rw [if_pos h, if_pos h.symm, ← h, I.load k h1 h2]; omega
    · rw [if_neg h, if_neg (fun e => h e.symm), I.load k h1 h2]; omega
  · intro k h1 h2
    show (s.size.set _ _).get k = _
    rw [sumI_succ i1, Arr.set_get]
    by_cases h : k = m.num (m.fron.get i)
    · rw [if_pos h, if_pos h.symm, ← h, I.size k h1 h2]; omega
    · rw [if_neg h, if_neg (fun e => h e.symm), I.size k h1 h2]; omega
  · intro j j1 j2
    show (s.fron.set _ _).get j = _
    rw [Arr.set_get]
    by_cases h : j = i
    · rw [if_pos h, h]
    · rw [if_neg h]; exact I.fron j j1 (by omega)
  · show s.frlo + _ = _
    rw [sumI_succ i1, I.frlo]

/-- State of the loop on arcs. -/
structure BInv (g : Graph) (part : Int → Int) (n v velo : Int) (s0 : EsLoads) (e : Int) (s : EsLoads) : Prop where
  load : s.load.lo = s0.load.lo ∧ s.load.hi = s0.load.hi
  size : s.size.lo = s0.size.lo ∧ s.size.hi = s0.size.hi
  flag : s.flag.lo = s0.flag.lo ∧ s.flag.hi = s0.flag.hi
  keep : ∀ k, 0 ≤ k → k < n → s.flag.get k = v ∨ s.flag.get k = s0.flag.get k
  mark : ∀ k, 0 ≤ k → k < n → (s.flag.get k = v ↔ Seen g part v e k)
  yes : ∀ k, 0 ≤ k → k < n → Seen g part v e k → s.load.get k = s0.load.get k + velo ∧ s.size.get k = s0.size.get k + 1
  no : ∀ k, 0 ≤ k → k < n → ¬ Seen g part v e k → s.load.get k = s0.load.get k ∧ s.size.get k = s0.size.get k

theorem esArc_holds {a : Arr Int} {v velo e : Int} {s0 s : EsLoads} (hv : g.vert v ≤ e) (hw : a.lo ≤ g.dest e ∧ g.dest e < a.hi) (hr : -1 ≤ a.get (g.dest e) ∧ a.get (g.dest e) < n)
    (hl : s0.load.lo ≤ 0 ∧ n ≤ s0.load.hi) (hs : s0.size.lo ≤ 0 ∧ n ≤ s0.size.hi) (hf : s0.flag.lo ≤ 0 ∧ n ≤ s0.flag.hi) (I : BInv g a.get n v velo s0 e s) :
    Holds (esArc a v velo (g.dest e) s) (BInv g a.get n v velo s0 (e + 1)) := by
  unfold esArc
  rw [Arr.rd_ok _ hw.1 hw.2, ok_bind]
  have i1 := I.load
  have i2 := I.size
  have i3 := I.flag
  generalize hk : a.get (g.dest e) = k at hr
  have skip : (∀ j, 0 ≤ j → j < n → (Seen g a.get v (e + 1) j ↔ Seen g a.get v e j)) → BInv g a.get n v velo s0 (e + 1) s := fun same =>
    ⟨i1, i2, i3, I.keep, fun j j1 j2 => (I.mark j j1 j2).trans (same j j1 j2).symm, fun j j1 j2 h => I.yes j j1 j2 ((same j j1 j2).1 h), fun j j1 j2 h => I.no j j1 j2 (fun k => h ((same j j1 j2).2 k))⟩
  rw [Holds_ite]
  refine ⟨fun h1 => ?_, fun h1 => ?_⟩
  · rw [Holds_pure]
    apply skip
    intro j j1 j2
    rw [Seen.next hv]
    exact ⟨fun h => h.elim id (fun h => by omega), Or.inl⟩
  rw [Arr.rd_ok _ (by omega) (by omega), ok_bind, Holds_ite]
  refine ⟨fun hne => ?_, fun he => ?_⟩
  · have k0 : 0 ≤ k := by omega
    have hns : ¬ Seen g a.get v e k := fun h => hne ((I.mark k k0 hr.2).2 h)
    rw [Arr.rd_ok _ (by omega) (by omega), ok_bind, Arr.wr_ok _ _ (by omega) (by omega), ok_bind,
      Arr.rd_ok _ (by omega) (by omega), ok_bind, Arr.wr_ok _ _ (by omega) (by omega), ok_bind, Arr.wr_ok _ _ (by omega) (by omega), ok_bind, Holds_pure]
    refine ⟨i1, i2, i3, ?_, ?_, ?_, ?_⟩
    · intro j j1 j2
      show (s.flag.set k v).get j = v ∨ (s.flag.set k v).get j = _
      rw [Arr.set_get]
      split
      · exact Or.inl rfl
      · exact I.keep j j1 j2
    · intro j j1 j2
      show (s.flag.set k v).get j = v ↔ _
      rw [Seen.next hv, hk, Arr.set_get]
      by_cases hj : j = k
      · rw [if_pos hj]; exact ⟨fun _ => Or.inr hj.symm, fun _ => rfl⟩
      · rw [if_neg hj, I.mark j j1 j2]; exact ⟨Or.inl, fun h => h.elim id (fun h => absurd h.symm hj)⟩
    · intro j j1 j2 hj
      show (s.load.set k _).get j = _ ∧ (s.size.set k _).get j = _
      by_cases hjk : j = k
      · subst hjk
        obtain ⟨n1, n2⟩ := I.no j j1 j2 hns
        rw [Arr.set_get_same, Arr.set_get_same, n1, n2]; exact ⟨rfl, rfl⟩
      · rw [Arr.set_get_ne _ _ hjk, Arr.set_get_ne _ _ hjk]
        refine I.yes j j1 j2 ?_
        rcases (Seen.next hv).1 hj with h | h
        · exact h
        · exact absurd (h.symm.trans hk) hjk
    · intro j j1 j2 hj
      show (s.load.set k _).get j = _ ∧ (s.size.set k _).get j = _
      have hjk : j ≠ k := fun h => hj ((Seen.next hv).2 (Or.inr (hk.trans h.symm)))
      rw [Arr.set_get_ne _ _ hjk, Arr.set_get_ne _ _ hjk]
      exact I.no j j1 j2 (fun h => hj ((Seen.next hv).2 (Or.inl h)))
  · have he' : s.flag.get k = v := Classical.not_not.1 he
    rw [Holds_pure]
    apply skip
    intro j j1 j2
    rw [Seen.next hv]
    refine ⟨fun h => h.elim id (fun h => ?_), Or.inl⟩
    have : j = k := h.symm.trans hk
    rw [this] at j1 j2 ⊢
    exact (I.mark k j1 j2).1 he'

open Classical in
/-- State of the second loop on the frontier. -/
structure DInv (g : Graph) (part fron : Int → Int) (n : Int) (s0 : EsLoads) (i : Int) (s : EsLoads) : Prop where
  bl : s.load.lo = s0.load.lo ∧ s.load.hi = s0.load.hi
  bz : s.size.lo = s0.size.lo ∧ s.size.hi = s0.size.hi
  bf : s.flag.lo = s0.flag.lo ∧ s.flag.hi = s0.flag.hi
  flag : ∀ k, 0 ≤ k → k < n → s.flag.get k = -1 ∨ ∃ j, 0 ≤ j ∧ j < i ∧ s.flag.get k = fron j
  load : ∀ k, 0 ≤ k → k < n → s.load.get k = s0.load.get k + sumI 0 i (fun j => if Seen g part (fron j) (g.vend (fron j)) k then g.velo (fron j) else 0)
  size : ∀ k, 0 ≤ k → k < n → s.size.get k = s0.size.get k + sumI 0 i (fun j => if Seen g part (fron j) (g.vend (fron j)) k then 1 else 0)

theorem esBack_holds (hE : ConsE g) (hA : g.Allocated) (hb : 0 ≤ g.baseval) {a f : Arr Int} {nbr : Int} {P : Int → Prop} (hF : Enum f nbr P) (hP : ∀ v, P v → g.Vertex v) (ha : a.lo ≤ g.baseval ∧ g.vertnnd ≤ a.hi) (hr : ∀ v, g.Vertex v → -1 ≤ a.get v ∧ a.get v < n)
    (hf : f.lo ≤ 0 ∧ nbr ≤ f.hi) {s0 s : EsLoads} (hl : s0.load.lo ≤ 0 ∧ n ≤ s0.load.hi) (hs : s0.size.lo ≤ 0 ∧ n ≤ s0.size.hi) (hg : s0.flag.lo ≤ 0 ∧ n ≤ s0.flag.hi) {i : Int} (i1 : 0 ≤ i) (i2 : i < nbr) (I : DInv g a.get f.get n s0 i s) :
    Holds (esBack g a f i s) (DInv g a.get f.get n s0 (i + 1)) := by
  have hv : g.Vertex (f.get i) := hP _ (hF.mem i1 i2)
  have bl := I.bl
  have bz := I.bz
  have bf := I.bf
  have hv1 := hv.1
  have nf : ∀ k, 0 ≤ k → k < n → s.flag.get k ≠ f.get i := by
    intro k k1 k2 e
    rcases I.flag k k1 k2 with h | ⟨j, j1, j2, h⟩
    · omega
    · have := hF.2.1 j i j1 (by omega) i1 i2 (h.symm.trans e)
      omega
  unfold esBack
  rw [Arr.rd_ok _ (by omega) (by omega), ok_bind, rdVelo_eq hA hv, ok_bind]
  have hrg := hE.range _ hv
  have nos : ∀ k, ¬ Seen g a.get (f.get i) (g.vert (f.get i)) k := fun k ⟨e', h1, h2, _⟩ => by omega
  refine Holds_forArcs hA hv hrg.2 (BInv g a.get n (f.get i) (g.velo (f.get i)) s) ?_ ?_ ?_
  · exact ⟨⟨rfl, rfl⟩, ⟨rfl, rfl⟩, ⟨rfl, rfl⟩, fun k _ _ => Or.inr rfl, fun k k1 k2 => ⟨fun h => absurd h (nf k k1 k2), fun h => absurd h (nos k)⟩, fun k _ _ h => absurd h (nos k), fun k _ _ _ => ⟨rfl, rfl⟩⟩
  · intro e s' e1 e2 J
    have hd := (hE.inside _ e hv e1 e2).1
    have hd1 := hd.1
    have hd2 := hd.2
    exact esArc_holds e1 ⟨by omega, by omega⟩ (hr _ hd) (by omega) (by omega) (by omega) J
  · intro s' J
    have jl := J.load
    have jz := J.size
    have jf := J.flag
    refine ⟨by omega, by omega, by omega, ?_, ?_, ?_⟩
    · intro k k1 k2
      rcases J.keep k k1 k2 with h | h
      · exact Or.inr ⟨i, i1, by omega, h⟩
      · rw [h]
        rcases I.flag k k1 k2 with h | ⟨j, j1, j2, h⟩
        · exact Or.inl h
        · exact Or.inr ⟨j, j1, by omega, h⟩
    · intro k k1 k2
      rw [sumI_succ i1, ← Int.add_assoc, ← I.load k k1 k2]
      by_cases h : Seen g a.get (f.get i) (g.vend (f.get i)) k
      · rw [if_pos h]; exact (J.yes k k1 k2 h).1
      · rw [if_neg h, (J.no k k1 k2 h).1]; omega
    · intro k k1 k2
      rw [sumI_succ i1, ← Int.add_assoc, ← I.size k k1 k2]
      by_cases h : Seen g a.get (f.get i) (g.vend (f.get i)) k
      · rw [if_pos h]; exact (J.yes k k1 k2 h).2
      · rw [if_neg h, (J.no k k1 k2 h).2]; omega

open Classical in
/-- The three sums give the load of a part. -/
theorem es_sum {part q : Int → Int} {f : Arr Int} {nbr : Int} {F : Int → Prop} (hF : Enum f nbr (fun v => g.Vertex v ∧ F v)) (hle : g.baseval ≤ g.vertnnd) (hq : ∀ v, g.Vertex v → 0 ≤ q v) (h1 : ∀ v, g.Vertex v → F v → part v = -1)
    (h2 : ∀ v, g.Vertex v → ¬ F v → part v = q v) (w : Int → Int) {k : Int} (hk : 0 ≤ k) :
    sumI g.baseval g.vertnnd (fun v => if q v = k then w v else 0) - sumI 0 nbr (fun j => if q (f.get j) = k then w (f.get j) else 0) +
      sumI 0 nbr (fun j => if Seen g part (f.get j) (g.vend (f.get j)) k then w (f.get j) else 0) = within g part k w := by
  have e1 : sumI 0 nbr (fun j => if q (f.get j) = k then w (f.get j) else 0) = sumI g.baseval g.vertnnd (fun v => if F v then (if q v = k then w v else 0) else 0) := by
    rw [← Separ.sumI_Enum hF hle (fun v hv => hv.1) (fun v => if F v then (if q v = k then w v else 0) else 0) (fun v v1 v2 hn => if_neg (fun h => hn ⟨⟨v1, v2⟩, h⟩))]
    apply sumI_congr
    intro j j1 j2
    rw [if_pos (hF.mem j1 j2).2]
  have e2 : sumI 0 nbr (fun j => if Seen g part (f.get j) (g.vend (f.get j)) k then w (f.get j) else 0) = sumI g.baseval g.vertnnd (fun v => if F v then (if Seen g part v (g.vend v) k then w v else 0) else 0) := by
    rw [← Separ.sumI_Enum hF hle (fun v hv => hv.1) (fun v => if F v then (if Seen g part v (g.vend v) k then w v else 0) else 0) (fun v v1 v2 hn => if_neg (fun h => hn ⟨⟨v1, v2⟩, h⟩))]
    apply sumI_congr
    intro j j1 j2
    rw [if_pos (hF.mem j1 j2).2]
  rw [e1, e2, ← sumI_sub_dist, ← sumI_add_dist]
  unfold within
  apply sumI_congr
  intro v v1 v2
  have hv : g.Vertex v := ⟨v1, v2⟩
  have hqv := hq v hv
  have hbel := belongs_adj (g := g) (part := part) k v
  by_cases hf : F v
  · have p1 := h1 v hv hf
    rw [if_pos hf, if_pos hf]
    by_cases hs : Seen g part v (g.vend v) k
    · rw [if_pos hs, if_pos (hbel.2 (Or.inr ⟨p1, hs⟩))]; omega
    · have hB : ¬ Belongs g part k v := fun h => by rcases hbel.1 h with h | ⟨-, h⟩; exacts [by omega, hs h]
      rw [if_neg hs, if_neg hB]; omega
  · have p1 := h2 v hv hf
    rw [if_neg hf, if_neg hf]
    by_cases hs : q v = k
    · rw [if_pos hs, if_pos (hbel.2 (Or.inl (p1.trans hs)))]; omega
    · have hB : ¬ Belongs g part k v := fun h => by rcases hbel.1 h with h | ⟨h, -⟩ <;> omega
      rw [if_neg hs, if_neg hB]; omega

theorem partEs_holds {map : Path → Graph → Int → M (Int × KMap)} {junk : Path → Int → Int} (p : Path) {b : Wgraph} (hb : Pre b) {nul tot sure : Bool} (hm : Mt nul tot (map p b.s b.partnbr) (fun r => (sure = true → r.1 = 0) ∧ (r.1 = 0 → MapGood b.s b.partnbr r.2))) :
    Mt nul tot (partEs map junk p b) (Res sure b) := by
  have C := hb.cons
  have hE := consE_iff.2 C
  have A := hb.alloc
  have hn := hb.parts
  have hnn := C.vertnnd
  have hn0 := C.vertnbr
  have hbase := hb.base
  unfold partEs
  revert hm
  cases map p b.s b.partnbr with
  | error e => cases e <;> exact id
  | ok r =>
    obtain ⟨o, m⟩ := r
    rintro ⟨h1, h2⟩
    dsimp only at h1 h2
    rw [ok_bind]
    dsimp only
    by_cases ho : o = 0
    swap
    · rw [if_pos ho]
      exact ⟨SameProblem.refl b, fun h => absurd (h1 h) ho, fun h => absurd (show (1 : Int) = 0 from h) (by decide), fun _ f1 f2 => ⟨f1, f2⟩⟩
    rw [if_neg (fun h => h ho)]
    have H := h2 ho
    apply Mt.of_holds
    have a1 := A.load
    have a2 := A.size
    have a3 := A.part
    have a4 := A.fron
    have hfl : m.fronnbr ≤ b.s.vertnbr := by
      have := H.fron.le (lo := b.s.baseval) (hi := b.s.vertnnd) (by omega) (fun v hv => hv.1)
      omega
    rw [Holds_bind]
    refine (esLoad_holds H (by omega) a1).mono ?_
    rintro load ⟨l1, l2⟩
    rw [Holds_bind]
    refine (fill_holds (by omega) a2.1 a2.2).mono ?_
    rintro size ⟨s1, s2, -⟩
    rw [Holds_bind]
    refine (esVertex_holds H (by omega) a3 (z := size) (by omega) s2).mono ?_
    rintro ⟨part, size'⟩ ⟨r1, r2, r3, r4⟩
    dsimp only at r1 r2 r3 r4 ⊢
    rw [Holds_bind]
    refine (fill_holds (a := ⟨-1, b.partnbr, junk p⟩) (lo := -1) (hi := b.partnbr) (by omega) (Int.le_refl _) (Int.le_refl _)).mono ?_
    rintro flag ⟨f1, f2, -⟩
    dsimp only at f1
    rw [Holds_bind]
    refine Holds_forUp (FInv b.s b.partnbr m (fun j => sumI b.s.baseval b.s.vertnnd (fun v => if m.num v = j then b.s.velo v else 0)) (fun j => sumI b.s.baseval b.s.vertnnd (fun v => if m.num v = j then 1 else 0)) ⟨load, size', part, b.frontab, 0⟩) H.fron.1 ?_ ?_ ?_
    · refine ⟨⟨rfl, rfl⟩, ⟨rfl, rfl⟩, ⟨rfl, rfl⟩, ⟨rfl, rfl⟩, fun v hv _ => r3 v hv, fun j j1 j2 => by omega, ?_, ?_, fun j j1 j2 => by omega, ?_⟩
      · intro k k1 k2; rw [sumI_empty (Int.le_refl _), Int.sub_zero]; exact l2 k k1 k2
      · intro k k1 k2; rw [sumI_empty (Int.le_refl _), Int.sub_zero]; exact r4 k k1 k2
      · rw [sumI_empty (Int.le_refl _)]
    · intro i s i1 i2 I
      exact esFron_holds H A.graph (by show load.lo ≤ 0 ∧ b.partnbr ≤ load.hi; omega) (by show size'.lo ≤ 0 ∧ b.partnbr ≤ size'.hi; omega) (by show part.lo ≤ _ ∧ _ ≤ part.hi; omega) (by show b.frontab.lo ≤ 0 ∧ _ ≤ b.frontab.hi; omega) i1 i2 I
    intro s I
    have il := I.bl
    have iz := I.bz
    have ip := I.bp
    have ifr := I.bf
    dsimp only at il iz ip ifr
    have hF : Enum s.fron m.fronnbr (fun v => b.s.Vertex v ∧ ∃ p ∈ b.s.nbrs v, m.part.get p.1 ≠ m.part.get v) := H.fron.agree I.fron
    have p1 : ∀ v, b.s.Vertex v → (∃ p ∈ b.s.nbrs v, m.part.get p.1 ≠ m.part.get v) → s.part.get v = -1 := by
      intro v hv h
      obtain ⟨j, j1, j2, rfl⟩ := (H.fron.2.2 v).1 ⟨hv, h⟩
      exact I.sep j j1 j2
    have p2 : ∀ v, b.s.Vertex v → (¬ ∃ p ∈ b.s.nbrs v, m.part.get p.1 ≠ m.part.get v) → s.part.get v = m.num v := by
      intro v hv h
      refine I.out v hv (fun j j1 j2 e => h ?_)
      exact ((H.fron.2.2 v).2 ⟨j, j1, j2, e⟩).2
    have hr : ∀ v, b.s.Vertex v → -1 ≤ s.part.get v ∧ s.part.get v < b.partnbr := by
      intro v hv
      have := KMap.num_range H hv
      by_cases h : ∃ p ∈ b.s.nbrs v, m.part.get p.1 ≠ m.part.get v
      · rw [p1 v hv h]; omega
      · rw [p2 v hv h]; omega
    rw [Holds_bind]
    refine Holds_forUp (DInv b.s s.part.get s.fron.get b.partnbr ⟨s.load, s.size, flag⟩) H.fron.1 ?_ ?_ ?_
    · refine ⟨⟨rfl, rfl⟩, ⟨rfl, rfl⟩, ⟨rfl, rfl⟩, fun k k1 k2 => Or.inl (f2 k (by omega) k2), ?_, ?_⟩
      · intro k k1 k2; rw [sumI_empty (Int.le_refl _), Int.add_zero]
      · intro k k1 k2; rw [sumI_empty (Int.le_refl _), Int.add_zero]
    · intro i t i1 i2 J
      exact esBack_holds hE A.graph hbase hF (fun v hv => hv.1) (by omega) hr (by omega) (by show s.load.lo ≤ 0 ∧ _ ≤ s.load.hi; omega) (by show s.size.lo ≤ 0 ∧ _ ≤ s.size.hi; omega) (by show flag.lo ≤ 0 ∧ _ ≤ flag.hi; omega) i1 i2 J
    intro t J
    have jl := J.bl
    have jz := J.bz
    dsimp only at jl jz
    rw [Holds_pure]
    have hsep : Separated b.s s.part.get := by
      intro v q hv hq e1 e2
      have hw : b.s.Vertex q.1 := by
        obtain ⟨e, k1, k2, k3, -⟩ := (mem_nbrs b.s v q).1 hq
        rw [← k3]
        exact (hE.inside v e hv k1 k2).1
      have n1 : ¬ ∃ p ∈ b.s.nbrs v, m.part.get p.1 ≠ m.part.get v := fun h => by rw [p1 v hv h] at e1; omega
      have n2 : ¬ ∃ p ∈ b.s.nbrs q.1, m.part.get p.1 ≠ m.part.get q.1 := fun h => by rw [p1 q.1 hw h] at e2; omega
      rw [p2 v hv n1, p2 q.1 hw n2]
      have : m.part.get q.1 = m.part.get v := Classical.byContradiction fun h => n1 ⟨q, hq, h⟩
      unfold KMap.num
      rw [this]
    have hn0' : ∀ v, b.s.Vertex v → 0 ≤ m.num v := fun v hv => (KMap.num_range H hv).1
    refine ⟨⟨rfl, rfl, by show s.part.lo = _ ∧ s.part.hi = _; omega, by show s.fron.lo = _ ∧ s.fron.hi = _; omega, by show t.load.lo = _ ∧ t.load.hi = _; omega, by show t.size.lo = _ ∧ t.size.hi = _; omega⟩, fun _ => rfl, fun _ => ?_, fun h => absurd rfl h⟩
    refine ⟨⟨hr, hsep⟩, ?_, ?_, ?_, ?_⟩
    · refine hF.congr fun v => ⟨fun h => ⟨h.1, p1 v h.1 h.2⟩, fun h => ⟨h.1, Classical.byContradiction fun hne => ?_⟩⟩
      have e1 : s.part.get v = -1 := h.2
      have := hn0' v h.1
      rw [p2 v h.1 hne] at e1
      omega
    · show s.frlo = over b.s s.part.get (-1) b.s.velo
      rw [I.frlo]
      unfold over
      classical
      rw [← Separ.sumI_Enum H.fron (by omega) (fun v hv => hv.1) (fun v => if s.part.get v = -1 then b.s.velo v else 0) ?_]
      · apply sumI_congr
        intro j j1 j2
        rw [if_pos (I.sep j j1 j2)]
      · intro v v1 v2 hne
        have hv : b.s.Vertex v := ⟨v1, v2⟩
        have := hn0' v hv
        rw [if_neg]
        rw [p2 v hv (fun h => hne ⟨hv, h⟩)]
        omega
    · intro k k1 k2
      show t.load.get k = within b.s s.part.get k b.s.velo
      rw [J.load k k1 k2, I.load k k1 k2, ← es_sum hF (by omega) hn0' p1 p2 b.s.velo k1]
      congr 2
      apply sumI_congr
      intro j j1 j2
      rw [I.fron j j1 j2]
    · intro k k1 k2
      show t.size.get k = within b.s s.part.get k (fun _ => 1)
      rw [J.size k k1 k2, I.size k k1 k2, ← es_sum hF (by omega) hn0' p1 p2 (fun _ => 1) k1]
      congr 2
      apply sumI_congr
      intro j j1 j2
      rw [I.fron j j1 j2]

end Scotch.Ovl
