import Verif.Ovl.LemmasRb4
import Verif.Bipart.LemmasMl

/-! # Partitioning with overlap: uncoarsening -/

set_option autoImplicit false
set_option linter.unusedSimpArgs false

namespace Scotch.Ovl
open Graph Coarsen
open Bipart (over)

/-! ## Lists of parts -/

/-- The cells that are reached from `idx`. -/
def Chain (next : Int → Int) : Int → List Int → Prop
  | idx, [] => idx = -1
  | idx, k :: l => idx = k ∧ Chain next (next k) l

theorem Chain.congr {next next' : Int → Int} : ∀ {idx : Int} {l : List Int}, (∀ k ∈ l, next' k = next k) → Chain next idx l → Chain next' idx l
  | _, [], _, h => h
  | _, k :: _, e, h => ⟨h.1, by rw [e k List.mem_cons_self]; exact Chain.congr (fun j hj => e j (List.mem_cons_of_mem _ hj)) h.2⟩

theorem mlWalk_holds {next : Arr Int} {velo n : Int} (hnx : next.lo ≤ 0 ∧ n ≤ next.hi) : ∀ (l : List Int) (f : Nat) (idx : Int) (load size : Arr Int), l.Nodup → (∀ k ∈ l, 0 ≤ k ∧ k < n) → Chain next.get idx l → l.length < f →
    load.lo ≤ 0 ∧ n ≤ load.hi → size.lo ≤ 0 ∧ n ≤ size.hi → Holds (mlWalk next velo f idx load size) (fun r => (r.1.lo = load.lo ∧ r.1.hi = load.hi) ∧ (r.2.lo = size.lo ∧ r.2.hi = size.hi) ∧
      ∀ k, (r.1.get k = load.get k + if k ∈ l then velo else 0) ∧ r.2.get k = size.get k + if k ∈ l then 1 else 0)
  | [], 0, _, _, _, _, _, _, hf, _, _ => absurd hf (by simp)
  | [], f + 1, idx, load, size, _, _, hc, _, _, _ => by
    unfold mlWalk
    rw [if_pos (show idx = -1 from hc)]
    exact ⟨⟨rfl, rfl⟩, ⟨rfl, rfl⟩, fun k => by simp⟩
  | j :: l, 0, _, _, _, _, _, _, hf, _, _ => absurd hf (by simp)
  | j :: l, f + 1, idx, load, size, hnd, hr, hc, hf, hl, hs => by
    obtain ⟨rfl, hc⟩ := hc
    obtain ⟨j0, j1⟩ := hr idx List.mem_cons_self
    obtain ⟨hni, hnd⟩ := List.nodup_cons.1 hnd
    unfold mlWalk
    rw [if_neg (by omega), Arr.rd_ok load (by omega) (by omega), ok_bind, Arr.wr_ok load _ (by omega) (by omega), ok_bind, Arr.rd_ok size (by omega) (by omega), ok_bind, Arr.wr_ok size _ (by omega) (by omega), ok_bind,
      Arr.rd_ok next (by omega) (by omega), ok_bind]
    refine (mlWalk_holds hnx l f (next.get idx) (load.set idx (load.get idx + velo)) (size.set idx (size.get idx + 1)) hnd (fun k hk => hr k (List.mem_cons_of_mem _ hk)) hc (by simpa using hf) hl hs).mono ?_
    rintro r ⟨r1, r2, r3⟩
    refine ⟨r1, r2, fun k => ?_⟩
    obtain ⟨h1, h2⟩ := r3 k
    rw [h1, h2, Arr.set_get, Arr.set_get]
    by_cases hk : k = idx
    · subst hk
      rw [if_pos rfl, if_pos rfl, if_neg hni, if_neg hni, if_pos List.mem_cons_self, if_pos List.mem_cons_self]
      omega
    · rw [if_neg hk, if_neg hk]
      by_cases hm : k ∈ l
      · rw [if_pos hm, if_pos hm, if_pos (List.mem_cons_of_mem _ hm), if_pos (List.mem_cons_of_mem _ hm)]
        exact ⟨rfl, rfl⟩
      · have : k ∉ idx :: l := fun h => (List.mem_cons.1 h).elim hk hm
        rw [if_neg hm, if_neg hm, if_neg this, if_neg this]
        exact ⟨rfl, rfl⟩

theorem nodup_len {l : List Int} {n : Int} (hn : 0 ≤ n) (h : l.Nodup) (hr : ∀ k ∈ l, 0 ≤ k ∧ k < n) : (l.length : Int) ≤ n := by
  have hs : l ⊆ seg id 0 n := fun k hk => (mem_seg id _ _ _).2 ⟨k, (hr k hk).1, (hr k hk).2, rfl⟩
  have h1 := (h.subperm hs).length_le
  have h2 := seg_length (id : Int → Int) (lo := 0) (hi := n) hn
  omega

variable {g : Graph} {part : Int → Int} {n : Int}

/-- State of the loop on arcs: the list holds the parts that have been seen. -/
structure LInv (g : Graph) (part : Int → Int) (n v : Int) (e : Int) (s : PartList) : Prop where
  vert : s.vert.lo = -1 ∧ s.vert.hi = n
  next : s.next.lo = -1 ∧ s.next.hi = n
  own : s.vert.get (-1) = v
  low : ∀ k, 0 ≤ k → k < n → s.vert.get k ≤ v
  mark : ∀ k, 0 ≤ k → k < n → (s.vert.get k = v ↔ Seen g part v e k)
  list : ∃ l : List Int, l.Nodup ∧ (∀ k ∈ l, 0 ≤ k ∧ k < n) ∧ (∀ k, 0 ≤ k → k < n → (k ∈ l ↔ Seen g part v e k)) ∧ Chain s.next.get s.head l

theorem mlArc_holds {a : Arr Int} {v e : Int} {s : PartList} (ha : a.get = part) (hv : g.vert v ≤ e) (hw : a.lo ≤ g.dest e ∧ g.dest e < a.hi) (hr : -1 ≤ part (g.dest e) ∧ part (g.dest e) < n) (I : LInv g part n v e s) :
    Holds (mlArc a v (g.dest e) s) (LInv g part n v (e + 1)) := by
  unfold mlArc
  rw [Arr.rd_ok _ hw.1 hw.2, ok_bind, ha]
  have i1 := I.vert
  have i2 := I.next
  generalize hk : part (g.dest e) = k at hr
  rw [Arr.rd_ok _ (by omega) (by omega), ok_bind, Holds_ite]
  refine ⟨fun hne => ?_, fun he => ?_⟩
  · have k0 : 0 ≤ k := by
      by_contra h
      have : k = -1 := by omega
      rw [this] at hne
      exact hne I.own
    have hns : ¬ Seen g part v e k := fun h => hne ((I.mark k k0 hr.2).2 h)
    rw [Arr.wr_ok _ _ (by omega) (by omega), ok_bind, Arr.wr_ok _ _ (by omega) (by omega), ok_bind, Holds_pure]
    refine ⟨i1, i2, ?_, ?_, ?_, ?_⟩
    · show (s.vert.set k v).get (-1) = v
      rw [Arr.set_get_ne _ _ (by omega)]; exact I.own
    · intro j j1 j2
      show (s.vert.set k v).get j ≤ v
      rw [Arr.set_get]
      split
      · omega
      · exact I.low j j1 j2
    · intro j j1 j2
      show (s.vert.set k v).get j = v ↔ _
      rw [Seen.next hv, hk, Arr.set_get]
      by_cases hj : j = k
      · rw [if_pos hj]; exact ⟨fun _ => Or.inr hj.symm, fun _ => rfl⟩
      · rw [if_neg hj, I.mark j j1 j2]; exact ⟨Or.inl, fun h => h.elim id (fun h => absurd h.symm hj)⟩
    · obtain ⟨l, l1, l2, l3, l4⟩ := I.list
      have hkl : k ∉ l := fun h => hns ((l3 k k0 hr.2).1 h)
      refine ⟨k :: l, List.nodup_cons.2 ⟨hkl, l1⟩, ?_, ?_, rfl, ?_⟩
      · intro j hj
        rcases List.mem_cons.1 hj with rfl | hj
        · exact ⟨k0, hr.2⟩
        · exact l2 j hj
      · intro j j1 j2
        rw [Seen.next hv, hk, List.mem_cons, l3 j j1 j2]
        exact ⟨fun h => h.elim (fun h => Or.inr h.symm) Or.inl, fun h => h.elim Or.inr (fun h => Or.inl h.symm)⟩
      · show Chain (s.next.set k s.head).get ((s.next.set k s.head).get k) l
        rw [Arr.set_get_same]
        exact Chain.congr (fun j hj => Arr.set_get_ne _ _ (fun h => hkl (h ▸ hj))) l4
  · have he' : s.vert.get k = v := Classical.not_not.1 he
    have same : ∀ j, 0 ≤ j → j < n → (Seen g part v (e + 1) j ↔ Seen g part v e j) := by
      intro j j1 j2
      rw [Seen.next hv]
      refine ⟨fun h => h.elim id (fun h => ?_), Or.inl⟩
      have : j = k := h.symm.trans hk
      rw [this] at j1 j2 ⊢
      exact (I.mark k j1 j2).1 he'
    rw [Holds_pure]
    obtain ⟨l, l1, l2, l3, l4⟩ := I.list
    exact ⟨i1, i2, I.own, I.low, fun j j1 j2 => (I.mark j j1 j2).trans (same j j1 j2).symm, l, l1, l2, fun j j1 j2 => (l3 j j1 j2).trans (same j j1 j2).symm, l4⟩

/-- State of the loop on vertices. -/
structure MInv (g : Graph) (part : Int → Int) (n : Int) (lo hi lo' hi' : Int) (v : Int) (s : MlLoads) : Prop where
  load : s.load.lo = lo ∧ s.load.hi = hi
  size : s.size.lo = lo' ∧ s.size.hi = hi'
  vert : s.vert.lo = -1 ∧ s.vert.hi = n
  next : s.next.lo = -1 ∧ s.next.hi = n
  low : ∀ k, 0 ≤ k → k < n → s.vert.get k < v
  loads : ∀ k, 0 ≤ k → k < n → s.load.get k = sumI g.baseval v (fun u => if Belongs g part k u then g.velo u else 0)
  sizes : ∀ k, 0 ≤ k → k < n → s.size.get k = sumI g.baseval v (fun u => if Belongs g part k u then 1 else 0)

theorem mlVertex_holds {a : Arr Int} {lo hi lo' hi' v : Int} {s : MlLoads} (hE : ConsE g) (hA : g.Allocated) (ha : a.lo ≤ g.baseval ∧ g.vertnnd ≤ a.hi) (hr : ∀ v, g.Vertex v → -1 ≤ a.get v ∧ a.get v < n) (hn : 0 ≤ n)
    (hl : lo ≤ 0 ∧ n ≤ hi) (hs : lo' ≤ 0 ∧ n ≤ hi') (hv : g.Vertex v) (I : MInv g a.get n lo hi lo' hi' v s) : Holds (mlVertex g n a v s) (MInv g a.get n lo hi lo' hi' (v + 1)) := by
  unfold mlVertex
  have hv1 := hv.1
  have hv2 := hv.2
  have hrv := hr v hv
  have i1 := I.load
  have i2 := I.size
  have i3 := I.vert
  have i4 := I.next
  rw [Arr.rd_ok _ (by omega) (by omega), ok_bind, Holds_ite]
  refine ⟨fun h0 => ?_, fun h0 => ?_⟩
  · have bel : ∀ k, 0 ≤ k → (Belongs g a.get k v ↔ k = a.get v) := by
      intro k k0
      rw [belongs_adj]
      exact ⟨fun h => by rcases h with h | ⟨h, -⟩ <;> omega, fun h => Or.inl h.symm⟩
    rw [rdVelo_eq hA hv, ok_bind, Arr.rd_ok _ (by omega) (by omega), ok_bind, Arr.wr_ok _ _ (by omega) (by omega), ok_bind, Arr.rd_ok _ (by omega) (by omega), ok_bind, Arr.wr_ok _ _ (by omega) (by omega), ok_bind, Holds_pure]
    refine ⟨i1, i2, i3, i4, fun k k1 k2 => by have := I.low k k1 k2; show s.vert.get k < v + 1; omega, ?_, ?_⟩
    · intro k k1 k2
      show (s.load.set (a.get v) _).get k = _
      rw [sumI_succ hv1, Arr.set_get]
      by_cases hk : k = a.get v
      · rw [if_pos hk, if_pos ((bel k k1).2 hk), ← hk, I.loads k k1 k2]
      · rw [if_neg hk, if_neg (fun h => hk ((bel k k1).1 h)), I.loads k k1 k2]; omega
    · intro k k1 k2
      show (s.size.set (a.get v) _).get k = _
      rw [sumI_succ hv1, Arr.set_get]
      by_cases hk : k = a.get v
      · rw [if_pos hk, if_pos ((bel k k1).2 hk), ← hk, I.sizes k k1 k2]
      · rw [if_neg hk, if_neg (fun h => hk ((bel k k1).1 h)), I.sizes k k1 k2]; omega
  · have hm : a.get v = -1 := by omega
    rw [Arr.wr_ok _ _ (by omega) (by omega), ok_bind, Holds_bind]
    have hrg := hE.range v hv
    refine Holds_forArcs hA hv hrg.2 (LInv g a.get n v) ?_ ?_ ?_
    · have nos : ∀ k, ¬ Seen g a.get v (g.vert v) k := fun k ⟨e', h1, h2, _⟩ => by omega
      refine ⟨i3, i4, Arr.set_get_same _ _ _, ?_, ?_, [], List.nodup_nil, fun k h => (by cases h), fun k _ _ => ⟨fun h => (by cases h), fun h => absurd h (nos k)⟩, rfl⟩
      · intro k k1 k2
        show (s.vert.set (-1) v).get k ≤ v
        rw [Arr.set_get_ne _ _ (by omega)]
        have := I.low k k1 k2
        omega
      · intro k k1 k2
        show (s.vert.set (-1) v).get k = v ↔ _
        rw [Arr.set_get_ne _ _ (by omega)]
        have := I.low k k1 k2
        exact ⟨fun h => by omega, fun h => absurd h (nos k)⟩
    · intro e s' e1 e2 J
      have hd := (hE.inside v e hv e1 e2).1
      have hd1 := hd.1
      have hd2 := hd.2
      exact mlArc_holds rfl e1 ⟨by omega, by omega⟩ (hr _ hd) J
    · intro t J
      obtain ⟨l, l1, l2, l3, l4⟩ := J.list
      have j2 := J.next
      have hlen := nodup_len hn l1 l2
      rw [rdVelo_eq hA hv, ok_bind, Holds_bind]
      refine (mlWalk_holds (n := n) ⟨by omega, by omega⟩ l (n.toNat + 1) t.head s.load s.size l1 l2 l4 (by omega) ⟨by omega, by omega⟩ ⟨by omega, by omega⟩).mono ?_
      rintro ⟨load, size⟩ ⟨w1, w2, w3⟩
      rw [Holds_pure]
      have bel : ∀ k, 0 ≤ k → k < n → (Belongs g a.get k v ↔ k ∈ l) := by
        intro k k0 k1
        rw [belongs_adj, l3 k k0 k1]
        exact ⟨fun h => by rcases h with h | ⟨-, h⟩; exacts [absurd h (by omega), h], fun h => Or.inr ⟨hm, h⟩⟩
      refine ⟨⟨w1.1.trans i1.1, w1.2.trans i1.2⟩, ⟨w2.1.trans i2.1, w2.2.trans i2.2⟩, J.vert, J.next, fun k k1 k2 => by have := J.low k k1 k2; show t.vert.get k < v + 1; omega, ?_, ?_⟩
      · intro k k1 k2
        show load.get k = _
        rw [sumI_succ hv1, ← I.loads k k1 k2, (w3 k).1]
        by_cases hk : k ∈ l
        · rw [if_pos ((bel k k1 k2).2 hk), if_pos hk]
        · rw [if_neg (fun h => hk ((bel k k1 k2).1 h)), if_neg hk]
      · intro k k1 k2
        show size.get k = _
        rw [sumI_succ hv1, ← I.sizes k k1 k2, (w3 k).2]
        by_cases hk : k ∈ l
        · rw [if_pos ((bel k k1 k2).2 hk), if_pos hk]
        · rw [if_neg (fun h => hk ((bel k k1 k2).1 h)), if_neg hk]

/-! ## Projection -/

variable {b cb : Wgraph} {mate : Int → Int} {r : Result}

/-- What a coarse graph has in common with the fine one. -/
structure MlRel (b : Wgraph) (r : Result) (cb : Wgraph) : Prop where
  s : cb.s = r.graph
  part : cb.parttax.lo ≤ cb.s.baseval ∧ cb.s.vertnnd ≤ cb.parttax.hi
  nbr : cb.partnbr = b.partnbr

/-- State of the loop after the coarse vertices below `c`. -/
structure PInv (b : Wgraph) (r : Result) (cb : Wgraph) (c : Int) (s : MlState) : Prop where
  plo : s.part.lo = b.parttax.lo ∧ s.part.hi = b.parttax.hi
  flo : s.fron.lo = b.frontab.lo ∧ s.fron.hi = b.frontab.hi
  part : ∀ v, b.s.Vertex v → r.coar.get v < c → s.part.get v = cb.part (r.coar.get v)
  fron : Enum s.fron s.nbr (fun v => b.s.Vertex v ∧ r.coar.get v < c ∧ cb.part (r.coar.get v) = -1)

theorem mlLoop_holds (C : b.s.Consistent) (P : Pairing b.s mate) (K : Contracted b.s mate r) (A : Alloc b) (R : MlRel b r cb) (V : Valid cb) :
    Holds (forUp cb.s.baseval cb.s.vertnnd ⟨b.parttax, b.frontab, 0⟩ (mlStep r.mult cb.parttax)) (PInv b r cb r.graph.vertnnd) := by
  have hle : r.graph.baseval ≤ r.graph.vertnnd := by have := K.consistent.vertnbr; have := K.consistent.vertnnd; omega
  have hp := R.part
  have hroom := K.room
  have ha := A.part
  have hfr := A.fron
  have hn := C.vertnnd
  have hparts : ∀ c, r.graph.Vertex c → -1 ≤ cb.part c ∧ cb.part c < cb.partnbr := fun c hc => V.parts.range c (by rw [R.s]; exact hc)
  rw [R.s] at hp ⊢
  refine Holds_forUp (fun c s => PInv b r cb c s) hle ?_ ?_ (fun _ h => h)
  · refine ⟨⟨rfl, rfl⟩, ⟨rfl, rfl⟩, ?_, ?_⟩
    · intro v hv h
      have := (K.inside v hv).1
      omega
    · refine (Enum.empty _).congr ?_
      intro v
      refine ⟨False.elim, ?_⟩
      rintro ⟨hv, h, -⟩
      have := (K.inside v hv).1
      omega
  · rintro c ⟨part, fron, n⟩ c1 c2 ⟨i1, i2, i3, i4⟩
    dsimp only at i1 i2 i3 i4
    have hc : r.graph.Vertex c := ⟨c1, c2⟩
    obtain ⟨p1, p2⟩ := (K.fib P).pair c ((K.vertex_iff c).1 hc).1 ((K.vertex_iff c).1 hc).2
    have hf : ∀ v, b.s.Vertex v → (r.coar.get v = c ↔ v = (r.mult.get c).1 ∨ v = (r.mult.get c).2) := fun v hv => (K.fib P).fiber c v ((K.vertex_iff c).1 hc).1 ((K.vertex_iff c).1 hc).2 hv
    unfold mlStep
    rw [Arr.rd_ok cb.parttax (by omega) (by omega), ok_bind, Arr.rd_ok r.mult (by omega) (by omega), ok_bind]
    generalize hm : r.mult.get c = m at *
    obtain ⟨v0, v1⟩ := m
    dsimp only at p1 p2 hf ⊢
    have := p1.1; have := p1.2; have := p2.1; have := p2.2
    have k0 : r.coar.get v0 = c := (hf v0 p1).2 (Or.inl rfl)
    have k1 : r.coar.get v1 = c := (hf v1 p2).2 (Or.inr rfl)
    have hpc : cb.parttax.get c = cb.part c := rfl
    have hpart := hparts c hc
    rw [Arr.wr_ok _ _ (by omega) (by omega), ok_bind, hpc]
    have two : ∀ v, b.s.Vertex v → r.coar.get v < c + 1 → ((part.set v0 (cb.part c)).set v1 (cb.part c)).get v = cb.part (r.coar.get v) := by
      intro v hv hlt
      by_cases h1 : v = v1
      · rw [h1, Arr.set_get_same _ _ _, k1]
      · rw [Arr.set_get_ne _ _ h1]
        by_cases h0 : v = v0
        · rw [h0, Arr.set_get_same _ _ _, k0]
        · rw [Arr.set_get_ne _ _ h0]
          apply i3 v hv
          have : r.coar.get v ≠ c := fun h => by rcases (hf v hv).1 h with h | h <;> contradiction
          omega
    have one : v0 = v1 → ∀ v, b.s.Vertex v → r.coar.get v < c + 1 → (part.set v0 (cb.part c)).get v = cb.part (r.coar.get v) := by
      intro he v hv hlt
      by_cases h0 : v = v0
      · rw [h0, Arr.set_get_same _ _ _, k0]
      · rw [Arr.set_get_ne _ _ h0]
        apply i3 v hv
        have : r.coar.get v ≠ c := fun h => by rcases (hf v hv).1 h with h | h <;> omega
        omega
    rw [Holds_ite]
    refine ⟨fun h2 => ?_, fun h2 => ?_⟩
    · have en : Enum fron n (fun v => b.s.Vertex v ∧ r.coar.get v < c + 1 ∧ cb.part (r.coar.get v) = -1) := by
        refine i4.congr ?_
        intro v
        constructor
        · rintro ⟨a1, a2, a3⟩; exact ⟨a1, by omega, a3⟩
        · rintro ⟨a1, a2, a3⟩
          refine ⟨a1, ?_, a3⟩
          have : r.coar.get v ≠ c := by intro h; rw [h] at a3; omega
          omega
      rw [Holds_ite]
      refine ⟨fun hne => ?_, fun he => ?_⟩
      · rw [Arr.wr_ok _ _ (by rw [Arr.set_lo]; omega) (by rw [Arr.set_hi]; omega), ok_bind, Holds_pure]
        exact ⟨i1, i2, two, en⟩
      · rw [Holds_pure]
        exact ⟨i1, i2, one (Classical.not_not.1 he), en⟩
    · have h2' : cb.part c = -1 := by omega
      have nin : ∀ v, r.coar.get v = c → ¬ (b.s.Vertex v ∧ r.coar.get v < c ∧ cb.part (r.coar.get v) = -1) := by
        rintro v hv ⟨-, h, -⟩
        omega
      have lt0 := i4.lt (lo := b.s.baseval) (hi := b.s.vertnnd) (x := v0) (fun v hv => hv.1) (nin v0 k0) p1.1 p1.2
      have n0 := i4.1
      have e0 := i4.push (nin v0 k0)
      rw [Arr.wr_ok _ _ (by omega) (by omega), ok_bind, Holds_ite]
      refine ⟨fun hne => ?_, fun he => ?_⟩
      · have nin1 : ¬ ((b.s.Vertex v1 ∧ r.coar.get v1 < c ∧ cb.part (r.coar.get v1) = -1) ∨ v1 = v0) := by
          rintro (h | h)
          · exact nin v1 k1 h
          · exact hne h.symm
        have lt1 := e0.lt (lo := b.s.baseval) (hi := b.s.vertnnd) (x := v1) (by rintro v (hv | rfl); exacts [hv.1, p1]) nin1 p2.1 p2.2
        have e1 := e0.push nin1
        rw [Arr.wr_ok (part.set v0 _) _ (by rw [Arr.set_lo]; omega) (by rw [Arr.set_hi]; omega), ok_bind, Arr.wr_ok _ _ (by rw [Arr.set_lo]; omega) (by rw [Arr.set_hi]; omega), ok_bind, Holds_pure]
        refine ⟨i1, i2, two, ?_⟩
        have e2 : n + 2 = n + 1 + 1 := by omega
        show Enum ((fron.set n v0).set (n + 1) v1) (n + 2) _
        rw [e2]
        refine e1.congr ?_
        intro v
        constructor
        · rintro ((⟨a1, a2, a3⟩ | rfl) | rfl)
          · exact ⟨a1, by omega, a3⟩
          · exact ⟨p1, by omega, by rw [k0]; exact h2'⟩
          · exact ⟨p2, by omega, by rw [k1]; exact h2'⟩
        · rintro ⟨a1, a2, a3⟩
          by_cases hvc : r.coar.get v = c
          · rcases (hf v a1).1 hvc with h | h
            · exact Or.inl (Or.inr h)
            · exact Or.inr h
          · exact Or.inl (Or.inl ⟨a1, by omega, a3⟩)
      · have he' : v0 = v1 := Classical.not_not.1 he
        rw [Holds_pure]
        refine ⟨i1, i2, one he', ?_⟩
        show Enum (fron.set n v0) (n + 1) _
        refine e0.congr ?_
        intro v
        constructor
        · rintro (⟨a1, a2, a3⟩ | rfl)
          · exact ⟨a1, by omega, a3⟩
          · exact ⟨p1, by omega, by rw [k0]; exact h2'⟩
        · rintro ⟨a1, a2, a3⟩
          by_cases hvc : r.coar.get v = c
          · right
            rcases (hf v a1).1 hvc with h | h
            · exact h
            · exact h.trans he'.symm
          · exact Or.inl ⟨a1, by omega, a3⟩

/-- Uncoarsening a valid partition gives a valid one, with the same parts. -/
theorem mlUncoarsen_holds (hb : Pre b) (P : Pairing b.s mate) (K : Contracted b.s mate r) (R : MlRel b r cb) (V : Valid cb) (junk0 junk1 : Int → Int) :
    Holds (mlUncoarsen junk0 junk1 b cb r.mult) (fun b' => Valid b' ∧ SameProblem b b' ∧ (∀ v, b.s.Vertex v → b'.part v = cb.part (r.coar.get v)) ∧ b'.fronload = cb.fronload) := by
  have C := hb.cons
  have A := hb.alloc
  have hE := consE_iff.2 C
  have hn := hb.parts
  have a1 := A.load
  have a2 := A.size
  have hbase := hb.base
  have hnn := C.vertnnd
  have hn0 := C.vertnbr
  have hq : ∀ c, r.graph.Vertex c → -1 ≤ cb.part c ∧ cb.part c < b.partnbr := fun c hc => by rw [← R.nbr]; exact V.parts.range c (by rw [R.s]; exact hc)
  unfold mlUncoarsen
  rw [Holds_bind]
  refine (fill_holds (a := ⟨-1, b.partnbr, junk0⟩) (lo := 0) (hi := b.partnbr) (by omega) (by show (-1 : Int) ≤ 0; decide) (Int.le_refl _)).mono ?_
  rintro vert ⟨f1, f2, -⟩
  rw [Holds_bind]
  refine (fill_holds (a := ⟨-1, b.partnbr, junk1⟩) (lo := 0) (hi := b.partnbr) (by omega) (by show (-1 : Int) ≤ 0; decide) (Int.le_refl _)).mono ?_
  rintro next ⟨n1, -, -⟩
  rw [Holds_bind]
  refine (fill_holds (by omega) a1.1 a1.2).mono ?_
  rintro load ⟨l1, l2, -⟩
  rw [Holds_bind]
  refine (fill_holds (by omega) a2.1 a2.2).mono ?_
  rintro size ⟨s1, s2, -⟩
  rw [Holds_bind]
  refine (mlLoop_holds C P K A R V).mono ?_
  rintro ⟨part, fron, n⟩ ⟨i1, i2, i3, i4⟩
  dsimp only at i1 i2 i3 i4 ⊢
  have q3 : ∀ v, b.s.Vertex v → part.get v = cb.part (r.coar.get v) := fun v hv => i3 v hv (K.inside v hv).2
  have hpr : ∀ v, b.s.Vertex v → -1 ≤ part.get v ∧ part.get v < b.partnbr := fun v hv => by rw [q3 v hv]; exact hq _ (K.inside v hv)
  have hpa : part.lo ≤ b.s.baseval ∧ b.s.vertnnd ≤ part.hi := by have := A.part; omega
  rw [Holds_bind]
  refine Holds_forUp (MInv b.s part.get b.partnbr b.compload.lo b.compload.hi b.compsize.lo b.compsize.hi) (by omega) ?_ ?_ ?_
  · refine ⟨l1, s1, f1, n1, ?_, ?_, ?_⟩
    · intro k k1 k2; rw [f2 k k1 k2]; omega
    · intro k k1 k2; rw [sumI_empty (Int.le_refl _)]; exact l2 k k1 k2
    · intro k k1 k2; rw [sumI_empty (Int.le_refl _)]; exact s2 k k1 k2
  · intro v s v1 v2 I
    exact mlVertex_holds hE A.graph hpa hpr (by omega) a1 a2 ⟨v1, v2⟩ I
  · intro t I
    rw [Holds_pure]
    have hfl : cb.fronload = over b.s part.get (-1) b.s.velo := by
      rw [V.fronload, R.s, Bipart.over_coarse K (-1) (f := b.s.velo) (fun c hc => K.merged.velo c hc)]
      exact Bipart.over_congr (g := b.s) (-1) (fun v hv => (q3 v hv).symm) (fun _ _ => rfl)
    refine ⟨⟨⟨hpr, ?_⟩, ?_, hfl, I.loads, I.sizes⟩, ⟨rfl, rfl, i1, i2, I.load, I.size⟩, q3, rfl⟩
    · intro v p hv hp
      have hw := (C.inside v p hv hp).1
      change b.s.Vertex v at hv
      show 0 ≤ part.get v → 0 ≤ part.get p.1 → part.get p.1 = part.get v
      rw [q3 v hv, q3 _ hw]
      by_cases he : r.coar.get p.1 = r.coar.get v
      · rw [he]; intros; rfl
      · have hadj : r.graph.Adj (r.coar.get v) (r.coar.get p.1) := (K.adj_coarse (K.inside v hv)).2 ⟨he, v, p.1, hv, rfl, (adj_iff _ _).2 ⟨p, hp, rfl⟩, rfl⟩
        obtain ⟨q, q1, q2⟩ := (adj_iff _ _).1 hadj
        have := V.parts.sep (r.coar.get v) q (by rw [R.s]; exact K.inside v hv) (by rw [R.s]; exact q1)
        rw [q2] at this
        exact this
    · refine i4.congr ?_
      intro v
      constructor
      · rintro ⟨a1, a2, a3⟩; exact ⟨a1, by show part.get v = -1; rw [q3 v a1]; exact a3⟩
      · rintro ⟨a1, a2⟩; exact ⟨a1, (K.inside v a1).2, by rw [← q3 v a1]; exact a2⟩

/-- The multilevel method. -/
theorem partMl2_holds {cls : Graph → Prop} {np : Int} {nul tot sure : Bool} {env : WEnv} (he : env.Ok cls) {asc low : WMethod} (ha : ∀ p, PartMethod cls np nul tot sure true (asc p)) (hl : ∀ p, PartMethod cls np nul tot sure true (low p)) :
    ∀ (n : Nat) (p : Path) (b : Wgraph), Pre b → cls b.s → b.partnbr = np → b.s.vertnbr < n → Mt nul tot (partMl2 env asc low n p b) (Res sure b) := by
  intro n
  induction n with
  | zero => intro p b R _ _ h; have := R.size; simp at h; omega
  | succ n ih =>
    intro p b R hcls hnp hn
    rw [partMl2, Mt_bind]
    refine (Mt.of_holds (he.coarsen p b.s R.cons R.alloc.graph R.base hcls)).mono ?_
    rintro o ⟨hsh, hco⟩
    have last : ∀ (f : WMethod) (q : Path) (b1 : Wgraph), PartMethod cls np nul tot sure true (f q) → SameProblem b b1 → Valid b1 → Mt nul tot (f q b1) (Res sure b) := by
      intro f q b1 hf S1 V1
      refine (hf b1 (S1.pre R) (by rw [S1.s]; exact hcls) (by rw [S1.partnbr]; exact hnp) (fun _ => V1)).mono ?_
      rintro x X
      have hle := V1.fron.le (lo := b1.s.baseval) (hi := b1.s.vertnnd) (by rw [S1.s]; have := R.cons.vertnnd; have := R.cons.vertnbr; omega) (fun v hv => hv.1)
      have h0 := V1.fron.1
      have hs := S1.s
      refine ⟨S1.trans X.same, X.sure, X.valid, fun hx _ _ => ?_⟩
      have := X.fron hx h0 (by rw [hs] at hle ⊢; have := R.cons.vertnnd; omega)
      rw [hs] at this
      exact this
    cases o with
    | none =>
      dsimp only
      rw [Mt_bind]
      refine (Mt.of_holds (zero_holds R.cons R.alloc R.parts)).mono ?_
      rintro b1 ⟨S1, V1, -⟩
      exact last low _ b1 (hl _) S1 V1
    | some r =>
      obtain ⟨mate, P, K, hlt⟩ := hsh r rfl
      dsimp only
      have hnn := K.consistent.vertnnd
      rw [Mt_bind]
      have hRc : Pre (mlCoarsen env p b r) := by
        refine ⟨K.consistent, ⟨K.allocated, ⟨Int.le_refl _, Int.le_of_eq hnn⟩, ⟨Int.le_refl _, Int.le_refl _⟩, ⟨Int.le_refl _, Int.le_refl _⟩, ⟨Int.le_refl _, Int.le_refl _⟩⟩, ?_, ?_, (hco r rfl).2, R.parts⟩
        · change 0 ≤ r.graph.baseval
          rw [K.merged.baseval]; exact R.base
        · have := K.size_pos R.cons (by have := R.size; omega)
          change 1 ≤ r.graph.vertnbr
          omega
      have hn' : r.graph.vertnbr < n := by push_cast at hn; omega
      refine (ih (3 :: p) (mlCoarsen env p b r) hRc (hco r rfl).1 hnp hn').mono ?_
      rintro ⟨o, cb⟩ ⟨S1, k2, k3, -⟩
      dsimp only at S1 k2 k3 ⊢
      unfold mlUp
      by_cases ho : o = 0
      · rw [if_pos ho, Mt_bind]
        have Rel : MlRel b r cb := by
          refine ⟨S1.s, ?_, S1.partnbr⟩
          rw [S1.s]
          change cb.parttax.lo ≤ r.graph.baseval ∧ r.graph.vertnnd ≤ cb.parttax.hi
          rw [S1.part.1, S1.part.2]
          exact ⟨Int.le_refl _, Int.le_of_eq hnn⟩
        refine (Mt.of_holds (mlUncoarsen_holds R P K Rel (k3 ho) _ _)).mono ?_
        rintro b1 ⟨V1, S2, -⟩
        exact last asc _ b1 (ha _) S2 V1
      · rw [if_neg ho]
        exact ⟨SameProblem.refl b, k2, fun h => absurd h ho, fun _ h1 h2 => ⟨h1, h2⟩⟩

end Scotch.Ovl
