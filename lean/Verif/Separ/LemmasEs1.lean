import Verif.Separ.ModelEs
import Verif.Graph.Weight

/-! # Vertex covers: matching -/

set_option autoImplicit false
set_option linter.unusedSimpArgs false

namespace Scotch.Separ
open Graph

/-- A bipartite graph: arcs join the vertices less than `P` and the others. -/
structure Bip (g : Graph) (P : Int) : Prop where
  alloc : g.Allocated
  base : 0 ≤ g.baseval
  vertnnd : g.vertnnd = g.baseval + g.vertnbr
  left : g.baseval ≤ P
  right : P ≤ g.vertnnd
  range : ∀ v, g.Vertex v → g.vert v ≤ g.vend v
  inside : ∀ v w, g.Vertex v → g.Adj v w → g.Vertex w
  cross : ∀ v w, g.Vertex v → g.Adj v w → (v < P ↔ ¬ w < P)
  symm : ∀ v w, g.Vertex v → g.Adj v w → g.Adj w v

/-- A matching: `-1` stands for no mate. -/
structure Mates (g : Graph) (mate : Arr Int) : Prop where
  bounds : mate.lo ≤ g.baseval ∧ g.vertnnd ≤ mate.hi
  adj : ∀ v, g.Vertex v → mate.get v ≠ -1 → g.Adj v (mate.get v)
  inv : ∀ v, g.Vertex v → mate.get v ≠ -1 → mate.get (mate.get v) = v

theorem fill_holds (lo hi : Int) (a : Arr Int) (c : Int) (h1 : a.lo ≤ lo) (h2 : hi ≤ a.hi) :
    Holds (forUp lo hi a fun v a => a.wr v c) (fun a' => a'.lo = a.lo ∧ a'.hi = a.hi ∧
      (∀ v, lo ≤ v → v < hi → a'.get v = c) ∧ ∀ v, ¬ (lo ≤ v ∧ v < hi) → a'.get v = a.get v) := by
  refine Holds_forUp' (fun i a' => a'.lo = a.lo ∧ a'.hi = a.hi ∧ (∀ v, lo ≤ v → v < i → a'.get v = c) ∧
      ∀ v, ¬ (lo ≤ v ∧ v < i) → a'.get v = a.get v) ⟨rfl, rfl, fun v _ _ => by omega, fun v _ => rfl⟩ ?_ ?_
  · rintro i s i1 i2 ⟨l, h, p, q⟩
    rw [Arr.wr_ok s c (by omega) (by omega), Holds_ok]
    refine ⟨l, h, ?_, ?_⟩
    · intro v v1 v2
      by_cases hv : v = i
      · rw [hv]; exact Arr.set_get_same _ _ _
      · rw [Arr.set_get_ne _ _ hv]; exact p v v1 (by omega)
    · intro v hv
      rw [Arr.set_get_ne _ _ (by omega)]; exact q v (by omega)
  · rintro s ⟨l, h, p, q⟩
    exact ⟨l, h, fun v v1 v2 => p v v1 (by omega), fun v hv => q v (by omega)⟩

variable {g : Graph} {P : Int}

/-- The matching, when columns less than `i` have been seen. -/
structure MatesTo (g : Graph) (P i : Int) (mate : Arr Int) : Prop where
  bounds : mate.lo ≤ g.baseval ∧ g.vertnnd ≤ mate.hi
  col : ∀ v, g.baseval ≤ v → v < i → mate.get v ≠ -1 → g.Adj v (mate.get v) ∧ mate.get (mate.get v) = v
  row : ∀ v, P ≤ v → v < g.vertnnd → mate.get v ≠ -1 →
    g.Adj v (mate.get v) ∧ mate.get (mate.get v) = v ∧ g.baseval ≤ mate.get v ∧ mate.get v < i

theorem esMate_holds (hb : Bip g P) {i : Int} (h1 : g.baseval ≤ i) (h2 : i < P) {mate : Arr Int} (hm : MatesTo g P i mate) :
    Holds (esMate g i mate) (MatesTo g P (i + 1)) := by
  have hr := hb.right
  have hv : g.Vertex i := ⟨h1, by omega⟩
  have hbase := hb.base
  obtain ⟨b1, b2⟩ := hm.bounds
  unfold esMate
  rw [rdVert_eq hb.alloc hv, ok_bind, rdVend_eq hb.alloc hv, ok_bind, Holds_bind]
  refine Holds_forUpB (fun _ m => m = mate) (fun r => g.Adj i r.2 ∧ mate.get r.2 = -1 ∧ r.1 = mate.set r.2 i) (hb.range i hv) rfl ?_ ?_ ?_
  · rintro e m e1 e2 rfl
    have hadj : g.Adj i (g.dest e) := ⟨e, e1, e2, rfl⟩
    have hw := hb.inside i _ hv hadj
    rw [rdEdge_eq hb.alloc hv e1 e2, ok_bind, Arr.rd_ok m (by have := hw.1; omega) (by have := hw.2; omega), ok_bind, Holds_ite]
    constructor
    · intro he
      rw [Arr.wr_ok m _ (by have := hw.1; omega) (by have := hw.2; omega), ok_bind, Holds_pure]
      exact ⟨hadj, he, rfl⟩
    · intro he
      rw [Holds_pure]
      exact rfl
  · rintro m rfl
    dsimp only
    rw [Arr.wr_ok m _ (by omega) (by omega), Holds_ok]
    refine ⟨hm.bounds, ?_, ?_⟩
    · intro v v1 v2 hne
      by_cases hvi : v = i
      · rw [hvi, Arr.set_get_same] at hne; omega
      · rw [Arr.set_get_ne _ _ hvi] at hne ⊢
        obtain ⟨a, c⟩ := hm.col v v1 (by omega) hne
        refine ⟨a, ?_⟩
        have hx := (hb.cross v _ ⟨v1, by omega⟩ a).1 (by omega)
        rw [Arr.set_get_ne _ _ (by omega)]; exact c
    · intro v v1 v2 hne
      rw [Arr.set_get_ne _ _ (by omega)] at hne ⊢
      obtain ⟨a, c, d, f⟩ := hm.row v v1 v2 hne
      refine ⟨a, ?_, d, by omega⟩
      rw [Arr.set_get_ne _ _ (by omega)]; exact c
  · rintro ⟨m, w⟩ ⟨hadj, he, hmw⟩
    dsimp only at hadj he hmw ⊢
    subst hmw
    have hw := hb.inside i w hv hadj
    have hx := (hb.cross i w hv hadj).1 h2
    rw [Arr.wr_ok _ _ (by show mate.lo ≤ i; omega) (by show i < mate.hi; omega), Holds_ok]
    refine ⟨hm.bounds, ?_, ?_⟩
    · intro v v1 v2 hne
      by_cases hvi : v = i
      · subst hvi
        rw [Arr.set_get_same]
        refine ⟨hadj, ?_⟩
        rw [Arr.set_get_ne _ _ (by omega)]; exact Arr.set_get_same _ _ _
      · rw [Arr.set_get_ne _ _ hvi, Arr.set_get_ne _ _ (by omega)] at hne ⊢
        obtain ⟨a, c⟩ := hm.col v v1 (by omega) hne
        refine ⟨a, ?_⟩
        have hx' := (hb.cross v _ ⟨v1, by omega⟩ a).1 (by omega)
        have hne' : mate.get v ≠ w := by
          intro h; rw [h, he] at c; omega
        rw [Arr.set_get_ne _ _ (by omega), Arr.set_get_ne _ _ hne']; exact c
    · intro v v1 v2 hne
      by_cases hvw : v = w
      · subst hvw
        rw [Arr.set_get_ne _ _ (by omega), Arr.set_get_same]
        exact ⟨hb.symm i v hv hadj, by rw [Arr.set_get_same], h1, by omega⟩
      · rw [Arr.set_get_ne _ _ (by omega), Arr.set_get_ne _ _ hvw] at hne ⊢
        obtain ⟨a, c, d, f⟩ := hm.row v v1 v2 hne
        refine ⟨a, ?_, d, by omega⟩
        rw [Arr.set_get_ne _ _ (by omega), Arr.set_get_ne _ _ (by omega)]; exact c

theorem esMatch_holds (hb : Bip g P) (junk : Int → Int) : Holds (esMatch g (P - g.baseval) ⟨g.baseval, g.vertnnd, junk⟩) (Mates g) := by
  have hl := hb.left
  have hr := hb.right
  unfold esMatch
  rw [Holds_bind, show P - g.baseval + g.baseval = P by omega]
  refine (fill_holds P g.vertnnd ⟨g.baseval, g.vertnnd, junk⟩ (-1) hl (Int.le_refl _)).mono ?_
  rintro m ⟨m1, m2, m3, -⟩
  dsimp only at m1 m2
  refine Holds_forUp (fun i m => MatesTo g P i m) hl ⟨⟨by omega, by omega⟩, fun v _ _ => by omega, fun v v1 v2 hne => absurd (m3 v v1 v2) hne⟩ ?_ ?_
  · intro i s i1 i2 hI
    exact esMate_holds hb i1 i2 hI
  · intro s hs
    refine ⟨hs.bounds, ?_, ?_⟩
    · intro v hv hne
      by_cases h : v < P
      · exact (hs.col v hv.1 h hne).1
      · exact (hs.row v (by omega) hv.2 hne).1
    · intro v hv hne
      by_cases h : v < P
      · exact (hs.col v hv.1 h hne).2
      · exact (hs.row v (by omega) hv.2 hne).2.1

/-! ## The search for augmenting paths does nothing -/

theorem esQueue_holds (hb : Bip g P) {s : EsSearch} (hm : Mates g s.mate)
    (hlev : s.lev.lo ≤ g.baseval ∧ g.vertnnd ≤ s.lev.hi) (htrav : s.trav.lo ≤ g.baseval ∧ g.vertnnd ≤ s.trav.hi)
    (hq : s.queu.lo ≤ 0 ∧ P - g.baseval ≤ s.queu.hi) :
    Holds (esQueue g (P - g.baseval) s) (fun s' => s'.mate = s.mate ∧ s'.listnbr = 0 ∧ s'.levlmax = -1 ∧ s'.tail = 0 ∧
      0 ≤ s'.head ∧ s'.head ≤ P - g.baseval ∧ s'.queu.lo ≤ 0 ∧ P - g.baseval ≤ s'.queu.hi ∧ s'.lev.lo ≤ g.baseval ∧ g.vertnnd ≤ s'.lev.hi ∧
      (∀ v, g.Vertex v → 0 ≤ s'.lev.get v) ∧ ∀ k, 0 ≤ k → k < s'.head → g.Vertex (s'.queu.get k)) := by
  have hl := hb.left
  have hr := hb.right
  obtain ⟨q1, q2⟩ := hq
  obtain ⟨b1, b2⟩ := hm.bounds
  unfold esQueue
  rw [Holds_bind, show P - g.baseval + g.baseval = P by omega]
  refine (fill_holds _ _ _ 0 hlev.1 hlev.2).mono ?_
  rintro lev ⟨l1, l2, l3, -⟩
  rw [Holds_bind]
  refine (fill_holds _ _ _ 0 htrav.1 htrav.2).mono ?_
  rintro trav -
  refine Holds_forUp (fun i s' => s'.mate = s.mate ∧ s'.listnbr = 0 ∧ s'.levlmax = -1 ∧ s'.tail = 0 ∧
      0 ≤ s'.head ∧ s'.head ≤ i - g.baseval ∧ s'.queu.lo ≤ 0 ∧ P - g.baseval ≤ s'.queu.hi ∧ s'.lev.lo ≤ g.baseval ∧ g.vertnnd ≤ s'.lev.hi ∧
      (∀ v, g.Vertex v → 0 ≤ s'.lev.get v) ∧ ∀ k, 0 ≤ k → k < s'.head → g.Vertex (s'.queu.get k)) hl ?_ ?_ (fun s h => h)
  · exact ⟨rfl, rfl, rfl, rfl, Int.le_refl 0, by show (0 : Int) ≤ _; omega, q1, q2, by show lev.lo ≤ _; omega, by show _ ≤ lev.hi; omega,
      fun v hv => by show 0 ≤ lev.get v; rw [l3 v hv.1 hv.2], fun k k1 k2 => absurd k2 (by show ¬ k < 0; omega)⟩
  · rintro i s' i1 i2 ⟨a1, a2, a3, a4, a5, a6, a7, a8, a9, a10, a11, a12⟩
    rw [a1, Arr.rd_ok s.mate (by omega) (by omega), ok_bind, Holds_ite]
    constructor
    · intro _
      rw [Arr.wr_ok s'.queu _ (by omega) (by omega), ok_bind, Arr.wr_ok s'.lev _ (by omega) (by omega), ok_bind, Holds_pure]
      refine ⟨rfl, a2, a3, a4, by dsimp only; omega, by dsimp only; omega, a7, a8, a9, a10, ?_, ?_⟩
      · intro v hv
        dsimp only
        by_cases h : v = i
        · rw [h, Arr.set_get_same]; decide
        · rw [Arr.set_get_ne _ _ h]; exact a11 v hv
      · intro k k1 k2
        dsimp only at k2 ⊢
        by_cases h : k = s'.head
        · rw [h, Arr.set_get_same]; exact ⟨i1, by omega⟩
        · rw [Arr.set_get_ne _ _ h]; exact a12 k k1 (by omega)
    · intro _
      rw [Holds_pure]
      exact ⟨a1, a2, a3, a4, a5, by omega, a7, a8, a9, a10, a11, a12⟩

theorem esPass_holds (hb : Bip g P) {s : EsSearch} (hm : Mates g s.mate)
    (hlev : s.lev.lo ≤ g.baseval ∧ g.vertnnd ≤ s.lev.hi) (htrav : s.trav.lo ≤ g.baseval ∧ g.vertnnd ≤ s.trav.hi)
    (hq : s.queu.lo ≤ 0 ∧ P - g.baseval ≤ s.queu.hi) : Holds (esPass g (P - g.baseval) s) (fun l => l = .brk s.mate) := by
  have hr := hb.right
  have hn := hb.vertnnd
  unfold esPass
  rw [Holds_bind]
  refine (esQueue_holds hb hm hlev htrav hq).mono ?_
  rintro s1 ⟨a1, a2, a3, a4, a5, a6, a7, a8, a9, a10, a11, a12⟩
  rw [Holds_bind]
  refine Holds_loopM (fun s' : EsSearch => s'.mate = s1.mate ∧ s'.listnbr = 0 ∧ s'.levlmax = -1 ∧ s'.queu = s1.queu ∧ s'.head = s1.head ∧ s'.lev = s1.lev ∧
      0 ≤ s'.tail) (fun s' => (s'.head - s'.tail).toNat) ?_ _ _ ⟨rfl, a2, a3, rfl, rfl, rfl, by omega⟩ (by omega)
  rintro s2 ⟨b1, b2, b3, b4, b5, b6, b7⟩
  rw [Holds_ite]
  constructor
  · intro hht
    rw [Holds_bind]
    unfold esColumn
    have hv := a12 s2.tail b7 (by omega)
    have hlv := a11 _ hv
    rw [b4, Arr.rd_ok s1.queu (by omega) (by omega), ok_bind]
    dsimp only
    rw [b6, Arr.rd_ok s1.lev (by have := hv.1; omega) (by have := hv.2; omega), ok_bind, if_neg (by omega), Holds_pure, Holds_pure]
    exact ⟨⟨b1, b2, b3, rfl, b5, rfl, by dsimp only; omega⟩, by dsimp only; omega⟩
  · intro hht
    rw [Holds_pure]
    show Holds _ _
    rw [if_pos (by omega), Holds_pure, b1, a1]

end Scotch.Separ
