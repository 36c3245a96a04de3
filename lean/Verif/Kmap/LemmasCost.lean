import Verif.Kmap.Lemmas
import Verif.Bipart.Spec
import Verif.Graph.Access

/-! # Static mapping: cost and frontier -/

set_option autoImplicit false
set_option linter.unusedSimpArgs false

namespace Scotch.Kmap

open Graph (ConsE)
open Bipart (over Frontier)

variable {D : Type} {o : ArchOps D}

/-- Memory of a mapping: the part of each vertex is the number of one of the domains. -/
structure Usable (g : Graph) (m : Mapping D) : Prop where
  plo : m.parttax.lo ≤ g.baseval
  phi : g.vertnnd ≤ m.parttax.hi
  dlo : m.domntab.lo = 0
  dhi : m.domnnbr ≤ m.domntab.hi
  nbr : 0 ≤ m.domnnbr
  part : ∀ v, g.Vertex v → 0 ≤ m.parttax.get v ∧ m.parttax.get v < m.domnnbr

theorem Usable.rdPart {g : Graph} {m : Mapping D} (U : Usable g m) {v : Int} (hv : g.Vertex v) : m.parttax.rd v = .ok (m.parttax.get v) :=
  m.parttax.rd_ok (by have := U.plo; have := hv.1; omega) (by have := U.phi; have := hv.2; omega)

theorem Usable.rdDom {g : Graph} {m : Mapping D} (U : Usable g m) {i : Int} (h1 : 0 ≤ i) (h2 : i < m.domnnbr) : m.domntab.rd i = .ok (m.domntab.get i) :=
  m.domntab.rd_ok (by have := U.dlo; omega) (by have := U.dhi; omega)

theorem fron_iff {g : Graph} (p : Int → Int) (v : Int) (hv : g.Vertex v) : Frontier g p v ↔ ∃ e, g.vert v ≤ e ∧ e < g.vend v ∧ p (g.dest e) ≠ p v := by
  unfold Frontier
  constructor
  · rintro ⟨-, q, q1, q2⟩
    obtain ⟨e, h1, h2, h3, -⟩ := (Graph.mem_nbrs g v q).1 q1
    exact ⟨e, h1, h2, by rw [h3]; exact q2⟩
  · rintro ⟨e, h1, h2, h3⟩
    exact ⟨hv, _, Graph.nbrs_mk g v h1 h2, h3⟩

/-- `kgraphFron`: the vertices that have a neighbour in another part. -/
theorem kgraphFron_holds {g : Graph} (hc : ConsE g) (ha : g.Allocated) {m : Mapping D} (U : Usable g m) {frontab : Arr Int} (f1 : frontab.lo ≤ 0) (f2 : g.vertnbr ≤ frontab.hi) :
    Holds (kgraphFron g m frontab) fun r => Enum r.1 r.2 (Frontier g m.parttax.get) := by
  have hnn := hc.vertnnd
  have hnb := hc.vertnbr
  unfold kgraphFron
  refine Holds_forUp (fun i (s : Arr Int × Int) => s.1.lo = frontab.lo ∧ s.1.hi = frontab.hi ∧ s.2 ≤ i - g.baseval ∧ Enum s.1 s.2 (fun v => v < i ∧ Frontier g m.parttax.get v)) (by omega)
    ⟨rfl, rfl, by omega, (Enum.empty _).congr (fun v => ⟨False.elim, fun h => by have := h.2.1.1; omega⟩)⟩ ?_ ?_
  · rintro i ⟨a, c⟩ i1 i2 ⟨h1, h2, h3, h4⟩
    have hv : g.Vertex i := ⟨i1, i2⟩
    dsimp only at h1 h2 h3 h4 ⊢
    rw [U.rdPart hv, ok_bind, Graph.rdVert_eq ha hv, ok_bind, Graph.rdVend_eq ha hv, ok_bind, Holds_bind]
    have h0 := h4.1
    refine Holds_forUpB (fun j (_ : Unit) => ∀ e, g.vert i ≤ e → e < j → m.parttax.get (g.dest e) = m.parttax.get i) (fun _ => Frontier g m.parttax.get i) (hc.range i hv).2 (fun e e1 e2 => by omega) ?_ ?_ ?_
    · rintro e u e1 e2 hI
      rw [Graph.rdEdge_eq ha hv e1 e2, ok_bind, U.rdPart (hc.inside i e hv e1 e2).1, ok_bind]
      by_cases c : m.parttax.get (g.dest e) ≠ m.parttax.get i
      · rw [if_pos c]
        exact (fron_iff _ _ hv).2 ⟨e, e1, e2, c⟩
      · rw [if_neg c]
        intro e' e'1 e'2
        by_cases ee : e' = e
        · rw [ee]; exact Classical.byContradiction c
        · exact hI e' e'1 (by omega)
    · intro u hI
      have hn : ¬ Frontier g m.parttax.get i := by
        rw [fron_iff _ _ hv]
        rintro ⟨e, e1, e2, e3⟩
        exact e3 (hI e e1 e2)
      refine ⟨h1, h2, by omega, h4.congr (fun v => ?_)⟩
      constructor
      · rintro ⟨q1, q2⟩; exact ⟨by omega, q2⟩
      · rintro ⟨q1, q2⟩
        refine ⟨?_, q2⟩
        by_cases e : v = i
        · rw [e] at q2; exact absurd q2 hn
        · omega
    · intro u hF
      dsimp only
      rw [a.wr_ok _ (by omega) (by omega), ok_bind, Holds_pure]
      refine ⟨h1, h2, by show c + 1 ≤ _; omega, (h4.push (x := i) (fun h => by omega)).congr (fun v => ?_)⟩
      constructor
      · rintro (⟨q1, q2⟩ | rfl)
        · exact ⟨by omega, q2⟩
        · exact ⟨by omega, hF⟩
      · rintro ⟨q1, q2⟩
        by_cases e : v = i
        · exact Or.inr e
        · exact Or.inl ⟨by omega, q2⟩
  · rintro ⟨a, c⟩ ⟨h1, h2, h3, h4⟩
    refine h4.congr (fun v => ⟨fun h => h.2, fun h => ⟨h.1.2, h⟩⟩)

/-! ## Cost -/

/-- Contribution of an arc, counted from its end of higher number. -/
def arcCost (g : Graph) (p : Int → Int) (F : Int → Int → Int) (v e : Int) : Int := if g.dest e < v ∧ p (g.dest e) ≠ p v then F (p v) (p (g.dest e)) * g.edlo e else 0

theorem costVert_holds {g : Graph} (hc : ConsE g) (ha : g.Allocated) {m : Mapping D} (U : Usable g m) {F : Int → Int → Int}
    (hF : ∀ i j, 0 ≤ i → i < m.domnnbr → 0 ≤ j → j < m.domnnbr → i ≠ j → Holds (o.dist (m.domntab.get i) (m.domntab.get j)) fun r => r = F i j) {v : Int} (hv : g.Vertex v) {a : Arr Int} {c : Int} (a1 : a.lo = 0) (a2 : m.domnnbr ≤ a.hi) :
    Holds (costVert o g m v (a, c)) fun r => r.1 = a.set (m.parttax.get v) (a.get (m.parttax.get v) + g.velo v) ∧ r.2 = c + sumI (g.vert v) (g.vend v) (arcCost g m.parttax.get F v) := by
  obtain ⟨p1, p2⟩ := U.part v hv
  unfold costVert
  rw [U.rdPart hv, ok_bind, Graph.rdVelo_eq ha hv, ok_bind]
  dsimp only
  rw [a.rd_ok (by omega) (by omega), ok_bind, a.wr_ok _ (by omega) (by omega), ok_bind, Graph.rdVert_eq ha hv, ok_bind, Graph.rdVend_eq ha hv, ok_bind, Holds_bind]
  refine Holds_forUp (fun e (s : CostA) => s.comm = c + sumI (g.vert v) e (arcCost g m.parttax.get F v) ∧ (s.plst = -1 ∨ s.dlst = F (m.parttax.get v) s.plst)) (hc.range v hv).2
    ⟨by rw [sumI_empty (Int.le_refl _)]; show c = c + 0; omega, Or.inl rfl⟩ ?_ ?_
  · rintro e s e1 e2 ⟨s1, s2⟩
    have hin := hc.inside v e hv e1 e2
    unfold costArc
    rw [Graph.rdEdge_eq ha hv e1 e2, ok_bind, sumI_succ e1]
    unfold arcCost
    by_cases c1 : g.dest e > v
    · rw [if_pos c1, if_neg (by omega)]
      exact ⟨by rw [s1]; unfold arcCost; omega, s2⟩
    · rw [if_neg c1, U.rdPart hin.1, ok_bind]
      by_cases c2 : m.parttax.get v ≠ m.parttax.get (g.dest e)
      · obtain ⟨q1, q2⟩ := U.part _ hin.1
        have hd : Holds (if m.parttax.get (g.dest e) ≠ s.plst then (do o.dist (← m.domntab.rd (m.parttax.get v)) (← m.domntab.rd (m.parttax.get (g.dest e)))) else pure s.dlst : M Int)
            fun r => r = F (m.parttax.get v) (m.parttax.get (g.dest e)) := by
          by_cases c3 : m.parttax.get (g.dest e) ≠ s.plst
          · rw [if_pos c3, U.rdDom p1 p2, ok_bind, U.rdDom q1 q2, ok_bind]
            exact hF _ _ p1 p2 q1 q2 c2
          · rw [if_neg c3]
            have c3 : m.parttax.get (g.dest e) = s.plst := Classical.byContradiction c3
            rw [Holds_pure, c3]
            rcases s2 with s2 | s2
            · omega
            · exact s2
        have hcont : ∀ d : Int, d = F (m.parttax.get v) (m.parttax.get (g.dest e)) → Holds (do return (⟨m.parttax.get (g.dest e), d, s.comm + d * (← g.rdEdlo e)⟩ : CostA) : M CostA) fun s' =>
            s'.comm = c + (sumI (g.vert v) e (arcCost g m.parttax.get F v) + if g.dest e < v ∧ m.parttax.get (g.dest e) ≠ m.parttax.get v then F (m.parttax.get v) (m.parttax.get (g.dest e)) * g.edlo e else 0) ∧
              (s'.plst = -1 ∨ s'.dlst = F (m.parttax.get v) s'.plst) := by
          rintro d rfl
          rw [Graph.rdEdlo_eq ha hv e1 e2, ok_bind, Holds_pure, if_pos ⟨by omega, fun h => c2 h.symm⟩]
          exact ⟨by show s.comm + _ = _; rw [s1]; omega, Or.inr rfl⟩
        rw [if_pos c2]
        by_cases c3 : m.parttax.get (g.dest e) ≠ s.plst
        · rw [if_pos c3] at hd ⊢
          rw [U.rdDom p1 p2, ok_bind, U.rdDom q1 q2, ok_bind] at hd ⊢
          rw [Holds_bind]
          exact hd.mono hcont
        · rw [if_neg c3] at hd ⊢
          rw [Holds_bind]
          exact hd.mono hcont
      · rw [if_neg c2, if_neg (fun h => c2 (fun e => h.2 e.symm))]
        exact ⟨by rw [s1]; unfold arcCost; omega, s2⟩
  · rintro s ⟨s1, -⟩
    rw [Holds_pure]
    exact ⟨rfl, s1⟩

theorem zero_holds (nbr : Int) (hn : 0 ≤ nbr) {a : Arr Int} (a1 : a.lo = 0) (a2 : nbr ≤ a.hi) :
    Holds (forUp 0 nbr a fun i a => a.wr i 0) fun a' => a'.lo = 0 ∧ a'.hi = a.hi ∧ ∀ i, 0 ≤ i → i < nbr → a'.get i = 0 := by
  refine Holds_forUp (fun i (x : Arr Int) => x.lo = 0 ∧ x.hi = a.hi ∧ ∀ k, 0 ≤ k → k < i → x.get k = 0) hn ⟨a1, rfl, fun k k1 k2 => by omega⟩ ?_ ?_
  · rintro i x i1 i2 ⟨x1, x2, x3⟩
    rw [x.wr_ok 0 (by omega) (by omega), Holds_ok]
    refine ⟨x1, x2, fun k k1 k2 => ?_⟩
    by_cases e : k = i
    · rw [e]; exact Arr.set_get_same _ _ _
    · rw [Arr.set_get_ne _ _ e]; exact x3 k k1 (by omega)
  · rintro x hx; exact hx

/-- `kgraphCost`. -/
theorem kgraphCost_holds {g : Graph} (hc : ConsE g) (ha : g.Allocated) {m : Mapping D} (U : Usable g m) {F : Int → Int → Int}
    (hF : ∀ i j, 0 ≤ i → i < m.domnnbr → 0 ≤ j → j < m.domnnbr → i ≠ j → Holds (o.dist (m.domntab.get i) (m.domntab.get j)) fun r => r = F i j) (avg : Int → Int) {la ld : Arr Int}
    (a1 : la.lo = 0) (a2 : m.domnnbr ≤ la.hi) (b1 : ld.lo = 0) (b2 : m.domnnbr ≤ ld.hi) :
    Holds (kgraphCost o avg g m la ld) fun r => r.1 = sumI g.baseval g.vertnnd (fun v => sumI (g.vert v) (g.vend v) (arcCost g m.parttax.get F v)) ∧
      ∀ i, 0 ≤ i → i < m.domnnbr → r.2.1.get i = avg i ∧ r.2.2.get i = over g m.parttax.get i g.velo - avg i := by
  have hnn := hc.vertnnd
  have hnb := hc.vertnbr
  have hN := U.nbr
  unfold kgraphCost
  rw [Holds_bind]
  refine (zero_holds m.domnnbr hN b1 b2).mono ?_
  rintro z ⟨z1, z2, z3⟩
  rw [Holds_bind]
  refine Holds_forUp (fun v (s : Arr Int × Int) => s.1.lo = 0 ∧ s.1.hi = ld.hi ∧ (∀ i, 0 ≤ i → i < m.domnnbr → s.1.get i = sumI g.baseval v (fun x => if m.parttax.get x = i then g.velo x else 0)) ∧
    s.2 = sumI g.baseval v (fun v => sumI (g.vert v) (g.vend v) (arcCost g m.parttax.get F v))) (by omega) ⟨z1, z2, fun i i1 i2 => by rw [sumI_empty (Int.le_refl _)]; exact z3 i i1 i2, by rw [sumI_empty (Int.le_refl _)]⟩ ?_ ?_
  · rintro v ⟨a, c⟩ v1 v2 ⟨s1, s2, s3, s4⟩
    dsimp only at s1 s2 s3 s4
    refine (costVert_holds hc ha U hF ⟨v1, v2⟩ s1 (by omega)).mono ?_
    rintro ⟨a', c'⟩ ⟨r1, r2⟩
    dsimp only at r1 r2 ⊢
    subst r1 r2
    refine ⟨s1, s2, ?_, by rw [sumI_succ v1, s4]⟩
    intro i i1 i2
    rw [sumI_succ v1]
    by_cases e : m.parttax.get v = i
    · rw [e, Arr.set_get_same, if_pos rfl, s3 i i1 i2]
    · rw [Arr.set_get_ne _ _ (Ne.symm e), if_neg e, s3 i i1 i2]; omega
  · rintro ⟨a, c⟩ ⟨s1, s2, s3, s4⟩
    dsimp only at s1 s2 s3 s4 ⊢
    rw [Holds_bind]
    refine Holds_forUp (fun i (s : Arr Int × Arr Int) => s.1.lo = 0 ∧ s.1.hi = la.hi ∧ s.2.lo = 0 ∧ s.2.hi = ld.hi ∧ (∀ k, 0 ≤ k → k < i → s.1.get k = avg k ∧ s.2.get k = a.get k - avg k) ∧
      ∀ k, i ≤ k → s.2.get k = a.get k) hN ⟨a1, rfl, s1, s2, fun k k1 k2 => by omega, fun k _ => rfl⟩ ?_ ?_
    · rintro i ⟨x, y⟩ i1 i2 ⟨t1, t2, t3, t4, t5, t6⟩
      dsimp only at t1 t2 t3 t4 t5 t6 ⊢
      rw [U.rdDom i1 i2, ok_bind, x.wr_ok _ (by omega) (by omega), ok_bind, y.rd_ok (by omega) (by omega), ok_bind, y.wr_ok _ (by omega) (by omega), ok_bind, Holds_pure]
      refine ⟨t1, t2, t3, t4, ?_, ?_⟩
      · intro k k1 k2
        by_cases e : k = i
        · subst e
          exact ⟨Arr.set_get_same _ _ _, by rw [Arr.set_get_same, t6 k (Int.le_refl _)]⟩
        · dsimp only
          rw [Arr.set_get_ne _ _ e, Arr.set_get_ne _ _ e]
          exact t5 k k1 (by omega)
      · intro k hk
        dsimp only
        rw [Arr.set_get_ne _ _ (by omega)]
        exact t6 k (by omega)
    · rintro ⟨x, y⟩ ⟨t1, t2, t3, t4, t5, t6⟩
      dsimp only at t5 ⊢
      rw [Holds_pure]
      refine ⟨s4, fun i i1 i2 => ?_⟩
      obtain ⟨u1, u2⟩ := t5 i i1 i2
      refine ⟨u1, ?_⟩
      show y.get i = _
      rw [u2, s3 i i1 i2]
      rfl

/-- `mapTerm`. -/
theorem mapTerm_holds {g : Graph} (hc : ConsE g) {m : Mapping D} (U : Usable g m) {proc : Int → Int}
    (hp : ∀ v, g.Vertex v → Holds (o.num (m.domntab.get (m.parttax.get v))) fun k => k = proc v) {a : Arr Int} (a1 : a.lo ≤ g.baseval) (a2 : g.vertnnd ≤ a.hi) :
    Holds (mapTerm o g m a) fun a' => a'.lo = a.lo ∧ a'.hi = a.hi ∧ (∀ v, g.Vertex v → a'.get v = proc v) ∧ ∀ v, ¬ g.Vertex v → a'.get v = a.get v := by
  have hnn := hc.vertnnd
  have hnb := hc.vertnbr
  unfold mapTerm
  refine Holds_forUp (fun i (x : Arr Int) => x.lo = a.lo ∧ x.hi = a.hi ∧ (∀ v, g.Vertex v → v < i → x.get v = proc v) ∧ ∀ v, ¬ g.Vertex v → x.get v = a.get v) (by omega)
    ⟨rfl, rfl, fun v hv h => by have := hv.1; omega, fun v _ => rfl⟩ ?_ ?_
  · rintro i x i1 i2 ⟨x1, x2, x3, x4⟩
    have hv : g.Vertex i := ⟨i1, i2⟩
    obtain ⟨p1, p2⟩ := U.part i hv
    rw [U.rdPart hv, ok_bind, U.rdDom p1 p2, ok_bind, Holds_bind]
    refine (hp i hv).mono ?_
    rintro k rfl
    rw [x.wr_ok _ (by omega) (by omega), Holds_ok]
    refine ⟨x1, x2, ?_, ?_⟩
    · intro v hv' h
      by_cases e : v = i
      · rw [e]; exact Arr.set_get_same _ _ _
      · rw [Arr.set_get_ne _ _ e]; exact x3 v hv' (by omega)
    · intro v hn
      rw [Arr.set_get_ne _ _ (fun e => hn (by rw [e]; exact hv))]; exact x4 v hn
  · rintro x ⟨x1, x2, x3, x4⟩
    exact ⟨x1, x2, fun v hv => x3 v hv hv.2, x4⟩

end Scotch.Kmap
