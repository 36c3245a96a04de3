import Verif.Separ.LemmasEs8
import Verif.Separ.LemmasBasic
import Verif.Bipart.LemmasBasic

/-! # Vertex separators from edge separators: result -/

set_option autoImplicit false
set_option linter.unusedSimpArgs false

namespace Scotch.Separ
open Graph Bipart

/-- Vertices of a bipartition are moved to the separator. -/
structure EsOut (b b' : Vgraph) (m : Int) (T : Int → Prop) : Prop where
  same : SameProblem b b'
  enum : Enum b'.frontab m T
  vertex : ∀ v, T v → b.s.Vertex v
  part : ∀ v, b.s.Vertex v → (T v → b'.parttax.get v = 2) ∧ (¬ T v → b'.parttax.get v = b.parttax.get v)
  sep : ∀ v w, b.s.Vertex v → b.s.Adj v w → b.parttax.get w ≠ b.parttax.get v → T v ∨ T w
  size0 : b'.compsize0 = b.compsize0 - sumI 0 m (fun j => if b.parttax.get (b'.frontab.get j) = 0 then 1 else 0)
  size1 : b'.compsize1 = b.compsize1 - sumI 0 m (fun j => if b.parttax.get (b'.frontab.get j) = 1 then 1 else 0)
  load0 : b'.compload0 = b.compload0 - sumI 0 m (fun j => if b.parttax.get (b'.frontab.get j) = 0 then b.s.velo (b'.frontab.get j) else 0)
  load1 : b'.compload1 = b.compload1 - sumI 0 m (fun j => if b.parttax.get (b'.frontab.get j) = 1 then b.s.velo (b'.frontab.get j) else 0)

theorem over_move {g : Graph} (hc : ConsE g) {p p' : Int → Int} (hp : Bipart.Parts g p) {fron : Arr Int} {m : Int} {T : Int → Prop} (he : Enum fron m T)
    (hT : ∀ v, T v → g.Vertex v) (hpart : ∀ v, g.Vertex v → (T v → p' v = 2) ∧ (¬ T v → p' v = p v)) {k : Int} (hk : k = 0 ∨ k = 1) (f : Int → Int) :
    over g p' k f = over g p k f - sumI 0 m (fun j => if p (fron.get j) = k then f (fron.get j) else 0) := by
  classical
  have hle : g.baseval ≤ g.vertnnd := by have := hc.vertnnd; have := hc.vertnbr; omega
  have h1 := sumI_Enum he hle hT (fun v => if T v then (if p v = k then f v else 0) else 0) (fun v _ _ hn => if_neg hn)
  have h2 : sumI 0 m (fun j => if p (fron.get j) = k then f (fron.get j) else 0) = sumI 0 m (fun j => (fun v => if T v then (if p v = k then f v else 0) else 0) (fron.get j)) := by
    apply sumI_congr
    intro j j1 j2
    dsimp only
    rw [if_pos (he.mem j1 j2)]
  rw [h2, h1]
  have h3 : over g p k f = over g p' k f + sumI g.baseval g.vertnnd (fun v => if T v then (if p v = k then f v else 0) else 0) := by
    unfold over
    rw [← sumI_add_dist]
    apply sumI_congr
    intro v v1 v2
    obtain ⟨q1, q2⟩ := hpart v ⟨v1, v2⟩
    by_cases hTv : T v
    · rw [if_pos hTv, q1 hTv, if_neg (show ¬ (2 : Int) = k by omega)]; omega
    · rw [if_neg hTv, q2 hTv]; omega
  omega

theorem over_three {g : Graph} {p : Int → Int} (hp : ∀ v, g.Vertex v → p v = 0 ∨ p v = 1 ∨ p v = 2) (f : Int → Int) :
    over g p 0 f + over g p 1 f + over g p 2 f = sumI g.baseval g.vertnnd f := by
  unfold over
  rw [← sumI_add_dist, ← sumI_add_dist]
  apply sumI_congr
  intro v v1 v2
  rcases hp v ⟨v1, v2⟩ with h | h | h <;> rw [h] <;> simp

theorem over_sep {g : Graph} (hc : ConsE g) {p' : Int → Int} {fron : Arr Int} {m : Int} {T : Int → Prop} (he : Enum fron m T)
    (hT : ∀ v, T v → g.Vertex v) (h2 : ∀ v, g.Vertex v → (p' v = 2 ↔ T v)) : over g p' 2 (fun _ => 1) = m := by
  classical
  have hle : g.baseval ≤ g.vertnnd := by have := hc.vertnnd; have := hc.vertnbr; omega
  have h1 := sumI_Enum he hle hT (fun v => if T v then 1 else 0) (fun v _ _ hn => if_neg hn)
  have h3 : sumI 0 m (fun j => (fun v => if T v then (1 : Int) else 0) (fron.get j)) = m := by
    rw [sumI_congr (g := fun _ => 1), sumI_const he.1]
    · omega
    · intro j j1 j2
      dsimp only
      rw [if_pos (he.mem j1 j2)]
  rw [h3] at h1
  unfold over
  rw [h1]
  apply sumI_congr
  intro v v1 v2
  have := h2 v ⟨v1, v2⟩
  by_cases hTv : T v
  · rw [if_pos hTv, if_pos (this.2 hTv)]
  · rw [if_neg hTv, if_neg (fun h => hTv (this.1 h))]

/-- Last assignments, with the right difference of loads. -/
def esLast (b : Vgraph) : Vgraph :=
  { b with
    comploaddlt := b.compload0 * b.dwgt1 - b.compload1 * b.dwgt0, compload2 := b.s.velosum - b.compload0 - b.compload1,
    fronnbr := b.s.vertnbr - b.compsize0 - b.compsize1 }

theorem esOut_valid {b b' : Vgraph} {m : Int} {T : Int → Prop} (hc : ConsE b.s) (hp : Bipart.Parts b.s b.parttax.get)
    (s0 : b.compsize0 = over b.s b.parttax.get 0 (fun _ => 1)) (s1 : b.compsize1 = over b.s b.parttax.get 1 (fun _ => 1))
    (l0 : b.compload0 = over b.s b.parttax.get 0 b.s.velo) (l1 : b.compload1 = over b.s b.parttax.get 1 b.s.velo) (h : EsOut b b' m T) : Valid (esLast b') := by
  classical
  have hs := h.same.s
  have hparts : ∀ v, b.s.Vertex v → b'.parttax.get v = 0 ∨ b'.parttax.get v = 1 ∨ b'.parttax.get v = 2 := by
    intro v hv
    obtain ⟨q1, q2⟩ := h.part v hv
    by_cases hTv : T v
    · exact Or.inr (Or.inr (q1 hTv))
    · rw [q2 hTv]
      rcases hp v hv with k | k
      · exact Or.inl k
      · exact Or.inr (Or.inl k)
  have h2 : ∀ v, b.s.Vertex v → (b'.parttax.get v = 2 ↔ T v) := by
    intro v hv
    obtain ⟨q1, q2⟩ := h.part v hv
    refine ⟨fun h => Classical.byContradiction fun hn => ?_, q1⟩
    have := q2 hn
    rcases hp v hv with k | k <;> omega
  have e0 := fun f => over_move hc hp h.enum h.vertex h.part (k := 0) (Or.inl rfl) f
  have e1 := fun f => over_move hc hp h.enum h.vertex h.part (k := 1) (Or.inr rfl) f
  have hm := over_sep hc h.enum h.vertex h2
  have hsum := over_three (g := b.s) hparts (fun _ => 1)
  have hle : b.s.baseval ≤ b.s.vertnnd := by have := hc.vertnnd; have := hc.vertnbr; omega
  rw [sumI_const hle] at hsum
  have hsumv := over_three (g := b.s) hparts b.s.velo
  rw [← hc.velosum] at hsumv
  have hn : b.s.vertnbr = b.s.vertnnd - b.s.baseval := by have := hc.vertnnd; omega
  have z0 : b'.compsize0 = over b.s b'.parttax.get 0 (fun _ => 1) := by rw [h.size0, s0, e0]
  have z1 : b'.compsize1 = over b.s b'.parttax.get 1 (fun _ => 1) := by rw [h.size1, s1, e1]
  have w0 : b'.compload0 = over b.s b'.parttax.get 0 b.s.velo := by rw [h.load0, l0, e0]
  have w1 : b'.compload1 = over b.s b'.parttax.get 1 b.s.velo := by rw [h.load1, l1, e1]
  refine ⟨⟨?_, ?_, ?_, ?_, ?_, ?_, ?_, ?_, ?_⟩, ?_⟩
  · show ∀ v, b'.s.Vertex v → b'.parttax.get v = 0 ∨ _
    rw [hs]; exact hparts
  · show Separated b'.s b'.parttax.get
    rw [hs]
    intro v q hv hq
    have ha : b.s.Adj v q.1 := (adj_iff v q.1).2 ⟨q, hq, rfl⟩
    have hw := (hc.adj_vertex hv ha).1
    have key : ¬ (b'.parttax.get v ≠ 2 ∧ b'.parttax.get q.1 ≠ 2 ∧ b'.parttax.get v ≠ b'.parttax.get q.1) := by
      rintro ⟨k1, k2, k3⟩
      have n1 : ¬ T v := fun hT => k1 ((h2 v hv).2 hT)
      have n2 : ¬ T q.1 := fun hT => k2 ((h2 _ hw).2 hT)
      rw [(h.part v hv).2 n1, (h.part _ hw).2 n2] at k3
      rcases h.sep v q.1 hv ha (fun hh => k3 hh.symm) with k | k
      · exact n1 k
      · exact n2 k
    constructor <;> rintro ⟨k1, k2⟩ <;> exact key (by omega)
  · show b'.compsize0 = over b'.s b'.parttax.get 0 _
    rw [hs]; exact z0
  · show b'.compsize1 = over b'.s b'.parttax.get 1 _
    rw [hs]; exact z1
  · show b'.s.vertnbr - b'.compsize0 - b'.compsize1 = over b'.s b'.parttax.get 2 _
    rw [hs]; omega
  · show b'.compload0 = over b'.s b'.parttax.get 0 b'.s.velo
    rw [hs]; exact w0
  · show b'.compload1 = over b'.s b'.parttax.get 1 b'.s.velo
    rw [hs]; exact w1
  · show b'.s.velosum - b'.compload0 - b'.compload1 = over b'.s b'.parttax.get 2 b'.s.velo
    rw [hs]; omega
  · rfl
  · show Enum b'.frontab (b'.s.vertnbr - b'.compsize0 - b'.compsize1) (fun v => b'.s.Vertex v ∧ b'.parttax.get v = 2)
    have : b'.s.vertnbr - b'.compsize0 - b'.compsize1 = m := by rw [hs]; omega
    rw [this, hs]
    refine h.enum.congr fun v => ⟨fun hT => ⟨h.vertex v hT, (h2 v (h.vertex v hT)).2 hT⟩, fun ⟨hv, hk⟩ => (h2 v hv).1 hk⟩

theorem SameProblem.mk' {b : Vgraph} {part fron : Arr Int} (h1 : part.lo = b.parttax.lo ∧ part.hi = b.parttax.hi) (h2 : fron.lo = b.frontab.lo ∧ fron.hi = b.frontab.hi)
    (n s0 s1 l0 l1 l2 d : Int) : SameProblem b { b with parttax := part, frontab := fron, fronnbr := n, compsize0 := s0, compsize1 := s1, compload0 := l0, compload1 := l1, compload2 := l2, comploaddlt := d } :=
  ⟨rfl, ⟨h1.1, h1.2, h2.1, h2.2⟩, rfl, rfl⟩

/-! ## Fat separators -/

structure FatInv (b : Vgraph) (i : Int) (s : EsMove) : Prop where
  fron : s.fron = b.frontab
  bounds : s.part.lo = b.parttax.lo ∧ s.part.hi = b.parttax.hi
  part : ∀ v, ((∃ j, 0 ≤ j ∧ j < i ∧ b.frontab.get j = v) → s.part.get v = 2) ∧ ((¬ ∃ j, 0 ≤ j ∧ j < i ∧ b.frontab.get j = v) → s.part.get v = b.parttax.get v)
  size : s.size = sumI 0 i (fun j => if b.parttax.get (b.frontab.get j) = 1 then 1 else 0)
  load : s.load01 = sumI 0 i (fun j => b.s.velo (b.frontab.get j))
  loadp : s.loadp = sumI 0 i (fun j => if b.parttax.get (b.frontab.get j) = 1 then b.s.velo (b.frontab.get j) else 0)

theorem sum_parts {p F : Int → Int} {n : Int} (hp : ∀ j, 0 ≤ j → j < n → p (F j) = 0 ∨ p (F j) = 1) (f : Int → Int) :
    sumI 0 n (fun j => f (F j)) = sumI 0 n (fun j => if p (F j) = 0 then f (F j) else 0) + sumI 0 n (fun j => if p (F j) = 1 then f (F j) else 0) := by
  rw [← sumI_add_dist]
  apply sumI_congr
  intro j j1 j2
  rcases hp j j1 j2 with h | h <;> rw [h] <;> simp

theorem esFat_holds {b : Vgraph} {n : Int} (h : EsCtx b.s b.parttax b.frontab n) :
    Holds (esFat b n) (fun b' => EsOut b b' n (Frontier b.s b.parttax.get)) := by
  have hn := h.enum.1
  unfold esFat
  rw [Holds_bind]
  refine Holds_forUp (fun i s => FatInv b i s) hn ?_ ?_ ?_
  · exact ⟨rfl, ⟨rfl, rfl⟩, fun v => ⟨fun ⟨j, j1, j2, _⟩ => by omega, fun _ => rfl⟩, (sumI_empty (Int.le_refl _) _).symm, (sumI_empty (Int.le_refl _) _).symm, (sumI_empty (Int.le_refl _) _).symm⟩
  · intro i s i1 i2 I
    have hv := h.vertex i1 i2
    obtain ⟨pb1, pb2⟩ := h.pbounds
    obtain ⟨ib1, ib2⟩ := I.bounds
    have hv1 := hv.1
    have hv2 := hv.2
    have hpv : s.part.get (b.frontab.get i) = b.parttax.get (b.frontab.get i) :=
      (I.part _).2 fun ⟨j, j1, j2, j3⟩ => by have := h.inj j1 (by omega) i1 i2 j3; omega
    unfold esFatVertex
    rw [I.fron, h.rdFron i1 i2, ok_bind, Arr.rd_ok s.part (by omega) (by omega), ok_bind, rdVelo_eq h.alloc hv, ok_bind, Arr.wr_ok s.part _ (by omega) (by omega), ok_bind, Holds_pure, hpv]
    refine ⟨rfl, I.bounds, ?_, ?_, ?_, ?_⟩
    · intro v
      dsimp only
      by_cases hvi : v = b.frontab.get i
      · rw [hvi, Arr.set_get_same]
        exact ⟨fun _ => rfl, fun hn => absurd ⟨i, i1, by omega, rfl⟩ hn⟩
      · rw [Arr.set_get_ne _ _ hvi]
        constructor
        · rintro ⟨j, j1, j2, j3⟩
          refine (I.part v).1 ⟨j, j1, ?_, j3⟩
          by_cases hj : j = i
          · rw [hj] at j3; exact absurd j3.symm hvi
          · omega
        · intro hn
          exact (I.part v).2 fun ⟨j, j1, j2, j3⟩ => hn ⟨j, j1, by omega, j3⟩
    · dsimp only
      rw [I.size, sumI_succ i1]
      rcases h.part01 i1 i2 with k | k <;> rw [k] <;> simp
    · dsimp only
      rw [I.load, sumI_succ i1]
    · dsimp only
      rw [I.loadp, sumI_succ i1]
      rcases h.part01 i1 i2 with k | k <;> rw [k] <;> simp
  · intro s I
    rw [Holds_pure]
    have hp01 : ∀ j, 0 ≤ j → j < n → b.parttax.get (b.frontab.get j) = 0 ∨ b.parttax.get (b.frontab.get j) = 1 := fun j h1 h2 => h.part01 h1 h2
    have c1 := sum_parts hp01 (fun _ => 1)
    have c2 := sum_parts hp01 b.s.velo
    rw [sumI_const hn] at c1
    have e1 := I.size
    have e2 := I.load
    have e3 := I.loadp
    refine ⟨SameProblem.mk' I.bounds ⟨rfl, rfl⟩ _ _ _ _ _ _ _, h.enum, fun v hv => hv.1, ?_, ?_, ?_, ?_, ?_, ?_⟩
    · intro v hv
      dsimp only
      rw [h.enum.2.2 v]
      exact I.part v
    · intro v w hv ha hne
      exact Or.inl (frontier_adj.2 ⟨hv, w, ha, hne⟩)
    · dsimp only; omega
    · dsimp only; omega
    · dsimp only; omega
    · dsimp only; omega

/-! ## Thin separators -/

structure EsThinInv (b : Vgraph) (vnum : Arr Int) (nbrp : Int) (fr : Arr Int) (i : Int) (s : EsMove) : Prop where
  fbounds : s.fron.lo = fr.lo ∧ s.fron.hi = fr.hi
  fron : ∀ j, (j < i → 0 ≤ j → s.fron.get j = vnum.get (fr.get j)) ∧ (i ≤ j → s.fron.get j = fr.get j)
  bounds : s.part.lo = b.parttax.lo ∧ s.part.hi = b.parttax.hi
  part : ∀ v, ((∃ j, 0 ≤ j ∧ j < i ∧ vnum.get (fr.get j) = v) → s.part.get v = 2) ∧ ((¬ ∃ j, 0 ≤ j ∧ j < i ∧ vnum.get (fr.get j) = v) → s.part.get v = b.parttax.get v)
  size : s.size = sumI 0 i (fun j => if fr.get j < nbrp then 1 else 0)
  load : s.load01 = sumI 0 i (fun j => b.s.velo (vnum.get (fr.get j)))
  loadp : s.loadp = sumI 0 i (fun j => if fr.get j < nbrp then b.s.velo (vnum.get (fr.get j)) else 0)

theorem esThin_holds {b : Vgraph} {n : Int} (h : EsCtx b.s b.parttax b.frontab n) (junk : Nat → Int → Int) :
    Holds (esThin junk b n) (fun b' => ∃ m T, EsOut b b' m T) := by
  unfold esThin
  rw [Holds_bind]
  refine (esBipart_holds h junk).mono ?_
  rintro ⟨bip, vnum, pv, nbrp⟩ B
  dsimp only at B ⊢
  have hn := h.enum.1
  have hle := h.le
  obtain ⟨fb1, fb2⟩ := h.fbounds
  obtain ⟨mate, -, -, hcov⟩ := esCover_holds B.isBip (by rw [B.size]; exact hn) (Or.inr B.base) (fun k => junk (5 + k)) (sep := b.frontab) fb1 (by rw [B.size]; omega)
  rw [B.base, Int.sub_zero] at hcov
  rw [Holds_bind]
  refine hcov.mono ?_
  rintro ⟨fr, m⟩ ⟨S, C⟩
  obtain ⟨cb, ce, cc, -⟩ := C
  dsimp only at cb ce ⊢
  have hbv : ∀ x, bip.Vertex x ↔ (0 ≤ x ∧ x < n) := by
    intro x
    unfold Graph.Vertex
    rw [B.isBip.vertnnd, B.base, B.size]
    omega
  have hfr : ∀ j, 0 ≤ j → j < m → 0 ≤ fr.get j ∧ fr.get j < n := fun j j1 j2 => (hbv _).1 (ce.mem j1 j2).1
  have hm : m ≤ n := by
    have := ce.le (lo := 0) (hi := n) hn (fun v hv => (hbv v).1 hv.1)
    omega
  have hm0 := ce.1
  obtain ⟨vb1, vb2⟩ := B.bounds
  rw [Holds_bind]
  refine Holds_forUp (fun i s => EsThinInv b vnum nbrp fr i s) hm0 ?_ ?_ ?_
  · exact ⟨⟨rfl, rfl⟩, fun j => ⟨fun _ _ => by omega, fun _ => rfl⟩, ⟨rfl, rfl⟩, fun v => ⟨fun ⟨j, j1, j2, _⟩ => by omega, fun _ => rfl⟩, (sumI_empty (Int.le_refl _) _).symm, (sumI_empty (Int.le_refl _) _).symm, (sumI_empty (Int.le_refl _) _).symm⟩
  · intro i s i1 i2 I
    obtain ⟨q1, q2⟩ := hfr i i1 i2
    have hv : b.s.Vertex (vnum.get (fr.get i)) := (B.frontier _ q1 q2).1
    obtain ⟨pb1, pb2⟩ := h.pbounds
    obtain ⟨ib1, ib2⟩ := I.bounds
    obtain ⟨jb1, jb2⟩ := I.fbounds
    have hv1 := hv.1
    have hv2 := hv.2
    have hfi := (I.fron i).2 (Int.le_refl _)
    have main : ∀ sz lp, sz = sumI 0 (i + 1) (fun j => if fr.get j < nbrp then 1 else 0) →
        lp = sumI 0 (i + 1) (fun j => if fr.get j < nbrp then b.s.velo (vnum.get (fr.get j)) else 0) →
        EsThinInv b vnum nbrp fr (i + 1) ⟨s.part.set (vnum.get (fr.get i)) 2, s.fron.set i (vnum.get (fr.get i)), sz, s.load01 + b.s.velo (vnum.get (fr.get i)), lp⟩ := by
      intro sz lp e1 e2
      refine ⟨I.fbounds, ?_, I.bounds, ?_, e1, ?_, e2⟩
      · intro j
        dsimp only
        by_cases hj : j = i
        · rw [hj, Arr.set_get_same]
          exact ⟨fun _ _ => rfl, fun _ => by omega⟩
        · rw [Arr.set_get_ne _ _ hj]
          exact ⟨fun j1 j2 => (I.fron j).1 (by omega) j2, fun j1 => (I.fron j).2 (by omega)⟩
      · intro v
        dsimp only
        by_cases hvi : v = vnum.get (fr.get i)
        · rw [hvi, Arr.set_get_same]
          exact ⟨fun _ => rfl, fun hn => absurd ⟨i, i1, by omega, rfl⟩ hn⟩
        · rw [Arr.set_get_ne _ _ hvi]
          constructor
          · rintro ⟨j, j1, j2, j3⟩
            refine (I.part v).1 ⟨j, j1, ?_, j3⟩
            by_cases hj : j = i
            · rw [hj] at j3; exact absurd j3.symm hvi
            · omega
          · intro hn
            exact (I.part v).2 fun ⟨j, j1, j2, j3⟩ => hn ⟨j, j1, by omega, j3⟩
      · dsimp only
        rw [I.load, sumI_succ i1]
    unfold esThinVertex
    rw [Arr.rd_ok s.fron (by omega) (by omega), ok_bind, hfi, Arr.rd_ok vnum (by omega) (by omega), ok_bind, rdVelo_eq h.alloc hv, ok_bind, Arr.wr_ok s.fron _ (by omega) (by omega), ok_bind,
      Arr.wr_ok s.part _ (by omega) (by omega), ok_bind, Holds_ite]
    constructor
    · intro hlt
      rw [Holds_pure]
      apply main
      · rw [sumI_succ i1, if_pos hlt, I.size]
      · rw [sumI_succ i1, if_pos hlt, I.loadp]
    · intro hlt
      rw [Holds_pure]
      apply main
      · rw [sumI_succ i1, if_neg hlt, I.size]; omega
      · rw [sumI_succ i1, if_neg hlt, I.loadp]; omega
  · intro s I
    have hfv : ∀ j, 0 ≤ j → j < m → s.fron.get j = vnum.get (fr.get j) := fun j j1 j2 => (I.fron j).1 j2 j1
    have hen : Enum s.fron m (fun v => ∃ j, 0 ≤ j ∧ j < m ∧ vnum.get (fr.get j) = v) := by
      refine ⟨hm0, ?_, ?_⟩
      · intro i j i1 i2 j1 j2 he
        rw [hfv i i1 i2, hfv j j1 j2] at he
        exact ce.2.1 i j i1 i2 j1 j2 (B.inj _ _ (hfr i i1 i2).1 (hfr i i1 i2).2 (hfr j j1 j2).1 (hfr j j1 j2).2 he)
      · intro v
        constructor
        · rintro ⟨j, j1, j2, j3⟩
          exact ⟨j, j1, j2, by rw [hfv j j1 j2]; exact j3⟩
        · rintro ⟨j, j1, j2, j3⟩
          exact ⟨j, j1, j2, by rw [← hfv j j1 j2]; exact j3⟩
    have hp01 : ∀ j, 0 ≤ j → j < m → b.parttax.get (s.fron.get j) = 0 ∨ b.parttax.get (s.fron.get j) = 1 := fun j j1 j2 => by
      rw [hfv j j1 j2]
      exact h.parts _ (B.frontier _ (hfr j j1 j2).1 (hfr j j1 j2).2).1
    have c1 := sum_parts hp01 (fun _ => 1)
    have c2 := sum_parts hp01 b.s.velo
    rw [sumI_const hm0] at c1
    have e1 : s.size = sumI 0 m (fun j => if b.parttax.get (s.fron.get j) = pv then 1 else 0) := by
      rw [I.size]
      apply sumI_congr
      intro j j1 j2
      have := B.side _ (hfr j j1 j2).1 (hfr j j1 j2).2
      rw [hfv j j1 j2]
      by_cases hk : fr.get j < nbrp
      · rw [if_pos hk, if_pos (this.1 hk)]
      · rw [if_neg hk, if_neg (fun hh => hk (this.2 hh))]
    have e3 : s.loadp = sumI 0 m (fun j => if b.parttax.get (s.fron.get j) = pv then b.s.velo (s.fron.get j) else 0) := by
      rw [I.loadp]
      apply sumI_congr
      intro j j1 j2
      have := B.side _ (hfr j j1 j2).1 (hfr j j1 j2).2
      rw [hfv j j1 j2]
      by_cases hk : fr.get j < nbrp
      · rw [if_pos hk, if_pos (this.1 hk)]
      · rw [if_neg hk, if_neg (fun hh => hk (this.2 hh))]
    have e2 : s.load01 = sumI 0 m (fun j => b.s.velo (s.fron.get j)) := by
      rw [I.load]
      apply sumI_congr
      intro j j1 j2
      rw [hfv j j1 j2]
    have hsep : ∀ v w, b.s.Vertex v → b.s.Adj v w → b.parttax.get w ≠ b.parttax.get v → (∃ j, 0 ≤ j ∧ j < m ∧ vnum.get (fr.get j) = v) ∨ (∃ j, 0 ≤ j ∧ j < m ∧ vnum.get (fr.get j) = w) := by
      intro v w hv ha hne
      have hw := (h.cons.adj_vertex hv ha).1
      obtain ⟨x, x1, x2, x3⟩ := B.onto v (frontier_adj.2 ⟨hv, w, ha, hne⟩)
      obtain ⟨y, y1, y2, y3⟩ := B.onto w (frontier_adj.2 ⟨hw, v, h.cons.adj_symm hv ha, fun hh => hne hh.symm⟩)
      have hxy := B.arcs x y x1 x2 y1 y2 (by rw [x3, y3]; exact ha) (by rw [x3, y3]; exact hne)
      rcases cc x y ((hbv x).2 ⟨x1, x2⟩) hxy with k | k
      · obtain ⟨j, j1, j2, j3⟩ := (ce.2.2 x).1 ⟨(hbv x).2 ⟨x1, x2⟩, k⟩
        exact Or.inl ⟨j, j1, j2, by rw [j3]; exact x3⟩
      · obtain ⟨j, j1, j2, j3⟩ := (ce.2.2 y).1 ⟨(hbv y).2 ⟨y1, y2⟩, k⟩
        exact Or.inr ⟨j, j1, j2, by rw [j3]; exact y3⟩
    have hT : ∀ v, (∃ j, 0 ≤ j ∧ j < m ∧ vnum.get (fr.get j) = v) → b.s.Vertex v := by
      rintro v ⟨j, j1, j2, rfl⟩
      exact (B.frontier _ (hfr j j1 j2).1 (hfr j j1 j2).2).1
    obtain ⟨fi1, fi2⟩ := I.fbounds
    have hfbb : s.fron.lo = b.frontab.lo ∧ s.fron.hi = b.frontab.hi := ⟨by rw [fi1]; exact cb.1, by rw [fi2]; exact cb.2⟩
    rcases B.pv01 with hpv | hpv
    · subst hpv
      rw [if_pos rfl, Holds_pure]
      refine ⟨m, _, SameProblem.mk' I.bounds hfbb _ _ _ _ _ _ _, hen, hT, fun v _ => I.part v, hsep, ?_, ?_, ?_, ?_⟩
      all_goals dsimp only
      all_goals omega
    · subst hpv
      rw [if_neg (by decide), Holds_pure]
      refine ⟨m, _, SameProblem.mk' I.bounds hfbb _ _ _ _ _ _ _, hen, hT, fun v _ => I.part v, hsep, ?_, ?_, ?_, ?_⟩
      all_goals dsimp only
      all_goals omega

theorem esFrontier_holds {b : Vgraph} {n : Int} (h : EsCtx b.s b.parttax b.frontab n) (junk : Nat → Int → Int) (thin : Bool) :
    Holds (esFrontier junk thin b n) (fun b' => ∃ m T, EsOut b b' m T) := by
  unfold esFrontier
  rw [Holds_ite]
  constructor
  · intro _
    rw [Holds_ite]
    constructor
    · intro _
      exact esThin_holds h junk
    · intro _
      exact (esFat_holds h).mono fun b' hb => ⟨_, _, hb⟩
  · intro hn
    have h0 := h.enum.1
    have hn0 : n = 0 := by omega
    subst hn0
    rw [Holds_pure]
    refine ⟨0, fun _ => False, ⟨rfl, ⟨rfl, rfl, rfl, rfl⟩, rfl, rfl⟩, Enum.empty _, fun _ hf => hf.elim, fun v _ => ⟨fun hf => hf.elim, fun _ => rfl⟩, ?_, ?_, ?_, ?_, ?_⟩
    · intro v w hv ha hne
      obtain ⟨j, j1, j2, _⟩ := (h.enum.2.2 v).1 (frontier_adj.2 ⟨hv, w, ha, hne⟩)
      omega
    all_goals rw [sumI_empty (Int.le_refl _)]; omega

/-! ## The method -/

theorem forget_alloc {g : Graph} (ha : g.Allocated) : ({ g with vnumtax := none, vlbltax := none } : Graph).Allocated :=
  ⟨ha.vlo, ha.vhi, ha.vhi', ha.ends, ha.velo, (fun _ h => by cases h), (fun _ h => by cases h), ha.edge, ha.edlo⟩

theorem forget_cons {g : Graph} (hc : ConsE g) : ConsE ({ g with vnumtax := none, vlbltax := none } : Graph) :=
  ⟨hc.vertnbr, hc.vertnnd, hc.range, hc.inside, hc.symm, hc.simple, hc.edgenbr, hc.velo, hc.velosum, hc.edlo, hc.edlosum, hc.degrmax⟩

theorem init2_bounds (avgOf : Int → Int → Int → Int) {b : Bgraph} (hc : ConsE b.s) (ha : Bipart.Alloc b) (d w0 w1 f0 f1 : Int) :
    Holds (init2 avgOf b d w0 w1 f0 f1) (fun b' => b'.parttax.lo = b.parttax.lo ∧ b'.parttax.hi = b.parttax.hi ∧ b'.frontab.lo = b.frontab.lo ∧ b'.frontab.hi = b.frontab.hi ∧ b'.commloadextn0 = 0 ∧ b'.commgainextn0 = 0) := by
  unfold init2
  rw [Holds_bind]
  refine (zeroParts_holds hc ha).mono ?_
  rintro a ⟨e1, e2, e3⟩
  rw [Holds_pure]
  exact ⟨e1, e2, rfl, rfl, rfl, rfl⟩

theorem separateEs_holds (junk : Nat → Int → Int) (avgOf : Int → Int → Int → Int) (a : Bgraph) {sure : Bool} {bip : Bgraph → M (Int × Bgraph)}
    (hbip : BipMethod sure bip) (thin : Bool) {b : Vgraph} (hc : b.s.Consistent) (ha : Alloc b) (h0 : 0 ≤ b.s.baseval) (h1 : 1 ≤ b.s.vertnbr)
    (hav : 0 ≤ avgOf b.s.velosum b.dwgt0 b.dwgt1) : Holds (separateEs junk avgOf a bip thin b) (fun r => SameProblem b r.2 ∧ (sure = true → r.1 = 0) ∧
      (r.1 = 0 → r.2.comploaddlt = r.2.compload0 - r.2.compload1 ∧ Valid { r.2 with comploaddlt := r.2.compload0 * r.2.dwgt1 - r.2.compload1 * r.2.dwgt0 })) := by
  have hcE := consE_iff.2 hc
  unfold separateEs
  have hcA : ConsE (esActive a b).s := forget_cons hcE
  have haA : Bipart.Alloc (esActive a b) := ⟨forget_alloc ha.graph, ha.part, ha.fron, fun _ h => by cases h⟩
  obtain ⟨act, e1, v1, a1, s1, av, dd, -, -, vf0, vf1, x1, -⟩ := Holds_iff_exists.1 (init2_holds avgOf hcA haA rfl 1 b.dwgt0 b.dwgt1 0 0)
  have hb1 := Holds.elim (init2_bounds avgOf hcA haA 1 b.dwgt0 b.dwgt1 0 0) e1
  obtain ⟨q1, q2, q3, q4, q5, q6⟩ := hb1
  rw [e1, ok_bind, Holds_bind]
  refine (hbip act ⟨by rw [s1]; exact consE_iff.1 hcA, a1, v1, by rw [s1]; exact h0, by rw [s1]; exact h1, x1, dd, ⟨q5, q6⟩, ⟨vf0, vf1⟩, by rw [av]; show 0 ≤ avgOf (b.s.velosum + 0 + 0) b.dwgt0 b.dwgt1 - 0; rw [Int.add_zero, Int.add_zero, Int.sub_zero]; exact hav⟩).mono ?_
  rintro ⟨o, act2⟩ ⟨S, hs, hv⟩
  dsimp only at S hs hv ⊢
  obtain ⟨p1, p2, p3, p4⟩ := S.bounds
  have r1 : act2.parttax.lo = b.parttax.lo ∧ act2.parttax.hi = b.parttax.hi := ⟨by rw [p1, q1]; rfl, by rw [p2, q2]; rfl⟩
  have r2 : act2.frontab.lo = b.frontab.lo ∧ act2.frontab.hi = b.frontab.hi := ⟨by rw [p3, q3]; rfl, by rw [p4, q4]; rfl⟩
  have hss : act2.s = { b.s with vnumtax := none, vlbltax := none } := by rw [S.s, s1]; rfl
  rw [Holds_ite]
  constructor
  · intro ho
    rw [Holds_pure]
    exact ⟨⟨rfl, ⟨r1.1, r1.2, r2.1, r2.2⟩, rfl, rfl⟩, fun h => absurd (hs h) ho, fun h => by cases h⟩
  · intro ho
    have V := hv (by omega)
    have Vp := V.parts
    have Vs := V.size
    have Vl := V.load
    have Vf := V.fron
    rw [hss] at Vp Vs Vl Vf
    have hP : Bipart.Parts b.s act2.parttax.get := Vp
    have Vs : act2.compsize0 = over b.s act2.parttax.get 0 (fun _ => 1) := Vs
    have Vl : act2.compload0 = over b.s act2.parttax.get 0 b.s.velo := Vl
    have Vf : Enum act2.frontab act2.fronnbr (Frontier b.s act2.parttax.get) := Vf
    have o1 := over_add (g := b.s) hP (fun _ => 1)
    have o2 := over_add (g := b.s) hP b.s.velo
    have hle : b.s.baseval ≤ b.s.vertnnd := by have := hcE.vertnnd; omega
    have hnn := hcE.vertnnd
    rw [sumI_const hle] at o1
    rw [← hcE.velosum] at o2
    have hvs : act2.s.velosum = b.s.velosum := by rw [hss]
    have hvn : act2.s.vertnbr = b.s.vertnbr := by rw [hss]
    obtain ⟨ap1, ap2⟩ := ha.part
    obtain ⟨af1, af2⟩ := ha.fron
    rw [Holds_bind]
    refine (esFrontier_holds (n := act2.fronnbr) (b := { b with
      parttax := act2.parttax, frontab := act2.frontab, compload0 := act2.compload0, compload1 := act2.s.velosum - act2.compload0,
      compsize0 := act2.compsize0, compsize1 := act2.s.vertnbr - act2.compsize0 })
      ⟨hcE, ha.graph, hP, ⟨by rw [r1.1]; exact ap1, by rw [r1.2]; exact ap2⟩, ⟨by rw [r2.1]; exact af1, by rw [r2.2]; exact af2⟩, Vf⟩ junk thin).mono ?_
    rintro b' ⟨m, T, O⟩
    rw [Holds_pure]
    have hval := esOut_valid (b := { b with
      parttax := act2.parttax, frontab := act2.frontab, compload0 := act2.compload0, compload1 := act2.s.velosum - act2.compload0,
      compsize0 := act2.compsize0, compsize1 := act2.s.vertnbr - act2.compsize0 }) hcE hP Vs (by show act2.s.vertnbr - act2.compsize0 = over b.s act2.parttax.get 1 _; omega) Vl
      (by show act2.s.velosum - act2.compload0 = over b.s act2.parttax.get 1 b.s.velo; omega) O
    have os := O.same
    refine ⟨⟨os.s, ?_, os.dwgt⟩, fun _ => rfl, fun _ => ⟨rfl, hval⟩⟩
    obtain ⟨t1, t2, t3, t4⟩ := os.bounds
    exact ⟨t1.trans r1.1, t2.trans r1.2, t3.trans r2.1, t4.trans r2.2⟩

/-- With unit weights, the method is right. -/
theorem separateEs_valid {r : Vgraph} (hd : r.dwgt0 = 1 ∧ r.dwgt1 = 1) (h1 : r.comploaddlt = r.compload0 - r.compload1)
    (h2 : Valid { r with comploaddlt := r.compload0 * r.dwgt1 - r.compload1 * r.dwgt0 }) : Valid r := by
  obtain ⟨⟨p, s, s0, s1, s2, l0, l1, l2, _⟩, f⟩ := h2
  exact ⟨⟨p, s, s0, s1, s2, l0, l1, l2, by rw [h1, hd.1, hd.2]; omega⟩, f⟩

end Scotch.Separ
