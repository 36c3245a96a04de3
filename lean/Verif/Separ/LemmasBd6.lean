import Verif.Separ.LemmasBd5
import Verif.Meets

/-! # Separation of band graphs: the separation is brought back -/

set_option autoImplicit false
set_option linter.unusedSimpArgs false

namespace Scotch.Separ
open Graph
open Bipart (over)

variable {b : Vgraph} {s : BdSt} {D distmax vlvl : Int} {idx : Arr Int} {a0 a1 : Int}

/-- What is known of the separation graph of the band. -/
structure BdSep (b : Vgraph) (D distmax : Int) (s : BdSt) (cb : Vgraph) (vlvl : Int) (idx : Arr Int) : Prop where
  ctx : BdCtx b D distmax s vlvl idx
  band : BdBand b s idx (outs b s 0 b.s.velo) (outs b s 1 b.s.velo) (cb.s, cb.parttax)
  ready : Ready cb
  dwgt : cb.dwgt0 = b.dwgt0 ∧ cb.dwgt1 = b.dwgt1
  narrow : Narrower b.s cb.s

theorem bdBuild_holds (R : Ready b) (F : BdFound b D s) (hD : distmax ≤ D) (hD1 : 1 ≤ D) (h0 : s.size1 < b.compsize1) (h1 : s.head - s.size1 - b.fronnbr < b.compsize0) (junk : BdJunk) :
    Holds (bdBuild junk distmax b s) (fun cb => ∃ vlvl idx, BdSep b D distmax s cb vlvl idx) := by
  have hc := Graph.consE_iff.2 R.cons
  have V := R.valid
  obtain ⟨hh0, hh1⟩ := F.head_le hc
  obtain ⟨o1, o2, o3, o4⟩ := F.outs_eq hc V
  have hnn := hc.vertnnd
  have hroom : s.head + 2 ≤ b.s.vertnbr := by
    have h := F.outs_all hc V (fun _ => 1)
    rw [size_total hc, sumI_const (by omega)] at h
    omega
  have f0 := V.fron.1
  have f1 := F.fron
  unfold bdBuild
  dsimp only
  rw [Holds_bind]
  refine (bdIndex_holds hc F (distmax := distmax)).mono ?_
  rintro ⟨vlvl, idx⟩ N
  dsimp only at N ⊢
  have C : BdCtx b D distmax s vlvl idx := ⟨hc, R.alloc, V, R.base, F, N, hD, hD1⟩
  rw [Holds_bind]
  refine (C.verts junk).mono ?_
  intro t I
  rw [o1, o2] at I
  rw [Holds_bind]
  refine (C.close hroom I).mono ?_
  rintro ⟨g, part⟩ B
  dsimp only
  obtain ⟨e1, e2, e3, e4⟩ := B.shape
  dsimp only at e1 e2 e3 e4
  have hcon := C.consistent B
  dsimp only at hcon
  have hpart := B.part
  have hpanc := B.panc
  dsimp only at hpart hpanc
  have hvx : ∀ v, g.Vertex v ↔ b.s.baseval ≤ v ∧ v < s.head + b.s.baseval + 2 := by
    intro v; unfold Graph.Vertex; rw [e1, e3]
  rw [Holds_bind]
  refine Holds_forUp (fun i (a : Arr Int) => a.lo = 0 ∧ a.hi = 2 * b.s.vertnbr - (s.head + 2) ∧ ∀ j, 0 ≤ j → j < i → a.get j = b.s.baseval + j) f0 ⟨rfl, rfl, fun j j1 j2 => by omega⟩ ?_ ?_
  · rintro i a i1 i2 ⟨b1, b2, b3⟩
    rw [Arr.wr_ok _ _ (by omega) (by omega), Holds_ok]
    refine ⟨b1, b2, fun j j1 j2 => ?_⟩
    by_cases e : j = i
    · rw [e, Arr.set_get_same]
    · rw [Arr.set_get_ne _ _ e]; exact b3 j j1 (by omega)
  rintro fron ⟨b1, b2, b3⟩
  rw [Holds_pure]
  have gl := fun k => F.glue hc B (p := b.part) (pc := part.get) (f := b.s.velo) (fc := g.velo) hpart B.velo hpanc.1 hpanc.2 (fun _ _ _ => rfl) k
  have gs := fun k => F.glue hc B (p := b.part) (pc := part.get) (f := fun _ => 1) (fc := fun _ => 1) hpart (fun _ _ _ => rfl) hpanc.1 hpanc.2 (fun _ _ _ => rfl) k
  dsimp only at gl gs
  have hanch := B.anch
  dsimp only at hanch
  have hout2 := F.outs_two V
  refine ⟨vlvl, idx, C, B, ⟨hcon, ⟨B.alloc, ?_, ?_⟩, ⟨⟨?_, ?_, ?_, ?_, ?_, ?_, ?_, ?_, V.delta⟩, ?_⟩, ?_, ?_, R.dwgt⟩, ⟨rfl, rfl⟩, e1, hcon.vertnnd, ?_, ?_, ?_⟩
  · have := B.bnd
    dsimp only at this ⊢
    omega
  · dsimp only
    omega
  · intro v hv
    obtain ⟨v1, v2⟩ := (hvx v).1 hv
    show part.get v = 0 ∨ part.get v = 1 ∨ part.get v = 2
    by_cases h : v < s.head + b.s.baseval
    · rw [hpart v v1 h]; exact V.parts _ (F.bq_mem v1 h).1
    · by_cases h2 : v = s.head + b.s.baseval
      · left; rw [h2]; exact hpanc.1
      · right; left; rw [show v = s.head + b.s.baseval + 1 by omega]; exact hpanc.2
  · show Separated g part.get
    rw [sep_adj]
    intro v w hv hw
    obtain ⟨v1, v2⟩ := (hvx v).1 hv
    have hs := sep_adj.1 V.sep
    have hanc : ∀ u x, b.s.baseval ≤ u → u < s.head + b.s.baseval → bAnc b s idx.get u = true → x = s.head + b.s.baseval + b.part (bq b s u) → part.get u = part.get x := by
      intro u x u1 u2 u3 hx
      rw [hpart u u1 u2]
      rcases C.anc_part u1 u2 u3 with k | k
      · rw [k] at hx ⊢; rw [hx, Int.add_zero, hpanc.1]
      · rw [k] at hx ⊢; rw [hx, hpanc.2]
    rcases (C.mem_adj v1 v2).1 ((B.adj hv).1 hw) with ⟨k1, k2, k3, k4⟩ | ⟨k1, k2, k3⟩ | ⟨k1, k2, k3, k4⟩
    · rw [hpart v v1 k1, hpart w k2 k3]
      exact hs _ _ (F.bq_mem v1 k1).1 k4
    · have := hanc v w v1 k1 k2 k3; omega
    · have := hanc w v k1 k2 k3 k4; omega
  · have := gs 0
    rw [if_pos rfl, if_neg (by decide)] at this
    show s.head - s.size1 - b.fronnbr + 1 = over g part.get 0 (fun _ => 1)
    have := V.size0
    omega
  · have := gs 1
    rw [if_neg (by decide), if_pos rfl] at this
    show s.size1 + 1 = over g part.get 1 (fun _ => 1)
    have := V.size1
    omega
  · have := gs 2
    rw [if_neg (by decide), if_neg (by decide), hout2] at this
    show b.fronnbr = over g part.get 2 (fun _ => 1)
    have := V.size2
    omega
  · have := gl 0
    rw [if_pos rfl, if_neg (by decide)] at this
    show b.compload0 = over g part.get 0 g.velo
    have := V.load0
    omega
  · have := gl 1
    rw [if_neg (by decide), if_pos rfl] at this
    show b.compload1 = over g part.get 1 g.velo
    have := V.load1
    omega
  · have := gl 2
    rw [if_neg (by decide), if_neg (by decide), hout2] at this
    show b.compload2 = over g part.get 2 g.velo
    have := V.load2
    omega
  · show Enum fron b.fronnbr (fun v => g.Vertex v ∧ part.get v = 2)
    have hq : ∀ i, 0 ≤ i → i < b.fronnbr → bq b s (b.s.baseval + i) = b.frontab.get i := by
      intro i i1 i2
      unfold bq
      rw [show b.s.baseval + i - b.s.baseval = i by omega]
      exact (f1.2 i i1 i2).1
    refine ⟨f0, ?_, ?_⟩
    · intro i j i1 i2 j1 j2 e
      rw [b3 i i1 i2, b3 j j1 j2] at e
      omega
    · intro v
      constructor
      · rintro ⟨hv, h2⟩
        obtain ⟨v1, v2⟩ := (hvx v).1 hv
        have hlt : v < s.head + b.s.baseval := by
          refine Classical.byContradiction fun h => ?_
          by_cases h3 : v = s.head + b.s.baseval
          · rw [h3, hpanc.1] at h2; omega
          · rw [show v = s.head + b.s.baseval + 1 by omega, hpanc.2] at h2; omega
        rw [hpart v v1 hlt] at h2
        obtain ⟨i, i1, i2, i3⟩ := (V.fron.2.2 _).1 ⟨(F.bq_mem v1 hlt).1, h2⟩
        rw [← hq i i1 i2] at i3
        refine ⟨i, i1, i2, ?_⟩
        rw [b3 i i1 i2]
        exact F.bq_inj (by omega) (by omega) v1 hlt i3
      · rintro ⟨i, i1, i2, rfl⟩
        rw [b3 i i1 i2, hvx, hpart _ (by omega) (by omega), hq i i1 i2]
        exact ⟨by omega, (V.fron.mem i1 i2).2⟩
  · show 0 ≤ g.baseval
    rw [e1]; exact R.base
  · show 1 ≤ g.vertnbr
    omega
  · show g.vertnbr ≤ b.s.vertnbr
    omega
  · show (∀ v, b.s.Vertex v → 0 < b.s.velo v) → ∀ v, g.Vertex v → 0 < g.velo v
    intro hp v hv
    obtain ⟨v1, v2⟩ := (hvx v).1 hv
    by_cases h : v < s.head + b.s.baseval
    · rw [show g.velo v = _ from B.velo v v1 h]; exact hp _ (F.bq_mem v1 h).1
    · by_cases h2 : v = s.head + b.s.baseval
      · rw [h2, hanch.1]; exact outs_pos 0 hp (by omega)
      · rw [show v = s.head + b.s.baseval + 1 by omega, hanch.2]; exact outs_pos 1 hp (by omega)
  · show 2 ≤ g.vertnbr
    omega

theorem bdBring_holds {cb cb' : Vgraph} (S : BdSep b D distmax s cb vlvl idx) (h : SameProblem cb cb') (V' : Valid cb') (p0 : cb'.part (s.head + b.s.baseval) = 0) (p1 : cb'.part (s.head + b.s.baseval + 1) = 1) :
    Holds (bdBring b s cb') (fun b' => SameProblem b b' ∧ Valid b') := by
  have C := S.ctx
  have F := C.found
  have B := S.band
  have hc := C.cons
  have V := C.valid
  have hnn := hc.vertnnd
  have A' := h.alloc S.ready.alloc
  obtain ⟨hh0, hh1⟩ := F.head_le hc
  obtain ⟨e1, e2, e3, e4⟩ := B.shape
  dsimp only at e1 e2 e3 e4
  have hq := F.bnd
  have hpb := h.bounds
  have hbp := B.bnd
  dsimp only at hbp
  have hap := C.alloc.part
  have haf := C.alloc.fron
  have hvx : ∀ v, cb'.s.Vertex v ↔ b.s.baseval ≤ v ∧ v < s.head + b.s.baseval + 2 := by
    intro v; unfold Graph.Vertex; rw [h.s, e1, e3]
  unfold bdBring
  rw [Holds_bind]
  refine Holds_forUp (fun u (a : Arr Int) => a.lo = b.parttax.lo ∧ a.hi = b.parttax.hi ∧ (∀ w, b.s.baseval ≤ w → w < u → a.get (bq b s w) = cb'.part w) ∧ ∀ v, (∀ w, b.s.baseval ≤ w → w < u → bq b s w ≠ v) → a.get v = b.part v) (by omega) ?_ ?_ ?_
  · exact ⟨rfl, rfl, fun w w1 w2 => by omega, fun v _ => rfl⟩
  · rintro u a u1 u2 ⟨a1, a2, a3, a4⟩
    obtain ⟨m1, m2⟩ := F.bq_mem u1 u2
    have v1 := m1.1
    have v2 := m1.2
    rw [Arr.rd_ok _ (by omega) (by omega), ok_bind, show s.queu.get (u - b.s.baseval) = bq b s u from rfl, Arr.rd_ok _ (by omega) (by omega), ok_bind, Arr.wr_ok _ _ (by omega) (by omega), Holds_ok]
    refine ⟨a1, a2, ?_, ?_⟩
    · intro w w1 w2
      by_cases e : w = u
      · rw [e, Arr.set_get_same]; rfl
      · rw [Arr.set_get_ne _ _ (fun e' => e (F.bq_inj w1 (by omega) u1 u2 e'))]
        exact a3 w w1 (by omega)
    · intro v hv
      rw [Arr.set_get_ne _ _ (fun e => hv u u1 (by omega) e.symm)]
      exact a4 v (fun w w1 w2 => hv w w1 (by omega))
  rintro part ⟨a1, a2, a3, a4⟩
  have ho : ∀ v, b.s.Vertex v → s.dist.get v = -1 → part.get v = b.part v := by
    intro v _ hd
    refine a4 v ?_
    rintro w w1 w2 rfl
    exact (F.bq_mem w1 w2).2 hd
  have hfu : ∀ i, 0 ≤ i → i < cb'.fronnbr → b.s.baseval ≤ cb'.frontab.get i ∧ cb'.frontab.get i < s.head + b.s.baseval := by
    intro i i1 i2
    obtain ⟨k1, k2⟩ := V'.fron.mem i1 i2
    obtain ⟨v1, v2⟩ := (hvx _).1 k1
    refine ⟨v1, Classical.byContradiction fun hlt => ?_⟩
    by_cases h3 : cb'.frontab.get i = s.head + b.s.baseval
    · rw [h3, p0] at k2; omega
    · rw [show cb'.frontab.get i = s.head + b.s.baseval + 1 by omega, p1] at k2; omega
  have hf0 := V'.fron.1
  have hfl : cb'.fronnbr ≤ s.head := by
    have := V'.fron.le (lo := b.s.baseval) (hi := s.head + b.s.baseval) (by omega) (fun v hv => by
      obtain ⟨i, i1, i2, i3⟩ := (V'.fron.2.2 v).1 hv
      have := hfu i i1 i2
      omega)
    omega
  have hf2 := A'.fron
  have hvn : cb'.s.vertnbr = s.head + 2 := by rw [h.s, e2]
  rw [Holds_bind]
  refine Holds_forUp (fun i (a : Arr Int) => a.lo = b.frontab.lo ∧ a.hi = b.frontab.hi ∧ ∀ j, 0 ≤ j → j < i → a.get j = bq b s (cb'.frontab.get j)) hf0 ⟨rfl, rfl, fun j j1 j2 => by omega⟩ ?_ ?_
  · rintro i a i1 i2 ⟨c1, c2, c3⟩
    have := hfu i i1 i2
    rw [Arr.rd_ok _ (by omega) (by omega), ok_bind, Arr.rd_ok _ (by omega) (by omega), ok_bind, show s.queu.get (cb'.frontab.get i - b.s.baseval) = bq b s (cb'.frontab.get i) from rfl, Arr.wr_ok _ _ (by omega) (by omega), Holds_ok]
    refine ⟨c1, c2, fun j j1 j2 => ?_⟩
    by_cases e : j = i
    · rw [e, Arr.set_get_same]
    · rw [Arr.set_get_ne _ _ e]; exact c3 j j1 (by omega)
  rintro fron ⟨c1, c2, c3⟩
  rw [Holds_pure]
  obtain ⟨o1, o2, o3, o4⟩ := F.outs_eq hc V
  have hb : ∀ u, b.s.baseval ≤ u → u < s.head + b.s.baseval → cb'.part u = part.get (bq b s u) := fun u u1 u2 => (a3 u u1 u2).symm
  have gl := fun k => F.glue hc B (p := part.get) (pc := cb'.part) (f := b.s.velo) (fc := cb.s.velo) hb B.velo p0 p1 ho k
  have gs := fun k => F.glue hc B (p := part.get) (pc := cb'.part) (f := fun _ => 1) (fc := fun _ => 1) hb (fun _ _ _ => rfl) p0 p1 ho k
  dsimp only at gl gs
  rw [← h.s] at gl gs
  have hanch := B.anch
  dsimp only at hanch
  rw [← h.s] at hanch
  have hout2 := F.outs_two V
  have hout : ∀ v, b.s.Vertex v → s.dist.get v = -1 → b.part v = 0 ∨ b.part v = 1 := by
    intro v hv hd
    rcases V.parts v hv with k | k | k
    · exact Or.inl k
    · exact Or.inr k
    · have := F.sep_in V hv k; omega
  have hs := sep_adj.1 V.sep
  have hs' := sep_adj.1 V'.sep
  have hadj : ∀ u x, cb'.s.Vertex u → (cb'.s.Adj u x ↔ x ∈ bAdj b s idx.get u) := by
    intro u x hu
    rw [h.s] at hu ⊢
    exact B.adj hu
  -- an arc between a vertex of the band and a vertex out of it
  have hcross : ∀ v w, b.s.Vertex v → b.s.Vertex w → b.s.Adj v w → s.dist.get v ≠ -1 → s.dist.get w = -1 → ¬ (part.get v = 0 ∧ part.get w = 1) ∧ ¬ (part.get v = 1 ∧ part.get w = 0) := by
    intro v w hv hw ha hdv hdw
    obtain ⟨u, u1, u2, rfl⟩ := F.bq_onto hv hdv
    have hanc : bAnc b s idx.get u = true := (bAnc_iff hc F u1 u2).2 ⟨w, ha, (C.idx_in hw).1.2 hdw⟩
    have hpv := C.anc_part u1 u2 hanc
    have hpw := hout w hw hdw
    have h1 := hs _ _ hv ha
    have hu := (hvx u).2 ⟨u1, by omega⟩
    have h2 := hs' u (s.head + b.s.baseval + b.part (bq b s u)) hu ((hadj u _ hu).2 ((C.mem_adj u1 (by omega)).2 (Or.inr (Or.inl ⟨u2, hanc, rfl⟩))))
    rw [← hb u u1 u2, ho w hw hdw]
    rcases hpv with k | k
    · rw [k, Int.add_zero, p0] at h2; omega
    · rw [k, p1] at h2; omega
  refine ⟨⟨rfl, ⟨a1, a2, c1, c2⟩, rfl, rfl⟩, ⟨⟨?_, ?_, ?_, ?_, ?_, ?_, ?_, ?_, ?_⟩, ?_⟩⟩
  · intro v hv
    show part.get v = 0 ∨ part.get v = 1 ∨ part.get v = 2
    by_cases hd : s.dist.get v = -1
    · rw [ho v hv hd]; exact V.parts v hv
    · obtain ⟨u, u1, u2, rfl⟩ := F.bq_onto hv hd
      rw [← hb u u1 u2]
      exact V'.parts u ((hvx u).2 ⟨u1, by omega⟩)
  · show Separated b.s part.get
    rw [sep_adj]
    intro v w hv ha
    have hw := (hc.adj_vertex hv ha).1
    by_cases hdv : s.dist.get v = -1
    · by_cases hdw : s.dist.get w = -1
      · rw [ho v hv hdv, ho w hw hdw]; exact hs v w hv ha
      · have := hcross w v hw hv (hc.adj_symm hv ha) hdw hdv; omega
    · by_cases hdw : s.dist.get w = -1
      · exact hcross v w hv hw ha hdv hdw
      · obtain ⟨u, u1, u2, rfl⟩ := F.bq_onto hv hdv
        obtain ⟨x, x1, x2, rfl⟩ := F.bq_onto hw hdw
        rw [← hb u u1 u2, ← hb x x1 x2]
        have hu := (hvx u).2 ⟨u1, by omega⟩
        exact hs' u x hu ((hadj u x hu).2 ((C.mem_adj u1 (by omega)).2 (Or.inl ⟨u2, x1, x2, ha⟩)))
  · have := gs 0
    rw [if_pos rfl, if_neg (by decide)] at this
    show b.compsize0 - (s.head - s.size1 - b.fronnbr) + cb'.compsize0 - 1 = over b.s part.get 0 (fun _ => 1)
    have := V'.size0
    omega
  · have := gs 1
    rw [if_neg (by decide), if_pos rfl] at this
    show b.compsize1 - s.size1 + cb'.compsize1 - 1 = over b.s part.get 1 (fun _ => 1)
    have := V'.size1
    omega
  · have := gs 2
    rw [if_neg (by decide), if_neg (by decide), hout2] at this
    show cb'.fronnbr = over b.s part.get 2 (fun _ => 1)
    have := V'.size2
    omega
  · have := gl 0
    rw [if_pos rfl, if_neg (by decide)] at this
    show cb'.compload0 = over b.s part.get 0 b.s.velo
    have := V'.load0
    omega
  · have := gl 1
    rw [if_neg (by decide), if_pos rfl] at this
    show cb'.compload1 = over b.s part.get 1 b.s.velo
    have := V'.load1
    omega
  · have := gl 2
    rw [if_neg (by decide), if_neg (by decide), hout2] at this
    show cb'.compload2 = over b.s part.get 2 b.s.velo
    have := V'.load2
    omega
  · show cb'.comploaddlt = cb'.compload0 * b.dwgt1 - cb'.compload1 * b.dwgt0
    rw [V'.delta, h.dwgt.1, h.dwgt.2, S.dwgt.1, S.dwgt.2]
  · show Enum fron cb'.fronnbr (fun v => b.s.Vertex v ∧ part.get v = 2)
    refine ⟨hf0, ?_, ?_⟩
    · intro i j i1 i2 j1 j2 e
      rw [c3 i i1 i2, c3 j j1 j2] at e
      have := hfu i i1 i2
      have := hfu j j1 j2
      exact V'.fron.2.1 i j i1 i2 j1 j2 (F.bq_inj (by omega) (by omega) (by omega) (by omega) e)
    · intro v
      constructor
      · rintro ⟨hv, h2⟩
        have hd : s.dist.get v ≠ -1 := by
          intro hd
          rw [ho v hv hd] at h2
          have := hout v hv hd
          omega
        obtain ⟨u, u1, u2, rfl⟩ := F.bq_onto hv hd
        rw [← hb u u1 u2] at h2
        obtain ⟨i, i1, i2, i3⟩ := (V'.fron.2.2 u).1 ⟨(hvx u).2 ⟨u1, by omega⟩, h2⟩
        exact ⟨i, i1, i2, by rw [c3 i i1 i2, i3]⟩
      · rintro ⟨i, i1, i2, rfl⟩
        obtain ⟨u1, u2⟩ := hfu i i1 i2
        rw [c3 i i1 i2, ← hb _ u1 u2]
        exact ⟨(F.bq_mem u1 u2).1, (V'.fron.mem i1 i2).2⟩

/-- Separation through the band graph. -/
theorem separateBd_meets {cls cls' : Graph → Prop} {tot sure : Bool} {bnd org : Vgraph → M (Int × Vgraph)} (hbnd : SepMethod cls' tot sure bnd) (horg : SepMethod cls tot sure org) (hcl : ∀ g g', cls g → Narrower g g' → cls' g')
    (junk : BdJunk) (distmax : Int) : SepMethod cls tot sure (separateBd junk bnd org distmax) := by
  intro b R hcb
  have hc := Graph.consE_iff.2 R.cons
  unfold separateBd
  by_cases hf : b.fronnbr = 0
  · rw [if_pos hf]; exact horg b R hcb
  rw [if_neg hf]
  rw [Meets_bind]
  refine (Meets.of_holds (bdSearch_holds hc R.alloc R.valid hf junk.queu distmax)).mono ?_
  intro s F
  by_cases ht : s.size1 ≥ b.compsize1 ∨ s.head - s.size1 - b.fronnbr ≥ b.compsize0
  · rw [if_pos ht]; exact horg b R hcb
  rw [if_neg ht]
  rw [Meets_bind]
  refine (Meets.of_holds (bdBuild_holds R F (by split <;> omega) (by split <;> omega) (by omega) (by omega) junk)).mono ?_
  rintro cb ⟨vlvl, idx, S⟩
  unfold bdRun
  rw [Meets_bind]
  refine (hbnd cb S.ready (hcl _ _ hcb S.narrow)).mono ?_
  rintro ⟨o, cb'⟩ ⟨h1, h2, h3⟩
  dsimp only at h1 h2 h3 ⊢
  by_cases ho : o = 0
  · rw [if_neg (fun k => k ho)]
    obtain ⟨hh0, hh1⟩ := F.head_le hc
    have hbp := S.band.bnd
    dsimp only at hbp
    have hpb := h1.bounds
    rw [Arr.rd_ok _ (by omega) (by omega), ok_bind, Arr.rd_ok _ (by omega) (by omega), ok_bind]
    by_cases hp : cb'.parttax.get (s.head + b.s.baseval) ≠ 0 ∨ cb'.parttax.get (s.head + b.s.baseval + 1) ≠ 1
    · rw [if_pos hp]; exact horg b R hcb
    · rw [if_neg hp]
      have q0 : cb'.part (s.head + b.s.baseval) = 0 := Classical.byContradiction fun k => hp (Or.inl k)
      have q1 : cb'.part (s.head + b.s.baseval + 1) = 1 := Classical.byContradiction fun k => hp (Or.inr k)
      rw [Meets_bind]
      refine (Meets.of_holds (bdBring_holds S h1 (h3 ho) q0 q1)).mono ?_
      rintro b' ⟨k1, k2⟩
      exact (Meets_pure _ _).2 ⟨k1, fun _ => rfl, fun _ => k2⟩
  · rw [if_pos ho]
    exact (Meets_pure _ _).2 ⟨SameProblem.refl b, fun hs => absurd (h2 hs) ho, fun k => by dsimp only at k; omega⟩

end Scotch.Separ
