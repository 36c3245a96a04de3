import Verif.HOrder.LemmasCp5

/-! # Compressed graphs are halo graphs -/

set_option autoImplicit false
set_option linter.unusedSimpArgs false

namespace Scotch.HOrder
open Graph

variable {h hc : Hgraph} {φ ρ : Int → Int} {K : Int} {vsiz : Arr Int}

theorem length_mem {a b : Int} {l : List Int} (hn : l.Nodup) (hb : ∀ x ∈ l, a ≤ x ∧ x < b) : (l.length : Int) = sumI a b (fun d => if d ∈ l then 1 else 0) := by
  rw [← Mesh.Metis.sum_count l hb]
  apply sumI_congr
  intro d _ _
  rw [hn.count]
  split <;> rfl

namespace Cx

theorem K_le (C : Cx h φ ρ K) : K ≤ cnnd h K := by unfold cnnd; have := C.H.le; omega

/-- Arcs towards the halo, and arcs from the halo. -/
theorem cross (C : Cx h φ ρ K) : sumI 1 K (fun c => ((A2 h φ ρ c).length : Int)) = sumI K (cnnd h K) (fun c => ((A3 h φ K c).length : Int)) := by
  have e1 : sumI 1 K (fun c => ((A2 h φ ρ c).length : Int)) = sumI 1 K (fun c => sumI K (cnnd h K) (fun d => if d ∈ A2 h φ ρ c then 1 else 0)) := by
    apply sumI_congr
    intro c c1 c2
    refine length_mem (C.A2_nodup c1 c2) ?_
    intro d hd
    obtain ⟨n1, n2⟩ := (C.mem_A2 c1 c2).1 hd
    exact ⟨n2, (C.near_in n1).2⟩
  have e2 : sumI K (cnnd h K) (fun c => ((A3 h φ K c).length : Int)) = sumI K (cnnd h K) (fun c => sumI 1 K (fun d => if d ∈ A3 h φ K c then 1 else 0)) := by
    apply sumI_congr
    intro c c1 c2
    refine length_mem (ins_nodup _ [] List.nodup_nil) ?_
    intro d hd
    have n1 := (C.mem_A3 c1 c2).1 hd
    exact ⟨(C.near_in n1).1, C.near_halo c1 n1⟩
  rw [e1, e2, sumI_comm]
  apply sumI_congr
  intro d d1 d2
  apply sumI_congr
  intro c c1 c2
  have : d ∈ A2 h φ ρ c ↔ c ∈ A3 h φ K d := by
    rw [C.mem_A2 c1 c2, C.mem_A3 d1 d2]
    exact ⟨fun x => C.near_symm x.1, fun x => ⟨C.near_symm x, d1⟩⟩
  by_cases hx : d ∈ A2 h φ ρ c
  · rw [if_pos hx, if_pos (this.1 hx)]
  · rw [if_neg hx, if_neg (fun hy => hx (this.2 hy))]

theorem cload_nonneg (C : Cx h φ ρ K) (c : Int) : 0 ≤ cload h φ c := by
  unfold cload
  apply sumI_nonneg
  intro u u1 u2
  have := C.H.w.velo u ⟨u1, u2⟩
  split <;> omega

theorem cload_sum (C : Cx h φ ρ K) : sumI 1 (cnnd h K) (cload h φ) = h.s.velosum := by
  rw [C.H.w.velosum]
  exact class_sum h.s.velo (fun u u1 u2 => C.num ⟨u1, u2⟩)

theorem cload_low (C : Cx h φ ρ K) : sumI 1 K (cload h φ) = h.vnlosum := by
  have e : h.vnlosum = sumI h.s.baseval h.vnohnnd h.s.velo := C.H.u.velosum
  rw [e, ← class_sum h.s.velo (fun u u1 u2 => C.cls.num u u1 u2)]
  exact sumI_congr (fun c _ c2 => C.low_sum c2 h.s.velo)

end Cx

namespace Built

theorem vtx (B : Built h φ ρ K hc vsiz) (c : Int) : hc.s.Vertex c ↔ 1 ≤ c ∧ c < cnnd h K := by
  unfold Graph.Vertex
  rw [B.base, B.nnd]

theorem uvtx (B : Built h φ ρ K hc vsiz) (c : Int) : (unhalo hc).Vertex c ↔ 1 ≤ c ∧ c < K := by
  show (hc.s.baseval ≤ c ∧ c < hc.vnohnnd) ↔ _
  rw [B.base, B.nohnnd]

theorem adj (B : Built h φ ρ K hc vsiz) (C : Cx h φ ρ K) {c : Int} (hv : hc.s.Vertex c) (d : Int) : Adj hc.s c d ↔ Near h φ c d := by
  rw [← C.mem_cadj ((B.vtx c).1 hv).1 ((B.vtx c).1 hv).2, adj_iff]
  constructor
  · rintro ⟨⟨x, l⟩, hp, rfl⟩
    exact ((B.lists.mem hv x l).1 hp).1
  · intro hd
    exact ⟨(d, 1), (B.lists.mem hv d 1).2 ⟨hd, rfl⟩, rfl⟩

theorem veloE (B : Built h φ ρ K hc vsiz) {c : Int} (h1 : 1 ≤ c) (h2 : c < cnnd h K) : hc.s.velo c = cload h φ c := by
  obtain ⟨t, t1, t2, t3, t4⟩ := B.velo
  unfold Graph.velo
  rw [t1]
  exact t4 c h1 h2

theorem cons (B : Built h φ ρ K hc vsiz) (C : Cx h φ ρ K) : hc.s.Consistent := by
  refine B.lists.consistent ?_ ?_ ?_ ?_
  · intro v hv w hw
    obtain ⟨v1, v2⟩ := (B.vtx v).1 hv
    have hn := (C.mem_cadj v1 v2).1 hw
    obtain ⟨w1, w2⟩ := C.near_in hn
    exact ⟨(B.vtx w).2 ⟨w1, w2⟩, fun e => hn.1 e.symm, (C.mem_cadj w1 w2).2 (C.near_symm hn)⟩
  · intro v hv
    exact C.cadj_nodup ((B.vtx v).1 hv).1
  · intro v hv
    obtain ⟨v1, v2⟩ := (B.vtx v).1 hv
    rw [B.veloE v1 v2]
    exact C.cload_nonneg v
  · rw [B.velosum, ← C.cload_sum, B.base, B.nnd]
    exact sumI_congr (fun c c1 c2 => (B.veloE c1 c2).symm)

/-- Arcs of a vertex that is not in the halo. -/
theorem uvend (B : Built h φ ρ K hc vsiz) (C : Cx h φ ρ K) {c : Int} (h1 : 1 ≤ c) (h2 : c < K) :
    (unhalo hc).vend c = hc.s.vert c + (A1 h φ ρ c).length ∧ hc.s.vend c = (unhalo hc).vend c + (A2 h φ ρ c).length ∧ seg hc.s.dest (hc.s.vert c) ((unhalo hc).vend c) = A1 h φ ρ c ∧
      seg hc.s.dest ((unhalo hc).vend c) (hc.s.vend c) = A2 h φ ρ c := by
  have hKn := C.K_le
  have hv := (B.vtx c).2 ⟨h1, by omega⟩
  obtain ⟨n1, n2⟩ := B.lists.next hv
  have hl : cadj h φ ρ K c = A1 h φ ρ c ++ A2 h φ ρ c := by unfold cadj; rw [if_pos h2]
  have e1 : (unhalo hc).vend c = hc.s.vert c + (A1 h φ ρ c).length := by
    cases hvn : hc.vnhdtax with
    | some t =>
      have : (unhalo hc).vend c = t.get c := by
        show (match hc.vnhdtax with | none => hc.s.verttax.get (c + 1) | some a => a.get c) = _
        rw [hvn]
      rw [this]
      exact (B.hh t hvn).2.2 c h1 h2
    | none =>
      have : (unhalo hc).vend c = hc.s.vend c := by
        show (match hc.vnhdtax with | none => hc.s.verttax.get (c + 1) | some a => a.get c) = _
        unfold Graph.vend
        rw [hvn, B.lists.compact]
      have hno := B.nh hvn
      have hA : A2 h φ ρ c = [] := by
        apply List.eq_nil_iff_forall_not_mem.2
        intro d hd
        obtain ⟨m1, m2⟩ := (C.mem_A2 h1 h2).1 hd
        have := (C.near_in m1).2
        have := C.H.nnd
        have := C.H.wnnd
        unfold cnnd at *
        omega
      rw [this, n2, hl, hA, List.append_nil]
  have e2 : hc.s.vend c = (unhalo hc).vend c + (A2 h φ ρ c).length := by
    rw [n2, hl, List.length_append, e1]
    push_cast
    omega
  have e3 : seg hc.s.dest (hc.s.vert c) (hc.s.vend c) = A1 h φ ρ c ++ A2 h φ ρ c := by
    rw [← hl, n2]
    exact B.lists.lists.lists c hv.1 hv.2
  rw [seg_append _ (mid := (unhalo hc).vend c) (by omega) (by omega)] at e3
  have hlen : (seg hc.s.dest (hc.s.vert c) ((unhalo hc).vend c)).length = (A1 h φ ρ c).length := by
    have := seg_length hc.s.dest (lo := hc.s.vert c) (hi := (unhalo hc).vend c) (by omega)
    omega
  obtain ⟨e4, e5⟩ := List.append_inj e3 hlen
  exact ⟨e1, e2, e4, e5⟩

theorem edlo1 (B : Built h φ ρ K hc vsiz) (e : Int) : (unhalo hc).edlo e = 1 := by
  show (match hc.s.edlotax with | none => (1 : Int) | some a => a.get e) = 1
  rw [B.lists.noedlo]

theorem uadj (B : Built h φ ρ K hc vsiz) (C : Cx h φ ρ K) {c : Int} (h1 : 1 ≤ c) (h2 : c < K) (d : Int) : (∃ e, hc.s.vert c ≤ e ∧ e < (unhalo hc).vend c ∧ hc.s.dest e = d) ↔ Near h φ c d ∧ d < K := by
  rw [← C.mem_A1 h1 h2, ← (B.uvend C h1 h2).2.2.1, mem_seg]

theorem upart (B : Built h φ ρ K hc vsiz) (C : Cx h φ ρ K) : (unhalo hc).Consistent := by
  have hp := C.cls.pos
  have hKn := C.K_le
  have G := Graph.consE_iff.2 (B.cons C)
  rw [← Graph.consE_iff]
  have deg_eq : ∀ c, 1 ≤ c → c < K → (unhalo hc).vend c - (unhalo hc).vert c = (A1 h φ ρ c).length := by
    intro c c1 c2
    have := (B.uvend C c1 c2).1
    show _ - hc.s.vert c = _
    omega
  have enb : hc.enohnbr = sumI 1 K (fun c => ((A1 h φ ρ c).length : Int)) := by
    rw [B.enoh]
    have e1 : sumI 1 K (fun c => ((cadj h φ ρ K c).length : Int)) = sumI 1 K (fun c => ((A1 h φ ρ c).length : Int) + ((A2 h φ ρ c).length : Int)) := by
      apply sumI_congr
      intro c _ c2
      unfold cadj
      rw [if_pos c2, List.length_append]
      push_cast
      rfl
    have e2 : sumI K (cnnd h K) (fun c => ((cadj h φ ρ K c).length : Int)) = sumI K (cnnd h K) (fun c => ((A3 h φ K c).length : Int)) := by
      apply sumI_congr
      intro c c1 _
      unfold cadj
      rw [if_neg (by omega)]
    rw [e1, e2, sumI_add_dist, C.cross]
    omega
  have ub : (unhalo hc).baseval = 1 := B.base
  have un : (unhalo hc).vertnnd = K := B.nohnnd
  refine ⟨?_, ?_, ?_, ?_, ?_, ?_, ?_, ?_, ?_, ?_, ?_, ?_⟩
  · show 0 ≤ hc.vnohnbr
    rw [B.nohnbr]; omega
  · show hc.vnohnnd = hc.s.baseval + hc.vnohnbr
    rw [B.nohnnd, B.nohnbr, B.base]; omega
  · intro c hv
    obtain ⟨c1, c2⟩ := (B.uvtx c).1 hv
    have := (G.range c ((B.vtx c).2 ⟨c1, by omega⟩)).1
    have := (B.uvend C c1 c2).1
    refine ⟨?_, ?_⟩
    · show hc.s.baseval ≤ hc.s.vert c
      assumption
    · show hc.s.vert c ≤ (unhalo hc).vend c
      omega
  · intro c e hv e1 e2
    obtain ⟨c1, c2⟩ := (B.uvtx c).1 hv
    obtain ⟨n1, n2⟩ := (B.uadj C c1 c2 (hc.s.dest e)).1 ⟨e, e1, e2, rfl⟩
    exact ⟨(B.uvtx _).2 ⟨(C.near_in n1).1, n2⟩, fun he => n1.1 he.symm⟩
  · intro c e hv e1 e2
    obtain ⟨c1, c2⟩ := (B.uvtx c).1 hv
    obtain ⟨n1, n2⟩ := (B.uadj C c1 c2 (hc.s.dest e)).1 ⟨e, e1, e2, rfl⟩
    obtain ⟨f, f1, f2, f3⟩ := (B.uadj C (C.near_in n1).1 n2 c).2 ⟨C.near_symm n1, c2⟩
    exact ⟨f, f1, f2, f3, by rw [B.edlo1, B.edlo1]⟩
  · intro c hv e f e1 e2 f1 f2 he
    obtain ⟨c1, c2⟩ := (B.uvtx c).1 hv
    have hle := (B.uvend C c1 c2).2.1
    exact G.simple c ((B.vtx c).2 ⟨c1, by omega⟩) e f e1 (by omega) f1 (by omega) he
  · show hc.enohnbr = _
    rw [enb, ub, un]
    exact sumI_congr (fun c c1 c2 => (deg_eq c c1 c2).symm)
  · intro c hv
    obtain ⟨c1, c2⟩ := (B.uvtx c).1 hv
    exact G.velo c ((B.vtx c).2 ⟨c1, by omega⟩)
  · show hc.vnlosum = _
    rw [B.vnlosum, ← C.cload_low, ub, un]
    exact sumI_congr (fun c c1 c2 => (B.veloE c1 (by omega)).symm)
  · intro c e _ _ _
    rw [B.edlo1]; decide
  · show hc.enlosum = _
    rw [B.enlo, enb, ub, un]
    apply sumI_congr
    intro c c1 c2
    have := deg_eq c c1 c2
    rw [sumI_congr (g := fun _ => 1) (fun e _ _ => B.edlo1 e), sumI_const (by omega)]
    omega
  · refine ⟨G.degrmax.1, ?_⟩
    intro c hv
    obtain ⟨c1, c2⟩ := (B.uvtx c).1 hv
    have := G.degrmax.2 c ((B.vtx c).2 ⟨c1, by omega⟩)
    have hle := (B.uvend C c1 c2).2.1
    show (unhalo hc).vend c - hc.s.vert c ≤ hc.s.degrmax
    omega

theorem hcons (B : Built h φ ρ K hc vsiz) (C : Cx h φ ρ K) : HCons hc := by
  have hp := C.cls.pos
  have hKn := C.K_le
  refine ⟨B.cons C, B.upart C, ⟨by rw [B.nohnbr]; omega, by rw [B.nohnbr, B.nbr]; omega⟩, ?_, ?_, B.lists.noedlo⟩
  · intro c hv
    obtain ⟨c1, c2⟩ := (B.uvtx c).1 hv
    obtain ⟨u1, u2, u3, u4⟩ := B.uvend C c1 c2
    refine ⟨by omega, ?_⟩
    intro e e1 e2
    have : hc.s.dest e ∈ A2 h φ ρ c := by rw [← u4, mem_seg]; exact ⟨e, e1, e2, rfl⟩
    rw [B.nohnnd]
    exact ((C.mem_A2 c1 c2).1 this).2
  · intro c p hv hcK hpn
    rw [B.nohnnd] at hcK ⊢
    exact C.near_halo hcK ((B.adj C hv p.1).1 ((adj_iff c p.1).2 ⟨p, hpn, rfl⟩))

theorem halloc (B : Built h φ ρ K hc vsiz) (C : Cx h φ ρ K) : HAlloc hc := by
  have hp := C.cls.pos
  have hKn := C.K_le
  obtain ⟨t, t1, t2, t3, t4⟩ := B.velo
  have W : hc.s.Allocated := by
    refine B.lists.allocated (by rw [B.vlo, B.base]) (by rw [B.vhi, B.nnd]; omega) (by rw [B.elo, B.base]) (by rw [B.ehi, B.base]) ?_ B.vnum B.vlbl
    intro a ha
    rw [t1] at ha
    cases ha
    rw [B.base, B.nnd]
    omega
  refine ⟨W, ?_⟩
  have ub : (unhalo hc).baseval = 1 := B.base
  have un : (unhalo hc).vertnnd = K := B.nohnnd
  refine ⟨W.vlo, ?_, ?_, ?_, ?_, ?_, (fun a ha => by cases ha), ?_, ?_⟩
  · rw [un]
    show K ≤ hc.s.verttax.hi
    rw [B.vhi]; omega
  · intro _
    rw [un]
    show K + 1 ≤ hc.s.verttax.hi
    rw [B.vhi]; omega
  · intro a ha
    obtain ⟨q1, q2, _⟩ := B.hh a ha
    rw [ub, un]
    omega
  · intro a ha
    have := W.velo a ha
    rw [B.base, B.nnd] at this
    rw [ub, un]
    omega
  · intro a ha
    have : hc.s.vnumtax = some a := ha
    rw [B.vnum] at this
    cases this
  · intro c hv hlt
    obtain ⟨c1, c2⟩ := (B.uvtx c).1 hv
    have hle := (B.uvend C c1 c2).2.1
    have hlt' : hc.s.vert c < (unhalo hc).vend c := hlt
    have := W.edge c ((B.vtx c).2 ⟨c1, by omega⟩) (by omega)
    refine ⟨this.1, ?_⟩
    show (unhalo hc).vend c ≤ hc.s.edgetax.hi
    omega
  · intro a ha
    have : hc.s.edlotax = some a := ha
    rw [B.lists.noedlo] at this
    cases this

theorem packed (B : Built h φ ρ K hc vsiz) (C : Cx h φ ρ K) : Packed (unhalo h) (unhalo hc) := by
  have hn := C.H.nnd
  refine ⟨B.base, ?_, ?_, ?_⟩
  · exact (B.upart C).vertnnd
  · show hc.vnohnbr ≤ h.vnohnbr
    rw [B.nohnbr]
    have e := C.csize_sum
    have hp := C.cls.pos
    have : sumI 1 K (fun _ => 1) ≤ sumI 1 K (csize h φ) := sumI_mono (fun c c1 c2 => C.csize_pos c1 (by have := C.K_le; omega))
    rw [sumI_const hp, e] at this
    omega
  · intro hpos c hv
    obtain ⟨c1, c2⟩ := (B.uvtx c).1 hv
    obtain ⟨r1, r2, r3, _⟩ := C.cls.rep c c1 c2
    show 0 < hc.s.velo c
    rw [B.veloE c1 (by have := C.K_le; omega)]
    unfold cload
    have h1 : sumI h.s.baseval h.s.vertnnd (fun u => if u = ρ c then (fun u => h.s.velo u) u else 0) ≤ sumI h.s.baseval h.s.vertnnd (fun u => if φ u = c then h.s.velo u else 0) := by
      apply sumI_mono
      intro u u1 u2
      have := C.H.w.velo u ⟨u1, u2⟩
      by_cases hu : u = ρ c
      · rw [if_pos hu, if_pos (by rw [hu]; exact r3)]
      · rw [if_neg hu]; split <;> omega
    rw [sumI_single r1 (by have := C.H.le; omega)] at h1
    have h2 : 0 < h.s.velo (ρ c) := hpos (ρ c) ⟨r1, r2⟩
    omega

end Built

end Scotch.HOrder
