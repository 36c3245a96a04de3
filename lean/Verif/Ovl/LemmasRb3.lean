import Verif.Ovl.LemmasRb2

/-! # Partitioning with overlap: recursion, end -/

set_option autoImplicit false
set_option linter.unusedSimpArgs false

namespace Scotch.Ovl
open Graph Bipart
open Kmap (org Proper Verts ofPart mem_ofPart ofPart_nodup)

theorem Holds.and {α : Type} {x : M α} {P Q : α → Prop} (h : Holds x P) (k : Holds x Q) : Holds x (fun a => P a ∧ Q a) := by
  cases x with
  | ok a => exact ⟨h, k⟩
  | error e => exact h

theorem induced_adj {g g' : Graph} {l : List Int} (hi : InducedBy g l g') (hnd : l.Nodup) {x y : Int} (hx : x ∈ l) (hy : y ∈ l) (hc : g'.Consistent) (h : g.Adj x y) : OAdj g' (org g x) (org g y) := by
  obtain ⟨p, hp, rfl⟩ := (adj_iff _ _).1 h
  obtain ⟨i, i1, i2⟩ := List.getElem_of_mem hx
  obtain ⟨a, ha1, ha2⟩ := hi.vnum
  have hnn := hc.vertnnd
  have hb := hi.baseval
  have hnb := hi.vertnbr
  have key : ∀ i (h : i < l.length), org g' (g.baseval + i) = org g l[i] := by
    intro i h
    have := ha2 i h
    unfold org
    rw [ha1]
    exact this
  have hj : l.idxOf p.1 < l.length := List.idxOf_lt_length_iff.2 hy
  refine ⟨g.baseval + i, g.baseval + l.idxOf p.1, ?_, ?_, ?_, ?_⟩
  · unfold Graph.Vertex; omega
  · rw [key i i1, i2]
  · rw [adj_iff]
    refine ⟨(g.baseval + l.idxOf p.1, p.2), ?_, rfl⟩
    rw [hi.nbrs i i1, List.mem_filterMap]
    exact ⟨p, by rw [i2]; exact hp, by rw [if_pos hy]⟩
  · rw [key _ hj, List.getElem_idxOf hj]

theorem unlabel {g : Graph} (h : Proper g) : Proper { g with vlbltax := none } :=
  ⟨⟨h.cons.vertnbr, h.cons.vertnnd, h.cons.range, h.cons.inside, h.cons.symm, h.cons.simple, h.cons.edgenbr, h.cons.velo, h.cons.velosum, h.cons.edlo, h.cons.edlosum, h.cons.degrmax⟩,
    ⟨h.alloc.vlo, h.alloc.vhi, h.alloc.vhi', h.alloc.ends, h.alloc.velo, h.alloc.vnum, fun a ha => (by cases ha), h.alloc.edge, h.alloc.edlo⟩, h.base, h.inj⟩

variable {scls : Graph → Prop} {nul tot sure : Bool}

theorem rbInduce_holds (hcl : Closed scls) {env : RbEnv} (hal : env.al = 1 ∨ env.al = 2) (p : Path) {s : Split} (hs : SplitOk scls nul s) :
    Holds (rbInduce env p s) fun h => Proper h ∧ scls h ∧ 1 ≤ h.vertnbr ∧ (∀ v, Verts h v ↔ ∃ x, Sel s x ∧ org s.g x = v) ∧ ∀ x y, Sel s x → Sel s y → s.g.Adj x y → OAdj h (org s.g x) (org s.g y) := by
  unfold rbInduce
  cases hp : s.part with
  | none =>
    obtain ⟨-, w2, -⟩ := hs.whole hp
    refine ⟨unlabel hs.g, hcl.label _ hs.cls, w2, fun v => ?_, fun x y hx hy hxy => ⟨x, y, hx.1, rfl, hxy, rfl⟩⟩
    constructor
    · rintro ⟨x, x1, x2⟩
      exact ⟨x, ⟨x1, fun a ha => by rw [hp] at ha; cases ha⟩, x2⟩
    · rintro ⟨x, ⟨x1, -⟩, x2⟩
      exact ⟨x, x1, x2⟩
  | some a =>
    obtain ⟨p1, p2, p3, -⟩ := hs.part a hp
    show Holds (Graph.inducePart env.al s.g (env.mem p) a s.nbr s.val) _
    have k1 := Kmap.induce_holds hs.g hal (env.mem p) p1 p2
    have k2 := Graph.inducePart_holds hs.g.cons hs.g.alloc hs.g.base hal (env.mem p) a p1 s.val
    have e : ((partList s.g a s.val).length : Int) = s.nbr := p2.symm
    rw [e] at k2
    refine (Holds.and k1 k2).mono ?_
    rintro h ⟨⟨h1, h2, h3⟩, h4, h5, h6⟩
    have sel : ∀ x, Sel s x ↔ s.g.Vertex x ∧ a.get x = s.val := fun x => ⟨fun h => ⟨h.1, h.2 a hp⟩, fun h => ⟨h.1, fun c hc => by rw [hp] at hc; cases hc; exact h.2⟩⟩
    refine ⟨h1, hcl.induce _ _ _ hs.cls hs.g.cons (fun x hx => (mem_ofPart.1 hx).1) ofPart_nodup h4 h5 h6, by omega, fun v => ?_, ?_⟩
    · rw [h3]
      constructor
      · rintro ⟨x, x1, x2, x3⟩; exact ⟨x, (sel x).2 ⟨x1, x3⟩, x2⟩
      · rintro ⟨x, x1, x2⟩; exact ⟨x, x1.1, x2, ((sel x).1 x1).2⟩
    · intro x y hx hy hxy
      exact induced_adj h4 ofPart_nodup (mem_ofPart.2 ((sel x).1 hx)) (mem_ofPart.2 ((sel y).1 hy)) h5 hxy

theorem rbGraph_holds (hcl : Closed scls) {env : RbEnv} (hal : env.al = 1 ∨ env.al = 2) (p : Path) {s : Split} (hs : SplitOk scls nul s) :
    Holds (rbGraph env p s) fun b => Separ.Ready b ∧ Proper b.s ∧ scls b.s ∧ (∀ v, Verts b.s v ↔ ∃ x, Sel s x ∧ org s.g x = v) ∧ ∀ x y, Sel s x → Sel s y → s.g.Adj x y → OAdj b.s (org s.g x) (org s.g y) := by
  unfold rbGraph
  rw [Holds_bind]
  refine (rbInduce_holds hcl hal p hs).mono ?_
  rintro h ⟨h1, h2, h3, h4, h5⟩
  have hnn := h1.cons.vertnnd
  have hsz := hs.siz
  have A : Separ.Alloc { env.blank p with s := h, parttax := ⟨h.baseval, h.baseval + h.vertnbr, (env.blank p).parttax.get⟩, frontab := ⟨0, h.vertnbr, (env.blank p).frontab.get⟩, dwgt0 := s.siz / 2, dwgt1 := s.siz - s.siz / 2 } :=
    ⟨h1.alloc, ⟨le_refl _, (by show h.vertnnd ≤ h.baseval + h.vertnbr; omega)⟩, le_refl _, le_refl _⟩
  refine (Separ.zero_holds (consE_iff.2 h1.cons) A).mono ?_
  rintro b ⟨SP, V, -⟩
  have e : b.s = h := SP.s
  refine ⟨⟨by rw [e]; exact h1.cons, ?_, V, by rw [e]; exact h1.base, by rw [e]; exact h3, ?_⟩, by rw [e]; exact h1, by rw [e]; exact h2, by rw [e]; exact h4, by rw [e]; exact h5⟩
  · have B := SP.bounds
    exact ⟨by rw [e]; exact h1.alloc, by rw [B.1, B.2.1, e]; exact A.part, by rw [B.2.2.1, B.2.2.2, e]; exact A.fron⟩
  · have d0 : b.dwgt0 = s.siz / 2 := SP.dwgt.1
    have d1 : b.dwgt1 = s.siz - s.siz / 2 := SP.dwgt.2
    omega

/-- The two parts of a cut. -/
theorem join_out {b : Separ.Vgraph} (hg : Proper b.s) (V : Separ.Valid b) {s0 s1 : Split} (e0 : s0.g = b.s ∧ s0.part = some b.parttax ∧ s0.val = 0) (e1 : s1.g = b.s ∧ s1.part = some b.parttax ∧ s1.val = 1) {l0 l1 : List Act}
    (S0 : Safe (InS s0) l0) (S1 : Safe (InS s1) l1) : Safe (Verts b.s) (l0 ++ l1) ∧ ∀ dom siz P0 P1, 0 ≤ dom → Out (InS s0) (OAdj s0.g) dom siz l0 P0 → (∀ v, Prev s0 v → P0 v = -1) → Out (InS s1) (OAdj s1.g) dom siz l1 P1 →
      ∃ P, Out (Verts b.s) (OAdj b.s) dom siz (l0 ++ l1) P := by
  obtain ⟨g0, q0, v0⟩ := e0
  obtain ⟨g1, q1, v1⟩ := e1
  have p4 := V.parts
  have i0 : ∀ x, b.s.Vertex x → (InS s0 (org b.s x) ↔ b.part x ≠ 1) := by
    intro x hx
    have h4 := p4 x hx
    unfold InS
    rw [g0, q0, v0]
    constructor
    · rintro ⟨y, y1, y2, y3⟩
      have := hg.inj y x y1 hx y2
      subst this
      have := y3 _ rfl
      show b.parttax.get y ≠ 1
      omega
    · intro h
      refine ⟨x, hx, rfl, fun a ha => ?_⟩
      cases ha
      show b.part x = 0 ∨ (_ ∧ b.part x = 2)
      omega
  have i1 : ∀ x, b.s.Vertex x → (InS s1 (org b.s x) ↔ b.part x = 1) := by
    intro x hx
    unfold InS
    rw [g1, q1, v1]
    constructor
    · rintro ⟨y, y1, y2, y3⟩
      have := hg.inj y x y1 hx y2
      subst this
      have := y3 _ rfl
      show b.parttax.get y = 1
      omega
    · intro h
      exact ⟨x, hx, rfl, fun a ha => by cases ha; exact Or.inl h⟩
  have k0 : ∀ v, InS s0 v → Verts b.s v := by
    rintro v ⟨x, x1, x2, -⟩
    rw [g0] at x1 x2
    exact ⟨x, x1, x2⟩
  have k1 : ∀ v, InS s1 v → Verts b.s v := by
    rintro v ⟨x, x1, x2, -⟩
    rw [g1] at x1 x2
    exact ⟨x, x1, x2⟩
  have hd : ∀ v, InS s0 v → ¬ InS s1 v := by
    intro v h0 h1
    obtain ⟨x, x1, rfl⟩ := k0 v h0
    exact (i0 x x1).1 h0 ((i1 x x1).1 h1)
  refine ⟨S0.append S1 k0 k1 hd, ?_⟩
  intro dom siz P0 P1 hdom O0 N0 O1
  obtain ⟨P, pv1, pv0⟩ : ∃ P : Int → Int, (∀ x, b.s.Vertex x → b.part x = 1 → P (org b.s x) = P1 (org b.s x)) ∧ ∀ x, b.s.Vertex x → b.part x ≠ 1 → P (org b.s x) = P0 (org b.s x) := by
    refine ⟨fun v => if b.part (inv b.s v) = 1 then P1 v else P0 v, ?_, ?_⟩
    · intro x hx h
      show (if b.part (inv b.s (org b.s x)) = 1 then _ else _) = _
      rw [inv_org hg hx, if_pos h]
    · intro x hx h
      show (if b.part (inv b.s (org b.s x)) = 1 then _ else _) = _
      rw [inv_org hg hx, if_neg h]
  refine ⟨P, ?_, ?_, ?_, ?_, ?_⟩
  · intro a ha v x hw
    rcases List.mem_append.1 ha with ha | ha
    · have h := (S0.1 a ha).2.1 v x hw
      obtain ⟨u, u1, rfl⟩ := k0 v h
      rw [pv0 u u1 ((i0 u u1).1 h)]
      exact O0.vals a ha _ x hw
    · have h := (S1.1 a ha).2.1 v x hw
      obtain ⟨u, u1, rfl⟩ := k1 v h
      rw [pv1 u u1 ((i1 u u1).1 h)]
      exact O1.vals a ha _ x hw
  · rintro v ⟨u, u1, rfl⟩
    by_cases h : b.part u = 1
    · obtain ⟨a, ha, hw⟩ := O1.onto _ ((i1 u u1).2 h)
      exact ⟨a, List.mem_append_right _ ha, hw⟩
    · obtain ⟨a, ha, hw⟩ := O0.onto _ ((i0 u u1).2 h)
      exact ⟨a, List.mem_append_left _ ha, hw⟩
  · rintro v ⟨u, u1, rfl⟩
    by_cases h : b.part u = 1
    · have hin := (i1 u u1).2 h
      rw [pv1 u u1 h, O1.fron _ hin]
      constructor
      · rintro ⟨a, ha, hf⟩; exact ⟨a, List.mem_append_right _ ha, hf⟩
      · rintro ⟨a, ha, hf⟩
        rcases List.mem_append.1 ha with ha | ha
        · exact absurd hin (hd _ ((S0.1 a ha).2.2 _ hf))
        · exact ⟨a, ha, hf⟩
    · have hin := (i0 u u1).2 h
      rw [pv0 u u1 h, O0.fron _ hin]
      constructor
      · rintro ⟨a, ha, hf⟩; exact ⟨a, List.mem_append_left _ ha, hf⟩
      · rintro ⟨a, ha, hf⟩
        rcases List.mem_append.1 ha with ha | ha
        · exact ⟨a, ha, hf⟩
        · exact absurd ((S1.1 a ha).2.2 _ hf) (hd _ hin)
  · rintro v ⟨u, u1, rfl⟩
    by_cases h : b.part u = 1
    · rw [pv1 u u1 h]; exact O1.range _ ((i1 u u1).2 h)
    · rw [pv0 u u1 h]; exact O0.range _ ((i0 u u1).2 h)
  · rintro u v ⟨x, x1, rfl⟩ ⟨y, y1, rfl⟩ hadj
    have hadj0 := hadj
    obtain ⟨x', y', z1, z2, z3, z4⟩ := hadj
    have e1 := hg.inj x' x z1 x1 z2
    have e2 := hg.inj y' y ((consE_iff.2 hg.cons).adj_vertex z1 z3).1 y1 z4
    subst e1 e2
    have q1 := p4 _ x1
    have q2 := p4 _ y1
    have q3 := Separ.sep_adj.1 V.sep _ _ x1 z3
    have two : ∀ z, b.s.Vertex z → b.part z = 2 → P0 (org b.s z) = -1 := fun z hz h => N0 _ ⟨v0, b.parttax, q0, z, by rw [g0]; exact hz, by rw [g0], h⟩
    by_cases hx : b.part x' = 1
    · by_cases hy : b.part y' = 1
      · rw [pv1 _ x1 hx, pv1 _ y1 hy]
        exact O1.sep _ _ ((i1 _ x1).2 hx) ((i1 _ y1).2 hy) (by rw [g1]; exact hadj0)
      · rw [pv1 _ x1 hx, pv0 _ y1 hy, two _ y1 (by omega)]
        intro _ h; omega
    · by_cases hy : b.part y' = 1
      · rw [pv0 _ x1 hx, pv1 _ y1 hy, two _ x1 (by omega)]
        intro h; omega
      · rw [pv0 _ x1 hx, pv0 _ y1 hy]
        exact O0.sep _ _ ((i0 _ x1).2 hx) ((i0 _ y1).2 hy) (by rw [g0]; exact hadj0)

theorem InS_none {s : Split} (h : s.part = none) (v : Int) : InS s v ↔ Verts s.g v := by
  unfold InS Verts
  rw [h]
  exact ⟨fun ⟨x, x1, x2, _⟩ => ⟨x, x1, x2⟩, fun ⟨x, x1, x2⟩ => ⟨x, x1, x2, fun a ha => (by cases ha)⟩⟩

theorem Out.congr {S S' : Int → Prop} {A : Int → Int → Prop} {dom siz : Int} {l : List Act} {P : Int → Int} (O : Out S A dom siz l P) (h : ∀ v, S' v → S v) : Out S' A dom siz l P :=
  ⟨O.vals, fun v hv => O.onto v (h v hv), fun v hv => O.fron v (h v hv), fun v hv => O.range v (h v hv), fun u v hu hv => O.sep u v (h u hu) (h v hv)⟩

theorem Even2.half {siz : Int} (h : Even2 nul siz) (h2 : 2 < siz) : Even2 nul (siz / 2) ∧ Even2 nul (siz - siz / 2) ∧ (nul = true ∨ 2 ≤ siz / 2) := by
  rcases h with h | ⟨k, rfl⟩
  · exact ⟨Or.inl h, Or.inl h, Or.inl h⟩
  · cases k with
    | zero => norm_num at h2
    | succ k =>
      have e : (2 : Int) ^ (k + 1) = 2 * 2 ^ k := by rw [pow_succ]; omega
      rw [e] at h2 ⊢
      have e1 : (2 * (2 : Int) ^ k) / 2 = 2 ^ k := by omega
      rw [e1]
      exact ⟨Or.inr ⟨k, rfl⟩, Or.inr ⟨k, by omega⟩, Or.inr (by omega)⟩

/-- What a call does. -/
structure Done (sure : Bool) (s : Split) (r : Int × List Act) : Prop where
  safe : Safe (InS s) r.2
  sure : sure = true → r.1 = 0
  out : r.1 = 0 → ∃ P, Out (InS s) (OAdj s.g) s.dom s.siz r.2 P ∧ ∀ v, Prev s v → P v = -1

open Classical in
theorem wrap_done {s : Split} (hs : SplitOk scls nul s) {h : Graph} (hv : ∀ v, Verts h v ↔ ∃ x, Sel s x ∧ org s.g x = v) (ha : ∀ x y, Sel s x → Sel s y → s.g.Adj x y → OAdj h (org s.g x) (org s.g y)) {c : Int} {l : List Act}
    (hS : Safe (Verts h) l) (hc : sure = true → c = 0) (hO : c = 0 → ∃ P, Out (Verts h) (OAdj h) s.dom s.siz l P) : Done sure s (c, acts0 s ++ l) := by
  refine ⟨wrap_safe hs (hS.mono fun v h => (hv v).1 h), hc, fun h0 => ?_⟩
  obtain ⟨P, O⟩ := hO h0
  exact ⟨_, wrap_out hs hv ha hS O, fun v h => if_pos h⟩

theorem rb2_holds (hcl : Closed scls) {env : RbEnv} (hal : env.al = 1 ∨ env.al = 2) (hsep : ∀ p, Separ.SepMethod scls tot sure (env.sep p)) :
    ∀ (f : Nat) (p : Path) (s : Split), SplitOk scls nul s → Even2 nul s.siz → s.siz ≤ f → Mt nul tot (rb2 env f p s) (Done sure s) := by
  intro f
  induction f with
  | zero =>
    intro p s hs _ hf
    have := hs.siz
    omega
  | succ f ih =>
    intro p s hs hE hf
    have hsz := hs.siz
    have hdm := hs.dom
    unfold rb2
    rw [Mt_bind]
    by_cases hstop : s.val = 0 ∧ s.siz ≤ 1
    · unfold rbFirst
      rw [if_pos hstop.1, if_pos hstop.2]
      cases hp : s.part with
      | none =>
        rcases (hs.whole hp).2.2 hstop.1 with h | h
        · exact h
        · omega
      | some a =>
        obtain ⟨k1, P, k2, k3⟩ := one_out hs hp hstop.1
        exact ⟨k1, fun _ => rfl, fun _ => ⟨P, k2, k3⟩⟩
    · have hfirst : rbFirst s = .ok (acts0 s, false) := by
        unfold rbFirst acts0
        by_cases h0 : s.val = 0
        · rw [if_pos h0, if_neg (fun h => hstop ⟨h0, h⟩), if_pos h0]; rfl
        · rw [if_neg h0, if_neg h0]; rfl
      have hs2 : 2 ≤ s.siz := by
        rcases hs.val with h | h
        · by_contra hh; exact hstop ⟨h, by omega⟩
        · exact hs.siz1 h
      rw [hfirst]
      change Mt nul tot (rbGraph env p s >>= _) _
      rw [Mt_bind]
      refine (Mt.of_holds (rbGraph_holds hcl hal p hs)).mono ?_
      rintro b0 ⟨R, pr0, cl0, hv0, ha0⟩
      rw [Mt_bind]
      refine (Mt.of_meets (hsep p b0 R cl0)).mono ?_
      rintro ⟨o, b⟩ ⟨SP, h1, h2⟩
      have pr : Proper b.s := by rw [SP.s]; exact pr0
      have cl : scls b.s := by rw [SP.s]; exact cl0
      have hv : ∀ v, Verts b.s v ↔ ∃ x, Sel s x ∧ org s.g x = v := by rw [SP.s]; exact hv0
      have ha : ∀ x y, Sel s x → Sel s y → s.g.Adj x y → OAdj b.s (org s.g x) (org s.g y) := by rw [SP.s]; exact ha0
      have hsz1 : 1 ≤ b.s.vertnbr := by rw [SP.s]; exact R.size
      have A : Separ.Alloc b := by
        have B := SP.bounds
        exact ⟨pr.alloc, by rw [B.1, B.2.1, SP.s]; exact R.alloc.part, by rw [B.2.2.1, B.2.2.2, SP.s]; exact R.alloc.fron⟩
      dsimp only at h1 h2 ⊢
      by_cases ho : o ≠ 0
      · rw [if_pos ho]
        have := wrap_safe hs (Safe.nil _)
        rw [List.append_nil] at this
        exact ⟨this, fun h => absurd (h1 h) ho, fun h => by simp at h⟩
      rw [if_neg ho]
      have V := h2 (by omega)
      by_cases hle : s.siz ≤ 2
      · rw [if_pos hle]
        obtain ⟨k1, k2⟩ := both_out pr A V hdm hs2
        exact wrap_done hs hv ha k1 (fun _ => rfl) (fun _ => k2)
      rw [if_neg hle]
      obtain ⟨E0, E1, E2⟩ := hE.half (by omega)
      have len0 : b.compsize0 = (ofPart b.s b.parttax 0).length := by rw [V.size0]; exact Kmap.over_len pr.cons b.parttax 0
      have len1 : b.compsize1 = (ofPart b.s b.parttax 1).length := by rw [V.size1]; exact Kmap.over_len pr.cons b.parttax 1
      by_cases c0 : b.compsize0 ≤ 0
      · rw [if_pos c0, Mt_bind]
        refine (ih (0 :: p) ⟨b.s, nullArr, 0, none, 1, b.s.vertnbr, s.dom + s.siz / 2, s.siz - s.siz / 2⟩
          ⟨pr, cl, Or.inr rfl, (by show 0 ≤ s.dom + s.siz / 2; omega), (by show 1 ≤ s.siz - s.siz / 2; omega), (fun _ => by show 2 ≤ s.siz - s.siz / 2; omega), fun _ => ⟨rfl, hsz1, fun h => absurd h (by show ¬ (1 : Int) = 0; omega)⟩, fun a h => (by cases h)⟩
          E1 (by show s.siz - s.siz / 2 ≤ _; omega)).mono ?_
        rintro ⟨c, l⟩ D
        have S := D.safe.mono fun v h => (InS_none rfl v).1 h
        refine wrap_done hs hv ha S D.sure fun h => ?_
        obtain ⟨P, O, -⟩ := D.out h
        exact ⟨P, (O.congr fun v h => (InS_none rfl v).2 h).widen (by show s.dom ≤ s.dom + s.siz / 2; omega) (by show s.dom + s.siz / 2 + (s.siz - s.siz / 2) ≤ _; omega)⟩
      rw [if_neg c0]
      by_cases c1 : b.compsize1 ≤ 0
      · rw [if_pos c1, Mt_bind]
        refine (ih (0 :: p) ⟨b.s, nullArr, 0, none, 0, b.s.vertnbr, s.dom, s.siz / 2⟩
          ⟨pr, cl, Or.inl rfl, hdm, (by show 1 ≤ s.siz / 2; omega), (fun h => absurd h (by show ¬ (0 : Int) = 1; omega)), fun _ => ⟨rfl, hsz1, fun _ => E2⟩, fun a h => (by cases h)⟩
          E0 (by show s.siz / 2 ≤ _; omega)).mono ?_
        rintro ⟨c, l⟩ D
        have S := D.safe.mono fun v h => (InS_none rfl v).1 h
        refine wrap_done hs hv ha S D.sure fun h => ?_
        obtain ⟨P, O, -⟩ := D.out h
        exact ⟨P, (O.congr fun v h => (InS_none rfl v).2 h).widen (le_refl s.dom) (by show s.dom + s.siz / 2 ≤ _; omega)⟩
      rw [if_neg c1, Mt_bind]
      refine (ih (1 :: p) ⟨b.s, b.frontab, b.fronnbr, some b.parttax, 0, b.compsize0, s.dom, s.siz / 2⟩
        ⟨pr, cl, Or.inl rfl, hdm, (by show 1 ≤ s.siz / 2; omega), (fun h => absurd h (by show ¬ (0 : Int) = 1; omega)), fun h => (by cases h),
          fun a h => by cases h; exact ⟨A.part, len0, by show 1 ≤ b.compsize0; omega, V.parts, A.fron, V.fron⟩⟩ E0 (by show s.siz / 2 ≤ _; omega)).mono ?_
      rintro ⟨k0, l0⟩ D0
      dsimp only
      by_cases hq : k0 ≠ 0 ∧ env.seq p = true
      · rw [if_pos hq]
        have k : ∀ v, InS ⟨b.s, b.frontab, b.fronnbr, some b.parttax, 0, b.compsize0, s.dom, s.siz / 2⟩ v → Verts b.s v := fun v ⟨x, x1, x2, _⟩ => ⟨x, x1, x2⟩
        exact wrap_done hs hv ha (D0.safe.mono k) (fun h => absurd (D0.sure h) hq.1) (fun h => by simp at h)
      rw [if_neg hq, Mt_bind]
      refine (ih (2 :: p) ⟨b.s, b.frontab, b.fronnbr, some b.parttax, 1, b.compsize1, s.dom + s.siz / 2, s.siz - s.siz / 2⟩
        ⟨pr, cl, Or.inr rfl, (by show 0 ≤ s.dom + s.siz / 2; omega), (by show 1 ≤ s.siz - s.siz / 2; omega), (fun _ => by show 2 ≤ s.siz - s.siz / 2; omega), fun h => (by cases h),
          fun a h => by cases h; exact ⟨A.part, len1, by show 1 ≤ b.compsize1; omega, V.parts, A.fron, V.fron⟩⟩ E1 (by show s.siz - s.siz / 2 ≤ _; omega)).mono ?_
      rintro ⟨k1, l1⟩ D1
      obtain ⟨J1, J2⟩ := join_out pr V ⟨rfl, rfl, rfl⟩ ⟨rfl, rfl, rfl⟩ D0.safe D1.safe
      refine wrap_done hs hv ha J1 (fun h => if_pos ⟨D0.sure h, D1.sure h⟩) fun h => ?_
      have hk : k0 = 0 ∧ k1 = 0 := by
        by_contra hn
        rw [if_neg hn] at h
        omega
      obtain ⟨P0, O0, N0⟩ := D0.out hk.1
      obtain ⟨P1, O1, -⟩ := D1.out hk.2
      exact J2 s.dom s.siz P0 P1 hdm (O0.widen (le_refl s.dom) (by show s.dom + s.siz / 2 ≤ _; omega)) N0
        (O1.widen (by show s.dom ≤ s.dom + s.siz / 2; omega) (by show s.dom + s.siz / 2 + (s.siz - s.siz / 2) ≤ _; omega))

end Scotch.Ovl
