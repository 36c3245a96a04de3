import Verif.Ovl.LemmasRb1
import Verif.Ovl.SpecSt
import Verif.Separ.Lemmas

/-! # Partitioning with overlap: recursion -/

set_option autoImplicit false
set_option linter.unusedSimpArgs false

namespace Scotch.Ovl
open Graph Bipart
open Kmap (org Proper Verts ofPart mem_ofPart ofPart_nodup)

/-- Adjacency, with original numbers. -/
def OAdj (g : Graph) (u v : Int) : Prop := ∃ x y, g.Vertex x ∧ org g x = u ∧ g.Adj x y ∧ org g y = v

/-- Vertex of original number `v`. -/
noncomputable def inv (g : Graph) (v : Int) : Int := Classical.epsilon fun x => g.Vertex x ∧ org g x = v

theorem inv_org {g : Graph} (hg : Proper g) {x : Int} (hx : g.Vertex x) : inv g (org g x) = x := by
  have h := Classical.epsilon_spec (p := fun y => g.Vertex y ∧ org g y = org g x) ⟨x, hx, rfl⟩
  exact hg.inj _ _ h.1 hx h.2

/-- Vertices that are in a part of the cut. -/
def Sel (s : Split) (x : Int) : Prop := s.g.Vertex x ∧ ∀ a, s.part = some a → a.get x = s.val

/-- Vertices that a call must handle. -/
def InS (s : Split) (v : Int) : Prop := ∃ x, s.g.Vertex x ∧ org s.g x = v ∧ ∀ a, s.part = some a → a.get x = s.val ∨ (s.val = 0 ∧ a.get x = 2)

structure SplitOk (scls : Graph → Prop) (nul : Bool) (s : Split) : Prop where
  g : Proper s.g
  cls : scls s.g
  val : s.val = 0 ∨ s.val = 1
  dom : 0 ≤ s.dom
  siz : 1 ≤ s.siz
  siz1 : s.val = 1 → 2 ≤ s.siz
  whole : s.part = none → s.fronnbr = 0 ∧ 1 ≤ s.g.vertnbr ∧ (s.val = 0 → nul = true ∨ 2 ≤ s.siz)
  part : ∀ a, s.part = some a → (a.lo ≤ s.g.baseval ∧ s.g.vertnnd ≤ a.hi) ∧ s.nbr = (ofPart s.g a s.val).length ∧ 1 ≤ s.nbr ∧ (∀ x, s.g.Vertex x → a.get x = 0 ∨ a.get x = 1 ∨ a.get x = 2) ∧
    (s.fron.lo ≤ 0 ∧ s.g.vertnbr ≤ s.fron.hi) ∧ Enum s.fron s.fronnbr (fun x => s.g.Vertex x ∧ a.get x = 2)

theorem enum_tab {g : Graph} {tab : Arr Int} {nbr : Int} {P : Int → Prop} (hc : g.Consistent) (hr : tab.lo ≤ 0 ∧ g.vertnbr ≤ tab.hi) (h : Enum tab nbr (fun x => g.Vertex x ∧ P x)) : TabOk g tab nbr := by
  have hle := h.le (lo := g.baseval) (hi := g.vertnnd) (by have := hc.vertnnd; have := hc.vertnbr; omega) (fun v hv => hv.1)
  have := hc.vertnnd
  exact ⟨h.1, fun _ => by omega, fun i i1 i2 => (h.mem i1 i2).1, h.2.1⟩

theorem enum_org {g : Graph} {tab : Arr Int} {nbr : Int} {P : Int → Prop} (h : Enum tab nbr (fun x => g.Vertex x ∧ P x)) (v : Int) :
    (∃ i, 0 ≤ i ∧ i < nbr ∧ org g (tab.get i) = v) ↔ ∃ x, g.Vertex x ∧ org g x = v ∧ P x := by
  constructor
  · rintro ⟨i, i1, i2, i3⟩
    obtain ⟨h1, h2⟩ := h.mem i1 i2
    exact ⟨_, h1, i3, h2⟩
  · rintro ⟨x, x1, x2, x3⟩
    obtain ⟨i, i1, i2, rfl⟩ := (h.2.2 x).1 ⟨x1, x3⟩
    exact ⟨i, i1, i2, x2⟩

/-- Accesses of a call are right. -/
def Safe (S : Int → Prop) (l : List Act) : Prop := (∀ a ∈ l, a.Ok ∧ (∀ v x, a.W v x → S v) ∧ ∀ v, a.F v → S v) ∧ Apart l

/-- Accesses make function `P` the part of the vertices of `S`. -/
structure Out (S : Int → Prop) (A : Int → Int → Prop) (dom siz : Int) (l : List Act) (P : Int → Int) : Prop where
  vals : ∀ a ∈ l, ∀ v x, a.W v x → x = P v
  onto : ∀ v, S v → ∃ a ∈ l, ∃ x, a.W v x
  fron : ∀ v, S v → (P v = -1 ↔ ∃ a ∈ l, a.F v)
  range : ∀ v, S v → P v = -1 ∨ (dom ≤ P v ∧ P v < dom + siz)
  sep : ∀ u v, S u → S v → A u v → 0 ≤ P u → 0 ≤ P v → P v = P u

theorem Safe.nil (S : Int → Prop) : Safe S [] := ⟨fun a ha => (by cases ha), List.Pairwise.nil⟩

theorem Safe.mono {S S' : Int → Prop} {l : List Act} (h : Safe S l) (k : ∀ v, S v → S' v) : Safe S' l :=
  ⟨fun a ha => ⟨(h.1 a ha).1, fun v x hw => k v ((h.1 a ha).2.1 v x hw), fun v hw => k v ((h.1 a ha).2.2 v hw)⟩, h.2⟩

theorem Safe.append {S S0 S1 : Int → Prop} {l0 l1 : List Act} (h0 : Safe S0 l0) (h1 : Safe S1 l1) (k0 : ∀ v, S0 v → S v) (k1 : ∀ v, S1 v → S v) (hd : ∀ v, S0 v → ¬ S1 v) : Safe S (l0 ++ l1) := by
  refine ⟨?_, ?_⟩
  · intro a ha
    rcases List.mem_append.1 ha with ha | ha
    · exact (h0.mono k0).1 a ha
    · exact (h1.mono k1).1 a ha
  · unfold Apart
    rw [List.pairwise_append]
    refine ⟨h0.2, h1.2, ?_⟩
    rintro a ha b hb v ⟨f1, f2⟩
    exact hd v ((h0.1 a ha).2.2 v f1) ((h1.1 b hb).2.2 v f2)

/-- The separator of the previous cut, if part 0 is handled. -/
def Prev (s : Split) (v : Int) : Prop := s.val = 0 ∧ ∃ a, s.part = some a ∧ ∃ x, s.g.Vertex x ∧ org s.g x = v ∧ a.get x = 2

variable {scls : Graph → Prop} {nul tot sure : Bool}

theorem InS_iff {s : Split} (v : Int) : InS s v ↔ (∃ x, Sel s x ∧ org s.g x = v) ∨ Prev s v := by
  unfold InS Sel Prev
  constructor
  · rintro ⟨x, x1, x2, x3⟩
    cases hp : s.part with
    | none => exact Or.inl ⟨x, ⟨x1, fun a h => (by cases h)⟩, x2⟩
    | some a =>
      rcases x3 a hp with h | ⟨h1, h2⟩
      · exact Or.inl ⟨x, ⟨x1, fun c hc => by cases hc; exact h⟩, x2⟩
      · exact Or.inr ⟨h1, a, rfl, x, x1, x2, h2⟩
  · rintro (⟨x, ⟨x1, x3⟩, x2⟩ | ⟨h1, a, ha, x, x1, x2, x3⟩)
    · exact ⟨x, x1, x2, fun a ha => Or.inl (x3 a ha)⟩
    · exact ⟨x, x1, x2, fun c hc => by rw [ha] at hc; cases hc; exact Or.inr ⟨h1, x3⟩⟩

theorem prev_not_sel {s : Split} (hs : SplitOk scls nul s) (v : Int) (h : Prev s v) : ¬ ∃ x, Sel s x ∧ org s.g x = v := by
  obtain ⟨h1, a, ha, x, x1, x2, x3⟩ := h
  rintro ⟨y, ⟨y1, y3⟩, y2⟩
  have := hs.g.inj x y x1 y1 (x2.trans y2.symm)
  subst this
  have := y3 a ha
  omega

/-- The first access. -/
def acts0 (s : Split) : List Act := if s.val = 0 then [.sepFron s.g s.fron s.fronnbr] else []

theorem acts0_F {s : Split} (hs : SplitOk scls nul s) (v : Int) : (∃ a ∈ acts0 s, a.F v) ↔ Prev s v := by
  unfold acts0
  by_cases h0 : s.val = 0
  · rw [if_pos h0]
    have : (∃ a ∈ [Act.sepFron s.g s.fron s.fronnbr], a.F v) ↔ ∃ i, 0 ≤ i ∧ i < s.fronnbr ∧ org s.g (s.fron.get i) = v := by
      constructor
      · rintro ⟨a, ha, hf⟩
        rw [List.mem_singleton] at ha
        subst ha
        exact hf
      · intro h
        exact ⟨_, List.mem_singleton.2 rfl, h⟩
    rw [this]
    cases hp : s.part with
    | none =>
      have := (hs.whole hp).1
      constructor
      · rintro ⟨i, i1, i2, -⟩; omega
      · rintro ⟨-, a, ha, -⟩; rw [hp] at ha; cases ha
    | some a =>
      obtain ⟨-, -, -, -, -, he⟩ := hs.part a hp
      rw [enum_org he]
      constructor
      · rintro ⟨x, x1, x2, x3⟩; exact ⟨h0, a, hp, x, x1, x2, x3⟩
      · rintro ⟨-, c, hc, x, x1, x2, x3⟩; rw [hp] at hc; cases hc; exact ⟨x, x1, x2, x3⟩
  · rw [if_neg h0]
    exact ⟨fun ⟨a, ha, _⟩ => (by cases ha), fun h => absurd h.1 h0⟩

theorem acts0_W {s : Split} (hs : SplitOk scls nul s) (v x : Int) : (∃ a ∈ acts0 s, a.W v x) ↔ x = -1 ∧ Prev s v := by
  rw [← acts0_F hs]
  unfold acts0
  by_cases h0 : s.val = 0
  · rw [if_pos h0]
    constructor
    · rintro ⟨a, ha, hw⟩
      rw [List.mem_singleton] at ha
      subst ha
      exact ⟨hw.1, _, List.mem_singleton.2 rfl, hw.2⟩
    · rintro ⟨rfl, a, ha, hf⟩
      rw [List.mem_singleton] at ha
      subst ha
      exact ⟨_, List.mem_singleton.2 rfl, rfl, hf⟩
  · rw [if_neg h0]
    exact ⟨fun ⟨a, ha, _⟩ => (by cases ha), fun ⟨_, a, ha, _⟩ => (by cases ha)⟩

theorem acts0_safe {s : Split} (hs : SplitOk scls nul s) : Safe (Prev s) (acts0 s) := by
  refine ⟨fun a ha => ⟨?_, fun v x hw => ((acts0_W hs v x).1 ⟨a, ha, hw⟩).2, fun v hf => (acts0_F hs v).1 ⟨a, ha, hf⟩⟩, ?_⟩
  · unfold acts0 at ha
    by_cases h0 : s.val = 0
    · rw [if_pos h0, List.mem_singleton] at ha
      subst ha
      refine ⟨hs.g, ?_⟩
      cases hp : s.part with
      | none =>
        have := (hs.whole hp).1
        exact ⟨by omega, fun h => by omega, fun i i1 i2 => by omega, fun i j i1 i2 => by omega⟩
      | some a =>
        obtain ⟨-, -, -, -, hr, he⟩ := hs.part a hp
        exact enum_tab hs.g.cons hr he
    · rw [if_neg h0] at ha
      cases ha
  · unfold acts0 Apart
    by_cases h0 : s.val = 0
    · rw [if_pos h0]; exact List.pairwise_singleton _ _
    · rw [if_neg h0]; exact List.Pairwise.nil

/-- Accesses for the vertices of the part, after the one for the separator. -/
theorem wrap_safe {s : Split} (hs : SplitOk scls nul s) {l : List Act} (h : Safe (fun v => ∃ x, Sel s x ∧ org s.g x = v) l) : Safe (InS s) (acts0 s ++ l) :=
  (acts0_safe hs).append h (fun v hv => (InS_iff v).2 (Or.inr hv)) (fun v hv => (InS_iff v).2 (Or.inl hv)) (fun v hv => prev_not_sel hs v hv)

open Classical in
theorem wrap_out {s : Split} (hs : SplitOk scls nul s) {h : Graph} (hv : ∀ v, Verts h v ↔ ∃ x, Sel s x ∧ org s.g x = v) (ha : ∀ x y, Sel s x → Sel s y → s.g.Adj x y → OAdj h (org s.g x) (org s.g y))
    {dom siz : Int} {l : List Act} {P : Int → Int} (hS : Safe (Verts h) l) (O : Out (Verts h) (OAdj h) dom siz l P) : Out (InS s) (OAdj s.g) dom siz (acts0 s ++ l) (fun v => if Prev s v then -1 else P v) := by
  have vnp : ∀ v, Verts h v → ¬ Prev s v := fun v h1 h2 => prev_not_sel hs v h2 ((hv v).1 h1)
  have sel : ∀ v, InS s v → ¬ Prev s v → Verts h v := fun v h1 h2 => (hv v).2 (((InS_iff v).1 h1).resolve_right h2)
  refine ⟨?_, ?_, ?_, ?_, ?_⟩
  · intro a ha v x hw
    rcases List.mem_append.1 ha with ha | ha
    · obtain ⟨h1, h2⟩ := (acts0_W hs v x).1 ⟨a, ha, hw⟩
      rw [if_pos h2]; exact h1
    · skip
      rw [if_neg (vnp v ((hS.1 a ha).2.1 v x hw))]
      exact O.vals a ha v x hw
  · intro v hin
    by_cases hp : Prev s v
    · obtain ⟨a, ha, hw⟩ := (acts0_W hs v (-1)).2 ⟨rfl, hp⟩
      exact ⟨a, List.mem_append_left _ ha, _, hw⟩
    · obtain ⟨a, ha, hw⟩ := O.onto v (sel v hin hp)
      exact ⟨a, List.mem_append_right _ ha, hw⟩
  · intro v hin
    by_cases hp : Prev s v
    · rw [if_pos hp]
      refine ⟨fun _ => ?_, fun _ => rfl⟩
      obtain ⟨a, ha, hf⟩ := (acts0_F hs v).2 hp
      exact ⟨a, List.mem_append_left _ ha, hf⟩
    · rw [if_neg hp, O.fron v (sel v hin hp)]
      constructor
      · rintro ⟨a, ha, hf⟩; exact ⟨a, List.mem_append_right _ ha, hf⟩
      · rintro ⟨a, ha, hf⟩
        rcases List.mem_append.1 ha with ha | ha
        · exact absurd ((acts0_F hs v).1 ⟨a, ha, hf⟩) hp
        · exact ⟨a, ha, hf⟩
  · intro v hin
    by_cases hp : Prev s v
    · rw [if_pos hp]; exact Or.inl rfl
    · rw [if_neg hp]; exact O.range v (sel v hin hp)
  · intro u v hu hv' hadj
    by_cases hp : Prev s u
    · rw [if_pos hp]; intro h; omega
    · by_cases hq : Prev s v
      · rw [if_pos hq]; intro _ h; omega
      · rw [if_neg hp, if_neg hq]
        have s1 := sel u hu hp
        have s2 := sel v hv' hq
        obtain ⟨x, x1, x2⟩ := (hv u).1 s1
        obtain ⟨y, y1, y2⟩ := (hv v).1 s2
        obtain ⟨x', y', z1, z2, z3, z4⟩ := hadj
        have e1 := hs.g.inj x' x z1 x1.1 (z2.trans x2.symm)
        have e2 := hs.g.inj y' y ((consE_iff.2 hs.g.cons).adj_vertex z1 z3).1 y1.1 (z4.trans y2.symm)
        subst e1 e2 z2 z4
        exact O.sep _ _ s1 s2 (ha _ _ x1 y1 z3)

theorem Out.widen {S : Int → Prop} {A : Int → Int → Prop} {dom siz dom' siz' : Int} {l : List Act} {P : Int → Int} (O : Out S A dom siz l P) (h1 : dom' ≤ dom) (h2 : dom + siz ≤ dom' + siz') : Out S A dom' siz' l P :=
  ⟨O.vals, O.onto, O.fron, fun v hv => (O.range v hv).imp id (fun h => by omega), O.sep⟩

/-- Part 0 of size 1. -/
theorem one_out {s : Split} (hs : SplitOk scls nul s) {a : Arr Int} (hp : s.part = some a) (h0 : s.val = 0) :
    Safe (InS s) [.fron s.g s.fron s.fronnbr, .one s.g a s.val s.dom] ∧ ∃ P, Out (InS s) (OAdj s.g) s.dom s.siz [.fron s.g s.fron s.fronnbr, .one s.g a s.val s.dom] P ∧ ∀ v, Prev s v → P v = -1 := by
  obtain ⟨p1, -, -, p4, p5, p6⟩ := hs.part a hp
  have hsz := hs.siz
  have hdm := hs.dom
  have ins : ∀ v, InS s v ↔ ∃ x, s.g.Vertex x ∧ org s.g x = v ∧ (a.get x = 0 ∨ a.get x = 2) := by
    intro v
    unfold InS
    constructor
    · rintro ⟨x, x1, x2, x3⟩
      exact ⟨x, x1, x2, by rcases x3 a hp with h | h <;> omega⟩
    · rintro ⟨x, x1, x2, x3⟩
      exact ⟨x, x1, x2, fun c hc => by rw [hp] at hc; cases hc; omega⟩
  have one : ∀ v x, (Act.one s.g a s.val s.dom).W v x ↔ ∃ u, s.g.Vertex u ∧ org s.g u = v ∧ (a.get u = 0 ∨ a.get u = 2) ∧ x = if a.get u = 0 then s.dom else -1 := by
    intro v x
    show (∃ u, s.g.Vertex u ∧ org s.g u = v ∧ a.get u ≠ 1 - s.val ∧ x = if a.get u = s.val then s.dom else -1) ↔ _
    rw [h0]
    constructor
    · rintro ⟨u, u1, u2, u3, u4⟩
      exact ⟨u, u1, u2, by have := p4 u u1; omega, u4⟩
    · rintro ⟨u, u1, u2, u3, u4⟩
      exact ⟨u, u1, u2, by omega, u4⟩
  have frn : ∀ v, (Act.fron s.g s.fron s.fronnbr).F v ↔ ∃ x, s.g.Vertex x ∧ org s.g x = v ∧ a.get x = 2 := fun v => enum_org p6 v
  refine ⟨⟨?_, ?_⟩, fun v => if a.get (inv s.g v) = 0 then s.dom else -1, ⟨?_, ?_, ?_, ?_, ?_⟩, ?_⟩
  · intro c hc
    rcases List.mem_cons.1 hc with rfl | hc
    · refine ⟨⟨hs.g, enum_tab hs.g.cons p5 p6⟩, fun v x h => False.elim h, fun v h => ?_⟩
      obtain ⟨x, x1, x2, x3⟩ := (frn v).1 h
      exact (ins v).2 ⟨x, x1, x2, Or.inr x3⟩
    · rw [List.mem_singleton] at hc
      subst hc
      refine ⟨⟨hs.g, p1⟩, fun v x h => ?_, fun v h => False.elim h⟩
      obtain ⟨u, u1, u2, u3, -⟩ := (one v x).1 h
      exact (ins v).2 ⟨u, u1, u2, u3⟩
  · unfold Apart
    rw [List.pairwise_cons]
    refine ⟨?_, List.pairwise_singleton _ _⟩
    rintro b hb v ⟨-, h⟩
    rw [List.mem_singleton] at hb
    subst hb
    exact h
  · intro c hc v x hw
    rcases List.mem_cons.1 hc with rfl | hc
    · exact False.elim hw
    · rw [List.mem_singleton] at hc
      subst hc
      obtain ⟨u, u1, rfl, u3, u4⟩ := (one v x).1 hw
      rw [inv_org hs.g u1]; exact u4
  · intro v hv
    obtain ⟨u, u1, u2, u3⟩ := (ins v).1 hv
    exact ⟨_, List.mem_cons_of_mem _ (List.mem_singleton.2 rfl), _, (one v _).2 ⟨u, u1, u2, u3, rfl⟩⟩
  · intro v hv
    obtain ⟨u, u1, rfl, u3⟩ := (ins v).1 hv
    rw [inv_org hs.g u1]
    constructor
    · intro h
      refine ⟨_, List.mem_cons_self, (frn _).2 ⟨u, u1, rfl, ?_⟩⟩
      by_contra hne
      rw [if_pos (by omega)] at h
      omega
    · rintro ⟨c, hc, hf⟩
      rcases List.mem_cons.1 hc with rfl | hc
      · obtain ⟨x, x1, x2, x3⟩ := (frn _).1 hf
        have := hs.g.inj x u x1 u1 x2
        subst this
        rw [if_neg (by omega)]
      · rw [List.mem_singleton] at hc
        subst hc
        exact False.elim hf
  · intro v hv
    split
    · right; omega
    · left; rfl
  · intro u v _ _ _
    split
    · split
      · intros; rfl
      · intro _ h; omega
    · intro h; omega
  · rintro v ⟨-, c, hc, x, x1, rfl, x3⟩
    rw [hp] at hc
    cases hc
    show (if a.get (inv s.g (org s.g x)) = 0 then s.dom else -1) = -1
    rw [inv_org hs.g x1, if_neg (by omega)]

/-- Two parts. -/
theorem both_out {b : Separ.Vgraph} (hg : Proper b.s) (A : Separ.Alloc b) (V : Separ.Valid b) {dom siz : Int} (hd : 0 ≤ dom) (hs : 2 ≤ siz) :
    Safe (Verts b.s) [.fron b.s b.frontab b.fronnbr, .both b.s b.parttax dom] ∧ ∃ P, Out (Verts b.s) (OAdj b.s) dom siz [.fron b.s b.frontab b.fronnbr, .both b.s b.parttax dom] P := by
  have frn : ∀ v, (Act.fron b.s b.frontab b.fronnbr).F v ↔ ∃ x, b.s.Vertex x ∧ org b.s x = v ∧ b.part x = 2 := fun v => enum_org V.fron v
  have p4 := V.parts
  refine ⟨⟨?_, ?_⟩, fun v => if b.part (inv b.s v) < 2 then dom + b.part (inv b.s v) else -1, ?_, ?_, ?_, ?_, ?_⟩
  · intro c hc
    rcases List.mem_cons.1 hc with rfl | hc
    · refine ⟨⟨hg, enum_tab hg.cons A.fron V.fron⟩, fun v x h => False.elim h, fun v h => ?_⟩
      obtain ⟨x, x1, x2, x3⟩ := (frn v).1 h
      exact ⟨x, x1, x2⟩
    · rw [List.mem_singleton] at hc
      subst hc
      refine ⟨⟨hg, A.part⟩, fun v x h => ?_, fun v h => False.elim h⟩
      obtain ⟨u, u1, u2, -⟩ := h
      exact ⟨u, u1, u2⟩
  · unfold Apart
    rw [List.pairwise_cons]
    refine ⟨?_, List.pairwise_singleton _ _⟩
    rintro b hb v ⟨-, h⟩
    rw [List.mem_singleton] at hb
    subst hb
    exact h
  · intro c hc v x hw
    rcases List.mem_cons.1 hc with rfl | hc
    · exact False.elim hw
    · rw [List.mem_singleton] at hc
      subst hc
      obtain ⟨u, u1, rfl, u4⟩ := hw
      rw [inv_org hg u1]; exact u4
  · rintro v ⟨u, u1, u2⟩
    exact ⟨_, List.mem_cons_of_mem _ (List.mem_singleton.2 rfl), _, u, u1, u2, rfl⟩
  · rintro v ⟨u, u1, rfl⟩
    rw [inv_org hg u1]
    have := p4 u u1
    constructor
    · intro h
      refine ⟨_, List.mem_cons_self, (frn _).2 ⟨u, u1, rfl, ?_⟩⟩
      by_contra hne
      rw [if_pos (by omega)] at h
      omega
    · rintro ⟨c, hc, hf⟩
      rcases List.mem_cons.1 hc with rfl | hc
      · obtain ⟨x, x1, x2, x3⟩ := (frn _).1 hf
        have := hg.inj x u x1 u1 x2
        subst this
        rw [if_neg (by omega)]
      · rw [List.mem_singleton] at hc
        subst hc
        exact False.elim hf
  · rintro v ⟨u, u1, rfl⟩
    rw [inv_org hg u1]
    have := p4 u u1
    split
    · right; omega
    · left; rfl
  · rintro u v ⟨x, x1, rfl⟩ ⟨y, y1, rfl⟩ ⟨x', y', z1, z2, z3, z4⟩
    have e1 := hg.inj x' x z1 x1 z2
    have e2 := hg.inj y' y ((consE_iff.2 hg.cons).adj_vertex z1 z3).1 y1 z4
    subst e1 e2
    rw [inv_org hg x1, inv_org hg y1]
    have q1 := p4 _ x1
    have q2 := p4 _ y1
    have q3 := Separ.sep_adj.1 V.sep _ _ x1 z3
    split
    · split
      · intros
        omega
      · intro _ h; omega
    · intro h; omega

end Scotch.Ovl
