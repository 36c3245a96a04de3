import Verif.Ovl.LemmasRb3

/-! # Partitioning with overlap: recursive bipartitioning -/

set_option autoImplicit false
set_option linter.unusedSimpArgs false

namespace Scotch.Ovl
open Graph Bipart
open Kmap (org Proper Verts ofPart mem_ofPart ofPart_nodup)

variable {scls : Graph → Prop} {nul tot sure : Bool}

theorem org_none {g : Graph} (h : g.vnumtax = none) (x : Int) : org g x = x := by
  unfold org
  rw [h]

theorem Pre.proper {b : Wgraph} (h : Pre b) : Proper b.s :=
  ⟨h.cons, h.alloc.graph, h.base, fun x y _ _ e => by rwa [org_none h.vnum, org_none h.vnum] at e⟩

theorem partRb_holds (hcl : Closed scls) {env : RbEnv} (hal : env.al = 1 ∨ env.al = 2) (hsep : ∀ p, Separ.SepMethod scls tot sure (env.sep p)) (hord : ∀ l, (env.order l).Perm l) (junk : Int → Int) (p : Path) {b : Wgraph} (hb : Pre b) (hc : scls b.s)
    (hE : Even2 nul b.partnbr) : Mt nul tot (partRb env junk p b) (Res sure b) := by
  unfold partRb
  have hn := hb.parts
  have hnn := hb.cons.vertnnd
  have pr := hb.proper
  by_cases h1 : b.partnbr ≤ 1
  · rw [if_pos h1, Mt_bind]
    refine (Mt.of_holds (zero_holds hb.cons hb.alloc hn)).mono ?_
    rintro b' ⟨k1, k2, -⟩
    exact ⟨k1, fun _ => rfl, fun _ => k2, fun h => absurd rfl h⟩
  rw [if_neg h1, Mt_bind]
  refine (rb2_holds hcl hal hsep b.partnbr.toNat p ⟨b.s, nullArr, 0, none, 1, b.s.vertnbr, 0, b.partnbr⟩
    ⟨pr, hc, Or.inr rfl, le_refl _, hn, (fun _ => by show 2 ≤ b.partnbr; omega), fun _ => ⟨rfl, hb.size, fun h => absurd h (by show ¬ (1 : Int) = 0; omega)⟩, fun a h => (by cases h)⟩
    hE (by show b.partnbr ≤ _; omega)).mono ?_
  rintro ⟨o, acts⟩ D
  have S := D.safe
  have hin : ∀ v, InS ⟨b.s, nullArr, 0, none, 1, b.s.vertnbr, 0, b.partnbr⟩ v ↔ b.s.Vertex v := by
    intro v
    rw [InS_none rfl]
    constructor
    · rintro ⟨x, x1, x2⟩
      have := org_none hb.vnum x
      change org b.s x = v at x2
      rw [this] at x2
      subst x2
      exact x1
    · intro h
      exact ⟨v, h, org_none hb.vnum v⟩
  have perm := hord acts
  have memp : ∀ a, a ∈ env.order acts ↔ a ∈ acts := fun a => perm.mem_iff
  have ap : Apart (env.order acts) := S.2.perm perm.symm (fun h v => fun ⟨h1, h2⟩ => h v ⟨h2, h1⟩)
  dsimp only at S ⊢
  rw [Mt_bind]
  refine (Mt.of_holds (runAll_holds (lo := b.s.baseval) (hi := b.s.vertnnd) (s0 := ⟨b.parttax, b.frontab, 0⟩) (env.order acts) (fun _ => False) ⟨b.parttax, b.frontab, 0⟩ ?_ ap (fun a _ v _ h => h) hb.alloc.part
    (by have := hb.alloc.fron; show b.frontab.lo ≤ 0 ∧ b.s.vertnnd - b.s.baseval ≤ b.frontab.hi; omega) ⟨⟨rfl, rfl⟩, ⟨rfl, rfl⟩, fun v h => False.elim h, Enum.empty _⟩)).mono ?_
  · intro a ha
    obtain ⟨k1, k2, k3⟩ := S.1 a ((memp a).1 ha)
    exact ⟨k1, fun v x h => (hin v).1 (k2 v x h), fun v h => (hin v).1 (k3 v h)⟩
  rintro s ⟨I, w1, w2⟩
  have SP : ∀ n, SameProblem b { b with parttax := s.part, frontab := s.fron, fronnbr := n } := fun n => ⟨rfl, rfl, I.part, I.fron, ⟨rfl, rfl⟩, rfl, rfl⟩
  by_cases ho : o ≠ 0
  · rw [if_pos ho]
    exact ⟨SP b.fronnbr, fun h => absurd (D.sure h) ho, fun h => (by cases h), fun _ h1 h2 => ⟨h1, h2⟩⟩
  rw [if_neg ho, Mt_bind]
  obtain ⟨P, O, -⟩ := D.out (by omega)
  have hP : ∀ v, b.s.Vertex v → s.part.get v = P v := by
    intro v hv
    obtain ⟨a, ha, x, hx⟩ := O.onto v ((hin v).2 hv)
    obtain ⟨a', ha', hw⟩ := w1 v ⟨a, (memp a).2 ha, x, hx⟩
    exact O.vals a' ((memp a').1 ha') v _ hw
  refine (Mt.of_holds (cost_holds (b := { b with parttax := s.part, frontab := s.fron, fronnbr := s.nbr }) hb.cons ?_ hb.base hn ?_ ?_ junk)).mono ?_
  · exact (SP s.nbr).alloc hb.alloc
  · refine ⟨fun v hv => ?_, fun v p hv hp => ?_⟩
    · show -1 ≤ s.part.get v ∧ s.part.get v < b.partnbr
      rw [hP v hv]
      rcases O.range v ((hin v).2 hv) with h | h
      · omega
      · change 0 ≤ P v ∧ P v < 0 + b.partnbr at h
        omega
    · show 0 ≤ s.part.get v → 0 ≤ s.part.get p.1 → s.part.get p.1 = s.part.get v
      have hw := (hb.cons.inside v p hv hp).1
      rw [hP v hv, hP _ hw]
      exact O.sep v p.1 ((hin v).2 hv) ((hin _).2 hw) ⟨v, p.1, hv, org_none hb.vnum v, (adj_iff _ _).2 ⟨p, hp, rfl⟩, org_none hb.vnum p.1⟩
  · refine I.enum.congr fun v => ?_
    show (False ∨ ∃ a ∈ env.order acts, a.F v) ↔ b.s.Vertex v ∧ s.part.get v = -1
    constructor
    · rintro (h | ⟨a, ha, hf⟩)
      · exact False.elim h
      · have ha := (memp a).1 ha
        have hv := (S.1 a ha).2.2 v hf
        have hv' := (hin v).1 hv
        exact ⟨hv', by rw [hP v hv']; exact (O.fron v hv).2 ⟨a, ha, hf⟩⟩
    · rintro ⟨h1, h2⟩
      rw [hP v h1] at h2
      obtain ⟨a, ha, hf⟩ := (O.fron v ((hin v).2 h1)).1 h2
      exact Or.inr ⟨a, (memp a).2 ha, hf⟩
  · rintro b' ⟨k1, k2, -⟩
    exact ⟨(SP s.nbr).trans k1, fun _ => rfl, fun _ => k2, fun h => absurd rfl h⟩

end Scotch.Ovl
