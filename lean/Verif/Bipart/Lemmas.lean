import Verif.Bipart.LemmasCut

/-! # Bipartition graphs: lemmas on basic routines -/

set_option autoImplicit false
set_option linter.unusedSimpArgs false

namespace Scotch.Bipart
open Graph

theorem xorP_eq {a b : Int} (ha : a = 0 ∨ a = 1) (hb : b = 0 ∨ b = 1) : xorP a b = if a = b then 0 else 1 := by
  rcases ha with rfl | rfl <;> rcases hb with rfl | rfl <;> decide

theorem orP_eq {a b : Int} (ha : a = 0 ∨ a = 1) (hb : b = 0 ∨ b = 1) : orP a b = if a = 0 ∧ b = 0 then 0 else 1 := by
  rcases ha with rfl | rfl <;> rcases hb with rfl | rfl <;> decide

variable {b : Bgraph}

theorem rdVeex_eq (ha : Alloc b) {v : Int} (hv : b.s.Vertex v) : rdVeex b.veextax v = .ok (b.veex v) := by
  unfold rdVeex Bgraph.veex
  cases h : b.veextax with
  | none => rfl
  | some a =>
    have := ha.veex a h
    exact Arr.rd_ok _ (by have := hv.1; omega) (by have := hv.2; omega)

theorem zeroParts_holds (hc : ConsE b.s) (ha : Alloc b) : Holds (zeroParts b) (fun a => a.lo = b.parttax.lo ∧ a.hi = b.parttax.hi ∧
    ∀ v, a.get v = if b.s.Vertex v then 0 else b.parttax.get v) := by
  unfold zeroParts
  have hn := hc.vertnbr
  have hnn := hc.vertnnd
  have hp := ha.part
  refine Holds_forUp (fun i (a : Arr Int) => a.lo = b.parttax.lo ∧ a.hi = b.parttax.hi ∧
    ∀ v, a.get v = if b.s.baseval ≤ v ∧ v < i then 0 else b.parttax.get v) (by omega) ?_ ?_ ?_
  · refine ⟨rfl, rfl, ?_⟩
    intro v
    rw [if_neg (by omega)]
  · rintro i a h1 h2 ⟨e1, e2, e3⟩
    rw [Arr.wr_ok _ _ (by omega) (by omega), Holds_ok]
    refine ⟨e1, e2, ?_⟩
    intro v
    by_cases hv : v = i
    · rw [hv, Arr.set_get_same, if_pos (by omega)]
    · rw [Arr.set_get_ne _ _ hv, e3]
      by_cases hc : b.s.baseval ≤ v ∧ v < i
      · rw [if_pos hc, if_pos (by omega)]
      · rw [if_neg hc, if_neg (by omega)]
  · rintro a ⟨e1, e2, e3⟩
    refine ⟨e1, e2, ?_⟩
    intro v
    rw [e3]
    by_cases hc : b.s.Vertex v
    · rw [if_pos hc, if_pos (by have := hc.1; have := hc.2; omega)]
    · rw [if_neg hc, if_neg]
      intro hx
      exact hc ⟨hx.1, by omega⟩

theorem costArcs_holds {g : Graph} (hc : ConsE g) (ha : g.Allocated) {part : Arr Int} (hb : part.lo ≤ g.baseval ∧ g.vertnnd ≤ part.hi)
    (hp : Parts g part.get) {v : Int} (hv : g.Vertex v) (c : Int) :
    Holds (costArcs g part v (part.get v) c) (fun r =>
      r.1 = c + sumI (g.vert v) (g.vend v) (fun e => if part.get (g.dest e) = part.get v then 0 else g.edlo e) ∧
      (r.2 ≠ 0 ↔ Frontier g part.get v)) := by
  unfold costArcs
  have hr := (hc.range v hv).2
  refine Holds_forArcs ha hv hr (fun i (r : Int × Int) =>
      r.1 = c + sumI (g.vert v) i (fun e => if part.get (g.dest e) = part.get v then 0 else g.edlo e) ∧
      (r.2 = 0 ∨ r.2 = 1) ∧ (r.2 ≠ 0 ↔ ∃ e, g.vert v ≤ e ∧ e < i ∧ part.get (g.dest e) ≠ part.get v)) ?_ ?_ ?_
  · refine ⟨by rw [sumI_empty (Int.le_refl _)]; omega, Or.inl rfl, ?_⟩
    constructor
    · intro h; exact absurd rfl h
    · rintro ⟨e, h1, h2, _⟩; omega
  · rintro e ⟨r1, r2⟩ h1 h2 ⟨i1, i2, i3⟩
    dsimp only at i1 i2 i3
    have hw := (hc.inside v e hv h1 h2).1
    rw [rdEdlo_eq ha hv h1 h2, ok_bind, Arr.rd_ok _ (by have := hw.1; omega) (by have := hw.2; omega), ok_bind]
    rw [xorP_eq (hp v hv) (hp _ hw), Holds_pure]
    dsimp only
    rw [sumI_succ h1]
    by_cases he : part.get v = part.get (g.dest e)
    · rw [if_pos he, if_pos he.symm]
      rw [orP_eq i2 (Or.inl rfl)]
      refine ⟨by unfold maskP; rw [if_pos rfl]; omega, ?_, ?_⟩
      · rcases i2 with h | h <;> rw [h] <;> simp
      · have : (if r2 = 0 ∧ (0:Int) = 0 then (0:Int) else 1) ≠ 0 ↔ r2 ≠ 0 := by
          rcases i2 with h | h <;> rw [h] <;> simp
        rw [this, i3]
        constructor
        · rintro ⟨x, x1, x2, x3⟩; exact ⟨x, x1, by omega, x3⟩
        · rintro ⟨x, x1, x2, x3⟩
          refine ⟨x, x1, ?_, x3⟩
          rcases Int.lt_or_le x e with h | h
          · exact h
          · have : x = e := by omega
            rw [this] at x3
            exact absurd he.symm x3
    · rw [if_neg he, if_neg (fun h => he h.symm)]
      rw [orP_eq i2 (Or.inr rfl), if_neg (by rintro ⟨_, h⟩; exact absurd h (by decide))]
      refine ⟨by unfold maskP; rw [if_neg (by decide)]; omega, Or.inr rfl, ?_⟩
      constructor
      · intro _; exact ⟨e, h1, by omega, fun h => he h.symm⟩
      · intro _; decide
  · rintro ⟨r1, r2⟩ ⟨i1, i2, i3⟩
    refine ⟨i1, ?_⟩
    rw [i3, frontier_adj]
    constructor
    · rintro ⟨e, h1, h2, h3⟩
      exact ⟨hv, _, ⟨e, h1, h2, rfl⟩, h3⟩
    · rintro ⟨_, w, ⟨e, h1, h2, rfl⟩, h3⟩
      exact ⟨e, h1, h2, h3⟩

theorem costFron_holds {g : Graph} (hc : ConsE g) {p : Int → Int} {fron : Option (Arr Int)} {n v fronval lo hi : Int}
    (hb : ∀ a, fron = some a → a.lo = lo ∧ a.hi = hi ∧ lo ≤ 0 ∧ g.vertnbr ≤ hi ∧ Enum a n (fun w => w < v ∧ Frontier g p w)) (hv : g.Vertex v)
    (hf : fronval ≠ 0 ↔ Frontier g p v) :
    Holds (costFron fron n v fronval) (fun r => r.1.isSome = fron.isSome ∧ ∀ a, r.1 = some a → a.lo = lo ∧ a.hi = hi ∧ lo ≤ 0 ∧ g.vertnbr ≤ hi ∧
      Enum a r.2 (fun w => w < v + 1 ∧ Frontier g p w)) := by
  unfold costFron
  cases fron with
  | none => rw [Holds_pure]; exact ⟨rfl, fun a h => by cases h⟩
  | some a =>
    obtain ⟨b1, b2, b3, b4, b5⟩ := hb a rfl
    dsimp only
    have hnn := hc.vertnnd
    by_cases hz : fronval ≠ 0
    · rw [if_pos hz]
      have hx : ¬ (v < v ∧ Frontier g p v) := by rintro ⟨h, _⟩; omega
      have hlt := b5.lt (lo := g.baseval) (hi := g.vertnnd) (fun w hw => hw.2.1) hx hv.1 hv.2
      have := b5.1
      rw [Arr.wr_ok _ _ (by omega) (by omega), ok_bind, Holds_pure]
      refine ⟨rfl, ?_⟩
      intro a' ha'
      cases ha'
      refine ⟨b1, b2, b3, b4, (b5.push hx).congr ?_⟩
      intro w
      constructor
      · rintro (h | rfl)
        · exact ⟨by omega, h.2⟩
        · exact ⟨by omega, hf.1 hz⟩
      · rintro ⟨h1, h2⟩
        by_cases hw : w = v
        · exact Or.inr hw
        · exact Or.inl ⟨by omega, h2⟩
    · rw [if_neg hz, Holds_pure]
      refine ⟨rfl, ?_⟩
      intro a' ha'
      cases ha'
      refine ⟨b1, b2, b3, b4, b5.congr ?_⟩
      intro w
      constructor
      · rintro ⟨h1, h2⟩; exact ⟨by omega, h2⟩
      · rintro ⟨h1, h2⟩
        refine ⟨?_, h2⟩
        rcases Int.lt_or_le w v with h | h
        · exact h
        · have : w = v := by omega
          rw [this] at h2
          exact absurd (hf.2 h2) hz

/-- What `bgraphCost2` computes. -/
theorem cost2_holds (hc : ConsE b.s) (ha : Alloc b) {part : Arr Int} (hb : part.lo ≤ b.s.baseval ∧ b.s.vertnnd ≤ part.hi)
    (hp : Parts b.s part.get) {fron : Option (Arr Int)} (hf : ∀ a, fron = some a → a.lo ≤ 0 ∧ b.s.vertnbr ≤ a.hi) :
    Holds (cost2 b part fron) (fun c =>
      c.ver1nbr = over b.s part.get 1 (fun _ => 1) ∧ c.cpl1sum = over b.s part.get 1 b.s.velo ∧
      c.cmlisum = cut b.s part.get ∧ c.cmlesum = b.commloadextn0 + over b.s part.get 1 b.veex ∧
      c.cmgesum = over b.s part.get 0 b.veex - over b.s part.get 1 b.veex ∧ c.frontab.isSome = fron.isSome ∧
      ∀ a a', fron = some a → c.frontab = some a' → a'.lo = a.lo ∧ a'.hi = a.hi ∧ Enum a' c.fronnbr (Frontier b.s part.get)) := by
  have hn := hc.vertnbr
  have hnn := hc.vertnnd
  have hl : ∀ a, fron = some a → a.lo = (fron.map Arr.lo).getD 0 ∧ a.hi = (fron.map Arr.hi).getD b.s.vertnbr := by
    intro a h; rw [h]; exact ⟨rfl, rfl⟩
  unfold cost2
  rw [Holds_bind]
  refine Holds_forUp (fun i (c : Cost) =>
      c.ver1nbr = sumI b.s.baseval i (fun v => if part.get v = 1 then 1 else 0) ∧
      c.cpl1sum = sumI b.s.baseval i (fun v => if part.get v = 1 then b.s.velo v else 0) ∧
      c.cmlisum = sumI b.s.baseval i (fun v => sumI (b.s.vert v) (b.s.vend v) (fun e => if part.get (b.s.dest e) = part.get v then 0 else b.s.edlo e)) ∧
      c.cmlesum = b.commloadextn0 + sumI b.s.baseval i (fun v => if part.get v = 1 then b.veex v else 0) ∧
      c.cmgesum = sumI b.s.baseval i (fun v => if part.get v = 0 then b.veex v else 0) - sumI b.s.baseval i (fun v => if part.get v = 1 then b.veex v else 0) ∧
      c.frontab.isSome = fron.isSome ∧
      ∀ a, c.frontab = some a → a.lo = (fron.map Arr.lo).getD 0 ∧ a.hi = (fron.map Arr.hi).getD b.s.vertnbr ∧
        (fron.map Arr.lo).getD 0 ≤ 0 ∧ b.s.vertnbr ≤ (fron.map Arr.hi).getD b.s.vertnbr ∧
        Enum a c.fronnbr (fun w => w < i ∧ Frontier b.s part.get w)) (by omega) ?_ ?_ ?_
  · simp only [sumI_empty (Int.le_refl _)]
    refine ⟨trivial, trivial, trivial, by omega, by omega, trivial, ?_⟩
    intro a h
    have := hl a h
    have := hf a h
    refine ⟨by omega, by omega, by omega, by omega, (Enum.empty a).congr ?_⟩
    intro w
    constructor
    · exact False.elim
    · rintro ⟨h1, h2⟩
      have := h2.1.1
      omega
  · rintro i c h1 h2 ⟨i1, i2, i3, i4, i5, i6, i7⟩
    have hv : b.s.Vertex i := ⟨h1, h2⟩
    unfold costVertex
    rw [Arr.rd_ok _ (by omega) (by omega), ok_bind, rdVelo_eq ha.graph hv, ok_bind, rdVeex_eq ha hv, ok_bind, Holds_bind]
    refine (costArcs_holds hc ha.graph hb hp hv c.cmlisum).mono ?_
    rintro ⟨r1, r2⟩ ⟨e1, e2⟩
    dsimp only at e1 e2 ⊢
    rw [Holds_bind]
    refine (costFron_holds hc i7 hv e2).mono ?_
    rintro ⟨f1, f2⟩ ⟨e3, e4⟩
    dsimp only at e3 e4 ⊢
    rw [Holds_pure]
    dsimp only
    simp only [sumI_succ h1]
    refine ⟨?_, ?_, by omega, ?_, ?_, by rw [e3, i6], e4⟩
    · rcases hp i hv with h | h <;> rw [h] <;> simp <;> omega
    · unfold maskP; rcases hp i hv with h | h <;> rw [h] <;> simp <;> omega
    · unfold maskP; rcases hp i hv with h | h <;> rw [h] <;> simp <;> omega
    · rcases hp i hv with h | h <;> rw [h] <;> simp <;> omega
  · rintro c ⟨i1, i2, i3, i4, i5, i6, i7⟩
    rw [cut_twice hc hp] at i3
    rw [Holds_pure]
    refine ⟨i1, i2, ?_, i4, i5, i6, ?_⟩
    · dsimp only
      rw [i3, Int.mul_tdiv_cancel_left _ (by decide)]
    · intro a a' h h'
      dsimp only at h'
      obtain ⟨k1, k2, k3, k4, k5⟩ := i7 a' h'
      have := hl a h
      refine ⟨by omega, by omega, k5.congr ?_⟩
      intro w
      constructor
      · exact fun h => h.2
      · exact fun h => ⟨h.1.2, h⟩

end Scotch.Bipart
