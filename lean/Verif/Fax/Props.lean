import Verif.Fax.LemmasFax
import Verif.Graph.Decide

/-!
# C39 — Block symbolic factorization
-/

set_option autoImplicit false

namespace Scotch

open Fax

/-- C39. Symbolic factorization of a consistent graph by a valid block ordering. `slack` is the number of integers that
can be used after the end of the array of blocks. When at least four integers are available between the estimated end of the
temporary areas and the end of the memory (three times the base value are left by the estimate), factorization ends without
any access out of the memory it owns, whatever the initial contents of memory. The symbolic matrix is well-formed, and is
accepted by the checking routine. The rows of the extra-diagonal blocks of a column block are exactly the rows of the
block-filled matrix, so that they cover all the fill of the matrix. -/
theorem C39_fax {g : Graph} {o : Order} (C : g.Consistent) (A : g.Allocated) (V : o.Valid g) (hb : 0 ≤ g.baseval) (hv : 0 < g.vertnbr) (bits : Nat) (hn : g.vertnbr < 2 ^ bits) (junk : Int → Junk)
    (slack : Int) (hs : 0 ≤ slack) (hs4 : 4 ≤ slack + 3 * g.baseval) :
    Holds (symbolFax slack bits junk g o) (fun S => WellFormed g o S ∧ symbolCheck S = .ok true ∧
      ∀ k, g.baseval ≤ k → k < g.baseval + o.cblknbr →
        (∀ i, o.rang.get (k + 1) ≤ i → (Covers S k i ↔ Fill (BlockEntry g o) (o.rang.get (k + 1) - 1) i)) ∧
        ∀ i j, InCblk o k j → o.rang.get (k + 1) ≤ i → Fill (Entry g o) j i → Covers S k i) := by
  refine Holds.mono ((symbolFax_may junk C A V hb hs hv hn).holds (by omega)) ?_
  intro S r
  obtain ⟨b, e, hb⟩ := Holds_iff_exists.1 (symbolCheck_holds V r.wf)
  exact ⟨r.wf, by rw [e, hb], fun k h1 h2 => r.fill C V h1 h2⟩

/-- C39, for the code as it is (no memory after the end of the array of blocks): if factorization does not go out of
the memory it owns then its result is right. -/
theorem C39_fax_partial {g : Graph} {o : Order} (C : g.Consistent) (A : g.Allocated) (V : o.Valid g) (hb : 0 ≤ g.baseval) (hv : 0 < g.vertnbr) (bits : Nat) (hn : g.vertnbr < 2 ^ bits) (junk : Int → Junk) :
    Post (symbolFax 0 bits junk g o) (fun S => WellFormed g o S ∧ symbolCheck S = .ok true ∧
      ∀ k, g.baseval ≤ k → k < g.baseval + o.cblknbr →
        (∀ i, o.rang.get (k + 1) ≤ i → (Covers S k i ↔ Fill (BlockEntry g o) (o.rang.get (k + 1) - 1) i)) ∧
        ∀ i j, InCblk o k j → o.rang.get (k + 1) ≤ i → Fill (Entry g o) j i → Covers S k i) := by
  refine May.post (p := (0 : Int) + 3 * g.baseval < 4) (May.mono (symbolFax_may junk C A V hb (Int.le_refl _) hv hn) ?_)
  intro S r
  obtain ⟨b, e, hb⟩ := Holds_iff_exists.1 (symbolCheck_holds V r.wf)
  exact ⟨r.wf, by rw [e, hb], fun k h1 h2 => r.fill C V h1 h2⟩

/-- When column blocks are single columns, the blocks of a column are exactly its fill. -/
theorem C39_columns {g : Graph} {o : Order} {S : Symbol} (hone : ∀ k, g.baseval ≤ k → k < g.baseval + o.cblknbr → o.rang.get (k + 1) = o.rang.get k + 1)
    (h : ∀ k, g.baseval ≤ k → k < g.baseval + o.cblknbr → ∀ i, o.rang.get (k + 1) ≤ i → (Covers S k i ↔ Fill (BlockEntry g o) (o.rang.get (k + 1) - 1) i))
    (k : Int) (h1 : g.baseval ≤ k) (h2 : k < g.baseval + o.cblknbr) (i : Int) (hi : o.rang.get k < i) : Covers S k i ↔ Fill (Entry g o) (o.rang.get k) i := by
  rw [h k h1 h2 i (by rw [hone k h1 h2]; omega), hone k h1 h2, show o.rang.get k + 1 - 1 = o.rang.get k by omega]
  constructor
  · refine Fill.mono ?_
    rintro a b (h | ⟨h, c, c1, c2, c3, c4⟩)
    · exact h
    · unfold InCblk at c3 c4
      have := hone c c1 c2
      omega
  · exact Fill.mono (fun _ _ h => .inl h)

/-! ## The array of temporary blocks is one block too small -/

/-- 174 vertices, four of which make up a path 3 – 1 – 0 – 2. -/
def faxG (base : Int) : Graph :=
  ⟨base, 174, base + 174, ⟨base, base + 175, fun i => base + if i = base then 0 else if i = base + 1 then 2 else if i = base + 2 then 4 else if i = base + 3 then 5 else 6⟩, none, none, 174, none, none, 6,
    Arr.ofList base [base + 2, base + 1, base, base + 3, base, base + 1], none, 6, 2⟩

/-- The natural order, column by column. -/
def faxO (base : Int) : Order := ⟨174, ⟨base, base + 175, fun i => i⟩, ⟨base, base + 174, fun i => i⟩, ⟨base, base + 174, fun i => i⟩⟩

def faxJ : Int → Junk := fun _ => ⟨fun _ => 0, fun _ => ⟨0, 0, 0⟩, fun _ => ⟨0, 0, 0, 0⟩, fun _ => ⟨0, 0, 0⟩⟩

theorem faxO_valid (base : Int) : (faxO base).Valid (faxG base) := by
  refine ⟨(by decide : (0 : Int) ≤ 174), rfl, rfl, ?_, ?_, ?_, ⟨Int.le_refl _, (by omega : base + 174 + 1 ≤ base + 175)⟩, ⟨Int.le_refl _, Int.le_refl _⟩, ⟨Int.le_refl _, Int.le_refl _⟩⟩
  · intro k _ _
    show k < k + 1
    omega
  · intro v hv; exact ⟨hv, rfl⟩
  · intro v hv; exact ⟨hv, rfl⟩

set_option maxRecDepth 100000 in
theorem fax_oob0 : symbolFax 0 31 faxJ (faxG 0) (faxO 0) = .error .oob := by decide +kernel

set_option maxRecDepth 100000 in
theorem fax_oob1 : symbolFax 0 31 faxJ (faxG 1) (faxO 1) = .error .oob := by decide +kernel

/-- C39 is false as such: graphs of base 0 and 1, and a valid ordering, for which factorization writes after the end
of the memory block it has allocated. -/
theorem C39_fax_not : ((faxG 0).Consistent ∧ (faxG 0).Allocated ∧ (faxO 0).Valid (faxG 0) ∧ symbolFax 0 31 faxJ (faxG 0) (faxO 0) = .error .oob) ∧
    ((faxG 1).Consistent ∧ (faxG 1).Allocated ∧ (faxO 1).Valid (faxG 1) ∧ symbolFax 0 31 faxJ (faxG 1) (faxO 1) = .error .oob) :=
  ⟨⟨Graph.consB_sound (by decide +kernel), Graph.allocB_sound (by decide +kernel), faxO_valid 0, fax_oob0⟩, Graph.consB_sound (by decide +kernel), Graph.allocB_sound (by decide +kernel), faxO_valid 1, fax_oob1⟩

/-- The hypotheses of the theorem hold of this graph, with base value 2. -/
example : (faxG 2).Consistent ∧ (faxG 2).Allocated ∧ (faxO 2).Valid (faxG 2) ∧ 0 ≤ (faxG 2).baseval ∧ 0 < (faxG 2).vertnbr ∧ (faxG 2).vertnbr < 2 ^ 31 ∧ 4 ≤ 0 + 3 * (faxG 2).baseval :=
  ⟨Graph.consB_sound (by decide +kernel), Graph.allocB_sound (by decide +kernel), faxO_valid 2, by decide, by decide, by decide, by decide⟩

/-- A cycle of six vertices, in column blocks of sizes 1, 1, 2 and 2. -/
def faxG6 : Graph := ⟨0, 6, 6, Arr.ofList 0 [0, 2, 4, 6, 8, 10, 12], none, none, 6, none, none, 12, Arr.ofList 0 [1, 5, 0, 2, 1, 3, 2, 4, 3, 5, 4, 0], none, 12, 2⟩

def faxO6 : Order := ⟨4, Arr.ofList 0 [0, 1, 2, 4, 6], Arr.ofList 0 [0, 2, 4, 1, 3, 5], Arr.ofList 0 [0, 3, 1, 4, 2, 5]⟩

theorem faxO6_valid : faxO6.Valid faxG6 := by
  have v6 : ∀ v, faxG6.Vertex v → v = 0 ∨ v = 1 ∨ v = 2 ∨ v = 3 ∨ v = 4 ∨ v = 5 := by
    intro v hv
    have h1 : (0 : Int) ≤ v := hv.1
    have h2 : v < 6 := hv.2
    omega
  refine ⟨by decide, by decide, by decide, ?_, ?_, ?_, by decide, by decide, by decide⟩
  · intro k h1 h2
    have h1 : (0 : Int) ≤ k := h1
    have h2 : k < 4 := h2
    have : k = 0 ∨ k = 1 ∨ k = 2 ∨ k = 3 := by omega
    rcases this with rfl | rfl | rfl | rfl <;> decide
  · intro v hv
    rcases v6 v hv with rfl | rfl | rfl | rfl | rfl | rfl <;> exact ⟨by unfold Graph.Vertex; decide, by decide⟩
  · intro v hv
    rcases v6 v hv with rfl | rfl | rfl | rfl | rfl | rfl <;> exact ⟨by unfold Graph.Vertex; decide, by decide⟩

example : (do let S ← symbolFax 4 31 faxJ faxG6 faxO6; pure ((S.blok.toList.map fun b : Blok => (b.frow, b.lrow, b.cblk)), S.cblk.toList.map Cblk.blok)) =
    .ok ([(0, 0, 0), (2, 2, 2), (5, 5, 3), (1, 1, 1), (3, 3, 2), (4, 4, 3), (2, 3, 2), (4, 5, 3), (4, 5, 3)], [0, 3, 6, 8, 9]) := by decide +kernel

example : Holds (symbolFax 4 31 faxJ faxG6 faxO6) (fun S => WellFormed faxG6 faxO6 S) :=
  Holds.mono (C39_fax (Graph.consB_sound (by decide +kernel)) (Graph.allocB_sound (by decide +kernel)) faxO6_valid (by decide) (by decide) 31 (by decide) faxJ 4 (by decide) (by decide)) (fun _ h => h.1)

end Scotch
