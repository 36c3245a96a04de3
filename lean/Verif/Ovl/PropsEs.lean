import Verif.Ovl.LemmasEs
import Verif.Ovl.Props

/-! # C60: partitions with overlap that come from mappings -/

set_option autoImplicit false

namespace Scotch.Ovl
open Separ (exG7 exCls)

/-- **C60.** A mapping of the graph onto the parts gives a valid partition with overlap, whose separator is the frontier of the mapping, if it has one domain for each part (see `MapGood`). -/
theorem C60_es_partial (cls : Graph → Prop) (n : Int) (nul tot sure : Bool) (map : Path → Graph → Int → M (Int × KMap)) (junk : Path → Int → Int)
    (hm : ∀ p g, g.Consistent → cls g → Mt nul tot (map p g n) (fun r => (sure = true → r.1 = 0) ∧ (r.1 = 0 → MapGood g n r.2))) (init : Bool) (p : Path) : PartMethod cls n nul tot sure init (partEs map junk p) := by
  intro b hb hc hn _
  subst hn
  exact partEs_holds p hb (hm p b.s hb.cons hc)

/-- Mapping of the path of seven vertices onto three parts; the domains are not in the order of the parts. -/
def exK : KMap := ⟨Arr.ofList 0 [2, 0, 1], Arr.ofList 0 [6, 2, 7], Arr.ofList 0 [0, 0, 2, 2, 2, 1, 1], Arr.ofList 0 [1, 5, 4, 2, 9, 9, 9], 4⟩

theorem exK_good : MapGood exG7 3 exK := by
  have three : ∀ {k : Int}, 0 ≤ k → k < 3 → k = 0 ∨ k = 1 ∨ k = 2 := fun h1 h2 => by omega
  have seven : ∀ {v : Int}, exG7.Vertex v → v = 0 ∨ v = 1 ∨ v = 2 ∨ v = 3 ∨ v = 4 ∨ v = 5 ∨ v = 6 := by
    rintro v ⟨h1, h2⟩
    change 0 ≤ v at h1
    change v < 7 at h2
    omega
  refine ⟨by decide, by decide, by decide, by decide, ?_, ?_, ?_, ?_, ?_, by decide, ?_, ?_⟩
  · intro k h1 h2
    rcases three h1 h2 with rfl | rfl | rfl <;> decide
  · intro k l h1 h2 h3 h4 e
    rcases three h1 h2 with rfl | rfl | rfl <;> rcases three h3 h4 with rfl | rfl | rfl <;> first | rfl | exact absurd e (by decide)
  · intro j h1 h2
    rcases three h1 h2 with rfl | rfl | rfl
    exacts [⟨1, by decide⟩, ⟨2, by decide⟩, ⟨0, by decide⟩]
  · intro v hv
    rcases seven hv with rfl | rfl | rfl | rfl | rfl | rfl | rfl <;> decide
  · intro k h1 h2
    rcases three h1 h2 with rfl | rfl | rfl <;> decide +kernel
  · intro i j i1 i2 j1 j2 h
    change i < 4 at i2
    change j < 4 at j2
    rcases (by omega : i = 0 ∨ i = 1 ∨ i = 2 ∨ i = 3) with rfl | rfl | rfl | rfl <;> rcases (by omega : j = 0 ∨ j = 1 ∨ j = 2 ∨ j = 3) with rfl | rfl | rfl | rfl <;> first | rfl | exact absurd h (by decide)
  · intro v
    constructor
    · rintro ⟨hv, h⟩
      rcases seven hv with rfl | rfl | rfl | rfl | rfl | rfl | rfl <;>
        first | exact absurd h (by decide +kernel) | exact ⟨0, by decide, by decide, rfl⟩ | exact ⟨1, by decide, by decide, rfl⟩ | exact ⟨2, by decide, by decide, rfl⟩ | exact ⟨3, by decide, by decide, rfl⟩
    · rintro ⟨i, i1, i2, rfl⟩
      change i < 4 at i2
      rcases (by omega : i = 0 ∨ i = 1 ∨ i = 2 ∨ i = 3) with rfl | rfl | rfl | rfl <;> exact ⟨⟨by decide, by decide⟩, by decide +kernel⟩

example : (partEs (fun _ _ _ => .ok (0, exK)) (fun _ _ => 7) [] (alloc exW [] exG7 3 exU)).map show' = .ok (0, [2, -1, -1, 1, -1, -1, 0], 4, 5, [2, 7, 6], [2, 3, 2]) := by decide +kernel

/-- Mapping of the same graph, all of which is in one domain: the cells of the two other domains are not initialised. -/
def exK1 : KMap := ⟨Arr.ofList 0 [0, 77, 77], Arr.ofList 0 [15, 77, 77], Arr.ofList 0 [0, 0, 0, 0, 0, 0, 0], Arr.ofList 0 [9, 9, 9, 9, 9, 9, 9], 0⟩

/-- If the mapping has fewer domains than there are parts, the loads of domains that do not exist are written at numbers that are read from memory which is not initialised (wgraph_part_es.c:114–115). -/
theorem C60_es_wrong : ∃ map junk b, Pre b ∧ (∀ p, map p b.s b.partnbr = .ok (0, exK1)) ∧ (∀ v, b.s.Vertex v → exK1.part.get v = 0 ∧ exK1.dom.get 0 = 0) ∧ Enum exK1.fron exK1.fronnbr (fun _ => False) ∧ partEs map junk [] b = .error .oob := by
  refine ⟨fun _ _ _ => .ok (0, exK1), fun _ _ => 7, alloc exW [] exG7 3 exU, ⟨exG7_cons, ⟨exG7_alloc, by decide, by decide, by decide, by decide⟩, by decide, by decide, rfl, by decide⟩, fun _ => rfl, ?_, Enum.empty _, by decide +kernel⟩
  rintro v ⟨h1, h2⟩
  change 0 ≤ v at h1
  change v < 7 at h2
  rcases (by omega : v = 0 ∨ v = 1 ∨ v = 2 ∨ v = 3 ∨ v = 4 ∨ v = 5 ∨ v = 6) with rfl | rfl | rfl | rfl | rfl | rfl | rfl <;> decide

end Scotch.Ovl
