import Verif.Kmap.LemmasSt
import Verif.Separ.PropsSt

/-! # C62: strategies for static mapping -/

set_option autoImplicit false

namespace Scotch.Kmap
open Separ (exG7)

variable {D : Type}

/-- **C62.** Whatever the methods, which only have to give complete mappings when they succeed: a strategy that is made of them never faults, and gives a complete mapping when it succeeds. Strategies between which a choice is made must not fail. -/
theorem C62_strategy_partial (F : D → D → Int) (g : Graph) (C : g.Consistent) (junk : Path → Int → Int) (junkD : Path → Int → D) (s : KStrat D) (sure init : Bool) (hs : KGood F g sure init s) (p : Path) (k : KState D) (hm : Mem g k) (hi : init = true → KValid F g k) :
    ∃ r, mapSt g junk junkD s p k = .ok r ∧ Mem g r.2 ∧ (r.1 = 0 ∨ r.1 = 1) ∧ (sure = true → r.1 = 0) ∧ (r.1 = 0 → KValid F g r.2) := by
  have h := mapSt_holds (junk := junk) (junkD := junkD) C s sure init hs p k hm hi
  cases e : mapSt g junk junkD s p k with
  | ok r => rw [e] at h; exact ⟨r, rfl, h.mem, h.code, h.sure, h.valid⟩
  | error x => rw [e] at h; exact False.elim h

/-- **C62.** A choice between two strategies, both of which are run on the same mapping, gives the mapping of one of them. If both succeed, it is at least as good as both; if only one succeeds, it is the one of this strategy, provided that it is balanced
(see `C62_select_wrong`). -/
theorem C62_select_partial (F : D → D → Int) (g : Graph) (C : g.Consistent) (junk : Path → Int → Int) (junkD : Path → Int → D) (s t : KStrat D) (sure1 sure2 init : Bool)
    (hs : ∀ p, MapMethod F g sure1 init (mapSt g junk junkD s p)) (ht : ∀ p, MapMethod F g sure2 init (mapSt g junk junkD t p)) (p : Path) (k : KState D) (hm : Mem g k) (hi : init = true → KValid F g k) :
    ∃ r r1 k2 r2, mapSt g junk junkD (.select s t) p k = .ok r ∧ mapSt g junk junkD s (1 :: p) k = .ok r1 ∧ Agree g k k2 ∧ mapSt g junk junkD t (2 :: p) k2 = .ok r2 ∧
      r.1 = min r1.1 r2.1 ∧ (Agree g r1.2 r.2 ∨ Agree g r2.2 r.2) ∧
      (r1.1 = 0 → r2.1 = 0 → KValid F g r.2 ∧ NoWorse r.2 r1.2 ∧ NoWorse r.2 r2.2) ∧
      (r1.1 = 0 → r2.1 ≠ 0 → Balanced r1.2 → KValid F g r.2 ∧ Agree g r1.2 r.2) ∧
      (r1.1 ≠ 0 → r2.1 = 0 → Balanced r2.2 → KValid F g r.2 ∧ Agree g r2.2 r.2) := by
  have h := select_holds C hs ht p hm hi
  cases e : mapSt g junk junkD (.select s t) p k with
  | error x => rw [e] at h; exact False.elim h
  | ok r =>
    rw [e] at h
    obtain ⟨-, -, r1, k2, r2, e1, R1, A, e2, R2, S⟩ := h
    refine ⟨r, r1, k2, r2, rfl, e1, A, e2, S.code, S.one, fun z1 z2 => ⟨?_, S.best z1 z2⟩, fun z1 z2 hb => ⟨(S.first z1 z2 hb).valid C (R1.valid z1), S.first z1 z2 hb⟩, fun z1 z2 hb => ⟨(S.second z1 z2 hb).valid C (R2.valid z2), S.second z1 z2 hb⟩⟩
    rcases S.one with h | h
    · exact h.valid C (R1.valid z1)
    · exact h.valid C (R2.valid z2)

/-- Distance between domains of the example. -/
def exF (a b : Int) : Int := |a - b|

/-- Mapping of the path of seven vertices onto two parts; parts may be one unit away from their average loads. -/
def exK (part fron avg dlt : List Int) (fronnbr comm max : Int) : KState Int :=
  ⟨⟨⟨Arr.ofList 0 part, ⟨0, max, fun i => 2 * i⟩, 2, max⟩, Arr.ofList 0 fron, fronnbr, ⟨0, max, (Arr.ofList 0 avg).get⟩, ⟨0, max, (Arr.ofList 0 dlt).get⟩, comm⟩, fun _ => 1⟩

/-- A balanced mapping. -/
def exA (max : Int) : KState Int := exK [0, 0, 0, 1, 1, 1, 1] [2, 3, 9, 9, 9, 9, 9] [7, 7] [0, 1] 2 2 max

/-- A mapping that is not balanced. -/
def exB (max : Int) : KState Int := exK [0, 1, 1, 0, 1, 1, 1] [4, 3, 2, 1, 0, 9, 9] [7, 7] [2, -1] 5 6 max

/-- State before any mapping is computed. -/
def ex0 : KState Int := ⟨⟨⟨⟨0, 7, fun _ => 7⟩, ⟨0, 2, fun _ => 7⟩, 0, 2⟩, ⟨0, 7, fun _ => 7⟩, 0, ⟨0, 2, fun _ => 7⟩, ⟨0, 2, fun _ => 7⟩, 0⟩, fun _ => 1⟩

theorem seven {v : Int} (hv : exG7.Vertex v) : v = 0 ∨ v = 1 ∨ v = 2 ∨ v = 3 ∨ v = 4 ∨ v = 5 ∨ v = 6 := by
  obtain ⟨h1, h2⟩ := hv
  change 0 ≤ v at h1
  change v < 7 at h2
  omega

theorem ex0_mem : Mem exG7 ex0 := ⟨by decide, by decide, by decide, by decide, by decide, by decide, by decide⟩

theorem exA_valid (max : Int) : KValid exF exG7 (exA max) := by
  refine ⟨by show (1 : Int) ≤ 2; decide, ?_, ⟨by show (0 : Int) ≤ 2; decide, ?_, ?_⟩, ?_, ?_⟩
  · intro v hv
    show 0 ≤ (exA 2).m.parttax.get v ∧ (exA 2).m.parttax.get v < 2
    rcases seven hv with rfl | rfl | rfl | rfl | rfl | rfl | rfl <;> decide
  · intro i j i1 i2 j1 j2 h
    change i < 2 at i2
    change j < 2 at j2
    change (exA 2).frontab.get i = (exA 2).frontab.get j at h
    rcases (by omega : i = 0 ∨ i = 1) with rfl | rfl <;> rcases (by omega : j = 0 ∨ j = 1) with rfl | rfl <;> first | rfl | exact absurd h (by decide)
  · intro v
    show Bipart.Frontier exG7 (exA 2).m.parttax.get v ↔ ∃ i, 0 ≤ i ∧ i < 2 ∧ (exA 2).frontab.get i = v
    constructor
    · rintro ⟨hv, h⟩
      rcases seven hv with rfl | rfl | rfl | rfl | rfl | rfl | rfl <;>
        first | exact absurd h (by decide +kernel) | exact ⟨0, by decide, by decide, rfl⟩ | exact ⟨1, by decide, by decide, rfl⟩
    · rintro ⟨i, i1, i2, rfl⟩
      rcases (by omega : i = 0 ∨ i = 1) with rfl | rfl <;> exact ⟨⟨by decide, by decide⟩, by decide +kernel⟩
  · show 2 = costOf exF exG7 (exA 2).m.parttax.get (exA 2).m.domntab.get
    decide +kernel
  · intro i i1 i2
    change i < 2 at i2
    show (exA 2).comploadavg.get i + (exA 2).comploaddlt.get i = Bipart.over exG7 (exA 2).m.parttax.get i exG7.velo
    rcases (by omega : i = 0 ∨ i = 1) with rfl | rfl <;> decide +kernel

theorem exB_valid (max : Int) : KValid exF exG7 (exB max) := by
  refine ⟨by show (1 : Int) ≤ 2; decide, ?_, ⟨by show (0 : Int) ≤ 5; decide, ?_, ?_⟩, ?_, ?_⟩
  · intro v hv
    show 0 ≤ (exB 2).m.parttax.get v ∧ (exB 2).m.parttax.get v < 2
    rcases seven hv with rfl | rfl | rfl | rfl | rfl | rfl | rfl <;> decide
  · intro i j i1 i2 j1 j2 h
    change i < 5 at i2
    change j < 5 at j2
    change (exB 2).frontab.get i = (exB 2).frontab.get j at h
    rcases (by omega : i = 0 ∨ i = 1 ∨ i = 2 ∨ i = 3 ∨ i = 4) with rfl | rfl | rfl | rfl | rfl <;> rcases (by omega : j = 0 ∨ j = 1 ∨ j = 2 ∨ j = 3 ∨ j = 4) with rfl | rfl | rfl | rfl | rfl <;> first | rfl | exact absurd h (by decide)
  · intro v
    show Bipart.Frontier exG7 (exB 2).m.parttax.get v ↔ ∃ i, 0 ≤ i ∧ i < 5 ∧ (exB 2).frontab.get i = v
    constructor
    · rintro ⟨hv, h⟩
      rcases seven hv with rfl | rfl | rfl | rfl | rfl | rfl | rfl <;>
        first | exact absurd h (by decide +kernel) | exact ⟨0, by decide, by decide, rfl⟩ | exact ⟨1, by decide, by decide, rfl⟩ | exact ⟨2, by decide, by decide, rfl⟩ | exact ⟨3, by decide, by decide, rfl⟩ | exact ⟨4, by decide, by decide, rfl⟩
    · rintro ⟨i, i1, i2, rfl⟩
      rcases (by omega : i = 0 ∨ i = 1 ∨ i = 2 ∨ i = 3 ∨ i = 4) with rfl | rfl | rfl | rfl | rfl <;> exact ⟨⟨by decide, by decide⟩, by decide +kernel⟩
  · show 6 = costOf exF exG7 (exB 2).m.parttax.get (exB 2).m.domntab.get
    decide +kernel
  · intro i i1 i2
    change i < 2 at i2
    show (exB 2).comploadavg.get i + (exB 2).comploaddlt.get i = Bipart.over exG7 (exB 2).m.parttax.get i exG7.velo
    rcases (by omega : i = 0 ∨ i = 1) with rfl | rfl <;> decide +kernel

/-- Method which gives a mapping. -/
def exM (x : Int → KState Int) : KMethod Int := fun _ k => .ok (0, x (max 2 k.m.domnmax))

/-- Method which fails, and leaves the mapping as it is. -/
def exFail : KMethod Int := fun _ k => .ok (1, k)

theorem exFail_ok (init : Bool) (p : Path) : MapMethod exF exG7 false init (exFail p) := by
  intro k hm _
  exact ⟨hm, Int.le_refl _, Or.inr rfl, fun h => absurd h (by decide), fun h => absurd (show (1 : Int) = 0 from h) (by decide)⟩

theorem exK_mem (part fron avg dlt : List Int) (fronnbr comm max : Int) (h1 : part.length = 7) (h2 : fron.length = 7) (h3 : 0 ≤ fronnbr ∧ fronnbr ≤ 7) (h4 : 2 ≤ max) : Mem exG7 (exK part fron avg dlt fronnbr comm max) := by
  refine ⟨⟨Int.le_refl 0, ?_⟩, ⟨Int.le_refl 0, Int.le_refl max⟩, ⟨Int.le_refl 0, Int.le_refl max⟩, ⟨Int.le_refl 0, Int.le_refl max⟩, ⟨Int.le_refl 0, ?_⟩, ⟨by show (0 : Int) ≤ 2; decide, h4⟩, fun _ => h3⟩
  · show 7 ≤ 0 + (part.length : Int); omega
  · show 7 ≤ 0 + (fron.length : Int); omega

theorem exM_ok {x : Int → KState Int} (hm : ∀ max, 2 ≤ max → Mem exG7 (x max)) (hx : ∀ max, (x max).m.domnmax = max) (hv : ∀ max, KValid exF exG7 (x max)) (init : Bool) (p : Path) : MapMethod exF exG7 true init (exM x p) := by
  intro k _ _
  refine ⟨hm _ (Int.le_max_left _ _), ?_, Or.inl rfl, fun _ => rfl, fun _ => hv _⟩
  show k.m.domnmax ≤ (x (max 2 k.m.domnmax)).m.domnmax
  rw [hx]
  exact Int.le_max_right _ _

theorem exMA_ok (init : Bool) (p : Path) : MapMethod exF exG7 true init (exM exA p) := exM_ok (fun _ h => exK_mem _ _ _ _ _ _ _ rfl rfl (by decide) h) (fun _ => rfl) exA_valid init p

theorem exMB_ok (init : Bool) (p : Path) : MapMethod exF exG7 true init (exM exB p) := exM_ok (fun _ h => exK_mem _ _ _ _ _ _ _ rfl rfl (by decide) h) (fun _ => rfl) exB_valid init p

/-- A strategy that meets the hypotheses. -/
def exS : KStrat Int := .concat (.meth (exM exB)) (.select (.concat (.meth (exM exA)) .empty) (.cond1 (fun _ k => some (decide (k.commload > 2))) (.meth (exM exB))))

example : exG7.Consistent ∧ KGood exF exG7 true false exS ∧ Mem exG7 ex0 :=
  ⟨Graph.consB_sound (by decide +kernel), ⟨exMB_ok false, ⟨exMA_ok true, rfl⟩, rfl, (fun _ _ _ h => by cases h), exMB_ok true⟩, ex0_mem⟩

/-- Code, parts, cost. -/
def key (r : Int × KState Int) : Int × List Int × Int × Int := (r.1, r.2.m.parttax.toList, r.2.commload, r.2.m.domnnbr)

/-- The balanced mapping is kept, whether it comes first or second. -/
example : (mapSt exG7 (fun _ _ => 7) (fun _ _ => 7) exS [] ex0).map key = .ok (0, [0, 0, 0, 1, 1, 1, 1], 2, 2) ∧
    (mapSt exG7 (fun _ _ => 7) (fun _ _ => 7) (.select (.meth (exM exB)) (.meth (exM exA))) [] ex0).map key = .ok (0, [0, 0, 0, 1, 1, 1, 1], 2, 2) ∧
    (mapSt exG7 (fun _ _ => 7) (fun _ _ => 7) (.select (.meth exFail) (.meth (exM exA))) [] ex0).map key = .ok (0, [0, 0, 0, 1, 1, 1, 1], 2, 2) :=
  ⟨by decide +kernel, by decide +kernel, by decide +kernel⟩

/-- A choice between a strategy that fails before it has computed anything, and a strategy that succeeds, reports success and gives no mapping at all, if the mapping of the second strategy is not balanced: the data of the mapping that does not exist have
smaller differences with average loads (kgraph_map_st.c:339, 372). -/
theorem C62_select_wrong : ∃ (F : Int → Int → Int) (g : Graph) (s t : KMethod Int) (k : KState Int) (r : Int × KState Int) (junk : Path → Int → Int), g.Consistent ∧ Mem g k ∧ (∀ p, MapMethod F g false false (s p)) ∧ (∀ p, MapMethod F g true false (t p)) ∧
    mapSt g junk junk (.select (.meth s) (.meth t)) [] k = .ok r ∧ r.1 = 0 ∧ r.2.m.domnnbr = 0 ∧ ¬ KValid F g r.2 := by
  have h : ∃ r, mapSt exG7 (fun _ _ => 7) (fun _ _ => 7) (.select (.meth exFail) (.meth (exM exB))) [] ex0 = .ok r ∧ r.1 = 0 ∧ r.2.m.domnnbr = 0 := ⟨_, rfl, rfl, rfl⟩
  obtain ⟨r, e, h1, h2⟩ := h
  exact ⟨exF, exG7, exFail, exM exB, ex0, r, fun _ _ => 7, Graph.consB_sound (by decide +kernel), ex0_mem, exFail_ok false, exMB_ok false, e, h1, h2, fun V => by have := V.some; omega⟩

end Scotch.Kmap
