import Verif.Kmap.LemmasChk
import Verif.Kmap.PropsSt

/-! # C63: consistency check of mappings -/

set_option autoImplicit false

namespace Scotch.Kmap
open Separ (exG7)

variable {D : Type}

/-- **C63.** On a mapping which has at least one domain, and which must be complete, the check never faults, and accepts exactly what `KChecked` says, whatever the contents of the mapping. -/
theorem C63_check_partial (o : ArchOps D) (F : D → D → Int) (N : D → Int) (In : D → Bool) (g : Graph) (C : g.Consistent) (ha : g.Allocated) (pfix : Option (Arr Int)) (k : Kgraph D) (R : Room g pfix k) (A : Answers o F N In k.m) (h1 : 1 ≤ k.m.domnnbr)
    (junk : Path → Int → Int) (vfixnbr : Int) : ∃ r, kcheck o junk false g vfixnbr pfix k = .ok r ∧ (r = true ↔ KChecked F N In g vfixnbr pfix k) := by
  have h := kcheck_holds C ha R A h1 junk vfixnbr
  cases e : kcheck o junk false g vfixnbr pfix k with
  | ok r => rw [e] at h; exact ⟨r, rfl, h⟩
  | error x => rw [e] at h; exact False.elim h

/-- **C63.** The check accepts the complete mappings whose domains belong to the architecture and whose fixed vertices are where they have to be. It accepts no other mapping, if edge loads, and the distances between the domains of the mapping, are positive
(see `C63_check_wrong`). -/
theorem C63_check_valid_partial (o : ArchOps D) (F : D → D → Int) (N : D → Int) (In : D → Bool) (g : Graph) (C : g.Consistent) (ha : g.Allocated) (pfix : Option (Arr Int)) (k : KState D) (R : Room g pfix k.toKgraph) (A : Answers o F N In k.m) (h1 : 1 ≤ k.m.domnnbr)
    (hF : ∀ i j, 0 ≤ i → i < k.m.domnnbr → 0 ≤ j → j < k.m.domnnbr → F (k.m.domntab.get i) (k.m.domntab.get j) = F (k.m.domntab.get j) (k.m.domntab.get i)) (junk : Path → Int → Int) :
    (KValid F g k → k.m.domnnbr ≤ k.m.domnmax → k.fronnbr ≤ g.vertnbr → (∀ i, 0 ≤ i → i < k.m.domnnbr → In (k.m.domntab.get i) = true) →
      (∀ a, pfix = some a → ∀ v, g.Vertex v → a.get v ≠ -1 → 0 ≤ a.get v ∧ a.get v = N (k.m.domntab.get (k.m.parttax.get v))) → kcheck o junk false g (fixNbr g pfix) pfix k.toKgraph = .ok true) ∧
    ((∀ v p, g.Vertex v → p ∈ g.nbrs v → 0 < p.2) → (∀ i j, 0 ≤ i → i < k.m.domnnbr → 0 ≤ j → j < k.m.domnnbr → i ≠ j → 0 < F (k.m.domntab.get i) (k.m.domntab.get j)) →
      ∀ vfixnbr, kcheck o junk false g vfixnbr pfix k.toKgraph = .ok true → KValid F g k ∧ k.m.domnnbr ≤ k.m.domnmax ∧ (∀ i, 0 ≤ i → i < k.m.domnnbr → In (k.m.domntab.get i) = true) ∧ vfixnbr = fixNbr g pfix ∧
        ∀ a, pfix = some a → ∀ v, g.Vertex v → a.get v ≠ -1 → a.get v = N (k.m.domntab.get (k.m.parttax.get v))) := by
  refine ⟨fun V hmax hf hI hx => ?_, fun hw hp vfixnbr h => ?_⟩
  · obtain ⟨r, e, hr⟩ := C63_check_partial o F N In g C ha pfix k.toKgraph R A h1 junk (fixNbr g pfix)
    rw [e, hr.2 (kvalid_checked C hmax hF hI hx rfl hf V)]
  · obtain ⟨r, e, hr⟩ := C63_check_partial o F N In g C ha pfix k.toKgraph R A h1 junk vfixnbr
    rw [e] at h
    have K := hr.1 (by cases h; rfl)
    exact ⟨kchecked_valid C h1 (fun i j i1 i2 j1 j2 => ⟨hF i j i1 i2 j1 j2, hp i j i1 i2 j1 j2⟩) hw K, K.max, K.dom, K.fixnbr, fun a ea v hv hn => (K.fixed a ea v hv hn).2⟩

/-- Architecture of the example: domains are integers, of which those below 100 belong to the architecture. -/
def exOps : ArchOps Int := ⟨fun d => .ok d, fun d => .ok (some d), fun _ => .ok 1, fun _ => .ok 1, fun a b => .ok (exF a b), .ok 0, fun _ => .ok none, fun _ d => .ok (decide (d < 100))⟩

theorem exOps_answers (m : Mapping Int) : Answers exOps exF id (fun d => decide (d < 100)) m := ⟨⟨0, rfl, fun _ _ _ => rfl⟩, fun _ _ _ => rfl, fun _ _ _ _ _ _ _ => rfl⟩

/-- Fixed vertices. -/
def exFixed : Arr Int := Arr.ofList 0 [-1, 0, -1, 2, -1, -1, 2]

/-- A mapping with its domains. -/
def exDom (k : KState Int) (dom : List Int) : Kgraph Int := { k.toKgraph with m := { k.m with domntab := Arr.ofList 0 dom } }

/-- The hypotheses hold for a mapping that is accepted, with three fixed vertices; mappings in which one value is changed are refused. -/
example : exG7.Consistent ∧ exG7.Allocated ∧ Room exG7 (some exFixed) (exA 2).toKgraph ∧ Answers exOps exF id (fun d => decide (d < 100)) (exA 2).m ∧ 1 ≤ (exA 2).m.domnnbr ∧ KValid exF exG7 (exA 2) ∧ (∀ v p, exG7.Vertex v → p ∈ exG7.nbrs v → 0 < p.2) ∧
    kcheck exOps (fun _ _ => 7) false exG7 3 (some exFixed) (exA 2).toKgraph = .ok true ∧ kcheck exOps (fun _ _ => 7) false exG7 2 (some exFixed) (exA 2).toKgraph = .ok false ∧
    kcheck exOps (fun _ _ => 7) false exG7 0 none { (exA 2).toKgraph with commload := 3 } = .ok false ∧ kcheck exOps (fun _ _ => 7) false exG7 0 none { (exA 2).toKgraph with fronnbr := 1 } = .ok false ∧
    kcheck exOps (fun _ _ => 7) false exG7 0 none { (exA 2).toKgraph with frontab := Arr.ofList 0 [2, 2, 3, 9, 9, 9, 9], fronnbr := 3 } = .ok false ∧ kcheck exOps (fun _ _ => 7) false exG7 0 none (exDom (exA 2) [0, 100]) = .ok false ∧
    kcheck exOps (fun _ _ => 7) false exG7 7 (some (Arr.ofList 0 [0, 0, 0, 2, 2, 2, 0])) (exA 2).toKgraph = .ok false :=
  ⟨Graph.consB_sound (by decide +kernel), Graph.allocB_sound (by decide +kernel), ⟨by decide, by decide, by decide, by decide, by decide, fun a h => by cases h; decide⟩, exOps_answers _, by decide, exA_valid 2,
    (fun v p hv hp => by
      revert hp
      have h : ∀ q ∈ exG7.nbrs v, 0 < q.2 := by rcases seven hv with rfl | rfl | rfl | rfl | rfl | rfl | rfl <;> decide +kernel
      exact h p),
    by decide +kernel, by decide +kernel, by decide +kernel, by decide +kernel, by decide +kernel, by decide +kernel, by decide +kernel⟩

/-- Mapping of the path onto two parts which have the same domain. -/
def exZero : Kgraph Int := { exDom (exA 2) [0, 0] with commload := 0, fronnbr := 0 }

/-- Mapping in which one vertex is not mapped. -/
def exNone : Kgraph Int := { (exA 2).toKgraph with m := { (exA 2).m with parttax := Arr.ofList 0 [-1, 0, 0, 1, 1, 1, 1] } }

/-- The check accepts mappings whose frontier array lacks vertices which have neighbours in other parts, if the distance between the domains of these parts is zero. It writes out of the array of loads, if the mapping has no domain, although such mappings are right
for `mapCheck`, or if the mapping may be incomplete and a vertex is not mapped. -/
theorem C63_check_wrong (junk : Path → Int → Int) :
    (∃ k : Kgraph Int, Room exG7 none k ∧ Answers exOps exF id (fun d => decide (d < 100)) k.m ∧ kcheck exOps junk false exG7 0 none k = .ok true ∧ ¬ Enum k.frontab k.fronnbr (Bipart.Frontier exG7 k.m.parttax.get)) ∧
    (∃ k : Kgraph Int, Room exG7 none k ∧ mapCheck exOps false exG7 k.m = .ok true ∧ kcheck exOps junk false exG7 0 none k = .error .oob) ∧
    (∃ k : Kgraph Int, Room exG7 none k ∧ mapCheck exOps true exG7 k.m = .ok true ∧ kcheck exOps junk true exG7 0 none k = .error .oob) := by
  refine ⟨⟨exZero, ⟨by decide, by decide, by decide, by decide, by decide, fun a h => by cases h⟩, exOps_answers _, ?_, fun E => ?_⟩, ⟨ex0.toKgraph, ⟨by decide, by decide, by decide, by decide, by decide, fun a h => by cases h⟩, by decide, rfl⟩,
    ⟨exNone, ⟨by decide, by decide, by decide, by decide, by decide, fun a h => by cases h⟩, by decide +kernel, rfl⟩⟩
  · rfl
  · obtain ⟨i, i1, i2, -⟩ := (E.2.2 2).1 ⟨⟨by decide, by decide⟩, by decide +kernel⟩
    change i < 0 at i2
    omega

end Scotch.Kmap
