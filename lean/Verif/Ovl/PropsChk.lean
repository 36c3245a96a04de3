import Verif.Ovl.LemmasChk
import Verif.Ovl.PropsEs

/-! # C61: consistency check of partitions with overlap -/

set_option autoImplicit false

namespace Scotch.Ovl
open Separ (exG7)

/-- **C61.** The check never faults if entries of the frontier array are vertices, and accepts exactly what `Checked` says. -/
theorem C61_check (b : Wgraph) (C : b.s.Consistent) (A : Alloc b) (hb : 0 ≤ b.s.baseval) (hn : 1 ≤ b.partnbr) (hf : b.fronnbr ≤ b.s.vertnbr) (hF : ∀ i, 0 ≤ i → i < b.fronnbr → b.s.Vertex (b.frontab.get i)) (junk : Path → Int → Int) :
    ∃ r, check junk b = .ok r ∧ (r = true ↔ Checked b) := by
  have h := check_holds C A hb hn hf hF junk
  cases hc : check junk b with
  | ok r => rw [hc] at h; exact ⟨r, rfl, h⟩
  | error e => rw [hc] at h; exact False.elim h

/-- **C61.** Valid partitions are accepted. Partitions that are accepted are valid, if they are separated and their frontier array has no duplicates, none of which the check tests (see `C61_check_wrong`). -/
theorem C61_check_valid_partial (b : Wgraph) (C : b.s.Consistent) (A : Alloc b) (hb : 0 ≤ b.s.baseval) (hn : 1 ≤ b.partnbr) (hf : b.fronnbr ≤ b.s.vertnbr) (hF : ∀ i, 0 ≤ i → i < b.fronnbr → b.s.Vertex (b.frontab.get i)) (junk : Path → Int → Int) :
    (Valid b → check junk b = .ok true) ∧
    (check junk b = .ok true → Separated b.s b.part → (∀ i j, 0 ≤ i → i < b.fronnbr → 0 ≤ j → j < b.fronnbr → b.frontab.get i = b.frontab.get j → i = j) → Valid b) := by
  obtain ⟨r, h1, h2⟩ := C61_check b C A hb hn hf hF junk
  rw [h1]
  refine ⟨fun V => by rw [h2.2 ((checked_valid C hF).1 V).1], fun h S D => (checked_valid C hF).2 ⟨h2.1 ?_, S, D⟩⟩
  cases h
  rfl

/-- Partitions of the path of seven vertices into three parts. -/
def exC (part fron load size : List Int) (fronnbr fronload : Int) : Wgraph := ⟨exG7, 3, fronnbr, fronload, Arr.ofList 0 fron, Arr.ofList 0 load, Arr.ofList 0 size, Arr.ofList 0 part⟩

/-- A valid partition. -/
def exC1 : Wgraph := exC [2, -1, -1, 1, -1, -1, 0] [1, 5, 4, 2, 9, 9, 9] [2, 7, 6] [2, 3, 2] 4 5

theorem exC1_fron : ∀ i, 0 ≤ i → i < exC1.fronnbr → exC1.s.Vertex (exC1.frontab.get i) := by
  intro i i1 i2
  change i < 4 at i2
  rcases (by omega : i = 0 ∨ i = 1 ∨ i = 2 ∨ i = 3) with rfl | rfl | rfl | rfl <;> exact ⟨by decide, by decide⟩

/-- The hypotheses hold for a partition that is accepted. -/
example : exC1.s.Consistent ∧ Alloc exC1 ∧ 0 ≤ exC1.s.baseval ∧ 1 ≤ exC1.partnbr ∧ exC1.fronnbr ≤ exC1.s.vertnbr ∧ (∀ i, 0 ≤ i → i < exC1.fronnbr → exC1.s.Vertex (exC1.frontab.get i)) ∧ check (fun _ _ => 7) exC1 = .ok true ∧
    check (fun _ _ => 7) { exC1 with fronload := 6 } = .ok false ∧ check (fun _ _ => 7) { exC1 with compsize := Arr.ofList 0 [2, 2, 2] } = .ok false ∧ check (fun _ _ => 7) { exC1 with fronnbr := 3 } = .ok false :=
  ⟨exG7_cons, ⟨exG7_alloc, by decide, by decide, by decide, by decide⟩, by decide, by decide, by decide, exC1_fron, by decide +kernel, by decide +kernel, by decide +kernel, by decide +kernel⟩

/-- Two parts that touch. -/
def exC2 : Wgraph := exC [0, 0, 0, 1, 1, 1, 2] [9, 9, 9, 9, 9, 9, 9] [7, 7, 1] [3, 3, 1] 0 0

/-- The frontier holds one vertex, four times. -/
def exC3 : Wgraph := { exC1 with frontab := Arr.ofList 0 [1, 1, 1, 1, 9, 9, 9] }

/-- The frontier holds the number of a vertex that does not exist. -/
def exC4 : Wgraph := { exC1 with frontab := Arr.ofList 0 [9, 5, 4, 2, 9, 9, 9] }

/-- The check accepts parts that are not separated, and frontier arrays that do not hold all the vertices of the separator; it reads out of the part array if the frontier array holds numbers which are not vertices. -/
theorem C61_check_wrong (junk : Path → Int → Int) :
    (∃ b : Wgraph, b.s.Consistent ∧ Alloc b ∧ check junk b = .ok true ∧ ¬ Separated b.s b.part) ∧
    (∃ b : Wgraph, b.s.Consistent ∧ Alloc b ∧ check junk b = .ok true ∧ Separated b.s b.part ∧ ¬ Enum b.frontab b.fronnbr (fun v => b.s.Vertex v ∧ b.part v = -1)) ∧
    (∃ b : Wgraph, b.s.Consistent ∧ Alloc b ∧ check junk b = .error .oob) := by
  have al : ∀ {p f l z : List Int} {n m : Int}, p.length = 7 → f.length = 7 → l.length = 3 → z.length = 3 → Alloc (exC p f l z n m) := by
    intro p f l z n m h1 h2 h3 h4
    refine ⟨exG7_alloc, ⟨Int.le_refl 0, ?_⟩, ⟨Int.le_refl 0, ?_⟩, ⟨Int.le_refl 0, ?_⟩, ⟨Int.le_refl 0, ?_⟩⟩
    · show 7 ≤ 0 + (p.length : Int); omega
    · show 7 ≤ 0 + (f.length : Int); omega
    · show 3 ≤ 0 + (l.length : Int); omega
    · show 3 ≤ 0 + (z.length : Int); omega
  refine ⟨⟨exC2, exG7_cons, al rfl rfl rfl rfl, rfl, ?_⟩, ⟨exC3, exG7_cons, al rfl rfl rfl rfl, rfl, ?_, ?_⟩, exC4, exG7_cons, al rfl rfl rfl rfl, rfl⟩
  · intro h
    exact absurd (h 2 (3, 1) ⟨by decide, by decide⟩ (by decide +kernel) (by decide) (by decide)) (by decide)
  · rintro v p ⟨h1, h2⟩ hp
    change 0 ≤ v at h1
    change v < 7 at h2
    have : ∀ v : Fin 7, ∀ p ∈ exG7.nbrs (v.val : Int), 0 ≤ exC3.part v.val → 0 ≤ exC3.part p.1 → exC3.part p.1 = exC3.part v.val := by decide +kernel
    have e : ((⟨v.toNat, by omega⟩ : Fin 7).val : Int) = v := by show (v.toNat : Int) = v; omega
    have := this ⟨v.toNat, by omega⟩
    rw [e] at this
    exact this p hp
  · intro h
    exact absurd (h.2.1 0 1 (by decide) (by decide) (by decide) (by decide) rfl) (by decide)

end Scotch.Ovl
