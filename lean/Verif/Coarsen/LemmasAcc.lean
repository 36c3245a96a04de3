import Verif.Graph.Spec
import Mathlib.Tactic.Ring

set_option autoImplicit false
set_option linter.unusedSimpArgs false

namespace Scotch.Coarsen

/-! ## Accumulation of arcs -/

/-- Addition of load `l` to key `k`. -/
def addA (acc : List (Int × Int)) (k l : Int) : List (Int × Int) :=
  if k ∈ acc.map Prod.fst then acc.map (fun p => if p.1 = k then (p.1, p.2 + l) else p) else acc ++ [(k, l)]

/-- Handling of an arc. -/
def stepA (coar : Int → Int) (c : Int) (acc : List (Int × Int)) (q : Int × Int) : List (Int × Int) := if coar q.1 ≠ c then addA acc (coar q.1) q.2 else acc

theorem keys_addA (acc : List (Int × Int)) (k l : Int) : (addA acc k l).map Prod.fst = if k ∈ acc.map Prod.fst then acc.map Prod.fst else acc.map Prod.fst ++ [k] := by
  unfold addA
  by_cases h : k ∈ acc.map Prod.fst
  · rw [if_pos h, if_pos h, List.map_map]
    refine List.map_congr_left ?_
    intro p _
    dsimp only [Function.comp]
    by_cases e : p.1 = k
    · rw [if_pos e]
    · rw [if_neg e]
  · rw [if_neg h, if_neg h, List.map_append]; rfl

theorem keys_addA_nodup {acc : List (Int × Int)} (h : (acc.map Prod.fst).Nodup) (k l : Int) : ((addA acc k l).map Prod.fst).Nodup := by
  rw [keys_addA]
  by_cases hk : k ∈ acc.map Prod.fst
  · rwa [if_pos hk]
  · rw [if_neg hk, List.nodup_append]
    exact ⟨h, by simp, fun a ha b hb e => by rw [List.mem_singleton] at hb; rw [e, hb] at ha; exact hk ha⟩

theorem length_addA (acc : List (Int × Int)) (k l : Int) : (addA acc k l).length ≤ acc.length + 1 ∧ acc.length ≤ (addA acc k l).length := by
  unfold addA
  split <;> simp

theorem sum_map_pair (acc : List (Int × Int)) (k l : Int) (h : (acc.map Prod.fst).Nodup) (hk : k ∈ acc.map Prod.fst) :
    ((acc.map (fun p => if p.1 = k then (p.1, p.2 + l) else p)).map Prod.snd).sum = (acc.map Prod.snd).sum + l := by
  induction acc with
  | nil => simp at hk
  | cons p t ih =>
    rw [List.map_cons, List.nodup_cons] at h
    rw [List.map_cons, List.map_cons, List.map_cons, List.sum_cons, List.sum_cons]
    by_cases e : p.1 = k
    · rw [if_pos e]
      have : t.map (fun p => if p.1 = k then (p.1, p.2 + l) else p) = t := by
        conv_rhs => rw [← List.map_id t]
        refine List.map_congr_left ?_
        intro q hq
        rw [if_neg]; rfl
        intro e'
        exact h.1 (by rw [e, ← e']; exact List.mem_map_of_mem hq)
      rw [this]; dsimp only; ring
    · rw [if_neg e, ih h.2 (by
        rw [List.map_cons, List.mem_cons] at hk
        rcases hk with h | h
        · exact absurd h.symm e
        · exact h)]
      ring

theorem sum_addA {acc : List (Int × Int)} (h : (acc.map Prod.fst).Nodup) (k l : Int) : ((addA acc k l).map Prod.snd).sum = (acc.map Prod.snd).sum + l := by
  unfold addA
  by_cases hk : k ∈ acc.map Prod.fst
  · rw [if_pos hk, sum_map_pair acc k l h hk]
  · rw [if_neg hk, List.map_append, List.sum_append]; simp

/-- Sum of the loads of the arcs of a list that lead to `d`. -/
def loadTo (coar : Int → Int) (L : List (Int × Int)) (d : Int) : Int := ((L.filter (fun p => decide (coar p.1 = d))).map Prod.snd).sum

theorem loadTo_append (coar : Int → Int) (L L' : List (Int × Int)) (d : Int) : loadTo coar (L ++ L') d = loadTo coar L d + loadTo coar L' d := by
  unfold loadTo; rw [List.filter_append, List.map_append, List.sum_append]

theorem loadTo_nil (coar : Int → Int) (d : Int) : loadTo coar [] d = 0 := rfl

theorem loadTo_single (coar : Int → Int) (q : Int × Int) (d : Int) : loadTo coar [q] d = if coar q.1 = d then q.2 else 0 := by
  unfold loadTo
  by_cases h : coar q.1 = d <;> simp [h]

/-- Accumulated arcs of a list. -/
structure AccOf (coar : Int → Int) (c : Int) (L acc : List (Int × Int)) : Prop where
  nodup : (acc.map Prod.fst).Nodup
  keys : ∀ k, k ∈ acc.map Prod.fst ↔ k ≠ c ∧ ∃ q ∈ L, coar q.1 = k
  val : ∀ p ∈ acc, p.2 = loadTo coar L p.1
  length : acc.length ≤ L.length
  sum : (acc.map Prod.snd).sum + loadTo coar L c = (L.map Prod.snd).sum

theorem AccOf.nil (coar : Int → Int) (c : Int) : AccOf coar c [] [] := ⟨by simp, by simp, by simp, by simp, by simp [loadTo]⟩

theorem AccOf.snoc {coar : Int → Int} {c : Int} {L acc : List (Int × Int)} (A : AccOf coar c L acc) (q : Int × Int) : AccOf coar c (L ++ [q]) (stepA coar c acc q) := by
  unfold stepA
  by_cases hc : coar q.1 ≠ c
  · rw [if_pos hc]
    refine ⟨keys_addA_nodup A.nodup _ _, ?_, ?_, ?_, ?_⟩
    · intro k
      rw [keys_addA]
      have hk := A.keys k
      have hq := A.keys (coar q.1)
      by_cases h : coar q.1 ∈ acc.map Prod.fst
      · rw [if_pos h, hk]
        constructor
        · rintro ⟨h1, x, h2, h3⟩; exact ⟨h1, x, List.mem_append_left _ h2, h3⟩
        · rintro ⟨h1, x, h2, h3⟩
          refine ⟨h1, ?_⟩
          rw [List.mem_append, List.mem_singleton] at h2
          rcases h2 with h2 | h2
          · exact ⟨x, h2, h3⟩
          · obtain ⟨-, y, y1, y2⟩ := hq.1 h
            exact ⟨y, y1, by rw [y2, ← h3, h2]⟩
      · rw [if_neg h, List.mem_append, List.mem_singleton, hk]
        constructor
        · rintro (⟨h1, x, h2, h3⟩ | h1)
          · exact ⟨h1, x, List.mem_append_left _ h2, h3⟩
          · exact ⟨by rw [h1]; exact hc, q, by simp, h1.symm⟩
        · rintro ⟨h1, x, h2, h3⟩
          rw [List.mem_append, List.mem_singleton] at h2
          rcases h2 with h2 | h2
          · exact Or.inl ⟨h1, x, h2, h3⟩
          · right; rw [← h3, h2]
    · intro p hp
      rw [loadTo_append, loadTo_single]
      unfold addA at hp
      by_cases h : coar q.1 ∈ acc.map Prod.fst
      · rw [if_pos h, List.mem_map] at hp
        obtain ⟨p', h1, h2⟩ := hp
        have hv := A.val p' h1
        by_cases e : p'.1 = coar q.1
        · rw [if_pos e] at h2
          rw [← h2]; dsimp only
          rw [if_pos e.symm, hv]
        · rw [if_neg e] at h2
          rw [← h2, if_neg (fun h => e h.symm), hv]; ring
      · rw [if_neg h, List.mem_append, List.mem_singleton] at hp
        rcases hp with hp | hp
        · have e : coar q.1 ≠ p.1 := fun e => h (by rw [e]; exact List.mem_map_of_mem hp)
          rw [if_neg e, A.val p hp]; ring
        · rw [hp]; dsimp only
          rw [if_pos rfl]
          have : loadTo coar L (coar q.1) = 0 := by
            unfold loadTo
            rw [List.filter_eq_nil_iff.2]
            · rfl
            · intro x hx
              rw [decide_eq_true_iff]
              intro e
              exact h ((A.keys (coar q.1)).2 ⟨hc, x, hx, e⟩)
          rw [this]; ring
    · have := (length_addA acc (coar q.1) q.2).1
      have := A.length
      rw [List.length_append, List.length_singleton]; omega
    · rw [sum_addA A.nodup, loadTo_append, loadTo_single, if_neg hc, List.map_append, List.sum_append, ← A.sum]
      simp; ring
  · rw [if_neg hc]
    have hc' := Classical.not_not.1 hc
    refine ⟨A.nodup, ?_, ?_, ?_, ?_⟩
    · intro k
      rw [A.keys k]
      constructor
      · rintro ⟨h1, x, h2, h3⟩; exact ⟨h1, x, List.mem_append_left _ h2, h3⟩
      · rintro ⟨h1, x, h2, h3⟩
        rw [List.mem_append, List.mem_singleton] at h2
        rcases h2 with h2 | h2
        · exact ⟨h1, x, h2, h3⟩
        · rw [h2, hc'] at h3; exact absurd h3.symm h1
    · intro p hp
      have hne : p.1 ≠ c := ((A.keys p.1).1 (List.mem_map_of_mem hp)).1
      rw [loadTo_append, loadTo_single, if_neg (by rw [hc']; exact fun h => hne h.symm), A.val p hp]; ring
    · have := A.length
      rw [List.length_append]; omega
    · rw [loadTo_append, loadTo_single, if_pos hc', List.map_append, List.sum_append, ← A.sum]
      simp; ring

theorem AccOf.append {coar : Int → Int} {c : Int} (L' : List (Int × Int)) : ∀ {L acc : List (Int × Int)}, AccOf coar c L acc → AccOf coar c (L ++ L') (L'.foldl (stepA coar c) acc) := by
  induction L' with
  | nil => intro L acc A; simpa using A
  | cons q t ih =>
    intro L acc A
    have := ih (A.snoc q)
    rw [List.append_assoc] at this
    exact this

theorem AccOf.foldl (coar : Int → Int) (c : Int) (L : List (Int × Int)) : AccOf coar c L (L.foldl (stepA coar c) []) := by
  have := (AccOf.nil coar c).append L
  simpa using this

end Scotch.Coarsen
