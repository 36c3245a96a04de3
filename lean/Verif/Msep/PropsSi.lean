import Verif.Msep.ModelSi
import Verif.Msep.PropsInduce

/-!
# C69: orderings of meshes as they are

With the simple method of ordering, nodes of meshes and of submeshes are ordered as they are numbered.
-/

set_option autoImplicit false

namespace Scotch.Msep

/-- A loop that fills consecutive cells. -/
theorem fill_ok (f : Int → Int) {lo hi k : Int} (hle : lo ≤ hi) (peri : Arr Int) (body : Int → Arr Int → M (Arr Int)) (hb : ∀ v a, lo ≤ v → v < hi → body v a = a.wr (k + (v - lo)) (f v)) (h1 : peri.lo ≤ k) (h2 : k + (hi - lo) ≤ peri.hi) :
    ∃ r, forUp lo hi peri body = .ok r ∧ (r.lo = peri.lo ∧ r.hi = peri.hi) ∧ (∀ v, lo ≤ v → v < hi → r.get (k + (v - lo)) = f v) ∧ ∀ x, x < k ∨ k + (hi - lo) ≤ x → r.get x = peri.get x := by
  suffices Holds (forUp lo hi peri body) (fun r => (r.lo = peri.lo ∧ r.hi = peri.hi) ∧ (∀ v, lo ≤ v → v < hi → r.get (k + (v - lo)) = f v) ∧ ∀ x, x < k ∨ k + (hi - lo) ≤ x → r.get x = peri.get x) from Holds_iff_exists.1 this
  apply Holds_forUp (fun i (r : Arr Int) => (r.lo = peri.lo ∧ r.hi = peri.hi) ∧ (∀ v, lo ≤ v → v < i → r.get (k + (v - lo)) = f v) ∧ ∀ x, x < k ∨ k + (i - lo) ≤ x → r.get x = peri.get x) hle
  · exact ⟨⟨rfl, rfl⟩, fun v _ _ => by omega, fun _ _ => rfl⟩
  · rintro i r i1 i2 ⟨⟨a1, a2⟩, a3, a4⟩
    rw [hb i r i1 i2, Arr.wr_ok _ _ (by omega) (by omega)]
    refine ⟨⟨a1, a2⟩, fun v v1 v2 => ?_, fun x hx => ?_⟩
    · by_cases q : v = i
      · rw [q, Arr.set_get_same]
      · rw [Arr.set_get_ne _ _ (by omega)]; exact a3 v v1 (by omega)
    · rw [Arr.set_get_ne _ _ (by omega)]; exact a4 x (by omega)
  · exact fun r hr => hr

/-- The simple method ends without access out of arrays, and writes the nodes that are not in the halo, in order, by their numbers in the mesh of the user, in its part of the inverse permutation only. Without array `vnumtax`, the mesh is the one of the user, all of whose nodes are to be ordered. -/
theorem C69_simple (h : Hmesh) (H : h.Consistent) (org : Option (Arr Int)) (base n ordenum : Int) (ho : org = none → base = h.m.baseval ∧ n = h.vnohnbr) (ha : ∀ o, org = some o → o.lo ≤ h.m.vnodbas ∧ h.vnohnnd ≤ o.hi)
    (peri : Arr Int) (h1 : peri.lo ≤ ordenum) (h2 : ordenum + h.vnohnbr ≤ peri.hi) : ∃ r, orderSi h org base n ordenum peri = .ok r ∧ InOrder h org ordenum peri r := by
  have n1 := H.vnohnbr.1
  have n2 := H.vnohnnd
  cases org with
  | none =>
    obtain ⟨rfl, rfl⟩ := ho rfl
    obtain ⟨r, e, s1, s2, s3⟩ := fill_ok (fun v => v) (lo := h.m.baseval) (hi := h.m.baseval + h.vnohnbr) (k := ordenum) (by omega) peri (fun v a => a.wr (ordenum + (v - h.m.baseval)) v) (fun _ _ _ _ => rfl) h1 (by omega)
    refine ⟨r, e, s1, fun x hx => ?_, fun x hx => s3 x (by omega)⟩
    have := hx.1
    have := hx.2
    have k := s2 (x - (h.m.vnodbas - h.m.baseval)) (by omega) (by omega)
    have z : x - (h.m.vnodbas - h.m.baseval) - h.m.baseval = x - h.m.vnodbas := by omega
    rw [z] at k
    exact k
  | some o =>
    obtain ⟨o1, o2⟩ := ha o rfl
    obtain ⟨r, e, s1, s2, s3⟩ := fill_ok o.get (lo := h.m.vnodbas) (hi := h.vnohnnd) (k := ordenum) (by omega) peri (fun v a => do a.wr (ordenum + (v - h.m.vnodbas)) (← o.rd v)) (fun v a v1 v2 => by rw [Arr.rd_ok o (by omega) (by omega)]; rfl) h1 (by omega)
    exact ⟨r, e, s1, fun x hx => s2 x hx.1 hx.2, fun x hx => s3 x (by omega)⟩

/-- On the submesh of a part, the nodes of the part of the original mesh are written, by their numbers in the mesh of the user, and nothing else.

What is missing: that the submesh is built without access out of arrays, which is assumed. -/
theorem C69_submesh_partial (h : Hmesh) (H : h.Consistent) (org : Option (Arr Int)) (part : Arr Int) (pv velmnbr vnodnbr vnspnbr : Int) (S : Separation h part pv velmnbr vnodnbr vnspnbr) (junk : Int → Int) (r : Hmesh) (vnum : Arr Int)
    (hr : hmeshInducePart junk h org part pv velmnbr vnodnbr vnspnbr = .ok (r, vnum)) (base n ordenum : Int) (peri p : Arr Int) (hv : vnum.lo ≤ r.m.vnodbas ∧ r.vnohnnd ≤ vnum.hi) (h1 : peri.lo ≤ ordenum) (h2 : ordenum + r.vnohnbr ≤ peri.hi)
    (hp : orderSi r (some vnum) base n ordenum peri = .ok p) :
    (∀ v, h.Inner v → part.get v = pv → ∃ i, ordenum ≤ i ∧ i < ordenum + r.vnohnbr ∧ p.get i = orgNum h org v) ∧ ∀ i, ordenum ≤ i → i < ordenum + r.vnohnbr → ∃ v, h.Inner v ∧ part.get v = pv ∧ p.get i = orgNum h org v := by
  have C := C66_consistent_partial h H org part pv velmnbr vnodnbr vnspnbr S junk r vnum hr
  obtain ⟨num, I⟩ := C66_induce_partial h H org part pv velmnbr vnodnbr vnspnbr S junk r vnum hr
  obtain ⟨q, e, O⟩ := C69_simple r C (some vnum) base n ordenum (fun k => by cases k) (fun o k => by cases k; exact hv) peri h1 h2
  rw [e] at hp
  cases hp
  have n2 := C.vnohnnd
  refine ⟨fun v hi hpv => ?_, fun i i1 i2 => ?_⟩
  · have x := I.node v hi hpv
    have x1 := x.1
    have x2 := x.2
    refine ⟨ordenum + (num v - r.m.vnodbas), by omega, by omega, ?_⟩
    rw [O.nodes _ x]
    exact I.vnum v hi hpv
  · have x : r.Inner (i - ordenum + r.m.vnodbas) := ⟨by omega, by omega⟩
    obtain ⟨v, v1, v2, v3⟩ := I.node_surj _ x
    refine ⟨v, v1, v2, ?_⟩
    have k := O.nodes _ x
    have z : ordenum + (i - ordenum + r.m.vnodbas - r.m.vnodbas) = i := by omega
    rw [z] at k
    rw [k, ← v3]
    exact I.vnum v v1 v2

/-! ## Cases -/

example := C69_simple exWhole exWhole_cons none 0 4 0 (fun _ => by decide) (fun o k => by cases k) ⟨0, 4, fun _ => 7⟩ (by decide) (by decide)

example (r : Hmesh) (vnum : Arr Int) (hr : hmeshInducePart (fun _ => 9) exWhole none exCut 1 1 1 2 = .ok (r, vnum)) := C69_submesh_partial exWhole exWhole_cons none exCut 1 1 1 2 exCut_sep (fun _ => 9) r vnum hr

end Scotch.Msep
