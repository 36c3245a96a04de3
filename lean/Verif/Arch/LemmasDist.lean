import Verif.Arch.LemmasMesh
import Verif.Arch.LemmasCmplt

/-! # Distances: meshes, tori, complete graphs, hypercubes -/

set_option autoImplicit false
set_option linter.unusedSimpArgs false

namespace Scotch.Arch

open ArchSpec

namespace Mesh

theorem total_cons_lt {c : Int} {cs : List Int} {a : Int} (hc : 1 ≤ c) (h : a < total (c :: cs)) :
    a / c < total cs := by
  simp only [total] at h
  exact Int.ediv_lt_of_lt_mul (by omega) (by rw [Int.mul_comm]; exact h)

theorem eq_of_parts {a b c : Int} (h1 : a % c = b % c) (h2 : a / c = b / c) : a = b := by
  have e1 := Int.mul_ediv_add_emod a c
  have e2 := Int.mul_ediv_add_emod b c
  rw [h2, h1] at e1
  omega

theorem manhattan_metric : ∀ cs, Pos cs → IsMetric (total cs) (manhattan cs)
  | [], _ => by
    intro a b c h1 h2 h3 h4 h5 h6
    simp only [total] at h2 h4 h6
    simp [manhattan]
    omega
  | x :: cs, hp => by
    intro a b c h1 h2 h3 h4 h5 h6
    have hx := hp.1
    obtain ⟨i1, i2, i3, i4⟩ := manhattan_metric cs hp.2 (a / x) (b / x) (c / x)
      (Int.ediv_nonneg h1 (by omega)) (total_cons_lt hx h2) (Int.ediv_nonneg h3 (by omega))
      (total_cons_lt hx h4) (Int.ediv_nonneg h5 (by omega)) (total_cons_lt hx h6)
    simp only [manhattan]
    refine ⟨by omega, by omega, ?_, by omega⟩
    constructor
    · intro h
      exact eq_of_parts (c := x) (by omega) (i3.1 (by omega))
    · rintro rfl
      have := i3.2 rfl
      omega

theorem torus_metric : ∀ cs, Pos cs → IsMetric (total cs) (torus cs)
  | [], _ => by
    intro a b c h1 h2 h3 h4 h5 h6
    simp only [total] at h2 h4 h6
    simp [torus]
    omega
  | x :: cs, hp => by
    intro a b c h1 h2 h3 h4 h5 h6
    have hx := hp.1
    obtain ⟨i1, i2, i3, i4⟩ := torus_metric cs hp.2 (a / x) (b / x) (c / x)
      (Int.ediv_nonneg h1 (by omega)) (total_cons_lt hx h2) (Int.ediv_nonneg h3 (by omega))
      (total_cons_lt hx h4) (Int.ediv_nonneg h5 (by omega)) (total_cons_lt hx h6)
    have ma := Int.emod_nonneg a (show x ≠ 0 by omega)
    have mb := Int.emod_nonneg b (show x ≠ 0 by omega)
    have mc := Int.emod_nonneg c (show x ≠ 0 by omega)
    have ma' := Int.emod_lt_of_pos a (show 0 < x by omega)
    have mb' := Int.emod_lt_of_pos b (show 0 < x by omega)
    have mc' := Int.emod_lt_of_pos c (show 0 < x by omega)
    simp only [torus]
    refine ⟨by omega, by omega, ?_, by omega⟩
    constructor
    · intro h
      exact eq_of_parts (c := x) (by omega) (i3.1 (by omega))
    · rintro rfl
      have := i3.2 rfl
      omega

theorem wrapSum_point : ∀ cs a b, Pos cs → wrapSum cs (point cs a) (point cs b) = 2 * torus cs a b
  | [], _, _, _ => by simp [wrapSum, torus]
  | c :: cs, a, b, hp => by
    have ih := wrapSum_point cs (a / c) (b / c) hp.2
    simp only [point, coords, List.map_cons, wrapSum, torus, wrap] at *
    rw [ih]
    split <;> omega

theorem distX_spec (cs : List Int) (hp : Pos cs) (o : ArchOps Dom) (ho : o.dist = distX cs)
    (ht : ∀ k, 0 ≤ k → o.term k = .ok (if k < total cs then some (point cs k) else none)) :
    DistLaw o (total cs) (torus cs) := by
  intro a b h1 h2 h3 h4
  refine ⟨point cs a, point cs b, by rw [ht a h1, if_pos h2], by rw [ht b h3, if_pos h4], ?_⟩
  rw [ho]
  simp only [distX, wrapSum_point cs a b hp]
  rw [show 2 * torus cs a b / 2 = torus cs a b by omega]
  rfl

theorem term2_spec (c0 c1 : Int) (h0 : 1 ≤ c0) (h1 : 1 ≤ c1) (k : Int) (hk : 0 ≤ k) :
    (ops2 c0 c1).term k = .ok (if k < total [c0, c1] then some (point [c0, c1] k) else none) := by
  have h := addLaws2 c0 c1 h0 h1
  by_cases hlt : k < total [c0, c1]
  · rw [if_pos hlt]
    obtain ⟨r, e, d, rfl, -, -, hu⟩ := Holds_iff_exists.1 (h.term k hk hlt)
    rw [e, hu (point [c0, c1] k) (point_valid _ _ ⟨h0, h1, trivial⟩)
      (fun j => point_has _ k j ⟨h0, h1, trivial⟩ hk hlt)]
  · rw [if_neg hlt]
    obtain ⟨r, e, rfl⟩ := Holds_iff_exists.1 (h.term_big k (by omega))
    exact e

theorem term3_spec (c0 c1 c2 : Int) (h0 : 1 ≤ c0) (h1 : 1 ≤ c1) (h2 : 1 ≤ c2) (k : Int) (hk : 0 ≤ k) :
    (ops3 c0 c1 c2).term k = .ok (if k < total [c0, c1, c2] then some (point [c0, c1, c2] k) else none) := by
  have h := addLaws3 c0 c1 c2 h0 h1 h2
  by_cases hlt : k < total [c0, c1, c2]
  · rw [if_pos hlt]
    obtain ⟨r, e, d, rfl, -, -, hu⟩ := Holds_iff_exists.1 (h.term k hk hlt)
    rw [e, hu (point [c0, c1, c2] k) (point_valid _ _ ⟨h0, h1, h2, trivial⟩)
      (fun j => point_has _ k j ⟨h0, h1, h2, trivial⟩ hk hlt)]
  · rw [if_neg hlt]
    obtain ⟨r, e, rfl⟩ := Holds_iff_exists.1 (h.term_big k (by omega))
    exact e

theorem centre_point (x y : Int) : centre (x, x) (y, y) = (x - y).natAbs := by
  simp only [centre]
  rw [Int.tdiv_eq_ediv_of_nonneg (by omega)]
  omega

theorem dist2_spec (c0 c1 : Int) (h0 : 1 ≤ c0) (h1 : 1 ≤ c1) :
    DistLaw (ops2 c0 c1) (total [c0, c1]) (manhattan [c0, c1]) := by
  intro a b a1 a2 b1 b2
  refine ⟨_, _, by rw [term2_spec c0 c1 h0 h1 a a1, if_pos a2], by rw [term2_spec c0 c1 h0 h1 b b1, if_pos b2], ?_⟩
  simp only [ops2, point, coords, List.map_cons, List.map_nil, dist2, centre_point, manhattan, Int.add_zero]
  rfl

theorem dist3_spec (c0 c1 c2 : Int) (h0 : 1 ≤ c0) (h1 : 1 ≤ c1) (h2 : 1 ≤ c2) :
    DistLaw (ops3 c0 c1 c2) (total [c0, c1, c2]) (manhattan [c0, c1, c2]) := by
  intro a b a1 a2 b1 b2
  refine ⟨_, _, by rw [term3_spec c0 c1 c2 h0 h1 h2 a a1, if_pos a2],
    by rw [term3_spec c0 c1 c2 h0 h1 h2 b b1, if_pos b2], ?_⟩
  simp only [ops3, point, coords, List.map_cons, List.map_nil, dist3, centre_point, manhattan, Int.add_zero,
    Int.add_assoc]
  rfl

theorem distT2_spec (c0 c1 : Int) (h0 : 1 ≤ c0) (h1 : 1 ≤ c1) :
    DistLaw (opsT2 c0 c1) (total [c0, c1]) (torus [c0, c1]) := by
  intro a b a1 a2 b1 b2
  refine ⟨_, _, by simp only [opsT2]; rw [term2_spec c0 c1 h0 h1 a a1, if_pos a2],
    by simp only [opsT2]; rw [term2_spec c0 c1 h0 h1 b b1, if_pos b2], ?_⟩
  have := wrapSum_point [c0, c1] a b ⟨h0, h1, trivial⟩
  simp only [opsT2, point, coords, List.map_cons, List.map_nil, torusDist2, wrapSum, Int.add_zero] at *
  rw [this, show 2 * torus [c0, c1] a b / 2 = torus [c0, c1] a b by omega]
  rfl

theorem distT3_spec (c0 c1 c2 : Int) (h0 : 1 ≤ c0) (h1 : 1 ≤ c1) (h2 : 1 ≤ c2) :
    DistLaw (opsT3 c0 c1 c2) (total [c0, c1, c2]) (torus [c0, c1, c2]) := by
  intro a b a1 a2 b1 b2
  refine ⟨_, _, by simp only [opsT3]; rw [term3_spec c0 c1 c2 h0 h1 h2 a a1, if_pos a2],
    by simp only [opsT3]; rw [term3_spec c0 c1 c2 h0 h1 h2 b b1, if_pos b2], ?_⟩
  have := wrapSum_point [c0, c1, c2] a b ⟨h0, h1, h2, trivial⟩
  simp only [opsT3, point, coords, List.map_cons, List.map_nil, torusDist3, wrapSum, Int.add_zero,
    Int.add_assoc] at *
  rw [this, show 2 * torus [c0, c1, c2] a b / 2 = torus [c0, c1, c2] a b by omega]
  rfl

end Mesh

namespace Cmplt

theorem dist_spec (n : Int) (hn : 1 ≤ n) :
    DistLaw (ops n) n (fun a b => if a = b then 0 else 1) := by
  intro a b a1 a2 b1 b2
  refine ⟨⟨a, 1⟩, ⟨b, 1⟩, by simp only [ops, term]; rw [if_pos a2]; rfl,
    by simp only [ops, term]; rw [if_pos b2]; rfl, ?_⟩
  simp only [ops, dist, and_true]
  rfl

end Cmplt

namespace Hcub

theorem bit_succ (k i : Nat) : (k >>> 1).testBit i = k.testBit (i + 1) := by
  rw [Nat.testBit_shiftRight, Nat.add_comm]

theorem ones_spec : ∀ (i k j : Nat),
    onesLoop i k j = j + ((List.range i).filter fun x => k.testBit x).length
  | 0, _, _ => by simp [onesLoop]
  | i + 1, k, j => by
    simp only [onesLoop, ones_spec i]
    rw [List.range_succ_eq_map, List.filter_cons, List.filter_map]
    have e : ((fun x => k.testBit x) ∘ Nat.succ) = fun x => (k >>> 1).testBit x := by
      funext x
      simp [Nat.add_comm]
    rw [e, Nat.and_one_is_mod, Nat.testBit_zero]
    by_cases h : k % 2 = 1
    · simp [h]; omega
    · have : k % 2 = 0 := by omega
      simp [this]

theorem hamming_succ (n a b : Nat) :
    hamming (n + 1) a b = hamming n a b + (if a.testBit n = b.testBit n then 0 else 1) := by
  unfold hamming
  rw [List.range_succ, List.filter_append, List.length_append]
  congr 1
  by_cases h : a.testBit n = b.testBit n <;> simp [h]

theorem hamming_comm (n a b : Nat) : hamming n a b = hamming n b a := by
  induction n with
  | zero => rfl
  | succ n ih => rw [hamming_succ, hamming_succ, ih]; simp only [eq_comm]

theorem hamming_triangle (n a b c : Nat) : hamming n a c ≤ hamming n a b + hamming n b c := by
  induction n with
  | zero => simp [hamming]
  | succ n ih =>
    rw [hamming_succ, hamming_succ, hamming_succ]
    generalize a.testBit n = x
    generalize b.testBit n = y
    generalize c.testBit n = z
    cases x <;> cases y <;> cases z <;> simp <;> omega

theorem hamming_zero (n a b : Nat) : hamming n a b = 0 ↔ ∀ i, i < n → a.testBit i = b.testBit i := by
  induction n with
  | zero => simp [hamming]
  | succ n ih =>
    rw [hamming_succ, Nat.add_eq_zero_iff, ih]
    constructor
    · rintro ⟨h1, h2⟩ i hi
      by_cases h : i = n
      · subst h; by_contra hc; rw [if_neg hc] at h2; omega
      · exact h1 i (by omega)
    · intro h
      exact ⟨fun i hi => h i (by omega), by rw [if_pos (h n (by omega))]⟩

theorem hamming_metric (n : Nat) : IsMetric (2 ^ n) (fun a b => (hamming n a.toNat b.toNat : Int)) := by
  intro a b c a1 a2 b1 b2 c1 c2
  dsimp only
  refine ⟨by omega, by rw [hamming_comm], ?_, by exact_mod_cast hamming_triangle n _ _ _⟩
  have e : (2 : Int) ^ n = ((2 ^ n : Nat) : Int) := by push_cast; rfl
  rw [e] at a2 b2
  constructor
  · intro h
    have h0 := (hamming_zero n _ _).1 (by exact_mod_cast h)
    have : a.toNat = b.toNat := by
      apply Nat.eq_of_testBit_eq
      intro i
      by_cases hi : i < n
      · exact h0 i hi
      · have hp : 2 ^ n ≤ 2 ^ i := Nat.pow_le_pow_right (by omega) (by omega)
        rw [Nat.testBit_lt_two_pow (by omega), Nat.testBit_lt_two_pow (by omega)]
    omega
  · rintro rfl
    have := (hamming_zero n a.toNat a.toNat).2 (fun _ _ => rfl)
    exact_mod_cast this

theorem dist_spec (n : Nat) (hn : n ≤ 30) :
    DistLaw (ops n) (2 ^ n) (fun a b => (hamming n a.toNat b.toNat : Int)) := by
  intro a b a1 a2 b1 b2
  refine ⟨⟨0, a.natAbs⟩, ⟨0, b.natAbs⟩, ?_, ?_, ?_⟩
  · simp only [ops, term, shl1]
    rw [if_pos (by omega)]
    simp only [bind, Except.bind]
    rw [if_pos a2]; rfl
  · simp only [ops, term, shl1]
    rw [if_pos (by omega)]
    simp only [bind, Except.bind]
    rw [if_pos b2]; rfl
  · have ea : a.natAbs = a.toNat := by omega
    have eb : b.natAbs = b.toNat := by omega
    simp only [ops, dist, ones_spec, ea, eb]
    simp only [gt_iff_lt, Nat.lt_irrefl, if_false, Nat.sub_zero, Nat.zero_div, Nat.shiftRight_zero,
      Nat.zero_add, Nat.testBit_xor, hamming]
    rfl

end Hcub
end Scotch.Arch
