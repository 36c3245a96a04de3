import Verif.Arch.LemmasMatch

/-! # Matchings of meshes: facts -/

set_option autoImplicit false
set_option linter.unusedSimpArgs false

namespace Scotch.Arch.Mesh

theorem fold_total : ∀ (l : List Int) (s : Int), l.foldl (fun s c => s * c) s = s * total l
  | [], s => by simp [total]
  | c :: l, s => by rw [List.foldl_cons, fold_total l, total, Int.mul_assoc]

theorem total_append : ∀ l l', total (l ++ l') = total l * total l'
  | [], l' => by simp [total]
  | c :: l, l' => by rw [List.cons_append, total, total, total_append l l', Int.mul_assoc]

/-- Product of the dimensions around the one that is coarsened. -/
theorem total_at (l : List Int) (k : Nat) (c : Int) (h : l[k]? = some c) :
    total l = total (l.take k) * (c * total (l.drop (k + 1))) := by
  have hk : k < l.length := (List.getElem?_eq_some_iff.1 h).1
  have hc : l[k] = c := (List.getElem?_eq_some_iff.1 h).2
  conv => lhs; rw [← List.take_append_drop k l]
  rw [total_append, List.drop_eq_getElem_cons hk, total, hc]

theorem total_set (l : List Int) (k : Nat) (c c' : Int) (h : l[k]? = some c) :
    total (l.set k c') = total (l.take k) * (c' * total (l.drop (k + 1))) := by
  have hk : k < l.length := (List.getElem?_eq_some_iff.1 h).1
  have h' : (l.set k c')[k]? = some c' := by simp [hk]
  rw [total_at _ k c' h', List.take_set_of_le (Nat.le_refl _), List.drop_set_of_lt (by omega)]

theorem pos_iff : ∀ l, Pos l ↔ ∀ c ∈ l, 1 ≤ c
  | [] => by simp [Pos]
  | c :: l => by simp [Pos, pos_iff l]

theorem pos_set {l : List Int} (k : Nat) {c : Int} (h : Pos l) (hc : 1 ≤ c) : Pos (l.set k c) := by
  rw [pos_iff] at *
  intro x hx
  rcases List.mem_or_eq_of_mem_set hx with h' | h'
  · exact h x h'
  · omega

theorem pos_take {l : List Int} (k : Nat) (h : Pos l) : Pos (l.take k) := by
  rw [pos_iff] at *; intro x hx; exact h x (List.mem_of_mem_take hx)

theorem pos_drop {l : List Int} (k : Nat) (h : Pos l) : Pos (l.drop k) := by
  rw [pos_iff] at *; intro x hx; exact h x (List.mem_of_mem_drop hx)

theorem total_one : ∀ l, Pos l → (∀ c ∈ l, c ≤ 1) → total l = 1
  | [], _, _ => rfl
  | c :: l, h, h1 => by
    have := h1 c (by simp)
    have := h.1
    rw [total, total_one l h.2 (fun c hc => h1 c (by simp [hc])), show c = 1 by omega]; rfl

theorem rdL_ok {l : List Int} {k : Nat} {c : Int} (h : l[k]? = some c) : rdL l k = .ok c := by unfold rdL; rw [h]

structure MInv (m : Match) (n : Int) : Prop where
  pos : Pos m.dimntab
  nbr : n = total m.dimntab
  dim : m.dimnnum < m.dimntab.length
  plen : m.passtab.length = m.dimntab.length
  pass : ∀ p ∈ m.passtab, p = 0 ∨ p = 1
  lo : m.multtab.lo = 0
  room : n ≤ m.multtab.hi ∨ m.dimnnum = 0 ∧ ∃ c0 l, m.dimntab = c0 :: l ∧ (c0 + 1) / 2 * total l ≤ m.multtab.hi

theorem matchInit_inv (junk : Int → Multi) {cs : List Int} (hp : Pos cs) (hne : cs ≠ []) : Holds (matchInit junk cs) (fun m => MInv m (total cs)) := by
  cases cs with
  | nil => exact absurd rfl hne
  | cons c0 l =>
    unfold matchInit
    rw [rdL_ok (c := c0) (by simp), ok_bind, Holds_pure]
    refine ⟨hp, rfl, by simp, by simp, ?_, rfl, Or.inr ⟨rfl, c0, l, rfl, ?_⟩⟩
    · intro p hp'
      dsimp only at hp'
      rw [List.mem_map] at hp'
      obtain ⟨_, _, rfl⟩ := hp'
      exact Or.inl rfl
    · show _ ≤ _
      dsimp only
      rw [fold_total]
      exact Int.le_refl _

/-- Last dimension tried. -/
theorem last_dim {d n : Nat} (h : d < n) : (d + n - 1) % n = if d = 0 then n - 1 else d - 1 := by
  by_cases h0 : d = 0
  · rw [if_pos h0, h0, Nat.zero_add]; exact Nat.mod_eq_of_lt (by omega)
  · rw [if_neg h0, show d + n - 1 = (d - 1) + n by omega, Nat.add_mod_right]; exact Nat.mod_eq_of_lt (by omega)

theorem next_dim {k n : Nat} (h : k < n) : (k + 1) % n = if k + 1 = n then 0 else k + 1 := by
  by_cases h0 : k + 1 = n
  · rw [if_pos h0, h0, Nat.mod_self]
  · rw [if_neg h0]; exact Nat.mod_eq_of_lt (by omega)

theorem matchDim_holds {m : Match} (hd : m.dimnnum < m.dimntab.length) : Holds (matchDim m) (fun r => match r with
    | none => ∀ c ∈ m.dimntab, c ≤ 1
    | some k => (∃ c, m.dimntab[k]? = some c ∧ 1 < c) ∧ (m.dimnnum = 0 → ∀ c, m.dimntab[0]? = some c → 1 < c → k = 0)) := by
  unfold matchDim
  dsimp only
  refine Holds_loopM (fun k : Nat => k < m.dimntab.length ∧ ∀ j c, m.dimntab[j]? = some c → ((m.dimnnum ≤ k ∧ m.dimnnum ≤ j ∧ j < k) ∨ (k < m.dimnnum ∧ (m.dimnnum ≤ j ∨ j < k))) → c ≤ 1)
    (fun k => if m.dimnnum ≤ k then m.dimntab.length - k + m.dimnnum else m.dimnnum - k) ?_ _ _ ⟨hd, fun j c _ h => by omega⟩ (by split <;> omega)
  rintro k ⟨k1, k2⟩
  have hk : m.dimntab[k]? = some m.dimntab[k] := List.getElem?_eq_getElem k1
  rw [rdL_ok hk, ok_bind]
  rw [Holds_ite, Holds_ite]
  constructor
  · intro hc
    constructor
    · intro he
      rw [Holds_pure]
      rw [last_dim hd] at he
      show ∀ c ∈ m.dimntab, c ≤ 1
      intro c hm
      obtain ⟨j, hj, rfl⟩ := List.getElem_of_mem hm
      by_cases hjk : j = k
      · subst hjk; exact hc
      · refine k2 j _ (List.getElem?_eq_getElem hj) ?_
        split at he <;> omega
    · intro he
      rw [Holds_pure]
      rw [last_dim hd] at he
      rw [next_dim k1]
      refine ⟨⟨by split <;> omega, ?_⟩, ?_⟩
      · intro j c hj h
        have hjl : j < m.dimntab.length := (List.getElem?_eq_some_iff.1 hj).1
        by_cases hjk : j = k
        · rw [hjk, hk, Option.some.injEq] at hj; omega
        · refine k2 j _ hj ?_
          split at he <;> split at h <;> omega
      · split at he <;> split <;> split <;> split <;> omega
  · intro hc
    rw [Holds_pure]
    refine ⟨⟨_, hk, by omega⟩, ?_⟩
    intro h0 c hc0 hc1
    refine Classical.byContradiction fun hk0 => ?_
    have := k2 0 c hc0 (by omega)
    omega

/-! ## The loop on fine vertices -/

/-- Index along the coarsened dimension. -/
def idx (D b v : Int) : Int := v / D % b

/-- The fine vertices from which coarse vertices are made. -/
def Start (b p : Int) (i : Int) : Prop := (b % 2 = 1 ∧ i = (if p ≠ 0 then 0 else b - 1)) ∨ i % 2 = p

/-- Number of starting indices before `i`. -/
def cnt (p i : Int) : Int := if p = 0 then (i + 1) / 2 else if i = 0 then 0 else 1 + i / 2

structure PInv (D b p Q : Int) (v : Int) (s : Pairing) : Prop where
  lo : s.multtab.lo = 0
  hi : Q * ((b + 1) / 2) * D ≤ s.multtab.hi
  coord : ∃ q i r, v = (q * b + i) * D + r ∧ 0 ≤ q ∧ 0 ≤ i ∧ i < b ∧ 0 ≤ r ∧ r < D ∧ s.indx = i ∧ s.tmp = (q * b + i) * D + D - 1 ∧
    (Start b p i → s.coar = (q * ((b + 1) / 2) + cnt p i) * D + r) ∧ (¬ Start b p i → s.coar = (q * ((b + 1) / 2) + cnt p i) * D)
  cells : ∀ c, 0 ≤ c → c < s.coar → 0 ≤ (s.multtab.get c).1 ∧ (s.multtab.get c).1 < v ∧ Start b p (idx D b (s.multtab.get c).1) ∧
    (s.multtab.get c).2 = (if b % 2 = 1 ∧ idx D b (s.multtab.get c).1 = (if p ≠ 0 then 0 else b - 1) then (s.multtab.get c).1 else (s.multtab.get c).1 + D)
  inj : ∀ c c', 0 ≤ c → c < s.coar → 0 ≤ c' → c' < s.coar → (s.multtab.get c).1 = (s.multtab.get c').1 → c = c'
  surj : ∀ f, 0 ≤ f → f < v → Start b p (idx D b f) → ∃ c, 0 ≤ c ∧ c < s.coar ∧ (s.multtab.get c).1 = f

theorem idx_of {D b q i r : Int} (hi : 0 ≤ i) (hb : i < b) (hr : 0 ≤ r) (hD : r < D) : idx D b ((q * b + i) * D + r) = i := by
  unfold idx
  rw [(compose hr hD).2, (compose hi hb).1]

theorem coords_of {D b v : Int} (hD : 1 ≤ D) (hb : 1 ≤ b) : v = (v / D / b * b + idx D b v) * D + v % D ∧ 0 ≤ idx D b v ∧ idx D b v < b ∧ 0 ≤ v % D ∧ v % D < D := by
  unfold idx
  have e1 := Int.mul_ediv_add_emod v D
  have e2 := Int.mul_ediv_add_emod (v / D) b
  refine ⟨?_, Int.emod_nonneg _ (by omega), Int.emod_lt_of_pos _ (by omega), Int.emod_nonneg _ (by omega), Int.emod_lt_of_pos _ (by omega)⟩
  rw [Int.mul_comm (v / D / b) b, e2, Int.mul_comm]
  omega

theorem coord_unique {D b q i r q' i' r' : Int} (hi : 0 ≤ i) (hb : i < b) (hr : 0 ≤ r) (hD : r < D) (hi' : 0 ≤ i') (hb' : i' < b) (hr' : 0 ≤ r') (hD' : r' < D)
    (h : (q * b + i) * D + r = (q' * b + i') * D + r') : q = q' ∧ i = i' ∧ r = r' := by
  have a1 := compose (c := D) (k := q * b + i) hr hD
  have a2 := compose (c := D) (k := q' * b + i') hr' hD'
  have b1 := compose (c := b) (k := q) hi hb
  have b2 := compose (c := b) (k := q') hi' hb'
  rw [h] at a1
  have e : q * b + i = q' * b + i' := by omega
  rw [e] at b1
  omega

theorem start_cases {b p i : Int} (hp : (b % 2 = 1 ∧ (p = 0 ∨ p = 1)) ∨ (b % 2 = 0 ∧ p = 0)) (hi : 0 ≤ i) (hb : i < b) :
    (Start b p i → cnt p i + 1 ≤ (b + 1) / 2) ∧ (Start b p i → cnt p (i + 1) = cnt p i + 1) ∧ (¬ Start b p i → cnt p (i + 1) = cnt p i) ∧ cnt p b = (b + 1) / 2 ∧ cnt p 0 = 0 ∧ 0 ≤ cnt p i := by
  unfold Start cnt
  rcases hp with ⟨h1, h2 | h2⟩ | ⟨h1, h2⟩ <;> subst h2
  · refine ⟨?_, ?_, ?_, ?_, ?_, ?_⟩ <;> simp <;> omega
  · have e : ¬ i + 1 = 0 := by omega
    have e' : ¬ b = 0 := by omega
    by_cases h0 : i = 0
    · subst h0; refine ⟨?_, ?_, ?_, ?_, ?_, ?_⟩ <;> simp [e'] <;> omega
    · refine ⟨?_, ?_, ?_, ?_, ?_, ?_⟩ <;> simp [h0, e, e'] <;> omega
  · refine ⟨?_, ?_, ?_, ?_, ?_, ?_⟩ <;> simp <;> omega

/-- Adding a coarse vertex for the current fine vertex. -/
theorem pairPut_holds {D b p Q v : Int} {s : Pairing} (hD : 1 ≤ D) (hp : (b % 2 = 1 ∧ (p = 0 ∨ p = 1)) ∨ (b % 2 = 0 ∧ p = 0)) (hv0 : 0 ≤ v) (hv : v < Q * b * D) (I : PInv D b p Q v s) :
    Holds (pairPut D p (if b % 2 = 1 then (if p ≠ 0 then 0 else b - 1) else -1) v s) (fun t => t.multtab.lo = 0 ∧ Q * ((b + 1) / 2) * D ≤ t.multtab.hi ∧ t.indx = s.indx ∧ t.tmp = s.tmp ∧
      (Start b p (idx D b v) → t.coar = s.coar + 1) ∧ (¬ Start b p (idx D b v) → t.coar = s.coar) ∧
      (∀ c, 0 ≤ c → c < t.coar → 0 ≤ (t.multtab.get c).1 ∧ (t.multtab.get c).1 < v + 1 ∧ Start b p (idx D b (t.multtab.get c).1) ∧
        (t.multtab.get c).2 = (if b % 2 = 1 ∧ idx D b (t.multtab.get c).1 = (if p ≠ 0 then 0 else b - 1) then (t.multtab.get c).1 else (t.multtab.get c).1 + D)) ∧
      (∀ c c', 0 ≤ c → c < t.coar → 0 ≤ c' → c' < t.coar → (t.multtab.get c).1 = (t.multtab.get c').1 → c = c') ∧
      (∀ f, 0 ≤ f → f < v + 1 → Start b p (idx D b f) → ∃ c, 0 ≤ c ∧ c < t.coar ∧ (t.multtab.get c).1 = f)) := by
  obtain ⟨q, i, r, e1, q0, i0, ib, r0, rD, e2, e3, e4, e5⟩ := I.coord
  have hix : idx D b v = i := by rw [e1]; exact idx_of i0 ib r0 rD
  have hsc := start_cases hp i0 ib
  have hqQ : q < Q := by
    refine Classical.byContradiction fun hq => ?_
    have : Q * b ≤ q * b := Int.mul_le_mul_of_nonneg_right (by omega) (by omega)
    have : Q * b * D ≤ (q * b + i) * D := Int.mul_le_mul_of_nonneg_right (by omega) (by omega)
    omega
  -- room
  have hroom : Start b p i → 0 ≤ s.coar ∧ s.coar < s.multtab.hi := by
    intro hs
    have c1 := hsc.1 hs
    have hc0 := hsc.2.2.2.2.2
    rw [e4 hs]
    have k1 : (q + 1) * ((b + 1) / 2) ≤ Q * ((b + 1) / 2) := Int.mul_le_mul_of_nonneg_right (by omega) (by omega)
    have k2 : (q + 1) * ((b + 1) / 2) = q * ((b + 1) / 2) + (b + 1) / 2 := by rw [Int.add_mul, Int.one_mul]
    have k3 : (q * ((b + 1) / 2) + cnt p i + 1) * D ≤ Q * ((b + 1) / 2) * D := Int.mul_le_mul_of_nonneg_right (by omega) (by omega)
    have k4 : (q * ((b + 1) / 2) + cnt p i + 1) * D = (q * ((b + 1) / 2) + cnt p i) * D + D := by rw [Int.add_mul, Int.one_mul]
    have k5 : 0 ≤ q * ((b + 1) / 2) := Int.mul_nonneg q0 (by omega)
    have k6 : 0 ≤ (q * ((b + 1) / 2) + cnt p i) * D := Int.mul_nonneg (by omega) (by omega)
    have := I.hi
    omega
  have hput : ∀ x : Int, Start b p i → x = (if b % 2 = 1 ∧ i = (if p ≠ 0 then 0 else b - 1) then v else v + D) →
      Holds (do let a ← s.multtab.wr s.coar (v, x); pure ({ s with multtab := a, coar := s.coar + 1 } : Pairing)) (fun t => t.multtab.lo = 0 ∧ Q * ((b + 1) / 2) * D ≤ t.multtab.hi ∧ t.indx = s.indx ∧ t.tmp = s.tmp ∧
      (Start b p (idx D b v) → t.coar = s.coar + 1) ∧ (¬ Start b p (idx D b v) → t.coar = s.coar) ∧
      (∀ c, 0 ≤ c → c < t.coar → 0 ≤ (t.multtab.get c).1 ∧ (t.multtab.get c).1 < v + 1 ∧ Start b p (idx D b (t.multtab.get c).1) ∧
        (t.multtab.get c).2 = (if b % 2 = 1 ∧ idx D b (t.multtab.get c).1 = (if p ≠ 0 then 0 else b - 1) then (t.multtab.get c).1 else (t.multtab.get c).1 + D)) ∧
      (∀ c c', 0 ≤ c → c < t.coar → 0 ≤ c' → c' < t.coar → (t.multtab.get c).1 = (t.multtab.get c').1 → c = c') ∧
      (∀ f, 0 ≤ f → f < v + 1 → Start b p (idx D b f) → ∃ c, 0 ≤ c ∧ c < t.coar ∧ (t.multtab.get c).1 = f)) := by
    intro x hs hx
    obtain ⟨m1, m2⟩ := hroom hs
    rw [Arr.wr_ok _ _ (by have := I.lo; omega) (by omega), ok_bind, Holds_pure]
    refine ⟨I.lo, I.hi, rfl, rfl, fun _ => rfl, fun h => absurd (by rw [hix]; exact hs) h, ?_, ?_, ?_⟩
    · intro c c1 c2
      dsimp only at c2 ⊢
      by_cases hc : c = s.coar
      · rw [hc, Arr.set_get_same]
        dsimp only
        rw [hix]
        exact ⟨hv0, by omega, hs, hx⟩
      · rw [Arr.set_get_ne _ _ hc]
        have := I.cells c c1 (by omega)
        exact ⟨this.1, by omega, this.2.2⟩
    · intro c c' c1 c2 c3 c4
      dsimp only at c2 c4 ⊢
      by_cases hc : c = s.coar <;> by_cases hc' : c' = s.coar
      · intro _; omega
      · rw [hc, Arr.set_get_same, Arr.set_get_ne _ _ hc']
        have := I.cells c' c3 (by omega)
        intro h; dsimp only at h; omega
      · rw [hc', Arr.set_get_same, Arr.set_get_ne _ _ hc]
        have := I.cells c c1 (by omega)
        intro h; dsimp only at h; omega
      · rw [Arr.set_get_ne _ _ hc, Arr.set_get_ne _ _ hc']
        exact I.inj c c' c1 (by omega) c3 (by omega)
    · intro f f1 f2 hf
      by_cases hfv : f = v
      · exact ⟨s.coar, m1, by dsimp only; omega, by dsimp only; rw [Arr.set_get_same, hfv]⟩
      · obtain ⟨c, c1, c2, c3⟩ := I.surj f f1 (by omega) hf
        exact ⟨c, c1, by dsimp only; omega, by dsimp only; rw [Arr.set_get_ne _ _ (by omega)]; exact c3⟩
  unfold pairPut
  rw [e2]
  by_cases hA : b % 2 = 1 ∧ i = (if p ≠ 0 then 0 else b - 1)
  · rw [if_pos (by rw [if_pos hA.1]; exact hA.2)]
    have := hput v (Or.inl hA) (by rw [if_pos hA])
    rw [e2] at this; exact this
  · rw [if_neg (by split <;> omega)]
    by_cases hB : i % 2 = p
    · rw [if_pos hB]
      have := hput (v + D) (Or.inr hB) (by rw [if_neg hA])
      rw [e2] at this; exact this
    · rw [if_neg hB, Holds_pure]
      have hns : ¬ Start b p i := fun h => h.elim hA hB
      refine ⟨I.lo, I.hi, e2, rfl, fun h => absurd (by rw [hix] at h; exact h) hns, fun _ => rfl, ?_, I.inj, ?_⟩
      · intro c c1 c2
        have := I.cells c c1 c2
        exact ⟨this.1, by omega, this.2.2⟩
      · intro f f1 f2 hf
        refine I.surj f f1 ?_ hf
        refine Classical.byContradiction fun h => ?_
        rw [show f = v by omega, hix] at hf
        exact hns hf

theorem pairStep_holds {D b p Q v : Int} {s : Pairing} (hD : 1 ≤ D) (hp : (b % 2 = 1 ∧ (p = 0 ∨ p = 1)) ∨ (b % 2 = 0 ∧ p = 0)) (hv0 : 0 ≤ v) (hv : v < Q * b * D) (I : PInv D b p Q v s) :
    Holds (pairStep D b p (if b % 2 = 1 then (if p ≠ 0 then 0 else b - 1) else -1) v s) (PInv D b p Q (v + 1)) := by
  unfold pairStep
  rw [Holds_bind]
  refine (pairPut_holds hD hp hv0 hv I).mono ?_
  rintro t ⟨t1, t2, t3, t4, t5, t6, t7, t8, t9⟩
  obtain ⟨q, i, r, e1, q0, i0, ib, r0, rD, e2, e3, e4, e5⟩ := I.coord
  have hix : idx D b v = i := by rw [e1]; exact idx_of i0 ib r0 rD
  rw [hix] at t5 t6
  obtain ⟨s1, s2, s3, s4, s5, s6⟩ := start_cases hp i0 ib
  rw [Holds_ite]
  constructor
  · intro hv
    have hr : r = D - 1 := by omega
    rw [Holds_pure]
    refine ⟨t1, t2, ?_, t7, t8, t9⟩
    have hcoar : t.coar = (q * ((b + 1) / 2) + cnt p (i + 1)) * D := by
      by_cases hs : Start b p i
      · rw [t5 hs, e4 hs, s2 hs, ← Int.add_assoc, Int.add_mul _ 1, Int.one_mul]; omega
      · rw [t6 hs, e5 hs, s3 hs]
    by_cases hi : i + 1 = b
    · refine ⟨q + 1, 0, 0, ?_, by omega, by omega, by omega, by omega, by omega, ?_, ?_, ?_, ?_⟩
      · rw [show (q + 1) * b + 0 = q * b + i + 1 by rw [Int.add_mul]; omega, Int.add_mul (q * b + i) 1, Int.one_mul]; omega
      · dsimp only; rw [t3, e2, hi, Int.emod_self]
      · dsimp only; rw [t4, e3, show (q + 1) * b + 0 = q * b + i + 1 by rw [Int.add_mul]; omega, Int.add_mul (q * b + i) 1, Int.one_mul]; omega
      · intro _; dsimp only; rw [hcoar, hi, s4, s5, Int.add_mul, Int.add_mul, Int.add_mul, Int.add_mul, Int.one_mul]; omega
      · intro _; dsimp only; rw [hcoar, hi, s4, s5, Int.add_mul, Int.add_mul, Int.add_mul, Int.add_mul, Int.one_mul]; omega
    · refine ⟨q, i + 1, 0, ?_, by omega, by omega, by omega, by omega, by omega, ?_, ?_, ?_, ?_⟩
      · rw [← Int.add_assoc, Int.add_mul (q * b + i) 1, Int.one_mul]; omega
      · dsimp only; rw [t3, e2, Int.emod_eq_of_lt (by omega) (by omega)]
      · dsimp only; rw [t4, e3, ← Int.add_assoc, Int.add_mul (q * b + i) 1, Int.one_mul]; omega
      · intro _; dsimp only; rw [hcoar]; omega
      · intro _; dsimp only; rw [hcoar]
  · intro hv
    have hr : r ≠ D - 1 := by omega
    rw [Holds_pure]
    refine ⟨t1, t2, ⟨q, i, r + 1, by omega, q0, i0, ib, by omega, by omega, by omega, by omega, ?_, ?_⟩, t7, t8, t9⟩
    · intro hs; rw [t5 hs, e4 hs]; omega
    · intro hs; rw [t6 hs, e5 hs]

theorem PInv.matched {D b p Q : Int} {s : Pairing} (hD : 1 ≤ D) (hb : 2 ≤ b) (hp : (b % 2 = 1 ∧ (p = 0 ∨ p = 1)) ∨ (b % 2 = 0 ∧ p = 0))
    (I : PInv D b p Q (Q * b * D) s) : s.coar = Q * ((b + 1) / 2) * D ∧ Matched (Q * b * D) s.coar s.multtab := by
  have hc : s.coar = Q * ((b + 1) / 2) * D := by
    obtain ⟨q, i, r, e1, q0, i0, ib, r0, rD, e2, e3, e4, e5⟩ := I.coord
    have := coord_unique (D := D) (b := b) (q := q) (i := i) (r := r) (q' := Q) (i' := 0) (r' := 0) i0 ib r0 rD (by omega) (by omega) (by omega) (by omega) (by rw [← e1]; simp)
    obtain ⟨rfl, rfl, rfl⟩ := this
    obtain ⟨s1, s2, s3, s4, s5, s6⟩ := start_cases hp i0 ib
    by_cases hs : Start b p 0
    · rw [e4 hs, s5]; simp
    · rw [e5 hs, s5]; simp
  refine ⟨hc, ?_⟩
  -- neighbour of a starting vertex
  have hnext : ∀ f, 0 ≤ f → f < Q * b * D → Start b p (idx D b f) → ¬ (b % 2 = 1 ∧ idx D b f = (if p ≠ 0 then 0 else b - 1)) → f + D < Q * b * D ∧ idx D b (f + D) = idx D b f + 1 ∧ ¬ Start b p (idx D b f + 1) := by
    intro f f0 f1 hs hn
    obtain ⟨c1, c2, c3, c4, c5⟩ := coords_of (v := f) hD (show 1 ≤ b by omega)
    have hlt : idx D b f + 1 < b := by
      unfold Start at hs
      rcases hp with ⟨h1, h2 | h2⟩ | ⟨h1, h2⟩ <;> subst h2
      · simp at hs hn; omega
      · simp at hs hn; omega
      · simp at hs hn; omega
    have e : f + D = (f / D / b * b + (idx D b f + 1)) * D + f % D := by
      rw [← Int.add_assoc, Int.add_mul _ 1, Int.one_mul]; omega
    refine ⟨?_, ?_, ?_⟩
    · have hq : f / D / b < Q := by
        refine Classical.byContradiction fun hq => ?_
        have : Q * b ≤ f / D / b * b := Int.mul_le_mul_of_nonneg_right (by omega) (by omega)
        have : Q * b * D ≤ (f / D / b * b + idx D b f) * D := Int.mul_le_mul_of_nonneg_right (by omega) (by omega)
        omega
      have k1 : (f / D / b + 1) * b ≤ Q * b := Int.mul_le_mul_of_nonneg_right (by omega) (by omega)
      have k2 : (f / D / b + 1) * b = f / D / b * b + b := by rw [Int.add_mul, Int.one_mul]
      have k3 : (f / D / b * b + (idx D b f + 1) + 1) * D ≤ Q * b * D := Int.mul_le_mul_of_nonneg_right (by omega) (by omega)
      have k4 : (f / D / b * b + (idx D b f + 1) + 1) * D = (f / D / b * b + (idx D b f + 1)) * D + D := by rw [Int.add_mul _ 1, Int.one_mul]
      omega
    · conv => lhs; rw [e]
      exact idx_of (by omega) hlt c4 c5
    · unfold Start at hs ⊢
      rcases hp with ⟨h1, h2 | h2⟩ | ⟨h1, h2⟩ <;> subst h2
      · simp at hs hn ⊢; omega
      · simp at hs hn ⊢; omega
      · simp at hs hn ⊢; omega
  refine ⟨?_, ?_⟩
  · intro c c0 c1
    obtain ⟨d1, d2, d3, d4⟩ := I.cells c c0 c1
    refine ⟨⟨d1, d2⟩, ?_⟩
    by_cases hA : b % 2 = 1 ∧ idx D b (s.multtab.get c).1 = (if p ≠ 0 then 0 else b - 1)
    · rw [if_pos hA] at d4; omega
    · rw [if_neg hA] at d4
      have := hnext _ d1 d2 d3 hA
      omega
  · intro v v0 v1
    by_cases hs : Start b p (idx D b v)
    · obtain ⟨c, c0, c1, c2⟩ := I.surj v v0 v1 hs
      refine ⟨c, c0, c1, Or.inl c2, ?_⟩
      intro c' d0 d1 hd
      by_cases h1 : (s.multtab.get c').1 = v
      · exact I.inj c' c d0 d1 c0 c1 (by omega)
      · exfalso
        obtain ⟨k1, k2, k3, k4⟩ := I.cells c' d0 d1
        have h2 : (s.multtab.get c').2 = v := by omega
        by_cases hA : b % 2 = 1 ∧ idx D b (s.multtab.get c').1 = (if p ≠ 0 then 0 else b - 1)
        · rw [if_pos hA] at k4; omega
        · rw [if_neg hA] at k4
          obtain ⟨n1, n2, n3⟩ := hnext _ k1 k2 k3 hA
          rw [← n2, ← k4, h2] at n3
          exact n3 hs
    · obtain ⟨c1, c2, c3, c4, c5⟩ := coords_of (v := v) hD (show 1 ≤ b by omega)
      -- the vertex before
      have hi : 1 ≤ idx D b v ∧ Start b p (idx D b v - 1) ∧ ¬ (b % 2 = 1 ∧ idx D b v - 1 = (if p ≠ 0 then 0 else b - 1)) := by
        unfold Start at hs ⊢
        rcases hp with ⟨h1, h2 | h2⟩ | ⟨h1, h2⟩ <;> subst h2
        · simp at hs ⊢; omega
        · simp at hs ⊢; omega
        · simp at hs ⊢; omega
      obtain ⟨i1, i2, i3⟩ := hi
      have e : v - D = (v / D / b * b + (idx D b v - 1)) * D + v % D := by
        rw [show v / D / b * b + (idx D b v - 1) = (v / D / b * b + idx D b v) + (-1) by omega, Int.add_mul _ (-1)]; omega
      have hix : idx D b (v - D) = idx D b v - 1 := by
        conv => lhs; rw [e]
        exact idx_of (by omega) (by omega) c4 c5
      have hvD : 0 ≤ v - D := by
        rw [e]
        have a1 : 0 ≤ v / D / b := Int.ediv_nonneg (Int.ediv_nonneg v0 (by omega)) (by omega)
        have a2 : 0 ≤ v / D / b * b := Int.mul_nonneg a1 (by omega)
        have a3 : 0 ≤ (v / D / b * b + (idx D b v - 1)) * D := Int.mul_nonneg (by omega) (by omega)
        omega
      rw [← hix] at i2 i3
      obtain ⟨c, d0, d1, d2⟩ := I.surj (v - D) hvD (by omega) i2
      obtain ⟨k1, k2, k3, k4⟩ := I.cells c d0 d1
      rw [d2, if_neg i3] at k4
      refine ⟨c, d0, d1, Or.inr (by omega), ?_⟩
      intro c' f0 f1 hd
      obtain ⟨l1, l2, l3, l4⟩ := I.cells c' f0 f1
      have hne : (s.multtab.get c').1 ≠ v := by intro h; rw [h] at l3; exact hs l3
      by_cases hA : b % 2 = 1 ∧ idx D b (s.multtab.get c').1 = (if p ≠ 0 then 0 else b - 1)
      · rw [if_pos hA] at l4; omega
      · rw [if_neg hA] at l4
        exact I.inj c' c f0 f1 d0 d1 (by omega)

theorem matcher : Matcher matchMate Match.multtab MInv (fun m => (total m.dimntab).toNat) := by
  refine ⟨fun m n I => by rw [I.nbr]; exact total_pos _ I.pos, ?_⟩
  intro m n I hn
  unfold matchMate
  rw [Holds_bind]
  refine (matchDim_holds I.dim).mono ?_
  intro r hr
  cases r with
  | none =>
    dsimp only at hr
    have := total_one _ I.pos hr
    have := I.nbr
    omega
  | some k =>
    obtain ⟨⟨b, hb, hb1⟩, hfirst⟩ := hr
    have hk : k < m.dimntab.length := (List.getElem?_eq_some_iff.1 hb).1
    have hkp : k < m.passtab.length := by rw [I.plen]; exact hk
    have hpk : m.passtab[k]? = some m.passtab[k] := List.getElem?_eq_getElem hkp
    have hp01 := I.pass _ (List.getElem_mem hkp)
    dsimp only
    rw [rdL_ok hb, ok_bind, rdL_ok hpk, ok_bind, fold_total, fold_total, Int.one_mul]
    have hdr : total (m.dimntab.drop k) = b * total (m.dimntab.drop (k + 1)) := by
      rw [List.drop_eq_getElem_cons hk, total, (List.getElem?_eq_some_iff.1 hb).2]
    rw [hdr]
    have hD := total_pos _ (pos_take k I.pos)
    have hQ := total_pos _ (pos_drop (k + 1) I.pos)
    have htot := total_at _ k b hb
    have hset := total_set _ k b ((b + 1) / 2) hb
    generalize total (m.dimntab.take k) = D at *
    generalize total (m.dimntab.drop (k + 1)) = Q at *
    have eN : D * (b * Q) = Q * b * D := by rw [Int.mul_comm D, Int.mul_comm b]
    have eH : D * ((b + 1) / 2 * Q) = Q * ((b + 1) / 2) * D := by rw [Int.mul_comm D, Int.mul_comm ((b + 1) / 2)]
    rw [eN] at htot ⊢
    rw [eH] at hset
    have hle : Q * ((b + 1) / 2) * D ≤ Q * (b - 1) * D := Int.mul_le_mul_of_nonneg_right (Int.mul_le_mul_of_nonneg_left (by omega) (by omega)) (by omega)
    have hlt : Q * (b - 1) * D < Q * b * D := by
      have a1 : Q * (b - 1) * D = Q * b * D - Q * D := by rw [Int.mul_sub, Int.mul_one, Int.sub_mul]
      have a2 := Int.mul_le_mul hQ hD (by omega) (by omega)
      omega
    have hroom : Q * ((b + 1) / 2) * D ≤ m.multtab.hi := by
      rcases I.room with h | ⟨h0, c0, l, h1, h2⟩
      · rw [I.nbr] at h; omega
      · by_cases hc : 1 < c0
        · have hk0 := hfirst h0 c0 (by rw [h1]; simp) hc
          subst hk0
          rw [h1] at hset hb
          simp at hb hset
          subst hb
          rw [total] at hset
          rw [← hset]; exact h2
        · have hp1 := I.pos
          rw [h1] at hp1
          have : c0 = 1 := by have := hp1.1; omega
          subst this
          have : total m.dimntab = total l := by rw [h1, total, Int.one_mul]
          have e : ((1 : Int) + 1) / 2 * total l = total l := by rw [show ((1 : Int) + 1) / 2 = 1 by decide, Int.one_mul]
          omega
    -- the loop
    have main : ∀ p, ((b % 2 = 1 ∧ (p = 0 ∨ p = 1)) ∨ (b % 2 = 0 ∧ p = 0)) → ∀ iv, iv = (if b % 2 = 1 then (if p ≠ 0 then 0 else b - 1) else -1) → ∀ pt : List Int, pt.length = m.passtab.length → (∀ x ∈ pt, x = 0 ∨ x = 1) →
        Holds (do
          let s ← forUp 0 (Q * b * D) (⟨m.multtab, 0, 0, D - 1⟩ : Pairing) fun v s => pairStep D b p iv v s
          pure (s.coar, (⟨s.multtab, (k + 1) % m.dimntab.length, m.dimntab.set k ((b + 1) / 2), pt⟩ : Match)))
          (fun r => r.1 ≤ n ∧ Matched n r.1 r.2.multtab ∧ MInv r.2 r.1 ∧ (total r.2.dimntab).toNat < (total m.dimntab).toNat ∧ r.2.multtab.lo ≤ 0 ∧ r.1 ≤ r.2.multtab.hi) := by
      rintro p hp iv rfl pt hpt hpt'
      rw [Holds_bind]
      refine Holds_forUp (fun v s => PInv D b p Q v s) (by have := Int.mul_nonneg (Int.mul_nonneg (show 0 ≤ Q by omega) (show 0 ≤ b by omega)) (show 0 ≤ D by omega); omega) ?_ ?_ ?_
      · refine ⟨I.lo, hroom, ⟨0, 0, 0, by simp, by omega, by omega, by omega, by omega, by omega, rfl, by simp, ?_, ?_⟩, ?_, ?_, ?_⟩
        · intro _; rw [(start_cases hp (Int.le_refl 0) (by omega)).2.2.2.2.1]; simp
        · intro _; rw [(start_cases hp (Int.le_refl 0) (by omega)).2.2.2.2.1]; simp
        · intro c c0 c1; dsimp only at c1; omega
        · intro c c' c0 c1; dsimp only at c1; omega
        · intro f f0 f1; omega
      · intro v s v0 v1 P
        exact pairStep_holds hD hp v0 v1 P
      · intro s P
        rw [Holds_pure]
        obtain ⟨m1, m2⟩ := P.matched hD (by omega) hp
        have hn' : n = Q * b * D := by rw [I.nbr, htot]
        dsimp only
        rw [hset, htot]
        refine ⟨by omega, by rw [hn']; exact m2, ⟨pos_set k I.pos (by omega), by dsimp only; rw [hset, m1], ?_, by dsimp only; rw [List.length_set, hpt, I.plen], hpt', P.lo, Or.inl (by rw [m1]; exact P.hi)⟩, ?_, Int.le_of_eq P.lo, by rw [m1]; exact P.hi⟩
        · dsimp only; rw [List.length_set]; exact Nat.mod_lt _ (by omega)
        · have := total_pos _ (pos_set k I.pos (c := (b + 1) / 2) (by omega))
          omega
    by_cases ho : b % 2 = 1
    · rw [if_pos ho, if_pos ho, if_pos ho]
      refine main (1 - m.passtab[k]) (Or.inl ⟨ho, by omega⟩) _ (by rw [if_pos ho]) _ (by rw [List.length_set]) ?_
      intro x hx
      rcases List.mem_or_eq_of_mem_set hx with h' | h'
      · exact I.pass x h'
      · omega
    · rw [if_neg ho, if_neg ho, if_neg ho]
      exact main 0 (Or.inr ⟨by omega, rfl⟩) _ (by rw [if_neg ho]) _ rfl I.pass

theorem stops : Stops matchMate MInv := by
  intro m I
  unfold matchMate
  rw [Holds_bind]
  refine (matchDim_holds I.dim).mono ?_
  intro r hr
  cases r with
  | none => dsimp only; rw [Holds_pure]
  | some k =>
    exfalso
    obtain ⟨⟨b, hb, hb1⟩, -⟩ := hr
    have htot := total_at _ k b hb
    have hD := total_pos _ (pos_take k I.pos)
    have hQ := total_pos _ (pos_drop (k + 1) I.pos)
    have a1 := Int.mul_le_mul (show (2 : Int) ≤ b by omega) hQ (by omega) (by omega)
    have a2 := Int.mul_le_mul hD a1 (by omega) (by omega)
    have := I.nbr
    omega

end Scotch.Arch.Mesh
