import Verif.Arch.Generic
import Verif.Arch.Model
import Verif.Arch.Domains
import Mathlib.Tactic.Ring
import Mathlib.Tactic.Linarith
import Mathlib.Tactic.Positivity

/-! # Meshes and tori: laws -/

set_option autoImplicit false
set_option linter.unusedSimpArgs false

namespace Scotch.Arch.Mesh

/-- Coordinates of a processor. -/
def coords : List Int → Int → List Int
  | [], _ => []
  | c :: cs, k => k % c :: coords cs (k / c)

def sz : Dom → Int
  | [] => 1
  | p :: ps => (p.2 - p.1 + 1) * sz ps

theorem total_pos : ∀ cs, Pos cs → 1 ≤ total cs
  | [], _ => by simp [total]
  | c :: cs, h => by
    have := total_pos cs h.2
    have h1 := h.1
    simp only [total]
    nlinarith

theorem within : ∀ cs d k, Pos cs → Has cs d k → 0 ≤ k ∧ k < total cs
  | [], [], k, _, h => by simp only [Has] at h; subst h; simp [total]
  | c :: cs, p :: ps, k, hp, h => by
    obtain ⟨h1, h2, h3⟩ := h
    have ih := within cs ps (k / c) hp.2 h3
    have hc := hp.1
    have e := Int.mul_ediv_add_emod k c
    have m1 := Int.emod_nonneg k (show c ≠ 0 by omega)
    have m2 := Int.emod_lt_of_pos k (show 0 < c by omega)
    simp only [total]
    have q : c * (k / c) + c ≤ c * total cs := by nlinarith
    have q0 : 0 ≤ c * (k / c) := by nlinarith
    omega
  | [], _ :: _, _, _, h => by simp [Has] at h
  | _ :: _, [], _, _, h => by simp [Has] at h

theorem frst_valid : ∀ cs, Pos cs → Valid cs (cs.map fun c => (0, c - 1))
  | [], _ => by simp [Valid]
  | c :: cs, h => by
    have := frst_valid cs h.2
    have := h.1
    simp only [List.map_cons, Valid]
    refine ⟨by omega, by omega, by omega, ‹_›⟩

theorem frst_has : ∀ cs k, Pos cs → 0 ≤ k → k < total cs → Has cs (cs.map fun c => (0, c - 1)) k
  | [], k, _, h1, h2 => by simp only [total] at h2; simp only [List.map_nil, Has]; omega
  | c :: cs, k, hp, h1, h2 => by
    have hc := hp.1
    have m1 := Int.emod_nonneg k (show c ≠ 0 by omega)
    have m2 := Int.emod_lt_of_pos k (show 0 < c by omega)
    simp only [List.map_cons, Has]
    refine ⟨m1, by omega, frst_has cs (k / c) hp.2 (Int.ediv_nonneg h1 (by omega)) ?_⟩
    simp only [total] at h2
    exact Int.ediv_lt_of_lt_mul (by omega) (by rw [Int.mul_comm]; exact h2)

theorem sz_fold : ∀ (d : Dom) (s : Int), d.foldl (fun s p => s * (p.2 - p.1 + 1)) s = s * sz d
  | [], s => by simp [sz]
  | p :: ps, s => by
    simp only [List.foldl_cons, sz_fold ps, sz]
    ring

theorem sz_pos : ∀ cs d, Valid cs d → 1 ≤ sz d
  | [], [], _ => by simp [sz]
  | c :: cs, p :: ps, h => by
    have := sz_pos cs ps h.2.2.2
    have := h.2.1
    simp only [sz]
    nlinarith
  | [], _ :: _, h => by simp [Valid] at h
  | _ :: _, [], h => by simp [Valid] at h

theorem valid_length : ∀ cs d, Valid cs d → d.length = cs.length
  | [], [], _ => rfl
  | _ :: cs, _ :: ps, h => by simp [valid_length cs ps h.2.2.2]
  | [], _ :: _, h => by simp [Valid] at h
  | _ :: _, [], h => by simp [Valid] at h

/-- Splitting a dimension the range of which is not a single coordinate. -/
theorem split_spec : ∀ (cs : List Int) (d : Dom) (j : Nat) (p : Int × Int), Valid cs d → d[j]? = some p →
    p.1 < p.2 → Valid cs (splitAt d j).1 ∧ Valid cs (splitAt d j).2 ∧
    sz d = sz (splitAt d j).1 + sz (splitAt d j).2 ∧
    (∀ k, Has cs d k ↔ Has cs (splitAt d j).1 k ∨ Has cs (splitAt d j).2 k) ∧
    ∀ k, ¬ (Has cs (splitAt d j).1 k ∧ Has cs (splitAt d j).2 k)
  | [], [], _, _, _, h, _ => by simp at h
  | c :: cs, q :: ps, 0, p, hv, h, hlt => by
    simp only [List.length_cons, List.getElem?_cons_zero, Option.some.injEq] at h
    subst h
    obtain ⟨h1, h2, h3, h4⟩ := hv
    have e : (q.1 + q.2).tdiv 2 = (q.1 + q.2) / 2 := Int.tdiv_eq_ediv_of_nonneg (by omega)
    simp only [splitAt, e, Valid, sz, Has]
    refine ⟨⟨by omega, by omega, by omega, h4⟩, ⟨by omega, by omega, by omega, h4⟩, by ring, ?_, ?_⟩
    · intro k
      constructor
      · rintro ⟨a, b, e'⟩
        by_cases hk : k % c ≤ (q.1 + q.2) / 2
        · exact .inl ⟨a, hk, e'⟩
        · exact .inr ⟨by omega, b, e'⟩
      · rintro (⟨a, b, c⟩ | ⟨a, b, c⟩)
        · exact ⟨a, by omega, c⟩
        · exact ⟨by omega, b, c⟩
    · rintro k ⟨⟨_, a, _⟩, ⟨b, _, _⟩⟩
      omega
  | c :: cs, q :: ps, j + 1, p, hv, h, hlt => by
    simp only [List.getElem?_cons_succ] at h
    obtain ⟨h1, h2, h3, h4⟩ := hv
    obtain ⟨i1, i2, i3, i4, i5⟩ := split_spec cs ps j p h4 h hlt
    simp only [splitAt, Valid, sz, Has]
    refine ⟨⟨h1, h2, h3, i1⟩, ⟨h1, h2, h3, i2⟩, by rw [i3]; ring, ?_, ?_⟩
    · intro k
      rw [i4]
      tauto
    · rintro k ⟨⟨_, _, a⟩, ⟨_, _, b⟩⟩
      exact i5 _ ⟨a, b⟩
  | [], _ :: _, _, _, h, _, _ => by simp [Valid] at h
  | _ :: _, [], _, _, h, _, _ => by simp [Valid] at h

/-- All the ranges of the domain are single coordinates. -/
def Single (d : Dom) : Prop := ∀ p ∈ d, p.2 = p.1

theorem single_spec : ∀ (cs : List Int) (d : Dom), Pos cs → Valid cs d → Single d →
    sz d = 1 ∧ ∃ k, ∀ j, Has cs d j ↔ j = k
  | [], [], _, _, _ => by simp [sz, Has]
  | c :: cs, p :: ps, hp, hv, hs => by
    obtain ⟨h1, h2, h3, h4⟩ := hv
    obtain ⟨e, k, hk⟩ := single_spec cs ps hp.2 h4 (fun q hq => hs q (List.mem_cons_of_mem _ hq))
    have hpp := hs p (List.mem_cons_self ..)
    refine ⟨by simp only [sz, e]; omega, k * c + p.1, ?_⟩
    intro j
    simp only [Has, hk]
    have hc := hp.1
    constructor
    · rintro ⟨a, b, rfl⟩
      have := Int.mul_ediv_add_emod j c
      rw [Int.mul_comm]
      omega
    · rintro rfl
      have e1 : (k * c + p.1) % c = p.1 := by
        rw [Int.add_comm, Int.add_mul_emod_self_right, Int.emod_eq_of_lt h1 (by omega)]
      have e2 : (k * c + p.1) / c = k := by
        rw [Int.add_comm, Int.add_mul_ediv_right _ _ (by omega), Int.ediv_eq_zero_of_lt h1 (by omega)]
        omega
      rw [e1, e2]
      exact ⟨by omega, by omega, rfl⟩
  | [], _ :: _, _, h, _ => by simp [Valid] at h
  | _ :: _, [], _, h, _ => by simp [Valid] at h

theorem compose {c k x : Int} (h1 : 0 ≤ x) (h2 : x < c) : (k * c + x) % c = x ∧ (k * c + x) / c = k := by
  constructor
  · rw [Int.add_comm, Int.add_mul_emod_self_right, Int.emod_eq_of_lt h1 (by omega)]
  · rw [Int.add_comm, Int.add_mul_ediv_right _ _ (by omega), Int.ediv_eq_zero_of_lt h1 (by omega)]
    omega

theorem numX_spec : ∀ (cs : List Int) (d : Dom), cs ≠ [] → Pos cs → Valid cs d → Holds (numX cs d) (Has cs d)
  | [c], [p], _, hp, hv => by
    obtain ⟨h1, h2, h3, h4⟩ := hv
    simp only [numX, Holds_pure, Has]
    rw [Int.emod_eq_of_lt h1 (by omega), Int.ediv_eq_zero_of_lt h1 (by omega)]
    omega
  | c :: c' :: cs, p :: p' :: ps, _, hp, hv => by
    obtain ⟨h1, h2, h3, h4⟩ := hv
    have ih := numX_spec (c' :: cs) (p' :: ps) (by simp) hp.2 h4
    simp only [numX, Holds_bind, Holds_pure]
    refine ih.mono ?_
    intro k hk
    obtain ⟨e1, e2⟩ := compose (k := k) h1 (show p.1 < c by omega)
    simp only [Has] at hk ⊢
    rw [e1, e2]
    exact ⟨by omega, by omega, hk⟩
  | [], _, h, _, _ => by simp at h
  | [c], [], _, _, h => by simp [Valid] at h
  | [c], _ :: _ :: _, _, _, h => by simp [Valid] at h
  | _ :: _ :: _, [], _, _, h => by simp [Valid] at h
  | _ :: _ :: _, [_], _, _, h => by simp [Valid] at h

/-- Domain of a single processor. -/
def point (cs : List Int) (k : Int) : Dom := (coords cs k).map fun x => (x, x)

theorem point_valid : ∀ cs k, Pos cs → Valid cs (point cs k)
  | [], _, _ => by simp [point, coords, Valid]
  | c :: cs, k, hp => by
    have ih := point_valid cs (k / c) hp.2
    have hc := hp.1
    have m1 := Int.emod_nonneg k (show c ≠ 0 by omega)
    have m2 := Int.emod_lt_of_pos k (show 0 < c by omega)
    simp only [point, coords, List.map_cons, Valid] at *
    exact ⟨m1, by omega, m2, ih⟩

theorem point_has : ∀ cs k j, Pos cs → 0 ≤ k → k < total cs → (Has cs (point cs k) j ↔ j = k)
  | [], k, j, _, h1, h2 => by
    simp only [total] at h2
    simp only [point, coords, List.map_nil, Has]
    omega
  | c :: cs, k, j, hp, h1, h2 => by
    have hc := hp.1
    have ih := point_has cs (k / c) (j / c) hp.2 (Int.ediv_nonneg h1 (by omega)) (by
      simp only [total] at h2
      exact Int.ediv_lt_of_lt_mul (by omega) (by rw [Int.mul_comm]; exact h2))
    simp only [point, coords, List.map_cons, Has] at *
    rw [ih]
    have e1 := Int.mul_ediv_add_emod k c
    have e2 := Int.mul_ediv_add_emod j c
    constructor
    · rintro ⟨a, b, h⟩
      rw [h] at e2
      omega
    · rintro rfl
      exact ⟨by omega, by omega, rfl⟩

theorem has_of_valid : ∀ cs d, Pos cs → Valid cs d → ∃ k, Has cs d k
  | [], [], _, _ => ⟨0, by simp [Has]⟩
  | c :: cs, p :: ps, hp, hv => by
    obtain ⟨h1, h2, h3, h4⟩ := hv
    obtain ⟨k, hk⟩ := has_of_valid cs ps hp.2 h4
    obtain ⟨e1, e2⟩ := compose (k := k) h1 (show p.1 < c by omega)
    refine ⟨k * c + p.1, ?_⟩
    simp only [Has]
    rw [e1, e2]
    exact ⟨by omega, by omega, hk⟩
  | [], _ :: _, _, h => by simp [Valid] at h
  | _ :: _, [], _, h => by simp [Valid] at h

theorem point_unique : ∀ cs d k, Pos cs → Valid cs d → (∀ j, Has cs d j ↔ j = k) → d = point cs k
  | [], [], _, _, _, _ => by simp [point, coords]
  | c :: cs, p :: ps, k, hp, hv, h => by
    obtain ⟨h1, h2, h3, h4⟩ := hv
    obtain ⟨i0, hi0⟩ := has_of_valid cs ps hp.2 h4
    have key : ∀ i x, Has cs ps i → p.1 ≤ x → x ≤ p.2 → i = k / c ∧ x = k % c := by
      intro i x hi a b
      obtain ⟨e1, e2⟩ := compose (k := i) (show 0 ≤ x by omega) (show x < c by omega)
      have := (h (i * c + x)).1 (by simp only [Has]; rw [e1, e2]; exact ⟨a, b, hi⟩)
      rw [← this, e1, e2]
      exact ⟨rfl, rfl⟩
    have k1 := key i0 p.1 hi0 (by omega) h2
    have k2 := key i0 p.2 hi0 h2 (by omega)
    have ih := point_unique cs ps (k / c) hp.2 h4 (fun j => ⟨fun hj => (key j p.1 hj (by omega) h2).1,
      fun hj => by rw [hj, ← k1.1]; exact hi0⟩)
    simp only [point, coords, List.map_cons] at *
    rw [← ih]
    have : p = (k % c, k % c) := Prod.ext (by simpa using k1.2) (by simpa using k2.2)
    rw [← this]
  | [], _ :: _, _, _, h, _ => by simp [Valid] at h
  | _ :: _, [], _, _, h, _ => by simp [Valid] at h

theorem termLoop_spec : ∀ cs k, Pos cs → 0 ≤ k → termLoop cs k = .ok (point cs k, k / total cs)
  | [], k, _, _ => by simp [termLoop, point, coords, total]; rfl
  | c :: cs, k, hp, h => by
    have hc := hp.1
    have ih := termLoop_spec cs (k / c) hp.2 (Int.ediv_nonneg h (by omega))
    simp only [termLoop, cmod, cdiv]
    rw [if_neg (by omega), if_neg (by omega)]
    have e1 : k.tmod c = k % c := Int.tmod_eq_emod_of_nonneg h
    have e2 : k.tdiv c = k / c := Int.tdiv_eq_ediv_of_nonneg h
    simp only [e1, e2, pure_bind, bind_assoc]
    show (Except.ok _ >>= _) = _
    show (Except.ok _ >>= fun q => _) = _
    simp only [bind, Except.bind, ih, point, coords, List.map_cons, total]
    rw [Int.ediv_ediv_of_nonneg (by omega)]
    rfl

theorem termX_spec (cs : List Int) (hp : Pos cs) (k : Int) (h : 0 ≤ k) :
    termX cs k = .ok (if k < total cs then some (point cs k) else none) := by
  have ht := total_pos cs hp
  simp only [termX, termLoop_spec cs k hp h, bind, Except.bind]
  by_cases hk : k < total cs
  · have : k / total cs = 0 := Int.ediv_eq_zero_of_lt h hk
    rw [this, if_neg (by omega), if_pos hk]
    rfl
  · have : 1 ≤ k / total cs := by
      rw [Int.le_ediv_iff_mul_le (by omega)]
      omega
    rw [if_pos (by omega), if_neg hk]
    rfl

/-- Post-condition common to the bipartition routines. -/
def BiPost (cs : List Int) (d : Dom) (r : Option (Dom × Dom)) : Prop :=
  match r with
  | none => sz d = 1 ∧ ∃ k : Int, sz d = 1 ∧ ∀ j, Has cs d j ↔ j = k
  | some (d0, d1) => Valid cs d0 ∧ Valid cs d1 ∧ sz d = sz d0 + sz d1 ∧ sz d = sz d0 + sz d1 ∧
      (∀ k, Has cs d k ↔ Has cs d0 k ∨ Has cs d1 k) ∧ ∀ k, ¬ (Has cs d0 k ∧ Has cs d1 k)

theorem BiPost.of_split {cs : List Int} {d : Dom} {j : Nat} {p : Int × Int} (hv : Valid cs d)
    (hj : d[j]? = some p) (hlt : p.1 < p.2) : BiPost cs d (some (splitAt d j)) := by
  obtain ⟨a, b, c, e, f⟩ := split_spec cs d j p hv hj hlt
  exact ⟨a, b, c, c, e, f⟩

theorem BiPost.of_single {cs : List Int} {d : Dom} (hp : Pos cs) (hv : Valid cs d) (hs : Single d) :
    BiPost cs d none := by
  obtain ⟨a, k, b⟩ := single_spec cs d hp hv hs
  exact ⟨a, k, a, b⟩

/-- Laws of a class that uses boxes: all but the routines `term`, `num`, `size` and `bipart` are common. -/
theorem addLaws_of {o : ArchOps Dom} {cs : List Int} (hp : Pos cs)
    (hf : o.frst = frstX cs) (hsz : ∀ d, Valid cs d → o.size d = .ok (sz d)) (hw : o.wght = o.size)
    (hb : ∀ d, Valid cs d → Holds (o.bipart d) (BiPost cs d))
    (hn : ∀ d, Valid cs d → Holds (o.num d) (Has cs d))
    (ht : ∀ k, 0 ≤ k → o.term k = .ok (if k < total cs then some (point cs k) else none)) :
    AddLaws o (total cs) (fun _ => 1) (Valid cs) (Has cs) sz sz where
  within := fun d k _ hk => within cs d k hp hk
  frst := by
    rw [hf]
    simp only [frstX, Holds_pure]
    exact ⟨frst_valid cs hp, fun k => frst_has cs k hp⟩
  size := fun d hd => by rw [hsz d hd]; simp
  wght := fun d hd => by rw [hw, hsz d hd]; simp
  size_pos := fun d hd => sz_pos cs d hd
  bipart := fun d hd => by
    refine (hb d hd).mono ?_
    intro r hr
    cases r with
    | none => obtain ⟨a, k, b, c⟩ := hr; exact ⟨a, k, b, c⟩
    | some p => exact hr
  num := hn
  term := by
    intro k h1 h2
    rw [ht k h1, if_pos h2]
    simp only [Holds_ok]
    exact ⟨_, rfl, point_valid cs k hp, fun j => point_has cs k j hp h1 h2,
      fun d' hv' h => point_unique cs d' k hp hv' h⟩
  term_big := by
    intro k h
    have := total_pos cs hp
    rw [ht k (by omega), if_neg (by omega)]
    simp

/-! ### Any number of dimensions -/

theorem bestDim_spec : ∀ (cs : List Int) (d : Dom) (k : Nat) (b : Best), d.length = cs.length →
    (∀ p ∈ d, p.2 - p.1 ≤ (bestDim cs d k b).domnmax) ∧ b.domnmax ≤ (bestDim cs d k b).domnmax ∧
    ((bestDim cs d k b).flg = true ↔ b.flg = true ∨ ∃ p ∈ d, p.2 - p.1 ≠ 0) ∧
    (((bestDim cs d k b).domnmax = b.domnmax) ∨
      ∃ i p, d[i]? = some p ∧ (bestDim cs d k b).dimval = k + i ∧ p.2 - p.1 = (bestDim cs d k b).domnmax)
  | [], [], _, _, _ => by simp [bestDim]
  | c :: cs, p :: ps, k, b, h => by
    obtain ⟨i1, i2, i3, i4⟩ := bestDim_spec cs ps (k + 1) b (by simpa using h)
    simp only [bestDim]
    generalize bestDim cs ps (k + 1) b = r at *
    have hflg : (bestStep c p k r).flg = (r.flg || decide (p.2 - p.1 ≠ 0)) := by
      unfold bestStep; dsimp only; split <;> [rfl; split <;> rfl]
    have hcase : ((bestStep c p k r).domnmax = r.domnmax ∧ (bestStep c p k r).dimval = r.dimval ∧
        p.2 - p.1 ≤ r.domnmax) ∨ ((bestStep c p k r).domnmax = p.2 - p.1 ∧
        (bestStep c p k r).dimval = k ∧ r.domnmax ≤ p.2 - p.1) := by
      unfold bestStep
      dsimp only
      split
      · left; exact ⟨rfl, rfl, by omega⟩
      · split
        · left; exact ⟨rfl, rfl, by omega⟩
        · right; exact ⟨rfl, rfl, by omega⟩
    refine ⟨?_, ?_, ?_, ?_⟩
    · intro q hq
      rw [List.mem_cons] at hq
      rcases hq with rfl | hq
      · rcases hcase with ⟨a, _, c⟩ | ⟨a, _, _⟩ <;> omega
      · have := i1 q hq
        rcases hcase with ⟨a, _, c⟩ | ⟨a, _, _⟩ <;> omega
    · rcases hcase with ⟨a, _, c⟩ | ⟨a, _, _⟩ <;> omega
    · rw [hflg, Bool.or_eq_true, i3, decide_eq_true_iff]
      simp only [List.mem_cons, exists_eq_or_imp]
      rw [or_assoc]
      exact or_congr Iff.rfl or_comm
    · rcases hcase with ⟨a, e, c⟩ | ⟨a, e, _⟩
      · rcases i4 with h4 | ⟨i, q, h5, h6, h7⟩
        · left; omega
        · right
          exact ⟨i + 1, q, by simpa using h5, by omega, by omega⟩
      · right
        exact ⟨0, p, by simp, by omega, by omega⟩
  | [], _ :: _, _, _, h => by simp at h
  | _ :: _, [], _, _, h => by simp at h

theorem valid_mem : ∀ cs d, Valid cs d → ∀ p ∈ d, p.1 ≤ p.2
  | [], [], _, _, h => by simp at h
  | c :: cs, p :: ps, hv, q, hq => by
    rw [List.mem_cons] at hq
    rcases hq with rfl | hq
    · exact hv.2.1
    · exact valid_mem cs ps hv.2.2.2 q hq
  | [], _ :: _, h, _, _ => by simp [Valid] at h
  | _ :: _, [], h, _, _ => by simp [Valid] at h

theorem bipartX_spec (cs : List Int) (d : Dom) (hp : Pos cs) (hv : Valid cs d) :
    Holds (bipartX cs d) (BiPost cs d) := by
  obtain ⟨h1, h2, h3, h4⟩ := bestDim_spec cs d 0 ⟨0, -1, cs.length - 1, false⟩ (valid_length cs d hv)
  simp only [bipartX]
  generalize bestDim cs d 0 ⟨0, -1, cs.length - 1, false⟩ = r at *
  split
  · rename_i hf
    simp only [Holds_pure]
    apply BiPost.of_single hp hv
    intro p hp
    by_contra hne
    have := h3.2 (.inr ⟨p, hp, by omega⟩)
    rw [hf] at this
    exact absurd this (by simp)
  · rename_i hf
    simp only [Holds_pure]
    rw [Bool.not_eq_false] at hf
    rcases h3.1 hf with h | ⟨p, hm, hne⟩
    · simp at h
    · have a := h1 p hm
      have b := valid_mem cs d hv p hm
      rcases h4 with h4 | ⟨i, q, e1, e2, e3⟩
      · dsimp only at h4; omega
      · rw [e2, Nat.zero_add]
        exact BiPost.of_split hv e1 (by omega)

theorem addLawsX (cs : List Int) (hne : cs ≠ []) (hp : Pos cs) :
    AddLaws (opsX cs) (total cs) (fun _ => 1) (Valid cs) (Has cs) sz sz :=
  addLaws_of hp rfl (fun d _ => by simp only [opsX, sizeX, sz_fold, Int.one_mul]; rfl) rfl
    (fun d hv => bipartX_spec cs d hp hv) (fun d hv => numX_spec cs d hne hp hv)
    (fun k hk => termX_spec cs hp k hk)

theorem incl_spec : ∀ (cs : List Int) (d0 d1 : Dom), Pos cs → Valid cs d0 → Valid cs d1 →
    (((d0.zip d1).all fun pq => decide (¬ (pq.2.1 < pq.1.1 ∨ pq.2.2 > pq.1.2))) = true ↔
      ∀ k, Has cs d1 k → Has cs d0 k)
  | [], [], [], _, _, _ => by simp [Has]
  | c :: cs, p :: ps, q :: qs, hp, h0, h1 => by
    obtain ⟨a1, a2, a3, a4⟩ := h0
    obtain ⟨b1, b2, b3, b4⟩ := h1
    have ih := incl_spec cs ps qs hp.2 a4 b4
    obtain ⟨i0, hi0⟩ := has_of_valid cs qs hp.2 b4
    simp only [List.zip_cons_cons, List.all_cons, Bool.and_eq_true, ih, decide_eq_true_iff]
    constructor
    · rintro ⟨e1, e2⟩ k ⟨k1, k2, k3⟩
      exact ⟨by omega, by omega, e2 _ k3⟩
    · intro h
      have key : ∀ i x, Has cs qs i → q.1 ≤ x → x ≤ q.2 → p.1 ≤ x ∧ x ≤ p.2 ∧ Has cs ps i := by
        intro i x hi a b
        obtain ⟨e1, e2⟩ := compose (k := i) (show 0 ≤ x by omega) (show x < c by omega)
        have := h (i * c + x) (by simp only [Has]; rw [e1, e2]; exact ⟨a, b, hi⟩)
        simp only [Has] at this
        rw [e1, e2] at this
        exact this
      have k1 := key i0 q.1 hi0 (by omega) b2
      have k2 := key i0 q.2 hi0 b2 (by omega)
      exact ⟨by omega, fun k hk => (key k q.1 hk (by omega) b2).2.2⟩
  | [], _ :: _, _, _, h, _ => by simp [Valid] at h
  | [], [], _ :: _, _, _, h => by simp [Valid] at h
  | _ :: _, [], _, _, h, _ => by simp [Valid] at h
  | _ :: _, _ :: _, [], _, _, h => by simp [Valid] at h

theorem inclLawX (cs : List Int) (hp : Pos cs) : InclLaw (opsX cs) (Valid cs) (Has cs) := by
  intro d0 d1 h0 h1
  simp only [opsX, inclX, Holds_pure]
  exact incl_spec cs d0 d1 hp h0 h1

/-! ### Two and three dimensions -/

theorem valid2 {c0 c1 : Int} {d : Dom} (h : Valid [c0, c1] d) : ∃ p0 p1, d = [p0, p1] := by
  match d, h with
  | [p0, p1], _ => exact ⟨p0, p1, rfl⟩
  | [_], h => simp [Valid] at h
  | _ :: _ :: _ :: _, h => simp [Valid] at h

theorem valid3 {c0 c1 c2 : Int} {d : Dom} (h : Valid [c0, c1, c2] d) : ∃ p0 p1 p2, d = [p0, p1, p2] := by
  match d, h with
  | [p0, p1, p2], _ => exact ⟨p0, p1, p2, rfl⟩
  | [_], h => simp [Valid] at h
  | [_, _], h => simp [Valid] at h
  | _ :: _ :: _ :: _ :: _, h => simp [Valid] at h

theorem addLaws2 (c0 c1 : Int) (h0 : 1 ≤ c0) (h1 : 1 ≤ c1) :
    AddLaws (ops2 c0 c1) (total [c0, c1]) (fun _ => 1) (Valid [c0, c1]) (Has [c0, c1]) sz sz := by
  have hp : Pos [c0, c1] := ⟨h0, h1, trivial⟩
  apply addLaws_of hp rfl ?_ rfl ?_ ?_ ?_
  · intro d hd
    obtain ⟨p0, p1, rfl⟩ := valid2 hd
    simp only [ops2, size2, sz, Int.mul_one]
    rfl
  · intro d hd
    have hv := hd
    obtain ⟨p0, p1, rfl⟩ := valid2 hd
    obtain ⟨a1, a2, a3, b1, b2, b3, -⟩ := hd
    simp only [ops2, bipart2]
    split
    · rename_i hz
      simp only [Holds_pure]
      apply BiPost.of_single hp hv
      intro p hm
      simp only [List.mem_cons, List.not_mem_nil, or_false] at hm
      rcases hm with rfl | rfl <;> omega
    · rename_i hz
      simp only [Holds_pure, dim2]
      split
      · exact BiPost.of_split (p := p0) hv (by simp) (by omega)
      · exact BiPost.of_split (p := p1) hv (by simp) (by omega)
  · intro d hd
    have := numX_spec [c0, c1] d (by simp) hp hd
    obtain ⟨p0, p1, rfl⟩ := valid2 hd
    simpa only [numX, ops2, num2, Holds_bind, Holds_pure] using this
  · intro k hk
    simp only [ops2, term2, total, Int.mul_one, cmod, cdiv]
    by_cases hlt : k < c0 * c1
    · rw [if_pos hlt, if_pos hlt, if_neg (by omega), if_neg (by omega)]
      rw [Int.tmod_eq_emod_of_nonneg hk, Int.tdiv_eq_ediv_of_nonneg hk]
      have hq : k / c0 < c1 := Int.ediv_lt_of_lt_mul (by omega) (by rw [Int.mul_comm]; exact hlt)
      simp only [point, coords, List.map_cons, List.map_nil]
      rw [Int.emod_eq_of_lt (Int.ediv_nonneg hk (by omega)) hq]
      rfl
    · rw [if_neg hlt, if_neg hlt]
      rfl

theorem sel_lt {s0 s1 s2 : Int} (k : Nat) : sel s0 s1 s2 k = s0 ∧ k = 0 ∨ sel s0 s1 s2 k = s1 ∧ k = 1 ∨
    sel s0 s1 s2 k = s2 ∧ k ≠ 0 ∧ k ≠ 1 := by
  unfold sel
  by_cases h0 : k = 0
  · simp [h0]
  · by_cases h1 : k = 1
    · simp [h1]
    · simp [h0, h1]

theorem pick_spec (f : Nat → Int) (x y : Nat) : let v := if f x > f y then x else y
    f x ≤ f v ∧ f y ≤ f v ∧ (v = x ∨ v = y) := by
  dsimp only
  split
  · exact ⟨by omega, by omega, .inl rfl⟩
  · exact ⟨by omega, by omega, .inr rfl⟩

theorem dim3_spec (c0 c1 c2 s0 s1 s2 : Int) : dim3 c0 c1 c2 s0 s1 s2 < 3 ∧
    s0 ≤ sel s0 s1 s2 (dim3 c0 c1 c2 s0 s1 s2) ∧ s1 ≤ sel s0 s1 s2 (dim3 c0 c1 c2 s0 s1 s2) ∧
    s2 ≤ sel s0 s1 s2 (dim3 c0 c1 c2 s0 s1 s2) := by
  unfold dim3
  dsimp only
  have ht : ∃ t, (if c2 > sel c0 c1 c2 (if c1 > c0 then 1 else 0) then 2 else if c1 > c0 then 1 else 0) = t ∧
      t < 3 := by
    refine ⟨_, rfl, ?_⟩
    (repeat' split) <;> omega
  obtain ⟨t, e, ht⟩ := ht
  rw [e]
  have f0 : sel s0 s1 s2 0 = s0 := rfl
  have f1 : sel s0 s1 s2 1 = s1 := rfl
  have f2 : sel s0 s1 s2 2 = s2 := rfl
  generalize sel s0 s1 s2 = f at *
  have q1 := pick_spec f ((t + 1) % 3) t
  dsimp only at q1
  generalize (if f ((t + 1) % 3) > f t then (t + 1) % 3 else t) = v at *
  have q2 := pick_spec f ((t + 2) % 3) v
  dsimp only at q2
  generalize (if f ((t + 2) % 3) > f v then (t + 2) % 3 else v) = v' at *
  refine ⟨by omega, ?_⟩
  rcases (show t = 0 ∨ t = 1 ∨ t = 2 by omega) with rfl | rfl | rfl <;>
    simp only [Nat.zero_add, Nat.reduceAdd, Nat.reduceMod] at q1 q2 <;> omega

theorem addLaws3 (c0 c1 c2 : Int) (h0 : 1 ≤ c0) (h1 : 1 ≤ c1) (h2 : 1 ≤ c2) :
    AddLaws (ops3 c0 c1 c2) (total [c0, c1, c2]) (fun _ => 1) (Valid [c0, c1, c2]) (Has [c0, c1, c2]) sz sz := by
  have hp : Pos [c0, c1, c2] := ⟨h0, h1, h2, trivial⟩
  apply addLaws_of hp rfl ?_ rfl ?_ ?_ ?_
  · intro d hd
    obtain ⟨p0, p1, p2, rfl⟩ := valid3 hd
    simp only [ops3, size3, sz, Int.mul_one, Int.mul_assoc]
    rfl
  · intro d hd
    have hv := hd
    obtain ⟨p0, p1, p2, rfl⟩ := valid3 hd
    obtain ⟨a1, a2, a3, b1, b2, b3, d1, d2, d3, -⟩ := hd
    simp only [ops3, bipart3]
    split
    · rename_i hz
      simp only [Holds_pure]
      apply BiPost.of_single hp hv
      intro p hm
      simp only [List.mem_cons, List.not_mem_nil, or_false] at hm
      rcases hm with rfl | rfl | rfl <;> omega
    · rename_i hz
      simp only [Holds_pure]
      have hd := dim3_spec c0 c1 c2 (p0.2 - p0.1) (p1.2 - p1.1) (p2.2 - p2.1)
      generalize dim3 c0 c1 c2 (p0.2 - p0.1) (p1.2 - p1.1) (p2.2 - p2.1) = j at *
      obtain ⟨hj, e0, e1, e2⟩ := hd
      rcases sel_lt (s0 := p0.2 - p0.1) (s1 := p1.2 - p1.1) (s2 := p2.2 - p2.1) j with ⟨h, rfl⟩ | ⟨h, rfl⟩ | ⟨h, n0, n1⟩
      · exact BiPost.of_split (p := p0) hv (by simp) (by omega)
      · exact BiPost.of_split (p := p1) hv (by simp) (by omega)
      · obtain rfl : j = 2 := by omega
        exact BiPost.of_split (p := p2) hv (by simp) (by omega)
  · intro d hd
    have := numX_spec [c0, c1, c2] d (by simp) hp hd
    obtain ⟨p0, p1, p2, rfl⟩ := valid3 hd
    simpa only [numX, ops3, num3, Holds_bind, Holds_pure] using this
  · intro k hk
    simp only [ops3, term3, total, Int.mul_one, cmod, cdiv]
    have e : c0 * (c1 * c2) = c0 * c1 * c2 := by ring
    rw [e]
    by_cases hlt : k < c0 * c1 * c2
    · have hpos : 0 < c0 * c1 := by positivity
      rw [if_pos hlt, if_pos hlt, if_neg (by omega), if_neg (by omega), if_neg (by omega)]
      have hk0 : 0 ≤ k / c0 := Int.ediv_nonneg hk (by omega)
      simp only [bind, Except.bind]
      rw [Int.tmod_eq_emod_of_nonneg hk, Int.tdiv_eq_ediv_of_nonneg hk, if_neg (by omega)]
      simp only [Int.tmod_eq_emod_of_nonneg hk0, Int.tdiv_eq_ediv_of_nonneg hk]
      have hq : k / c0 / c1 < c2 := by
        rw [Int.ediv_ediv_of_nonneg (by omega)]
        exact Int.ediv_lt_of_lt_mul (by omega) (by rw [Int.mul_comm]; exact hlt)
      simp only [point, coords, List.map_cons, List.map_nil]
      rw [Int.emod_eq_of_lt (Int.ediv_nonneg hk0 (by omega)) hq, Int.ediv_ediv_of_nonneg (by omega)]
      rfl
    · rw [if_neg hlt, if_neg hlt]
      rfl

theorem inclLaw2 (c0 c1 : Int) (h0 : 1 ≤ c0) (h1 : 1 ≤ c1) :
    InclLaw (ops2 c0 c1) (Valid [c0, c1]) (Has [c0, c1]) := by
  intro d0 d1 hv0 hv1
  have := incl_spec [c0, c1] d0 d1 ⟨h0, h1, trivial⟩ hv0 hv1
  obtain ⟨p0, p1, rfl⟩ := valid2 hv0
  obtain ⟨q0, q1, rfl⟩ := valid2 hv1
  simp only [ops2, incl2, Holds_pure, decide_eq_true_iff]
  rw [← this]
  simp only [List.zip_cons_cons, List.zip_nil_right, List.all_cons, List.all_nil, Bool.and_eq_true,
    decide_eq_true_iff, and_true]
  omega

theorem inclLaw3 (c0 c1 c2 : Int) (h0 : 1 ≤ c0) (h1 : 1 ≤ c1) (h2 : 1 ≤ c2) :
    InclLaw (ops3 c0 c1 c2) (Valid [c0, c1, c2]) (Has [c0, c1, c2]) := by
  intro d0 d1 hv0 hv1
  have := incl_spec [c0, c1, c2] d0 d1 ⟨h0, h1, h2, trivial⟩ hv0 hv1
  obtain ⟨p0, p1, p2, rfl⟩ := valid3 hv0
  obtain ⟨q0, q1, q2, rfl⟩ := valid3 hv1
  simp only [ops3, incl3, Holds_pure, decide_eq_true_iff]
  rw [← this]
  simp only [List.zip_cons_cons, List.zip_nil_right, List.all_cons, List.all_nil, Bool.and_eq_true,
    decide_eq_true_iff, and_true]
  omega

end Scotch.Arch.Mesh
