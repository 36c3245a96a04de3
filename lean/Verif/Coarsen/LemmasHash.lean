import Verif.Coarsen.Model
import Verif.Util
import Mathlib.Data.Finset.Card
import Mathlib.Data.Nat.Bitwise

set_option autoImplicit false
set_option linter.unusedSimpArgs false

namespace Scotch.Coarsen

/-! ## Size of the hash table -/

/-- Masks are predecessors of powers of two. -/
def IsMask (m : Int) : Prop := ∃ j : Nat, m = (2 : Int) ^ j - 1

theorem IsMask.nonneg {m : Int} (h : IsMask m) : 0 ≤ m := by
  obtain ⟨j, hj⟩ := h
  have : (0 : Int) < 2 ^ j := Int.pow_pos (by omega)
  omega

theorem IsMask.double {m : Int} (h : IsMask m) : IsMask (m * 2 + 1) := by
  obtain ⟨j, hj⟩ := h
  exact ⟨j + 1, by rw [Int.pow_succ]; omega⟩

theorem maskLoop_holds (degrmax : Int) : ∀ (n : Nat) (msk : Int), IsMask msk → 31 ≤ msk → 1 ≤ n → degrmax ≤ msk + n - 1 →
    Holds (maskLoop degrmax n msk) (fun m => degrmax ≤ m ∧ 31 ≤ m ∧ IsMask m) := by
  intro n
  induction n with
  | zero => intro msk _ _ h; omega
  | succ n ih =>
    intro msk h1 h2 h3 h4
    unfold maskLoop
    by_cases h : msk < degrmax
    · rw [if_pos h]
      exact ih _ h1.double (by omega) (by omega) (by omega)
    · rw [if_neg h, Holds_ok]
      exact ⟨by omega, h2, h1⟩

theorem hashMask_holds (degrmax : Int) : Holds (hashMask degrmax) (fun m => 4 * degrmax + 3 ≤ m ∧ 127 ≤ m ∧ IsMask m) := by
  unfold hashMask
  rw [Holds_bind]
  refine (maskLoop_holds degrmax (degrmax.toNat + 1) 31 ⟨5, by decide⟩ (by omega) (by omega) (by omega)).mono ?_
  rintro m ⟨h1, h2, h3⟩
  rw [Holds_pure]
  refine ⟨by omega, by omega, ?_⟩
  have := h3.double.double
  rwa [show (m * 2 + 1) * 2 + 1 = m * 4 + 3 by omega] at this

theorem land_mask {m x : Int} (h : IsMask m) (hx : 0 ≤ x) : land x m = x % (m + 1) := by
  obtain ⟨j, hj⟩ := h
  unfold land
  have hp : (0 : Nat) < 2 ^ j := Nat.pow_pos (by omega)
  have h1 : m.toNat = 2 ^ j - 1 := by
    have : ((2 ^ j : Nat) : Int) = (2 : Int) ^ j := by push_cast; rfl
    omega
  rw [h1, Nat.and_two_pow_sub_one_eq_mod, Int.natCast_emod, Int.toNat_of_nonneg hx]
  congr 1
  push_cast
  omega

/-! ## Search -/

/-- Slot of key `k` after `d` steps. -/
def probe (size k : Int) (d : Nat) : Int := (k * hashPrime + d) % size

theorem probe_in {size : Int} (h : 0 < size) (k : Int) (d : Nat) : 0 ≤ probe size k d ∧ probe size k d < size :=
  ⟨Int.emod_nonneg _ (by omega), Int.emod_lt_of_pos _ h⟩

theorem probe_succ {size : Int} (k : Int) (d : Nat) : (probe size k d + 1) % size = probe size k (d + 1) := by
  unfold probe
  rw [Int.emod_add_emod]
  congr 1
  push_cast
  omega

/-- Every slot is on the path of every key. -/
theorem probe_surj {size : Int} (h : 0 < size) (k x : Int) (h1 : 0 ≤ x) (h2 : x < size) : ∃ d : Nat, (d : Int) < size ∧ probe size k d = x := by
  refine ⟨((x - k * hashPrime) % size).toNat, ?_, ?_⟩
  · have := Int.emod_lt_of_pos (x - k * hashPrime) h
    have := Int.emod_nonneg (x - k * hashPrime) (by omega : size ≠ 0)
    omega
  · unfold probe
    rw [Int.toNat_of_nonneg (Int.emod_nonneg _ (by omega)), Int.add_emod_emod, show k * hashPrime + (x - k * hashPrime) = x by omega]
    exact Int.emod_eq_of_lt h1 h2

/-- The keys of a list are stored in the table. -/
structure Table (tab : Arr Cell) (size c start : Int) (keys : List Int) : Prop where
  lo : tab.lo = 0
  hi : tab.hi = size
  pos : 0 < size
  /-- each key has a cell, and the cells before it on its path are in use -/
  key : ∀ i (h : i < keys.length), ∃ d : Nat, tab.get (probe size keys[i] d) = ⟨c, keys[i], start + i⟩ ∧ ∀ d' < d, (tab.get (probe size keys[i] d')).org = c
  /-- cells in use are those of keys -/
  used : ∀ x, 0 ≤ x → x < size → (tab.get x).org = c → ∃ i, ∃ h : i < keys.length, tab.get x = ⟨c, keys[i], start + i⟩
  /-- a key has a single cell -/
  uniq : ∀ x y, 0 ≤ x → x < size → 0 ≤ y → y < size → (tab.get x).org = c → tab.get x = tab.get y → x = y
  /-- other cells belong to previous vertices -/
  old : ∀ x, 0 ≤ x → x < size → (tab.get x).org ≤ c

/-- A table that is not full has a free cell. -/
theorem Table.free {tab : Arr Cell} {size c start : Int} {keys : List Int} (T : Table tab size c start keys) (h : (keys.length : Int) < size) :
    ∃ x, 0 ≤ x ∧ x < size ∧ (tab.get x).org ≠ c := by
  apply Classical.byContradiction
  intro hn
  have hall : ∀ x, 0 ≤ x → x < size → (tab.get x).org = c := by
    intro x h1 h2
    apply Classical.byContradiction
    intro h3
    exact hn ⟨x, h1, h2, h3⟩
  have hcard : (Finset.Ico (0 : Int) size).card ≤ (Finset.range keys.length).card := by
    refine Finset.card_le_card_of_injOn (fun x => ((tab.get x).edge - start).toNat) ?_ ?_
    · intro x hx
      rw [Finset.mem_coe, Finset.mem_Ico] at hx
      obtain ⟨i, hi, he⟩ := T.used x hx.1 hx.2 (hall x hx.1 hx.2)
      rw [Finset.mem_coe, Finset.mem_range]
      dsimp only
      rw [he]
      dsimp only
      omega
    · intro x hx y hy hxy
      rw [Finset.mem_coe, Finset.mem_Ico] at hx hy
      obtain ⟨i, hi, he⟩ := T.used x hx.1 hx.2 (hall x hx.1 hx.2)
      obtain ⟨j, hj, hf⟩ := T.used y hy.1 hy.2 (hall y hy.1 hy.2)
      dsimp only at hxy
      rw [he, hf] at hxy
      dsimp only at hxy
      have : i = j := by omega
      subst this
      exact T.uniq x y hx.1 hx.2 hy.1 hy.2 (hall x hx.1 hx.2) (he.trans hf.symm)
  rw [Int.card_Ico, Finset.card_range] at hcard
  have := T.pos
  omega

theorem hashLoop_holds {tab : Arr Cell} {msk c start : Int} {keys : List Int} (hm : IsMask msk) (T : Table tab (msk + 1) c start keys) (hlen : (keys.length : Int) < msk + 1) (k : Int) :
    ∀ (n d : Nat), (msk + 1 : Int) + 1 ≤ d + n → (∀ d' < d, (tab.get (probe (msk + 1) k d')).org = c ∧ (tab.get (probe (msk + 1) k d')).vend ≠ k) →
    Holds (hashLoop tab msk c k n (probe (msk + 1) k d)) (fun r => ∃ d : Nat, r.1 = probe (msk + 1) k d ∧
      (∀ d' < d, (tab.get (probe (msk + 1) k d')).org = c ∧ (tab.get (probe (msk + 1) k d')).vend ≠ k) ∧
      (r.2 = true → (tab.get r.1).org ≠ c) ∧ (r.2 = false → (tab.get r.1).org = c ∧ (tab.get r.1).vend = k)) := by
  obtain ⟨x, x1, x2, x3⟩ := T.free hlen
  obtain ⟨dx, dx1, dx2⟩ := probe_surj T.pos k x x1 x2
  intro n
  induction n with
  | zero =>
    intro d h1 h2
    exfalso
    have := (h2 dx (by omega)).1
    rw [dx2] at this
    exact x3 this
  | succ n ih =>
    intro d h1 h2
    have hp := probe_in T.pos k d
    have hmn := hm.nonneg
    unfold hashLoop
    rw [Holds_bind, Arr.rd_ok _ (by rw [T.lo]; omega) (by rw [T.hi]; omega), Holds_ok]
    by_cases ho : (tab.get (probe (msk + 1) k d)).org ≠ c
    · rw [if_pos ho, Holds_pure]
      exact ⟨d, rfl, h2, fun _ => ho, fun h => by cases h⟩
    · rw [if_neg ho]
      have ho' := Classical.not_not.1 ho
      by_cases hv : (tab.get (probe (msk + 1) k d)).vend = k
      · rw [if_pos hv, Holds_pure]
        exact ⟨d, rfl, h2, (fun h => by cases h), fun _ => ⟨ho', hv⟩⟩
      · rw [if_neg hv, land_mask hm (by omega), probe_succ]
        refine ih (d + 1) (by push_cast at *; omega) ?_
        intro d' hd'
        by_cases e : d' = d
        · rw [e]; exact ⟨ho', hv⟩
        · exact h2 d' (by omega)

/-- The result of a search. -/
theorem search_holds {numMax : Int} {tab : Arr Cell} {msk c start : Int} {keys : List Int} (hm : IsMask msk) (T : Table tab (msk + 1) c start keys) (hlen : (keys.length : Int) < msk + 1) (k : Int)
    (hk : 0 ≤ k) (hov : k * hashPrime ≤ numMax) :
    Holds (do let h ← hashStart numMax msk k; hashLoop tab msk c k (msk.toNat + 2) h) (fun r =>
      (0 ≤ r.1 ∧ r.1 < msk + 1) ∧
      (r.2 = true → k ∉ keys ∧ ∀ e, e = start + keys.length → Table (tab.set r.1 ⟨c, k, e⟩) (msk + 1) c start (keys ++ [k])) ∧
      (r.2 = false → ∃ i, ∃ h : i < keys.length, keys[i] = k ∧ tab.get r.1 = ⟨c, k, start + i⟩)) := by
  have hmn := hm.nonneg
  have h0 : 0 ≤ k * hashPrime := by unfold hashPrime; omega
  unfold hashStart
  rw [if_pos hov, Holds_bind, Holds_ok, land_mask hm h0, show (k * hashPrime) % (msk + 1) = probe (msk + 1) k 0 by unfold probe; simp]
  refine (hashLoop_holds hm T hlen k (msk.toNat + 2) 0 (by omega) (fun d' h => by omega)).mono ?_
  rintro ⟨x, b⟩ ⟨d, h1, h2, h3, h4⟩
  dsimp only at h1 h3 h4 ⊢
  have hp := probe_in T.pos k d
  rw [h1] at h3 h4 ⊢
  refine ⟨hp, ?_, ?_⟩
  · intro hb
    have hfree := h3 hb
    have hnot : k ∉ keys := by
      intro hmem
      obtain ⟨i, hi, he⟩ := List.getElem_of_mem hmem
      obtain ⟨di, k1, k2⟩ := T.key i hi
      rw [he] at k1 k2
      rcases Nat.lt_trichotomy di d with h | h | h
      · have := (h2 di h).2
        rw [k1] at this
        exact this rfl
      · rw [h] at k1
        rw [k1] at hfree
        exact hfree rfl
      · exact hfree (k2 d h)
    refine ⟨hnot, ?_⟩
    intro e he
    have hkeep : ∀ y, (tab.get y).org = c → (tab.set (probe (msk + 1) k d) ⟨c, k, e⟩).get y = tab.get y := by
      intro y hy
      rw [Arr.set_get_ne]
      intro h
      rw [h] at hy
      exact hfree hy
    refine ⟨T.lo, T.hi, T.pos, ?_, ?_, ?_, ?_⟩
    · intro i hi
      by_cases hil : i < keys.length
      · obtain ⟨di, k1, k2⟩ := T.key i hil
        rw [List.getElem_append_left hil]
        refine ⟨di, ?_, ?_⟩
        · rw [hkeep _ (by rw [k1])]; exact k1
        · intro d' hd'
          rw [hkeep _ (k2 d' hd')]
          exact k2 d' hd'
      · have hie : i = keys.length := by rw [List.length_append, List.length_singleton] at hi; omega
        subst hie
        rw [List.getElem_append_right (Nat.le_refl _)]
        simp only [Nat.sub_self, List.getElem_cons_zero]
        refine ⟨d, ?_, ?_⟩
        · rw [Arr.set_get, if_pos rfl, he]
        · intro d' hd'
          rw [hkeep _ (h2 d' hd').1]
          exact (h2 d' hd').1
    · intro y y1 y2 y3
      by_cases hy : y = probe (msk + 1) k d
      · refine ⟨keys.length, by simp, ?_⟩
        rw [hy, Arr.set_get, if_pos rfl, he, List.getElem_append_right (Nat.le_refl _)]
        simp only [Nat.sub_self, List.getElem_cons_zero]
      · rw [Arr.set_get_ne _ _ hy] at y3 ⊢
        obtain ⟨i, hi, h⟩ := T.used y y1 y2 y3
        exact ⟨i, by rw [List.length_append]; omega, by rw [List.getElem_append_left hi]; exact h⟩
    · have hfresh : ∀ z, 0 ≤ z → z < msk + 1 → z ≠ probe (msk + 1) k d → tab.get z ≠ ⟨c, k, e⟩ := by
        intro z z1 z2 z3 hz
        obtain ⟨i, hi, h⟩ := T.used z z1 z2 (by rw [hz])
        rw [hz] at h
        have : e = start + i := congrArg Cell.edge h
        omega
      intro y z y1 y2 z1 z2 y3 hyz
      rw [Arr.set_get, Arr.set_get] at hyz
      by_cases ey : y = probe (msk + 1) k d
      · by_cases ez : z = probe (msk + 1) k d
        · rw [ey, ez]
        · rw [if_pos ey, if_neg ez] at hyz
          exact absurd hyz.symm (hfresh z z1 z2 ez)
      · by_cases ez : z = probe (msk + 1) k d
        · rw [if_neg ey, if_pos ez] at hyz
          exact absurd hyz (hfresh y y1 y2 ey)
        · rw [if_neg ey, if_neg ez] at hyz
          rw [Arr.set_get_ne _ _ ey] at y3
          exact T.uniq y z y1 y2 z1 z2 y3 hyz
    · intro y y1 y2
      rw [Arr.set_get]
      by_cases ey : y = probe (msk + 1) k d
      · rw [if_pos ey]
      · rw [if_neg ey]; exact T.old y y1 y2
  · intro hb
    obtain ⟨o1, o2⟩ := h4 hb
    obtain ⟨i, hi, h⟩ := T.used _ hp.1 hp.2 o1
    have : keys[i] = k := by rw [h] at o2; exact o2
    exact ⟨i, hi, this, by rw [h, this]⟩

/-- When starting a vertex, the table has no key of it. -/
theorem Table.start {tab : Arr Cell} {size c : Int} (h1 : tab.lo = 0) (h2 : tab.hi = size) (h3 : 0 < size) (h4 : ∀ x, 0 ≤ x → x < size → (tab.get x).org < c) (start : Int) : Table tab size c start [] :=
  ⟨h1, h2, h3, fun i hi => by simp at hi, fun x x1 x2 h => by have := h4 x x1 x2; omega, fun x y x1 x2 _ _ h _ => by have := h4 x x1 x2; omega,
    fun x x1 x2 => by have := h4 x x1 x2; omega⟩

end Scotch.Coarsen
