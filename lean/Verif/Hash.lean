import Verif.Base
import Verif.Coarsen.LemmasHash

/-!
# Hash tables with linear probing

Facts on the tables that several routines use to detect neighbours already seen: the cells of the current vertex (`own`) hold distinct keys. The first slot of key `k` is `(k * prime) & msk`, where the number
of slots `msk + 1` is a power of two.
-/

set_option autoImplicit false
set_option linter.unusedSimpArgs false

namespace Scotch.Hash

open Coarsen (IsMask land land_mask)

/-- Search loop: `test h` tells whether slot `h` is free (`some true`), holds the key (`some false`), or neither. -/
def find (test : Int → M (Option Bool)) (msk : Int) : Nat → Int → M (Int × Bool)
  | 0, _ => .error .fuel
  | n + 1, h => do
    match ← test h with
    | some b => return (h, b)
    | none => find test msk n (land (h + 1) msk)

/-- Slot of key `k` after `d` steps. -/
def probe (prime size k : Int) (d : Nat) : Int := (k * prime + d) % size

variable {prime size : Int}

theorem probe_in (h : 0 < size) (k : Int) (d : Nat) : 0 ≤ probe prime size k d ∧ probe prime size k d < size :=
  ⟨Int.emod_nonneg _ (by omega), Int.emod_lt_of_pos _ h⟩

theorem probe_succ (k : Int) (d : Nat) : (probe prime size k d + 1) % size = probe prime size k (d + 1) := by
  unfold probe
  rw [Int.emod_add_emod]
  congr 1
  push_cast
  omega

theorem probe_surj (h : 0 < size) (k x : Int) (h1 : 0 ≤ x) (h2 : x < size) : ∃ d : Nat, (d : Int) < size ∧ probe prime size k d = x := by
  refine ⟨((x - k * prime) % size).toNat, ?_, ?_⟩
  · have := Int.emod_lt_of_pos (x - k * prime) h
    have := Int.emod_nonneg (x - k * prime) (by omega : size ≠ 0)
    omega
  · unfold probe
    rw [Int.toNat_of_nonneg (Int.emod_nonneg _ (by omega)), Int.add_emod_emod, show k * prime + (x - k * prime) = x by omega]
    exact Int.emod_eq_of_lt h1 h2

/-- Slots before the `d`-th one on the path of `k` are in use by other keys. -/
def Path (prime size : Int) (own : Int → Prop) (key : Int → Int) (k : Int) (d : Nat) : Prop := ∀ d' < d, own (probe prime size k d') ∧ key (probe prime size k d') ≠ k

/-- The table holds exactly keys `keys`. -/
structure Tab (prime size : Int) (own : Int → Prop) (key : Int → Int) (keys : List Int) : Prop where
  pos : 0 < size
  path : ∀ x, 0 ≤ x → x < size → own x → ∃ d, probe prime size (key x) d = x ∧ Path prime size own key (key x) d
  mem : ∀ k, k ∈ keys ↔ ∃ x, 0 ≤ x ∧ x < size ∧ own x ∧ key x = k
  nodup : keys.Nodup

variable {own : Int → Prop} {key : Int → Int} {keys : List Int}

theorem Tab.uniq (T : Tab prime size own key keys) {x y : Int} (x1 : 0 ≤ x) (x2 : x < size) (y1 : 0 ≤ y) (y2 : y < size) (hx : own x) (hy : own y) (h : key x = key y) : x = y := by
  obtain ⟨d, d1, d2⟩ := T.path x x1 x2 hx
  obtain ⟨e, e1, e2⟩ := T.path y y1 y2 hy
  rw [h] at d1 d2
  rcases Nat.lt_trichotomy d e with hl | hl | hl
  · exact absurd h (by have := (e2 d hl).2; rwa [d1] at this)
  · subst hl; exact d1.symm.trans e1
  · exact absurd rfl (by have := (d2 e hl).2; rwa [e1] at this)

theorem Tab.free (T : Tab prime size own key keys) (h : (keys.length : Int) < size) : ∃ x, 0 ≤ x ∧ x < size ∧ ¬ own x := by
  apply Classical.byContradiction
  intro hn
  have hall : ∀ x, 0 ≤ x → x < size → own x := by
    intro x h1 h2
    apply Classical.byContradiction
    intro h3
    exact hn ⟨x, h1, h2, h3⟩
  have hcard : (Finset.Ico (0 : Int) size).card ≤ keys.toFinset.card := by
    refine Finset.card_le_card_of_injOn key ?_ ?_
    · intro x hx
      rw [Finset.mem_coe, Finset.mem_Ico] at hx
      rw [Finset.mem_coe, List.mem_toFinset, T.mem]
      exact ⟨x, hx.1, hx.2, hall x hx.1 hx.2, rfl⟩
    · intro x hx y hy hxy
      rw [Finset.mem_coe, Finset.mem_Ico] at hx hy
      exact T.uniq hx.1 hx.2 hy.1 hy.2 (hall x hx.1 hx.2) (hall y hy.1 hy.2) hxy
  rw [Int.card_Ico] at hcard
  have := List.toFinset_card_le keys
  have := T.pos
  omega

theorem Tab.empty (h : 0 < size) (hn : ∀ x, 0 ≤ x → x < size → ¬ own x) : Tab prime size own key [] :=
  ⟨h, fun x x1 x2 hx => absurd hx (hn x x1 x2), fun k => ⟨(fun h => by simp at h), fun ⟨x, x1, x2, x3, _⟩ => absurd x3 (hn x x1 x2)⟩, List.nodup_nil⟩

/-- A free slot at the end of a path shows that the key is not in the table. -/
theorem Tab.not_mem (T : Tab prime size own key keys) {k : Int} {d : Nat} (hp : Path prime size own key k d) (hf : ¬ own (probe prime size k d)) : k ∉ keys := by
  intro hk
  obtain ⟨x, x1, x2, x3, x4⟩ := (T.mem k).1 hk
  obtain ⟨e, e1, e2⟩ := T.path x x1 x2 x3
  rw [x4] at e1 e2
  rcases Nat.lt_trichotomy d e with h | h | h
  · exact hf (e2 d h).1
  · rw [h, e1] at hf; exact hf x3
  · have := (hp e h).2; rw [e1] at this; exact this x4

/-- Insertion of a new key. -/
theorem Tab.insert (T : Tab prime size own key keys) {k : Int} {d : Nat} (hp : Path prime size own key k d) (hf : ¬ own (probe prime size k d)) {own' : Int → Prop} {key' : Int → Int}
    (ho : ∀ x, own' x ↔ own x ∨ x = probe prime size k d) (hk : ∀ x, x ≠ probe prime size k d → key' x = key x) (hkx : key' (probe prime size k d) = k) : Tab prime size own' key' (keys ++ [k]) := by
  have hkeep : ∀ x, own x → key' x = key x := by
    intro x hx
    apply hk
    intro e
    rw [e] at hx
    exact hf hx
  have hpath : ∀ j e, Path prime size own key j e → Path prime size own' key' j e := by
    intro j e h d' hd
    obtain ⟨b1, b2⟩ := h d' hd
    exact ⟨(ho _).2 (Or.inl b1), by rw [hkeep _ b1]; exact b2⟩
  have hin := probe_in (prime := prime) T.pos k d
  refine ⟨T.pos, ?_, ?_, ?_⟩
  · intro x x1 x2 hx
    rcases (ho x).1 hx with h | h
    · obtain ⟨e, e1, e2⟩ := T.path x x1 x2 h
      rw [hkeep x h]
      exact ⟨e, e1, hpath _ _ e2⟩
    · rw [h, hkx]
      exact ⟨d, rfl, hpath _ _ hp⟩
  · intro j
    rw [List.mem_append, List.mem_singleton, T.mem]
    constructor
    · rintro (⟨x, x1, x2, x3, x4⟩ | rfl)
      · exact ⟨x, x1, x2, (ho x).2 (Or.inl x3), by rw [hkeep x x3]; exact x4⟩
      · exact ⟨_, hin.1, hin.2, (ho _).2 (Or.inr rfl), hkx⟩
    · rintro ⟨x, x1, x2, x3, x4⟩
      rcases (ho x).1 x3 with h | h
      · exact Or.inl ⟨x, x1, x2, h, by rw [← hkeep x h]; exact x4⟩
      · right; rw [← x4, h, hkx]
  · rw [List.nodup_append]
    refine ⟨T.nodup, by simp, ?_⟩
    intro a ha b hb
    rw [List.mem_singleton] at hb
    rintro rfl
    rw [hb] at ha
    exact T.not_mem hp hf ha

theorem find_holds (T : Tab prime size own key keys) {msk : Int} (hm : IsMask msk) (hs : size = msk + 1) (hlen : (keys.length : Int) < size) {test : Int → M (Option Bool)} (k : Int)
    (ht : ∀ h, 0 ≤ h → h < size → Holds (test h) (fun r => (r = some true ↔ ¬ own h) ∧ (r = some false ↔ own h ∧ key h = k))) :
    ∀ (n d : Nat), (size : Int) + 1 ≤ d + n → Path prime size own key k d → Holds (find test msk n (probe prime size k d)) (fun r => ∃ d : Nat, r.1 = probe prime size k d ∧ Path prime size own key k d ∧
      (r.2 = true → ¬ own r.1) ∧ (r.2 = false → own r.1 ∧ key r.1 = k)) := by
  obtain ⟨x, x1, x2, x3⟩ := T.free hlen
  obtain ⟨dx, dx1, dx2⟩ := probe_surj (prime := prime) T.pos k x x1 x2
  intro n
  induction n with
  | zero =>
    intro d h1 h2
    exfalso
    have := (h2 dx (by omega)).1
    rw [dx2] at this
    exact x3 this
  | succ n ih =>
    intro d h1 h2
    have hp := probe_in (prime := prime) T.pos k d
    have hmn := hm.nonneg
    unfold find
    rw [Holds_bind]
    refine (ht _ hp.1 hp.2).mono ?_
    rintro r ⟨r1, r2⟩
    match r with
    | some true => exact ⟨d, rfl, h2, fun _ => r1.1 rfl, fun h => by cases h⟩
    | some false => exact ⟨d, rfl, h2, (fun h => by cases h), fun _ => r2.1 rfl⟩
    | none =>
      dsimp only
      rw [land_mask hm (by omega), ← hs, probe_succ]
      refine ih (d + 1) (by push_cast at *; omega) ?_
      intro d' hd'
      by_cases e : d' = d
      · rw [e]
        have ho : own (probe prime size k d) := by
          apply Classical.byContradiction
          intro h
          have := r1.2 h
          cases this
        refine ⟨ho, ?_⟩
        intro hk
        have := r2.2 ⟨ho, hk⟩
        cases this
      · exact h2 d' (by omega)

/-! ## Lists of distinct keys -/

/-- Insertion of the keys of a list, in order. -/
def ins (ks : List Int) (l : List Int) : List Int := l.foldl (fun ks k => if k ∈ ks then ks else ks ++ [k]) ks

theorem ins_nil (ks : List Int) : ins ks [] = ks := rfl

theorem ins_snoc (ks l : List Int) (k : Int) : ins ks (l ++ [k]) = if k ∈ ins ks l then ins ks l else ins ks l ++ [k] := by
  unfold ins
  rw [List.foldl_append]
  rfl

theorem ins_append (ks l l' : List Int) : ins ks (l ++ l') = ins (ins ks l) l' := by
  unfold ins
  rw [List.foldl_append]

theorem mem_ins (ks l : List Int) (k : Int) : k ∈ ins ks l ↔ k ∈ ks ∨ k ∈ l := by
  induction l generalizing ks with
  | nil => simp [ins]
  | cons a l ih =>
    rw [show a :: l = [a] ++ l from rfl, ins_append, ih, show [a] = [] ++ [a] from rfl, ins_snoc, ins_nil]
    by_cases h : a ∈ ks
    · rw [if_pos h]; simp only [List.nil_append, List.singleton_append, List.mem_cons]
      constructor
      · rintro (h' | h')
        · exact Or.inl h'
        · exact Or.inr (Or.inr h')
      · rintro (h' | rfl | h')
        · exact Or.inl h'
        · exact Or.inl h
        · exact Or.inr h'
    · rw [if_neg h]; simp only [List.nil_append, List.singleton_append, List.mem_cons, List.mem_append, List.not_mem_nil, or_false, or_assoc]

theorem ins_length (ks l : List Int) : (ins ks l).length ≤ ks.length + l.length := by
  induction l generalizing ks with
  | nil => simp [ins]
  | cons a l ih =>
    rw [show a :: l = [a] ++ l from rfl, ins_append]
    have h1 := ih (ins ks [a])
    have h2 : (ins ks [a]).length ≤ ks.length + 1 := by
      rw [show [a] = [] ++ [a] from rfl, ins_snoc, ins_nil]
      split
      · omega
      · simp
    rw [List.length_append]
    simp only [List.length_cons, List.length_nil] at *
    omega

theorem ins_head (k : Int) (ks l : List Int) : ∃ t, ins (k :: ks) l = k :: t := by
  induction l generalizing ks with
  | nil => exact ⟨ks, rfl⟩
  | cons a l ih =>
    rw [show a :: l = [a] ++ l from rfl, ins_append, show [a] = [] ++ [a] from rfl, ins_snoc, ins_nil]
    split
    · exact ih ks
    · exact ih (ks ++ [a])

theorem flatMap_length_le {α β : Type} (l : List α) (f : α → List β) (d : Nat) (h : ∀ a ∈ l, (f a).length ≤ d) : (l.flatMap f).length ≤ l.length * d := by
  induction l with
  | nil => simp
  | cons a l ih =>
    rw [List.flatMap_cons, List.length_append, List.length_cons, Nat.succ_mul]
    have := ih (fun b hb => h b (List.mem_cons_of_mem _ hb))
    have := h a (List.mem_cons_self ..)
    omega

end Scotch.Hash
