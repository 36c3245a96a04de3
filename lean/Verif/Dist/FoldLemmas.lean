import Verif.Dist.FoldSpec
import Verif.Sort.Props
import Verif.MapIO.Lemmas

set_option autoImplicit false
set_option linter.unusedSimpArgs false

namespace Scotch.Fold

open Scotch.MapIO (view)

/-! ## Lists of messages -/

theorem sends_append (L : List Move) (m : Move) (p : Int) :
    sends (L ++ [m]) p = if m.snd = p then sends L p ++ [m] else sends L p := by
  unfold sends
  rw [List.filter_append]
  by_cases h : m.snd = p
  · simp [h]
  · simp [h]

theorem recvs_append (L : List Move) (m : Move) (p : Int) :
    recvs (L ++ [m]) p = if m.rcv = p then recvs L p ++ [m] else recvs L p := by
  unfold recvs
  rw [List.filter_append]
  by_cases h : m.rcv = p
  · simp [h]
  · simp [h]

theorem sends_same (L : List Move) {m : Move} {p : Int} (h : m.snd = p) : sends (L ++ [m]) p = sends L p ++ [m] := by
  rw [sends_append, if_pos h]

theorem sends_other (L : List Move) {m : Move} {p : Int} (h : m.snd ≠ p) : sends (L ++ [m]) p = sends L p := by
  rw [sends_append, if_neg h]

theorem recvs_same (L : List Move) {m : Move} {p : Int} (h : m.rcv = p) : recvs (L ++ [m]) p = recvs L p ++ [m] := by
  rw [recvs_append, if_pos h]

theorem recvs_other (L : List Move) {m : Move} {p : Int} (h : m.rcv ≠ p) : recvs (L ++ [m]) p = recvs L p := by
  rw [recvs_append, if_neg h]

theorem mem_sends {L : List Move} {m : Move} {p : Int} : m ∈ sends L p ↔ m ∈ L ∧ m.snd = p := by
  unfold sends; simp

theorem mem_recvs {L : List Move} {m : Move} {p : Int} : m ∈ recvs L p ↔ m ∈ L ∧ m.rcv = p := by
  unfold recvs; simp

@[simp] theorem tot_nil : tot [] = 0 := rfl

theorem tot_append (l1 l2 : List Move) : tot (l1 ++ l2) = tot l1 + tot l2 := by
  unfold tot; rw [List.map_append, List.sum_append]

@[simp] theorem tot_cons (m : Move) (l : List Move) : tot (m :: l) = m.num + tot l := by
  unfold tot; rw [List.map_cons, List.sum_cons]

theorem tot_snoc (l : List Move) (m : Move) : tot (l ++ [m]) = tot l + m.num := by
  rw [tot_append, tot_cons, tot_nil]; omega

theorem tot_nonneg {l : List Move} (h : ∀ m ∈ l, 0 ≤ m.num) : 0 ≤ tot l := by
  induction l with
  | nil => exact Int.le_refl _
  | cons m l ih =>
    rw [tot_cons]
    have := h m (by simp)
    have := ih (fun m hm => h m (by simp [hm]))
    omega

theorem chain_snoc {a : Int} {l : List Move} {m : Move} (h : Chain a l) (e : m.adj = a + tot l) : Chain a (l ++ [m]) := by
  induction l generalizing a with
  | nil => rw [tot_nil] at e; exact ⟨by omega, trivial⟩
  | cons x l ih =>
    rw [tot_cons] at e
    exact ⟨h.1, ih h.2 (by omega)⟩

theorem row_snoc {idx : Move → Int} {k : Int} {l : List Move} {m : Move} (h : Row idx k l) (e : idx m = k + l.length) :
    Row idx k (l ++ [m]) := by
  induction l generalizing k with
  | nil => exact ⟨by simpa using e, trivial⟩
  | cons x l ih =>
    refine ⟨h.1, ih h.2 ?_⟩
    rw [e, List.length_cons]
    omega

theorem row_mid {idx : Move → Int} {k : Int} {l1 l2 : List Move} {m : Move} (h : Row idx k (l1 ++ m :: l2)) :
    idx m = k + l1.length := by
  induction l1 generalizing k with
  | nil => simpa using h.1
  | cons x l ih =>
    have := ih h.2
    rw [this, List.length_cons]
    omega

theorem chain_mid {a : Int} {l1 l2 : List Move} {m : Move} (h : Chain a (l1 ++ m :: l2)) : m.adj = a + tot l1 := by
  induction l1 generalizing a with
  | nil => simpa using h.1
  | cons x l ih =>
    have := ih h.2
    rw [this, tot_cons]
    omega

theorem sum_sends {L : List Move} {P : Int} (h : ∀ m ∈ L, 0 ≤ m.snd ∧ m.snd < P) :
    sumI 0 P (fun p => tot (sends L p)) = tot L := by
  induction L with
  | nil =>
    show sumI 0 P (fun _ => (0 : Int)) = 0
    unfold sumI
    simp
  | cons m L ih =>
    have hm := h m (by simp)
    have e : sumI 0 P (fun p => tot (sends (m :: L) p)) = sumI 0 P (fun p => (if p = m.snd then m.num else 0) + tot (sends L p)) := by
      apply sumI_congr
      intro i _ _
      unfold sends
      by_cases hi : i = m.snd
      · subst hi; simp
      · rw [List.filter_cons_of_neg (by simpa using fun e => hi e.symm)]; simp [hi]
    rw [e, sumI_add_dist, sumI_single hm.1 hm.2 (fun _ => m.num), ih (fun x hx => h x (by simp [hx])), tot_cons]

theorem sum_recvs {L : List Move} {P : Int} (h : ∀ m ∈ L, 0 ≤ m.rcv ∧ m.rcv < P) :
    sumI 0 P (fun p => tot (recvs L p)) = tot L := by
  induction L with
  | nil =>
    show sumI 0 P (fun _ => (0 : Int)) = 0
    unfold sumI
    simp
  | cons m L ih =>
    have hm := h m (by simp)
    have e : sumI 0 P (fun p => tot (recvs (m :: L) p)) = sumI 0 P (fun p => (if p = m.rcv then m.num else 0) + tot (recvs L p)) := by
      apply sumI_congr
      intro i _ _
      unfold recvs
      by_cases hi : i = m.rcv
      · subst hi; simp
      · rw [List.filter_cons_of_neg (by simpa using fun e => hi e.symm)]; simp [hi]
    rw [e, sumI_add_dist, sumI_single hm.1 hm.2 (fun _ => m.num), ih (fun x hx => h x (by simp [hx])), tot_cons]

/-! ## Averages -/

theorem dataSize_eq {n p i : Int} (hp : 0 < p) (h0 : 0 ≤ i) (h1 : i < p) :
    dataSize n p i = n / p + if i < n % p then 1 else 0 := by
  unfold dataSize
  have e := Int.mul_ediv_add_emod n p
  have r0 := Int.emod_nonneg n (show p ≠ 0 by omega)
  have r1 := Int.emod_lt_of_pos n hp
  have key : n + (p - 1 - i) = (n % p + (p - 1 - i)) + p * (n / p) := by omega
  rw [key, Int.add_mul_ediv_left _ _ (by omega : p ≠ 0)]
  by_cases h : i < n % p
  · rw [if_pos h]
    have : (n % p + (p - 1 - i)) / p = 1 := by
      rw [Int.ediv_eq_iff_of_pos hp] <;> omega
    omega
  · rw [if_neg h]
    have : (n % p + (p - 1 - i)) / p = 0 := Int.ediv_eq_zero_of_lt (by omega) (by omega)
    omega

theorem sum_dataSize {n p : Int} (hp : 0 < p) (b : Int) :
    sumI b (b + p) (fun q => dataSize n p (q - b)) = n := by
  have r0 := Int.emod_nonneg n (show p ≠ 0 by omega)
  have r1 := Int.emod_lt_of_pos n hp
  have e := Int.mul_ediv_add_emod n p
  rw [sumI_congr (g := fun q => n / p + (if q < b + n % p then 1 else 0)) (fun i h1 h2 => by
    rw [dataSize_eq hp (by omega) (by omega)]
    congr 1
    by_cases h : i - b < n % p
    · rw [if_pos h, if_pos (by omega)]
    · rw [if_neg h, if_neg (by omega)])]
  rw [sumI_add_dist, sumI_const (by omega), sumI_split (mid := b + n % p) (by omega) (by omega)]
  rw [sumI_congr (lo := b) (hi := b + n % p) (g := fun _ => 1) (fun i h1 h2 => if_pos h2)]
  rw [sumI_congr (lo := b + n % p) (g := fun _ => 0) (fun i h1 h2 => if_neg (by omega))]
  rw [sumI_const (by omega), sumI_const (by omega)]
  have : (b + p - b) * (n / p) = p * (n / p) := by congr 1; omega
  rw [this]
  omega

theorem dataSize_nonneg {n p i : Int} (hp : 0 < p) (hn : 0 ≤ n) (h1 : i < p) : 0 ≤ dataSize n p i := by
  unfold dataSize
  exact Int.ediv_nonneg (by omega) (by omega)

/-! ## Ranges of processes -/

namespace FoldIn
variable {f : FoldIn}

theorem Ok.ranges (h : f.Ok) : (0 ≤ f.procrcvbas ∧ f.procrcvbas < f.procrcvnnd ∧ f.procrcvnnd ≤ f.procglbnbr) ∧
    (0 ≤ f.procsndbas ∧ f.procsndbas < f.procsndnnd ∧ f.procsndnnd ≤ f.procglbnbr) ∧
    (f.procrcvnnd = f.procrcvbas + f.procfldnbr) ∧
    (∀ p, 0 ≤ p → p < f.procglbnbr → (¬ f.Rcv p ↔ f.procsndbas ≤ p ∧ p < f.procsndnnd)) ∧
    (∀ p, f.procsndbas ≤ p → p < f.procsndnnd → ¬ f.Rcv p) ∧
    (f.procsndnnd - f.procsndbas + (f.procrcvnnd - f.procrcvbas) = f.procglbnbr) := by
  have h2 := h.two
  have e : f.half = (f.procglbnbr + 1) / 2 := rfl
  unfold Rcv procrcvbas procrcvnnd procsndbas procsndnnd procfldnbr
  by_cases hp : f.partval = 0
  · simp only [if_pos hp]
    refine ⟨by omega, by omega, by omega, ?_, ?_, by omega⟩ <;> intros <;> omega
  · simp only [if_neg hp]
    refine ⟨by omega, by omega, by omega, ?_, ?_, by omega⟩ <;> intros <;> omega

end FoldIn

end Scotch.Fold
