import Verif.TextIO.LemmasReader
import Verif.Rand.Lemmas
import Verif.Seg

/-!
# Files made of a number of lines, and of lines of two integers

This is the format of orderings and mappings.
-/

set_option autoImplicit false

namespace Scotch
open Text

theorem ok_bind {α β : Type} (a : α) (f : α → M β) : ((Except.ok a : M α) >>= f) = f a := rfl

/-- Text of a line: `fprintf (stream, GNUMSTRING "\t" GNUMSTRING "\n", a, b)`. -/
def pairLine (a b : Int) : Stream := printInt a ++ (9 :: (printInt b ++ [10]))

/-- Text of the lines of pairs `f lo` to `f (hi - 1)`. -/
def pairsText (f : Int → Int × Int) (lo hi : Int) : Stream := (seg (fun i => pairLine (f i).1 (f i).2) lo hi).flatten

/-- `fscanf (stream, GNUMSTRING, …)`: numbers which do not fit are undefined behaviour. -/
def scanInt (numMax : Int) (s : Stream) : M (Option (Int × Stream)) :=
  match Rand.scanNum s with
  | none => .ok none
  | some (v, r) => if -numMax - 1 ≤ v ∧ v ≤ numMax then .ok (some (v, r)) else .error .overflow

/-- A function that reads an integer of some range. -/
def Reads (numMax : Int) (rd : Stream → M (Option (Int × Stream))) : Prop :=
  ∀ (c : Nat) (v : Int) (rest : Stream), c = 9 ∨ c = 10 → -numMax ≤ v → v ≤ numMax → NoDigit rest → rd (c :: (printInt v ++ rest)) = .ok (some (v, rest)) ∧ rd (printInt v ++ rest) = .ok (some (v, rest))

theorem reads_getInt (numMax : Int) : Reads numMax (getInt numMax) :=
  fun c v rest hc h1 h2 hr => ⟨getInt_print1 numMax v c rest hc h1 h2 hr, getInt_print0 numMax v rest h1 h2 hr⟩

theorem reads_scanInt (numMax : Int) : Reads numMax (scanInt numMax) := by
  intro c v rest hc h1 h2 hr
  have hsp : AllSpaces [c] := by
    intro d hd
    rw [List.mem_singleton] at hd
    subst hd
    rw [isspace_iff]
    omega
  have e1 := Rand.scanNum_printInt (ws := [c]) v hsp hr
  have e2 := Rand.scanNum_printInt (ws := []) v (fun d hd => by cases hd) hr
  rw [List.singleton_append] at e1
  rw [List.nil_append] at e2
  unfold scanInt
  rw [e1, e2]
  dsimp only
  rw [if_pos ⟨by omega, h2⟩]
  exact ⟨rfl, rfl⟩

theorem noDigit_cons {c : Nat} (h : c = 9 ∨ c = 10) (s : Stream) : NoDigit (c :: s) := by
  unfold NoDigit
  dsimp only
  omega

/-- Reading a pair in a file, at the end of the previous line. -/
theorem read_pair {numMax : Int} {rd : Stream → M (Option (Int × Stream))} (hrd : Reads numMax rd) {f : Int → Int × Int} {i hi : Int} (h : i < hi) (rest : Stream)
    (h1 : -numMax ≤ (f i).1 ∧ (f i).1 ≤ numMax) (h2 : -numMax ≤ (f i).2 ∧ (f i).2 ≤ numMax) :
    ∃ s, rd (10 :: (pairsText f i hi ++ rest)) = .ok (some ((f i).1, s)) ∧ rd s = .ok (some ((f i).2, 10 :: (pairsText f (i + 1) hi ++ rest))) := by
  refine ⟨9 :: (printInt (f i).2 ++ (10 :: (pairsText f (i + 1) hi ++ rest))), ?_, ?_⟩
  · have := (hrd 10 (f i).1 (9 :: (printInt (f i).2 ++ (10 :: (pairsText f (i + 1) hi ++ rest)))) (Or.inr rfl) h1.1 h1.2 (noDigit_cons (Or.inl rfl) _)).1
    rw [← this]
    congr 2
    unfold pairsText
    rw [seg_cons _ h, List.flatten_cons]
    unfold pairLine
    simp
  · exact (hrd 9 (f i).2 _ (Or.inl rfl) h2.1 h2.2 (noDigit_cons (Or.inr rfl) _)).1

theorem pairsText_empty (f : Int → Int × Int) {lo hi : Int} (h : hi ≤ lo) : pairsText f lo hi = [] := by
  unfold pairsText
  rw [seg_empty _ h]
  rfl

theorem pairsText_succ (f : Int → Int × Int) {lo i : Int} (h : lo ≤ i) : pairsText f lo (i + 1) = pairsText f lo i ++ pairLine (f i).1 (f i).2 := by
  unfold pairsText
  rw [seg_succ _ h]
  simp

theorem pairsText_congr {f g : Int → Int × Int} {lo hi : Int} (h : ∀ i, lo ≤ i → i < hi → f i = g i) : pairsText f lo hi = pairsText g lo hi := by
  unfold pairsText
  rw [seg_congr (fun i h1 h2 => by rw [h i h1 h2])]

theorem pairsText_shift (f : Int → Int × Int) (lo hi d : Int) : pairsText f (lo + d) (hi + d) = pairsText (fun i => f (i + d)) lo hi := by
  unfold pairsText
  rw [seg_shift]

/-- A loop that writes lines. -/
theorem write_pairs {lo hi : Int} (hle : lo ≤ hi) {body : Int → Stream → M Stream} {f : Int → Int × Int} (out : Stream)
    (h : ∀ i out, lo ≤ i → i < hi → body i out = .ok (out ++ pairLine (f i).1 (f i).2)) : forUp lo hi out body = .ok (out ++ pairsText f lo hi) := by
  have : Holds (forUp lo hi out body) (fun r => r = out ++ pairsText f lo hi) := by
    refine Holds_forUp (fun i r => r = out ++ pairsText f lo i) hle (by rw [pairsText_empty _ (Int.le_refl _), List.append_nil]) ?_ (fun _ h => h)
    rintro i r i1 i2 rfl
    rw [h i _ i1 i2, Holds_ok, pairsText_succ _ i1, List.append_assoc]
  obtain ⟨r, e, rfl⟩ := Holds_iff_exists.1 this
  exact e

end Scotch
