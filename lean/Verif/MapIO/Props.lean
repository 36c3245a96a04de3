import Verif.MapIO.Lemmas

/-!
# Input and output of mappings: property C41
-/

set_option autoImplicit false
set_option linter.unusedSimpArgs false

namespace Scotch.MapIO
open Text

/-- Filling the part array with −1. -/
theorem fill_holds {V : Int} {a : Arr Int} (hV : 0 ≤ V) (h1 : a.lo ≤ 0) (h2 : V ≤ a.hi) :
    Holds (forUp 0 V a (fun i a => a.wr i (-1))) (fun r => r.lo = a.lo ∧ r.hi = a.hi ∧ (∀ v, 0 ≤ v → v < V → r.get v = -1) ∧ ∀ v, (v < 0 ∨ V ≤ v) → r.get v = a.get v) := by
  refine Holds_forUp (fun i r => r.lo = a.lo ∧ r.hi = a.hi ∧ (∀ v, 0 ≤ v → v < i → r.get v = -1) ∧ ∀ v, (v < 0 ∨ i ≤ v) → r.get v = a.get v) hV ⟨rfl, rfl, fun v v1 v2 => by omega, fun _ _ => rfl⟩ ?_ (fun _ h => h)
  rintro i r i1 i2 ⟨r1, r2, r3, r4⟩
  rw [Arr.wr_ok r _ (by omega) (by omega), Holds_ok]
  refine ⟨r1, r2, fun v v1 v2 => ?_, fun v hv => by rw [Arr.set_get_ne _ _ (by omega), r4 v (by omega)]⟩
  by_cases e : v = i
  · subst e; rw [Arr.set_get_same]
  · rw [Arr.set_get_ne _ _ e, r3 v v1 (by omega)]

/-- **C41** (what is saved): the number of vertices, and then one line per vertex, in ascending order, with its label (its number if there are no labels) and its part. -/
theorem C41_saved_file (g : Graph) (part : Arr Int) (hn : g.vertnnd = g.baseval + g.vertnbr) (hV : 0 ≤ g.vertnbr) (hl : Labelled g) (h1 : part.lo ≤ 0) (h2 : g.vertnbr ≤ part.hi) :
    tabSave g part = .ok (printInt g.vertnbr ++ [10] ++ pairsText (fun v => (vertLabel g v, part.get v)) 0 g.vertnbr) := by
  unfold tabSave
  rw [write_pairs (by omega) (f := fun v => (vertLabel g (v - g.baseval), part.get (v - g.baseval))) (printInt g.vertnbr ++ [10]) ?_]
  · have := pairsText_shift (fun v => (vertLabel g (v - g.baseval), part.get (v - g.baseval))) 0 g.vertnbr g.baseval
    rw [Int.zero_add, Int.add_comm g.vertnbr] at this
    rw [hn, this]
    rw [pairsText_congr (fun i _ _ => by rw [Int.add_sub_cancel])]
  · intro i out i1 i2
    have e : rdLabel g.vlbltax i = .ok (vertLabel g (i - g.baseval)) := by
      unfold vertLabel
      cases hv : g.vlbltax with
      | none =>
        show Except.ok i = _
        congr 1
        dsimp only
        omega
      | some a =>
        have := hl a hv
        dsimp only [rdLabel]
        rw [Arr.rd_ok a (by omega) (by omega), show g.baseval + (i - g.baseval) = i from by omega]
    unfold saveLine
    rw [e, Arr.rd_ok part (by omega) (by omega)]
    rfl

/-- **C41** (loading). Let a file hold a positive number of entries, and entries (label, part) of which no two have the same label. Loading it for a graph without labels, or with labels and base value 0, does not fault and succeeds:
the part of every vertex becomes the one of the entry of its label, whatever the order of entries, or −1 if no entry has its label. -/
theorem C41_load_partial (k : Nat) (g : Graph) (parttab : Arr Int) (junk : Int → VertSort) (N : Int) (f : Int → Int × Int) (rest : Stream) (hN : 1 ≤ N) (hNm : N ≤ numMax k) (hV : 0 ≤ g.vertnbr) (hVm : g.vertnbr ≤ numMax k)
    (hf1 : ∀ i, 0 ≤ i → i < N → -numMax k ≤ (f i).1 ∧ (f i).1 ≤ numMax k) (hf2 : ∀ i, 0 ≤ i → i < N → -numMax k ≤ (f i).2 ∧ (f i).2 ≤ numMax k) (hd : Distinct f N)
    (h1 : parttab.lo ≤ 0) (h2 : g.vertnbr ≤ parttab.hi) (hl : Labelled g) (hb : g.vlbltax = none ∨ g.baseval = 0) :
    Holds (tabLoad k g parttab junk (printInt N ++ [10] ++ pairsText f 0 N ++ rest)) (fun r => ∃ part, r = some part ∧ ∀ v, 0 ≤ v → v < g.vertnbr → PartOf f N (vertLabel g v) (part.get v)) := by
  have hsn : 0 ≤ sortNbr g := by
    unfold sortNbr
    split <;> omega
  unfold tabLoad
  rw [Holds_bind]
  refine (fill_holds hV h1 h2).mono ?_
  rintro part ⟨p1, p2, p3, _⟩
  have e0 := (reads_scanInt (numMax k) 10 N (10 :: (pairsText f 0 N ++ rest)) (Or.inr rfl) (by omega) hNm (noDigit_cons (Or.inr rfl) _)).2
  have e1 : printInt N ++ [10] ++ pairsText f 0 N ++ rest = printInt N ++ 10 :: (pairsText f 0 N ++ rest) := by simp
  rw [e1, e0, andThen_ok]
  dsimp only
  rw [guardO_true hN, andThen_ok, Holds_andThen]
  refine Holds_loopO (fun i st => TabInv st.1 0 (N + sortNbr g) 0 i ∧ (∀ j, 0 ≤ j → j < i → st.1.tab.get j = f j) ∧ st.2 = 10 :: (pairsText f i N ++ rest)) False (by omega)
    ⟨TabInv.start 0, fun j j1 j2 => by omega, rfl⟩ ?_ ?_ (fun h => h.elim)
  · rintro i ⟨t, s⟩ i1 i2 ⟨t1, t2, rfl⟩
    dsimp only at t1 t2 ⊢
    obtain ⟨s1, r1, r2⟩ := read_pair (reads_scanInt (numMax k)) (f := f) (i := i) (hi := N) i2 rest (hf1 i i1 i2) (hf2 i i1 i2)
    unfold readLine
    rw [r1, andThen_ok]
    dsimp only
    rw [r2, andThen_ok, Holds_bind]
    refine (put_holds t1 i1 (by omega) _ _).mono ?_
    rintro t' ⟨q1, q2, q3⟩
    rw [Holds_pure]
    refine ⟨q1, fun j j1 j2 => ?_, rfl⟩
    by_cases e : j = i
    · subst e; exact q2
    · show t'.tab.get j = f j
      rw [q3 j e]
      exact t2 j j1 (by omega)
  · rintro ⟨t, s⟩ ⟨t1, t2, _⟩
    dsimp only at t1 t2 ⊢
    refine (process_holds (by omega) hNm hV hVm t1 (by omega) (by omega) p3 hb hl).mono ?_
    have hdt : Distinct t.tab.get N := by
      intro i j i1 i2 i3
      rw [t2 i i1 (by omega), t2 j (by omega) i3]
      exact hd i j i1 i2 i3
    intro r hr
    cases r with
    | none => exact absurd hdt hr
    | some r => exact ⟨r, rfl, fun v v1 v2 => (hr.2 v v1 v2).congr t2⟩

/-- **C41** (round trip). Saving the parts of a non-empty graph and loading the file for the same graph, in any part array, restores the part of every vertex — for graphs without labels, or with labels and base value 0. -/
theorem C41_round_trip_partial (k : Nat) (g : Graph) (part parttab : Arr Int) (junk : Int → VertSort) (rest : Stream) (hn : g.vertnnd = g.baseval + g.vertnbr) (hV : 1 ≤ g.vertnbr) (hVm : g.vertnbr ≤ numMax k)
    (hf1 : ∀ v, 0 ≤ v → v < g.vertnbr → -numMax k ≤ vertLabel g v ∧ vertLabel g v ≤ numMax k) (hf2 : ∀ v, 0 ≤ v → v < g.vertnbr → -numMax k ≤ part.get v ∧ part.get v ≤ numMax k)
    (hp1 : part.lo ≤ 0) (hp2 : g.vertnbr ≤ part.hi) (h1 : parttab.lo ≤ 0) (h2 : g.vertnbr ≤ parttab.hi) (hl : Labelled g) (hb : g.vlbltax = none ∨ g.baseval = 0) :
    Holds (do
      let s ← tabSave g part
      tabLoad k g parttab junk (s ++ rest)) (fun r => ∃ part', r = some part' ∧ ∀ v, 0 ≤ v → v < g.vertnbr → part'.get v = part.get v) := by
  rw [C41_saved_file g part hn (by omega) hl hp1 hp2, ok_bind]
  have hinj : ∀ i j, 0 ≤ i → i < j → j < g.vertnbr → vertLabel g i ≠ vertLabel g j := by
    intro i j i1 i2 i3
    unfold vertLabel
    cases hv : g.vlbltax with
    | none => dsimp only; omega
    | some a => exact (hl a hv).2.2 _ _ (by omega) (by omega) (by omega)
  refine (C41_load_partial k g parttab junk g.vertnbr (fun v => (vertLabel g v, part.get v)) rest hV hVm (by omega) hVm hf1 hf2 (fun i j i1 i2 i3 => hinj i j i1 i2 i3) h1 h2 hl hb).mono ?_
  rintro r ⟨p, rfl, hp⟩
  refine ⟨p, rfl, fun v v1 v2 => ?_⟩
  rcases hp v v1 v2 with ⟨i, i1, i2, i3, i4⟩ | ⟨q1, _⟩
  · dsimp only at i3 i4
    rw [← i4]
    by_cases e : i = v
    · rw [e]
    · rcases Int.lt_or_gt_of_ne e with h | h
      · exact absurd i3 (hinj i v i1 h v2)
      · exact absurd i3.symm (hinj v i v1 h i2)
  · exact absurd rfl (q1 v v1 v2)

/-- Reading an integer with `fscanf` only faults by overflow. -/
theorem scanInt_safe (m : Int) (s : Stream) : Safe (scanInt m s) (fun r => ∀ v s', r = some (v, s') → v ≤ m) := by
  unfold scanInt
  cases Rand.scanNum s with
  | none => intro v s' h; cases h
  | some p =>
    dsimp only
    split
    · rename_i h
      rw [Safe_ok]
      rintro v s' e
      cases e
      exact h.2
    · rfl

/-- **C41** (any file). Whatever the contents of the file, loading accesses no memory outside of its arrays (the only possible fault is a number of the file that does not fit in an integer); if it succeeds, the parts are those of a list
of at least one entry, which have different labels. -/
theorem C41_any_file_partial (k : Nat) (g : Graph) (parttab : Arr Int) (junk : Int → VertSort) (s : Stream) (hV : 0 ≤ g.vertnbr) (hVm : g.vertnbr ≤ numMax k)
    (h1 : parttab.lo ≤ 0) (h2 : g.vertnbr ≤ parttab.hi) (hl : Labelled g) (hb : g.vlbltax = none ∨ g.baseval = 0) :
    Safe (tabLoad k g parttab junk s) (fun r => ∀ part, r = some part → ∃ N f, 1 ≤ N ∧ Distinct f N ∧ ∀ v, 0 ≤ v → v < g.vertnbr → PartOf f N (vertLabel g v) (part.get v)) := by
  have hsn : 0 ≤ sortNbr g := by
    unfold sortNbr
    split <;> omega
  unfold tabLoad
  rw [Safe_bind]
  refine (fill_holds hV h1 h2).safe.mono ?_
  rintro part ⟨p1, p2, p3, _⟩
  rw [Safe_andThen]
  refine (scanInt_safe _ _).mono ?_
  intro r hr
  cases r with
  | none => intro p hp; cases hp
  | some n =>
    obtain ⟨N, s'⟩ := n
    have hNm : N ≤ numMax k := hr N s' rfl
    dsimp only
    rw [Safe_andThen, Safe_guardO]
    by_cases hN : 1 ≤ N
    · rw [if_pos hN]
      dsimp only
      rw [Safe_andThen]
      refine Safe_loopO (fun i (st : Tab × Stream) => TabInv st.1 0 (N + sortNbr g) 0 i) True (TabInv.start 0) ?_ ?_ (fun _ => ?_)
      · rintro i ⟨t, s⟩ i1 i2 t1
        dsimp only at t1
        unfold readLine
        rw [Safe_andThen]
        refine (scanInt_safe _ _).mono ?_
        intro a _
        cases a with
        | none => trivial
        | some a =>
          dsimp only
          rw [Safe_andThen]
          refine (scanInt_safe _ _).mono ?_
          intro b _
          cases b with
          | none => trivial
          | some b =>
            dsimp only
            rw [Safe_bind]
            refine (put_holds t1 i1 (by omega) _ _).safe.mono ?_
            rintro t' ⟨q1, _, _⟩
            exact q1
      · rintro ⟨t, s⟩ t1
        rw [Int.max_eq_right (by omega)] at t1
        dsimp only at t1 ⊢
        refine (process_holds (by omega) hNm hV hVm t1 (by omega) (by omega) p3 hb hl).safe.mono ?_
        rintro r hr part rfl
        exact ⟨N, t.tab.get, hN, hr.1, hr.2⟩
      · intro p hp; cases hp
    · rw [if_neg hN]
      intro p hp; cases hp

/-! ## Concrete cases and defects -/

/-- A graph without edges, used as a witness. -/
def sample (base n : Int) (labels : Option (Arr Int)) : Graph :=
  { baseval := base, vertnbr := n, vertnnd := base + n, verttax := Arr.const base (base + n + 1) base, vendtax := none, velotax := none, velosum := n, vnumtax := none, vlbltax := labels, edgenbr := 0
    edgetax := Arr.const base base 0, edlotax := none, edlosum := 0, degrmax := 0 }

/-- Text of a file. -/
def text (s : String) : Stream := s.toList.map Char.toNat

-- Labels are not in order, nor are the lines of the file; an entry is for an unknown vertex; a vertex has no entry.
example : (tabLoad 31 (sample 0 3 (some (Arr.ofList 0 [20, 5, 10]))) (Arr.const 0 3 88) (fun _ => (7, 7)) (text "3\n20\t2\n15\t4\n5 1\n")).map (fun r => (r.map Arr.toList).getD []) = .ok [2, 1, -1] := by decide +kernel
example : (tabLoad 31 (sample 1 3 none) (Arr.const 0 3 88) (fun _ => (7, 7)) (text "2\n3\t2\n1\t4\n")).map (fun r => (r.map Arr.toList).getD []) = .ok [4, -1, 2] := by decide +kernel
example : tabSave (sample 0 3 (some (Arr.ofList 0 [20, 5, 10]))) (Arr.ofList 0 [2, 1, 0]) = .ok (text "3\n20\t2\n5\t1\n10\t0\n") := by decide +kernel
-- Entries with the same label are rejected.
example : (tabLoad 31 (sample 1 3 none) (Arr.const 0 3 88) (fun _ => (7, 7)) (text "3\n3\t2\n1\t4\n3\t0\n")).map (fun r => r.isSome) = .ok false := by decide +kernel
-- The hypotheses on labels are met.
example : Labelled (sample 0 3 (some (Arr.ofList 0 [20, 5, 10]))) := by
  intro a ha
  have e : a = Arr.ofList 0 [20, 5, 10] := by cases ha; rfl
  subst e
  refine ⟨by decide, by decide, ?_⟩
  intro i j i1 i2 i3
  have b1 : (0 : Int) ≤ i := i1
  have b2 : j < 3 := i3
  have : (i = 0 ∧ j = 1) ∨ (i = 0 ∧ j = 2) ∨ (i = 1 ∧ j = 2) := by omega
  rcases this with ⟨rfl, rfl⟩ | ⟨rfl, rfl⟩ | ⟨rfl, rfl⟩ <;> decide

/-- C41 fails for graphs with labels and base value 1: loading the very file which has been saved reads out of the array of labels, because the loop of lines 152–159 starts from 0 instead of the base value. -/
theorem C41_based_labels_fault : ∃ (g : Graph) (part : Arr Int) (s : Stream), Labelled g ∧ tabSave g part = .ok s ∧ ∀ junk, tabLoad 31 g part junk s = .error .oob := by
  refine ⟨sample 1 1 (some (Arr.ofList 1 [5])), Arr.ofList 0 [2], text "1\n5\t2\n", ?_, by decide +kernel, fun junk => by rfl⟩
  intro a ha
  have e : a = Arr.ofList 1 [5] := by cases ha; rfl
  subst e
  refine ⟨by decide, by decide, ?_⟩
  intro i j i1 i2 i3
  have b1 : (1 : Int) ≤ i := i1
  have b2 : j < 2 := i3
  omega

/-- C41 fails for empty graphs: the file which is saved is refused, because a number of entries less than 1 is an error. -/
theorem C41_empty_graph_refused : ∃ (g : Graph) (part : Arr Int) (s : Stream), Labelled g ∧ tabSave g part = .ok s ∧ ∀ junk, tabLoad 31 g part junk s = .ok none :=
  ⟨sample 0 0 none, Arr.const 0 0 0, text "0\n", fun a ha => by (cases ha), by decide +kernel, fun junk => by rfl⟩

end Scotch.MapIO
