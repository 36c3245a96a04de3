import Verif.Bipart.LemmasFmMain
import Verif.Bipart.Props

/-!
# C28 — Fiduccia-Mattheyses refinement

The refinement moves vertices one at a time, records the vertices it has seen in a hash table that grows while it runs, and may exchange the two parts. `C28_fm_partial` says that it always ends without fault, that the recorded values
match the parts it returns, and that the result is not worse than the bipartition it was given.

The order in which the gain table lists its vertices is left open: `PickOk`, in `Verif.Bipart.LemmasFmLoop`, only asks that the chosen slot holds a vertex that is in the table and whose move keeps the imbalance in the allowed range.
`C28_fm_pick` says that the search in the gain table does so.

The allowed range is not kept when the two parts are exchanged (`C28_fm_range_wrong`).
-/

set_option autoImplicit false

namespace Scotch.Bipart

/-! ## Specification -/

/-- Smallest imbalance that is asked for: the load of part 0 must not be smaller than `compload0min`, and the imbalance must not exceed `dltmat`. -/
def imbMin (b : Bgraph) (dltmat : Int) : Int := max (b.compload0min - b.compload0avg) (- dltmat)

/-- Largest imbalance that is asked for. -/
def imbMax (b : Bgraph) (dltmat : Int) : Int := min (b.compload0max - b.compload0avg) dltmat

/-- The communication load of `b'` is smaller than the one of `b`, or they are equal and `b'` is not less balanced. -/
def NotWorse (b b' : Bgraph) : Prop :=
  b'.commload < b.commload ∨ (b'.commload = b.commload ∧ |b'.compload0dlt| ≤ |b.compload0dlt|)

/-- The list of slots that stands for the gain table contains only slots that hold a vertex and that are linked. -/
def OrderOk (order : Nat → Arr FmSlot → List (Int × Int)) : Prop :=
  ∀ n (hash : Arr FmSlot) x, x ∈ order n hash → (hash.lo ≤ x.2 ∧ x.2 < hash.hi) ∧ (hash.get x.2).vertnum ≠ -1 ∧ (hash.get x.2).st = .link

/-! ## Theorems -/

/-- The search in the gain table returns a vertex of the table whose move is allowed, whatever the order in which the table lists vertices. -/
theorem C28_fm_pick (order : Nat → Arr FmSlot → List (Int × Int)) (ho : OrderOk order) : PickOk (fmTablGet order) := by
  intro n hash dlt mn mx h e
  have key : ∀ (l : List (Int × Int)) (s : FmBest), (∀ x ∈ l, x ∈ order n hash) →
      (∀ k, s.vert = some k → (hash.lo ≤ k ∧ k < hash.hi) ∧ (hash.get k).vertnum ≠ -1 ∧ (hash.get k).st = .link ∧ mn ≤ dlt + (hash.get k).v.comp ∧ dlt + (hash.get k).v.comp ≤ mx) →
      ∀ k, fmTablLoop hash dlt mn mx l s = some k → (hash.lo ≤ k ∧ k < hash.hi) ∧ (hash.get k).vertnum ≠ -1 ∧ (hash.get k).st = .link ∧ mn ≤ dlt + (hash.get k).v.comp ∧
        dlt + (hash.get k).v.comp ≤ mx := by
    intro l
    induction l with
    | nil => intro s _ hs k hk; exact hs k hk
    | cons x l ih =>
      intro s hl hs k hk
      obtain ⟨r, y⟩ := x
      have hx := hl (r, y) (List.mem_cons_self ..)
      have hl' : ∀ x ∈ l, x ∈ order n hash := fun x hx => hl x (List.mem_cons_of_mem _ hx)
      rw [fmTablLoop] at hk
      dsimp only at hk
      by_cases h1 : ltTop r s.tabl = true
      · rw [if_pos h1] at hk
        by_cases h2 : dlt + (hash.get y).v.comp ≥ mn ∧ dlt + (hash.get y).v.comp ≤ mx
        · rw [if_pos h2] at hk
          split at hk
          · refine ih _ hl' ?_ k hk
            intro k' hk'
            cases hk'
            have := ho n hash _ hx
            exact ⟨this.1, this.2.1, this.2.2, h2.1, h2.2⟩
          · exact ih _ hl' hs k hk
        · rw [if_neg h2] at hk
          exact ih _ hl' hs k hk
      · rw [if_neg h1] at hk
        exact hs k hk
  exact key (order n hash) ⟨none, none, none, mx⟩ (fun _ hx => hx) (fun k hk => by cases hk) h e

theorem SameProblem.trans' {a b c : Bgraph} (h : SameProblem a b) (k : SameProblem b c) : SameProblem a c :=
  ⟨k.s.trans h.s, k.veextax.trans h.veextax,
    ⟨k.bounds.1.trans h.bounds.1, k.bounds.2.1.trans h.bounds.2.1, k.bounds.2.2.1.trans h.bounds.2.2.1, k.bounds.2.2.2.trans h.bounds.2.2.2⟩,
    ⟨k.limits.1.trans h.limits.1, k.limits.2.1.trans h.limits.2.1, k.limits.2.2.trans h.limits.2.2⟩, ⟨k.extn.1.trans h.extn.1, k.extn.2.trans h.extn.2⟩,
    ⟨k.domn.1.trans h.domn.1, k.domn.2.1.trans h.domn.2.1, k.domn.2.2.trans h.domn.2.2⟩, ⟨k.vfix.1.trans h.vfix.1, k.vfix.2.trans h.vfix.2⟩⟩

theorem Alloc.same' {b c : Bgraph} (A : Alloc b) (h : SameProblem b c) : Alloc c := by
  refine ⟨by rw [h.s]; exact A.graph, ?_, ?_, ?_⟩
  · rw [h.s, h.bounds.1, h.bounds.2.1]; exact A.part
  · rw [h.s, h.bounds.2.2.1, h.bounds.2.2.2]; exact A.fron
  · rw [h.s, h.veextax]; exact A.veex

/-- Fiduccia-Mattheyses refinement of a valid bipartition ends without fault and gives a valid bipartition of the same problem.
- When there is a frontier and the imbalance is in the range that is asked for, the result is not worse.
- When there is a frontier and no external gains, the imbalance ends in the range that is asked for, extended to the imbalance that was given.
- When there is no frontier and the imbalance is in the range, nothing changes.

`gg` is the greedy graph growing method, which is called when there is no frontier. The vertices are numbered from a base that is not negative, the distance between the two domains is not negative, and the maximum number of
hill-climbing moves is not negative.

Partial: `gg` is only known to keep bipartitions valid; see `C28_gg_partial`. Out of the model: overflows of loads and gains. -/
theorem C28_fm_partial (b : Bgraph) (C : b.s.Consistent) (A : Alloc b) (V : Valid b) (hb : 0 ≤ b.s.baseval) (hd : 0 ≤ b.domndist) (junk : Int → FmSave) (pick : FmPick) (hpick : PickOk pick)
    (gg : Bgraph → M Bgraph) (hgg : Holds (gg b) (fun b' => Valid b' ∧ SameProblem b b')) (para : FmParam) (hm : 0 ≤ para.movenbr) (dltmat : Int) :
    ∃ n, ∀ fuel, n ≤ fuel → Holds (bipartFm junk pick gg para dltmat fuel b) (fun b' => Valid b' ∧ SameProblem b b' ∧
      (imbMin b dltmat ≤ b.compload0dlt → b.compload0dlt ≤ imbMax b dltmat → NotWorse b b' ∧ (b.fronnbr = 0 → b' = b)) ∧
      (b.veextax = none → 0 < b.fronnbr → min b.compload0dlt (imbMin b dltmat) ≤ b'.compload0dlt ∧ b'.compload0dlt ≤ max b.compload0dlt (imbMax b dltmat))) := by
  have hc := Graph.consE_iff.2 C
  have hf := V.fron.1
  have em : imbMin b dltmat = max (b.compload0min - b.compload0avg) (- dltmat) := rfl
  have ex : imbMax b dltmat = min (b.compload0max - b.compload0avg) dltmat := rfl
  by_cases h0 : b.fronnbr = 0
  · by_cases h1 : imbMin b dltmat ≤ b.compload0dlt ∧ b.compload0dlt ≤ imbMax b dltmat
    · refine ⟨0, fun fuel _ => ?_⟩
      unfold bipartFm
      dsimp only
      rw [if_pos h0, ← em, ← ex, if_pos h1, Holds_pure]
      exact ⟨V, SameProblem.refl b, fun _ _ => ⟨Or.inr ⟨rfl, Int.le_refl _⟩, fun _ => rfl⟩, fun _ h => by omega⟩
    · obtain ⟨b1, e1, V1, S1⟩ := Holds_iff_exists.1 hgg
      by_cases h2 : b1.fronnbr = 0
      · refine ⟨0, fun fuel _ => ?_⟩
        unfold bipartFm
        dsimp only
        rw [if_pos h0, ← em, ← ex, if_neg h1, e1, ok_bind, if_pos h2, Holds_pure]
        exact ⟨V1, S1, fun a c => absurd ⟨a, c⟩ h1, fun _ h => by omega⟩
      · obtain ⟨n, hn⟩ := fmMain_holds (b := b1) (by rw [S1.s]; exact hc) (A.same' S1) (by rw [S1.s]; exact hb) V1 (by rw [S1.domn.1]; exact hd) junk hpick para hm true
          (fun h => absurd h.symm Bool.false_ne_true) (imbMin b dltmat) (imbMax b dltmat) rfl rfl
        refine ⟨n, fun fuel hfu => ?_⟩
        unfold bipartFm
        dsimp only
        rw [if_pos h0, ← em, ← ex, if_neg h1, e1, ok_bind, if_neg h2, min_comm, max_comm]
        refine (hn fuel hfu).mono ?_
        rintro b' ⟨S, V', -, -⟩
        exact ⟨V', S1.trans' S, fun a c => absurd ⟨a, c⟩ h1, fun _ h => by omega⟩
  · have h0' : 0 < b.fronnbr := by omega
    obtain ⟨n, hn⟩ := fmMain_holds (b := b) hc A hb V hd junk hpick para hm false (fun _ => h0') (imbMin b dltmat) (imbMax b dltmat) rfl rfl
    refine ⟨n, fun fuel hfu => ?_⟩
    unfold bipartFm
    dsimp only
    rw [if_neg h0, ← em, ← ex]
    refine (hn fuel hfu).mono ?_
    rintro b' ⟨S, V', q1, q2⟩
    exact ⟨V', S, fun a c => ⟨q1 a c, fun h => absurd h h0⟩, fun a _ => q2 a⟩

/-! ## Cases -/

/-- Gain table that lists all linked slots in the order of their numbers. -/
def exOrder (_ : Nat) (hash : Arr FmSlot) : List (Int × Int) :=
  ((List.range hash.hi.toNat).filter fun (h : Nat) => decide (hash.lo ≤ (h : Int) ∧ (hash.get (h : Int)).vertnum ≠ -1 ∧ (hash.get (h : Int)).st = .link)).map fun (h : Nat) => ((0 : Int), (h : Int))

theorem exOrder_ok : OrderOk exOrder := by
  intro n hash x hx
  unfold exOrder at hx
  rw [List.mem_map] at hx
  obtain ⟨k, hk, rfl⟩ := hx
  rw [List.mem_filter, List.mem_range, decide_eq_true_eq] at hk
  obtain ⟨h1, h2, h3, h4⟩ := hk
  exact ⟨⟨h2, by show (k : Int) < hash.hi; omega⟩, h3, h4⟩

def exJunk : Int → FmSave := fun _ => ⟨0, ⟨0, 0, 0, 0⟩⟩

example : exB.s.Consistent ∧ Alloc exB ∧ Valid exB ∧ 0 ≤ exB.s.baseval ∧ 0 ≤ exB.domndist ∧ PickOk (fmTablGet exOrder) ∧ 0 < exB.fronnbr ∧ imbMin exB 10 ≤ exB.compload0dlt ∧
    exB.compload0dlt ≤ imbMax exB 10 :=
  ⟨exG_cons, exB_alloc, exB_valid, by decide, by decide, C28_fm_pick exOrder exOrder_ok, by decide, by decide, by decide⟩

set_option maxRecDepth 100000 in
/-- The communication load goes from 32 to 10. -/
example : (bipartFm exJunk (fmTablGet exOrder) (fun b => .ok b) ⟨10, -1⟩ 10 5 exB).map show' = .ok [0, 0, 0, 0, 0, 7, 4, 4, 10, 3] := by decide +kernel

/-! ## Disagreement -/

/-- The bipartition `exB`, with other external gains. Part 0 must have a load of at least 3. -/
def exS : Bgraph :=
  { exB with
    veextax := some (Arr.ofList 1 [0, -9, 0, 0]), compload0min := 3, commload := 12 * 2 + 10 - 9, commgainextn0 := -9, commgainextn := 9 }

theorem exS_alloc : Alloc exS := by
  refine ⟨exG_alloc, by decide, by decide, ?_⟩
  intro a h
  cases h
  decide

theorem exS_valid : Valid exS := by
  have h := C28_check exAvg exS exG_cons exS_alloc (fun v hv => by rcases exB_parts v hv with a | a <;> (change exS.part v = _ at a; rw [a]) <;> try decide)
  exact ((Holds.elim h (a := true) (by decide +kernel)).1 rfl).1

set_option maxRecDepth 100000 in
/-- The imbalance that is given is in the range that is asked for, and the one that is returned is not, because the exchange of the two parts only compares the absolute value of the imbalance to the upper bound
(bgraph_bipart_fm.c:722–723). The load of part 0 is 5 at first, and 2 at the end, although it should be at least 3. -/
theorem C28_fm_range_wrong : ∃ b : Bgraph, b.s.Consistent ∧ Alloc b ∧ Valid b ∧ 0 < b.fronnbr ∧ imbMin b 10 ≤ b.compload0dlt ∧ b.compload0dlt ≤ imbMax b 10 ∧
    ∃ b', bipartFm exJunk (fmTablGet exOrder) (fun b => .ok b) ⟨10, -1⟩ 10 5 b = .ok b' ∧ b'.compload0dlt < imbMin b 10 ∧ b'.compload0 < b.compload0min := by
  refine ⟨exS, exG_cons, exS_alloc, exS_valid, by decide, by decide, by decide, ?_⟩
  have h : (bipartFm exJunk (fmTablGet exOrder) (fun b => .ok b) ⟨10, -1⟩ 10 5 exS).map (fun b' => decide (b'.compload0dlt < imbMin exS 10 ∧ b'.compload0 < exS.compload0min)) = .ok true := by
    decide +kernel
  generalize he : bipartFm exJunk (fmTablGet exOrder) (fun b => .ok b) ⟨10, -1⟩ 10 5 exS = x at h
  cases x with
  | error e => cases h
  | ok b' =>
    refine ⟨b', rfl, ?_⟩
    have : decide (b'.compload0dlt < imbMin exS 10 ∧ b'.compload0 < exS.compload0min) = true := by
      injection h
    exact of_decide_eq_true this

end Scotch.Bipart
