import Verif.Order.IO
import Verif.Order.Props

/-!
# Input and output of orderings: properties C27 and C52
-/

set_option autoImplicit false
set_option linter.unusedSimpArgs false

namespace Scotch
open Text Cblk

/-- Label of a vertex: the vertex itself if there are no labels. -/
def labelOf (vlbltax : Option (Arr Int)) (v : Int) : Int :=
  match vlbltax with
  | none => v
  | some a => a.get v

/-- There are labels for all vertices, if there are labels at all. -/
def LabelMem (vlbltax : Option (Arr Int)) (base nnd : Int) : Prop := ∀ a, vlbltax = some a → a.lo ≤ base ∧ nnd ≤ a.hi

theorem rdLabel_ok {vlbltax : Option (Arr Int)} {base nnd v : Int} (h : LabelMem vlbltax base nnd) (h1 : base ≤ v) (h2 : v < nnd) : rdLabel vlbltax v = .ok (labelOf vlbltax v) := by
  cases hv : vlbltax with
  | none => rfl
  | some a =>
    obtain ⟨k1, k2⟩ := h a hv
    exact Arr.rd_ok a (by omega) (by omega)

/-- **C27** (what is saved). Saving an ordering whose inverse permutation `peritab` is valid does not fault. It writes the number of vertices, and then one line per vertex `v`, in ascending order,
made of `v` and of its number `pos v` in the ordering (`peritab` of which is `v`). If there are labels, both are replaced by the labels of the vertices of these numbers. -/
theorem C27_saved_file (o : Order) (vlbltax : Option (Arr Int)) (junk : Int → Int) (hn : 0 ≤ o.vnodnbr) (hp : IsPerm o.baseval o.vnodnbr o.peritab.get)
    (hm : o.peritab.lo ≤ 0 ∧ o.vnodnbr ≤ o.peritab.hi) (hl : LabelMem vlbltax o.baseval (o.baseval + o.vnodnbr)) :
    Holds (orderSave o vlbltax junk) (fun s => ∃ pos : Int → Int,
      (∀ v, o.baseval ≤ v → v < o.baseval + o.vnodnbr → o.baseval ≤ pos v ∧ pos v < o.baseval + o.vnodnbr ∧ o.peritab.get (pos v - o.baseval) = v) ∧
      s = printInt o.vnodnbr ++ [10] ++ pairsText (fun v => (labelOf vlbltax v, labelOf vlbltax (pos v))) o.baseval (o.baseval + o.vnodnbr)) := by
  unfold orderSave
  rw [Holds_bind]
  refine ((C22_inverse_permutation o.peritab ⟨0, o.vnodnbr, junk⟩ o.baseval o.vnodnbr o.baseval hn hp hm ⟨Int.le_refl _, Int.le_refl _⟩).and
    (orderPeri_holds (peribas := o.baseval) hn hp.isInj hm ⟨Int.le_refl _, Int.le_refl _⟩)).mono ?_
  rintro r ⟨⟨hr, _, hr2, _⟩, hlo, hhi, _, _⟩
  dsimp only at hlo hhi
  rw [write_pairs hn (f := fun i => (labelOf vlbltax (i + o.baseval), labelOf vlbltax (r.get i))) (printInt o.vnodnbr ++ [10]) ?_, Holds_ok]
  · refine ⟨fun v => r.get (v - o.baseval), ?_, ?_⟩
    · intro v h1 h2
      have := hr.1 (v - o.baseval) (by omega) (by omega)
      refine ⟨this.1, this.2, ?_⟩
      dsimp only
      have := hr2 (v - o.baseval) (by omega) (by omega)
      omega
    · congr 1
      have := pairsText_shift (fun v => (labelOf vlbltax v, labelOf vlbltax (r.get (v - o.baseval)))) 0 o.vnodnbr o.baseval
      rw [Int.zero_add, Int.add_comm o.vnodnbr] at this
      rw [this]
      refine pairsText_congr fun i _ _ => ?_
      rw [Int.add_sub_cancel]
  · intro i out h1 h2
    have := hr.1 i h1 h2
    unfold orderSaveLine
    rw [rdLabel_ok hl (by omega) (by omega), Arr.rd_ok r (by omega) (by omega)]
    simp only [ok_bind]
    rw [rdLabel_ok hl this.1 this.2]
    rfl

/-- **C27** (loading). Loading the text of a permutation (one line `v`, `f v` for each vertex `v`, in ascending order) in an ordering for a graph with the same number of vertices does not fault and succeeds. The inverse permutation
becomes the inverse of `f`, and other fields are left as they were. -/
theorem C27_load (numMax : Int) (o : Order) (f : Int → Int) (junk : Int → Int) (rest : Stream) (hn : 0 ≤ o.vnodnbr) (hp : IsPerm o.baseval o.vnodnbr (fun i => f (i + o.baseval)))
    (hm : o.peritab.lo ≤ 0 ∧ o.vnodnbr ≤ o.peritab.hi) (h1 : -numMax ≤ o.baseval) (h2 : o.baseval + o.vnodnbr ≤ numMax) (h3 : o.vnodnbr ≤ numMax) :
    Holds (orderLoad numMax o false junk (printInt o.vnodnbr ++ [10] ++ pairsText (fun v => (v, f v)) o.baseval (o.baseval + o.vnodnbr) ++ rest)) (fun r => ∃ o', r = some (o', 10 :: rest) ∧
      (∀ i, 0 ≤ i → i < o.vnodnbr → f (o'.peritab.get i) = i + o.baseval) ∧ IsPerm o.baseval o.vnodnbr o'.peritab.get ∧
      o'.baseval = o.baseval ∧ o'.vnodnbr = o.vnodnbr ∧ o'.treenbr = o.treenbr ∧ o'.cblknbr = o.cblknbr ∧ o'.cblktre = o.cblktre) := by
  unfold orderLoad
  rw [guardO_true rfl, andThen_ok]
  have e0 := (reads_getInt numMax 10 o.vnodnbr (10 :: (pairsText (fun v => (v, f v)) o.baseval (o.baseval + o.vnodnbr) ++ rest)) (Or.inr rfl) (by omega) h3 (noDigit_cons (Or.inr rfl) _)).2
  have e1 : printInt o.vnodnbr ++ [10] ++ pairsText (fun v => (v, f v)) o.baseval (o.baseval + o.vnodnbr) ++ rest =
      printInt o.vnodnbr ++ 10 :: (pairsText (fun v => (v, f v)) o.baseval (o.baseval + o.vnodnbr) ++ rest) := by simp
  rw [e1, e0, andThen_ok]
  dsimp only
  rw [Holds_andThen]
  refine Holds_loopO (fun i st => st.1.lo = 0 ∧ st.1.hi = o.vnodnbr ∧ (∀ j, 0 ≤ j → j < i → st.1.get j = f (j + o.baseval)) ∧
    st.2 = 10 :: (pairsText (fun v => (v, f v)) (i + o.baseval) (o.baseval + o.vnodnbr) ++ rest)) False hn
    ⟨rfl, rfl, fun j j1 j2 => by omega, by rw [Int.zero_add]⟩ ?_ ?_ (fun h => h.elim)
  · rintro i ⟨a, s⟩ i1 i2 ⟨hlo, hhi, hget, rfl⟩
    dsimp only at hlo hhi hget ⊢
    have hf := hp.1 i i1 i2
    dsimp only at hf
    obtain ⟨s1, r1, r2⟩ := read_pair (reads_getInt numMax) (f := fun v => (v, f v)) (i := i + o.baseval) (hi := o.baseval + o.vnodnbr) (by omega) rest (by dsimp only; omega) (by dsimp only; omega)
    dsimp only at r1 r2
    unfold orderLoadLine
    rw [r1, andThen_ok]
    dsimp only
    rw [r2, andThen_ok, Arr.wr_ok a _ (by omega) (by omega)]
    simp only [ok_bind]
    rw [guardO_true (by trivial), andThen_ok, Holds_pure]
    refine ⟨hlo, hhi, ?_, by rw [show i + 1 + o.baseval = i + o.baseval + 1 from by omega]⟩
    intro j j1 j2
    dsimp only
    by_cases hj : j = i
    · subst hj
      rw [Arr.set_get_same]
    · rw [Arr.set_get_ne _ _ hj]
      exact hget j j1 (by omega)
  · rintro ⟨a, s⟩ ⟨hlo, hhi, hget, rfl⟩
    dsimp only at hlo hhi hget ⊢
    have hp' : IsPerm o.baseval o.vnodnbr a.get := by
      refine ⟨fun i i1 i2 => by rw [hget i i1 i2]; exact hp.1 i i1 i2, fun y y1 y2 => ?_⟩
      obtain ⟨i, i1, i2, i3, i4⟩ := hp.2 y y1 y2
      refine ⟨i, i1, i2, by rw [hget i i1 i2]; exact i3, fun j j1 j2 j3 => i4 j j1 j2 ?_⟩
      rw [hget j j1 j2] at j3
      exact j3
    rw [Holds_bind]
    refine (C22_inverse_permutation a o.peritab o.baseval o.vnodnbr o.baseval hn hp' (by omega) hm).mono ?_
    rintro r ⟨r1, _, r3, _⟩
    rw [Holds_pure]
    refine ⟨{ o with peritab := r }, by rw [pairsText_empty _ (by omega), List.nil_append], fun i i1 i2 => ?_, r1, rfl, rfl, rfl, rfl, rfl⟩
    dsimp only
    have hb := r1.1 i i1 i2
    have := hget (r.get i - o.baseval) (by omega) (by omega)
    rw [r3 i i1 i2, Int.sub_add_cancel] at this
    exact this.symm

/-- **C27** (round trip). Saving an ordering of a graph without labels, and loading the file in an ordering for the same graph — whatever it contained —, restores the same inverse permutation. -/
theorem C27_round_trip (numMax : Int) (o d : Order) (junk1 junk2 : Int → Int) (rest : Stream) (hn : 0 ≤ o.vnodnbr) (hp : IsPerm o.baseval o.vnodnbr o.peritab.get)
    (hm : o.peritab.lo ≤ 0 ∧ o.vnodnbr ≤ o.peritab.hi) (hb : d.baseval = o.baseval) (hd : d.vnodnbr = o.vnodnbr) (hdm : d.peritab.lo ≤ 0 ∧ d.vnodnbr ≤ d.peritab.hi)
    (h1 : -numMax ≤ o.baseval) (h2 : o.baseval + o.vnodnbr ≤ numMax) (h3 : o.vnodnbr ≤ numMax) :
    Holds (do
      let s ← orderSave o none junk1
      orderLoad numMax d false junk2 (s ++ rest)) (fun r => ∃ o', r = some (o', 10 :: rest) ∧ o'.baseval = o.baseval ∧ o'.vnodnbr = o.vnodnbr ∧ ∀ i, 0 ≤ i → i < o.vnodnbr → o'.peritab.get i = o.peritab.get i) := by
  rw [Holds_bind]
  refine (C27_saved_file o none junk1 hn hp hm (fun a h => by cases h)).mono ?_
  rintro s ⟨pos, hpos, rfl⟩
  have hpi : IsPerm d.baseval d.vnodnbr (fun i => pos (i + d.baseval)) := by
    rw [hb, hd]
    refine IsInj.isPerm ⟨fun i i1 i2 => ?_, fun i j i1 i2 j1 j2 e => ?_⟩
    · have := hpos (i + o.baseval) (by omega) (by omega)
      exact ⟨this.1, by omega⟩
    · have k1 := hpos (i + o.baseval) (by omega) (by omega)
      have k2 := hpos (j + o.baseval) (by omega) (by omega)
      rw [e, k2.2.2] at k1
      omega
  have := C27_load numMax d pos junk2 rest (by omega) hpi hdm (by omega) (by omega) (by omega)
  rw [hb, hd] at this
  dsimp only [labelOf]
  refine this.mono ?_
  rintro r ⟨o', rfl, e1, e2, e3, e4, _⟩
  refine ⟨o', rfl, e3, e4, fun i i1 i2 => ?_⟩
  have k1 := e1 i i1 i2
  have k2 := e2.1 i i1 i2
  have k3 := (hpos _ k2.1 k2.2).2.2
  rw [k1, Int.add_sub_cancel] at k3
  exact k3.symm

/-- C27: loading an ordering for a graph with labels is always refused. -/
theorem C27_labels_refused (numMax : Int) (o : Order) (junk : Int → Int) (s : Stream) : orderLoad numMax o true junk s = .ok none := rfl

-- The hypotheses are satisfiable, and the text is what is expected.
def orderExample2 : Order := { orderExample with vnodnbr := 4, peritab := Arr.ofList 0 [3, 1, 4, 2] }
example : (orderSave orderExample2 none (fun _ => 77)) = .ok ("4\n1\t2\n2\t4\n3\t1\n4\t3\n".toList.map Char.toNat) := by decide +kernel
example : (do
    let s ← orderSave orderExample2 none (fun _ => 77)
    let r ← orderLoad 2147483647 { orderExample2 with peritab := Arr.const 0 4 99 } false (fun _ => 55) s
    return (r.map (fun (x : Order × Stream) => x.1.peritab.toList)).getD []) = .ok [3, 1, 4, 2] := by decide +kernel

/-- C27, defect: the number of vertices of the file is not compared to the one of the ordering, and replaces it. A file with more vertices overflows the permutation array. -/
theorem C27_larger_file_faults :
    orderLoad 2147483647 { orderExample2 with vnodnbr := 1, peritab := Arr.const 0 1 99 } false (fun _ => 55) ("2\n1\t2\n2\t1\n".toList.map Char.toNat) = .error .oob := by
  rfl

/-- C27, defect: the numbers of the file are not verified before they index the inverse permutation array. -/
theorem C27_not_a_permutation_faults :
    orderLoad 2147483647 { orderExample2 with vnodnbr := 2, peritab := Arr.const 0 2 99 } false (fun _ => 55) ("2\n1\t2\n2\t9\n".toList.map Char.toNat) = .error .oob := by
  rfl

/-! ## Column block maps and trees -/

/-- `blk` gives, for every vertex, the number of its column block in elimination order: the sizes of the blocks that precede tell the range of positions of the block. -/
def IsBlockMap (o : Order) (blk : Int → Int) : Prop :=
  ∀ i, 0 ≤ i → i < o.vnodnbr → ∃ k : Nat, blk (o.peritab.get i) = k ∧ k < o.cblktre.leaves.length ∧
    (o.cblktre.leaves.take k).sum ≤ i ∧ i < (o.cblktre.leaves.take (k + 1)).sum

/-- `fa` is the table of fathers of column blocks, that reflects the tree of blocks. -/
def IsFathers (o : Order) (fa : Int → Int) : Prop :=
  (∀ k, o.baseval ≤ k → k < o.baseval + o.cblknbr → fa k = -1 ∨ (k < fa k ∧ fa k < o.baseval + o.cblknbr)) ∧ o.cblktre.Reflects fa o.baseval ∧ fa (o.baseval + o.cblknbr - 1) = -1

theorem orderRang_bounds (o : Order) (rangtab : Arr Int) (hm : OrderMem o) (hv : ValidOrder o) (h1 : rangtab.lo ≤ 0) (h2 : o.cblknbr + 1 ≤ rangtab.hi) :
    Holds (orderRang o rangtab) (fun r => r.lo = rangtab.lo ∧ r.hi = rangtab.hi) := by
  have hc := hv.cblk
  simp only [width] at hc
  unfold orderRang
  msimp
  refine (orderRang2_holds o.cblktre _ hm.tree h1 (by simp only; omega)).mono ?_
  rintro s ⟨a1, a2, a3, a4, a5, a6⟩
  dsimp only at a1 a2 a3
  exact ⟨by omega, a1, a2⟩

theorem orderTree_bounds (o : Order) (treetax : Arr Int) (hm : OrderMem o) (hv : ValidOrder o) (h1 : treetax.lo ≤ o.baseval) (h2 : o.baseval + o.cblknbr ≤ treetax.hi) :
    Holds (orderTree o treetax) (fun r => r.lo = treetax.lo ∧ r.hi = treetax.hi) := by
  have hc := hv.cblk
  unfold orderTree
  msimp
  refine (orderTree2_holds o.cblktre _ (-1) o.baseval hm.tree hv.tree (by simp only; omega) h1 (by simp only; omega)).mono ?_
  rintro s ⟨⟨a1, a2, a3, a4⟩, _⟩
  exact ⟨a1, a2⟩

theorem length_le_sum : ∀ l : List Int, (∀ x ∈ l, 1 ≤ x) → (l.length : Int) ≤ l.sum
  | [], _ => by simp
  | x :: l, h => by
    have h1 := h x (by simp)
    have h2 := length_le_sum l (fun y hy => h y (by simp [hy]))
    simp only [List.length_cons, List.sum_cons]
    omega

/-- Ranges in terms of sizes of blocks. -/
theorem ranges_prefix {l : List Int} {r : Int → Int} {base : Int} (h0 : r 0 = base) (h : ∀ k : Nat, (hk : k < l.length) → r (k + 1) = r k + l[k] ∧ 1 ≤ l[k]) :
    ∀ k : Nat, k ≤ l.length → r k = base + (l.take k).sum := by
  intro k
  induction k with
  | zero => intro _; simpa using h0
  | succ k ih =>
    intro hk
    have e1 := (h k (by omega)).1
    have e2 := ih (by omega)
    rw [List.take_succ_eq_append_getElem (by omega), List.sum_append]
    have e3 : ((k + 1 : Nat) : Int) = (k : Int) + 1 := by push_cast; rfl
    rw [e3, e1, e2]
    simp [Int.add_assoc]

/-- The loop on positions computes the block of every vertex. -/
theorem blockLoop {o : Order} (hm : OrderMem o) (hv : ValidOrder o) {rangtab : Arr Int} (hr0 : rangtab.lo ≤ 0 ∧ o.cblknbr + 1 ≤ rangtab.hi) (h0 : rangtab.get 0 = o.baseval)
    (hN : rangtab.get o.cblknbr = o.baseval + o.vnodnbr) (h : ∀ k : Nat, (hk : k < o.cblktre.leaves.length) → rangtab.get (k + 1) = rangtab.get k + o.cblktre.leaves[k] ∧ 1 ≤ o.cblktre.leaves[k])
    (hlen : (o.cblktre.leaves.length : Int) = o.cblknbr) {value : Int → M Int} {val : Int → Int} (hval : ∀ k, 0 ≤ k → k < o.cblknbr → value k = .ok (val k)) (junk : Int → Int) :
    Holds (forUp o.baseval (o.baseval + o.vnodnbr) ⟨⟨o.baseval, o.baseval + o.vnodnbr, junk⟩, 0⟩ (blockBody o rangtab value)) (fun st => st.cblktax.lo = o.baseval ∧ st.cblktax.hi = o.baseval + o.vnodnbr ∧
      ∃ blk, IsBlockMap o blk ∧ ∀ v, o.baseval ≤ v → v < o.baseval + o.vnodnbr → st.cblktax.get v = val (blk v)) := by
  have hpre := ranges_prefix h0 h
  have hn : 0 ≤ o.vnodnbr := by
    have := hpre o.cblktre.leaves.length (Nat.le_refl _)
    rw [hlen, hN] at this
    have hs : 0 ≤ (o.cblktre.leaves.take o.cblktre.leaves.length).sum := by
      rw [List.take_length]
      refine List.sum_nonneg fun x hx => ?_
      have := leaves_pos _ hv.tree x hx
      omega
    omega
  refine Holds_forUp (fun i st => st.cblktax.lo = o.baseval ∧ st.cblktax.hi = o.baseval + o.vnodnbr ∧ 0 ≤ st.cblknum ∧ st.cblknum < o.cblknbr ∧
    (rangtab.get st.cblknum ≤ i - 1 ∨ (i = o.baseval ∧ st.cblknum = 0)) ∧ i - 1 < rangtab.get (st.cblknum + 1) ∧
    ∃ blk : Int → Int, (∀ j, 0 ≤ j → j < i - o.baseval → ∃ k : Nat, blk (o.peritab.get j) = k ∧ k < o.cblktre.leaves.length ∧
      (o.cblktre.leaves.take k).sum ≤ j ∧ j < (o.cblktre.leaves.take (k + 1)).sum) ∧
      (∀ j, 0 ≤ j → j < i - o.baseval → st.cblktax.get (o.peritab.get j) = val (blk (o.peritab.get j)))) (by omega) ?_ ?_ ?_
  · have hw := width_pos _ hm.tree hv.tree
    simp only [width] at hw
    have k1 := (h 0 (by omega))
    have e : rangtab.get ((0 : Nat) + 1 : Int) = rangtab.get (0 + 1) := rfl
    have e' : rangtab.get ((0 : Nat) : Int) = rangtab.get 0 := rfl
    rw [e, e'] at k1
    refine ⟨rfl, rfl, Int.le_refl _, by dsimp only; omega, Or.inr ⟨rfl, rfl⟩, by dsimp only; omega, fun _ => 0, fun j j1 j2 => by omega, fun j j1 j2 => by omega⟩
  · rintro i ⟨c, cn⟩ i1 i2 ⟨k1, k2, k3, k4, k5, k6, blk, k7, k8⟩
    dsimp only at k1 k2 k3 k4 k5 k6 k7 k8
    unfold blockBody nextBlock
    dsimp only
    rw [Arr.rd_ok rangtab (by omega) (by omega)]
    simp only [ok_bind, pure_bind]
    generalize hc' : (if i ≥ rangtab.get (cn + 1) then cn + 1 else cn) = cn'
    have hcn : 0 ≤ cn' ∧ cn' < o.cblknbr ∧ rangtab.get cn' ≤ i ∧ i < rangtab.get (cn' + 1) := by
      by_cases hge : i ≥ rangtab.get (cn + 1)
      · rw [if_pos hge] at hc'
        subst hc'
        have hlt : cn + 1 < o.cblknbr := by
          apply Classical.byContradiction
          intro hcon
          have : cn + 1 = o.cblknbr := by omega
          rw [this, hN] at hge
          omega
        have q := (h (cn + 1).toNat (by omega))
        rw [Int.toNat_of_nonneg (by omega)] at q
        have hq := q.2
        refine ⟨by omega, hlt, hge, ?_⟩
        have : i = rangtab.get (cn + 1) := by omega
        omega
      · rw [if_neg hge] at hc'
        subst hc'
        refine ⟨k3, k4, ?_, by omega⟩
        rcases k5 with k5 | ⟨k5, k5'⟩
        · omega
        · rw [k5', h0]
          omega
    obtain ⟨c1, c2, c3, c4⟩ := hcn
    have hpb := hv.perm.1 (i - o.baseval) (by omega) (by omega)
    have hpm := hm.peri
    rw [Arr.rd_ok o.peritab (by omega) (by omega)]
    simp only [ok_bind]
    rw [hval cn' c1 c2]
    simp only [ok_bind]
    rw [Arr.wr_ok c _ (by omega) (by omega)]
    simp only [ok_bind, Holds_pure]
    have hinj : ∀ j, 0 ≤ j → j < i - o.baseval → o.peritab.get j ≠ o.peritab.get (i - o.baseval) := by
      intro j j1 j2 e
      have := hv.perm.isInj.2 j (i - o.baseval) j1 (by omega) (by omega) (by omega) e
      omega
    refine ⟨k1, k2, c1, c2, Or.inl (by omega), by omega, fun v => if v = o.peritab.get (i - o.baseval) then cn' else blk v, ?_, ?_⟩
    · intro j j1 j2
      by_cases hj : j = i - o.baseval
      · subst hj
        dsimp only
        rw [if_pos rfl]
        have p1 := hpre cn'.toNat (by omega)
        have p2 := hpre (cn'.toNat + 1) (by omega)
        rw [Int.toNat_of_nonneg c1] at p1
        have e3 : ((cn'.toNat + 1 : Nat) : Int) = cn' + 1 := by omega
        rw [e3] at p2
        exact ⟨cn'.toNat, by omega, by omega, by omega, by omega⟩
      · dsimp only
        rw [if_neg (hinj j j1 (by omega))]
        exact k7 j j1 (by omega)
    · intro j j1 j2
      dsimp only
      by_cases hj : j = i - o.baseval
      · subst hj
        rw [if_pos rfl, Arr.set_get_same]
      · have := hinj j j1 (by omega)
        rw [if_neg this, Arr.set_get_ne _ _ this]
        exact k8 j j1 (by omega)
  · rintro ⟨c, cn⟩ ⟨k1, k2, k3, k4, k5, k6, blk, k7, k8⟩
    dsimp only at k1 k2 k3 k4 k5 k6 k7 k8
    refine ⟨k1, k2, blk, fun i i1 i2 => k7 i i1 (by omega), fun v v1 v2 => ?_⟩
    obtain ⟨j, j1, j2, rfl, _⟩ := hv.perm.2 v v1 v2
    exact k8 j j1 (by omega)

/-- **C52** (map of column blocks). For every valid ordering, the number of vertices is written, and then one line per vertex (or vertex label), with the number, from 0, of the column block to which the vertex belongs. -/
theorem C52_orderSaveMap (o : Order) (vlbltax : Option (Arr Int)) (J : OrderJunk) (hm : OrderMem o) (hv : ValidOrder o) (hl : LabelMem vlbltax o.baseval (o.baseval + o.vnodnbr)) :
    Holds (orderSaveMap o vlbltax J) (fun s => ∃ blk, IsBlockMap o blk ∧
      s = printInt o.vnodnbr ++ [10] ++ pairsText (fun v => (labelOf vlbltax v, blk v)) o.baseval (o.baseval + o.vnodnbr)) := by
  have hsz : o.cblknbr ≤ o.vnodnbr := by
    rw [hv.cblk]
    have := leaves_sum _ hv.tree
    rw [← hv.size] at this
    have h2 := length_le_sum o.cblktre.leaves (leaves_pos _ hv.tree)
    unfold width
    omega
  unfold orderSaveMap
  rw [Holds_bind]
  refine ((C24_orderRang o ⟨0, o.vnodnbr + 1, J.rang⟩ hm hv (Int.le_refl _) (by dsimp only; omega)).and (orderRang_bounds o ⟨0, o.vnodnbr + 1, J.rang⟩ hm hv (Int.le_refl _) (by dsimp only; omega))).mono ?_
  rintro r ⟨⟨r1, r2, r3, r4, _⟩, r5, r6⟩
  dsimp only at r5 r6
  rw [Holds_bind]
  refine (blockLoop hm hv (by omega) r1 r2 r3 r4 (value := fun k => pure k) (val := fun k => k) (fun k _ _ => rfl) J.cblk).mono ?_
  rintro ⟨c, cn⟩ ⟨c1, c2, blk, c3, c4⟩
  dsimp only at c1 c2 c4 ⊢
  have hn : 0 ≤ o.vnodnbr := by
    have := width_pos _ hm.tree hv.tree
    have := hv.cblk
    omega
  rw [write_pairs (by omega) (f := fun v => (labelOf vlbltax v, c.get v)) (printInt o.vnodnbr ++ [10]) ?_, Holds_ok]
  · exact ⟨blk, c3, by rw [pairsText_congr (fun i i1 i2 => by rw [c4 i i1 i2])]⟩
  · intro i out i1 i2
    unfold blockLine
    rw [rdLabel_ok hl i1 i2, Arr.rd_ok c (by omega) (by omega)]
    rfl

/-- **C52** (separation tree). For every valid ordering, the number of vertices is written, and then one line per vertex (or vertex label), with the number of the father of the column block of the vertex, or −1 for the root. -/
theorem C52_orderSaveTree (o : Order) (vlbltax : Option (Arr Int)) (J : OrderJunk) (hm : OrderMem o) (hv : ValidOrder o) (hb : 0 ≤ o.baseval) (hl : LabelMem vlbltax o.baseval (o.baseval + o.vnodnbr)) :
    Holds (orderSaveTree o vlbltax J) (fun s => ∃ blk fa, IsBlockMap o blk ∧ IsFathers o fa ∧
      s = printInt o.vnodnbr ++ [10] ++ pairsText (fun v => (labelOf vlbltax v, fa (o.baseval + blk v))) o.baseval (o.baseval + o.vnodnbr)) := by
  have hsz : o.cblknbr ≤ o.vnodnbr := by
    rw [hv.cblk]
    have := leaves_sum _ hv.tree
    rw [← hv.size] at this
    have h2 := length_le_sum o.cblktre.leaves (leaves_pos _ hv.tree)
    unfold width
    omega
  unfold orderSaveTree
  rw [Holds_bind]
  refine ((C24_orderRang o ⟨0, o.vnodnbr + 1, J.rang⟩ hm hv (Int.le_refl _) (by dsimp only; omega)).and (orderRang_bounds o ⟨0, o.vnodnbr + 1, J.rang⟩ hm hv (Int.le_refl _) (by dsimp only; omega))).mono ?_
  rintro r ⟨⟨r1, r2, r3, r4, _⟩, r5, r6⟩
  dsimp only at r5 r6
  rw [Holds_bind]
  refine ((C25_orderTree o ⟨o.baseval, o.baseval + o.vnodnbr, J.tree⟩ hm hv hb (Int.le_refl _) (by dsimp only; omega)).and
    (orderTree_bounds o ⟨o.baseval, o.baseval + o.vnodnbr, J.tree⟩ hm hv (Int.le_refl _) (by dsimp only; omega))).mono ?_
  rintro t ⟨⟨t1, t2, t3, _⟩, t4, t5⟩
  dsimp only at t4 t5
  rw [Holds_bind]
  refine (blockLoop hm hv (by omega) r1 r2 r3 r4 (value := fun k => t.rd (k + o.baseval)) (val := fun k => t.get (k + o.baseval)) (fun k _ _ => Arr.rd_ok t (by omega) (by omega)) J.cblk).mono ?_
  rintro ⟨c, cn⟩ ⟨c1, c2, blk, c3, c4⟩
  dsimp only at c1 c2 c4 ⊢
  have hn : 0 ≤ o.vnodnbr := by
    have := width_pos _ hm.tree hv.tree
    have := hv.cblk
    omega
  rw [write_pairs (by omega) (f := fun v => (labelOf vlbltax v, c.get v)) (printInt o.vnodnbr ++ [10]) ?_, Holds_ok]
  · exact ⟨blk, t.get, c3, ⟨t1, t2, t3⟩, by rw [pairsText_congr (fun i i1 i2 => by rw [c4 i i1 i2, Int.add_comm])]⟩
  · intro i out i1 i2
    unfold blockLine
    rw [rdLabel_ok hl i1 i2, Arr.rd_ok c (by omega) (by omega)]
    rfl

-- The hypotheses are satisfied by `orderExample`.
example : orderSaveMap orderExample none ⟨fun _ => 7, fun _ => 8, fun _ => 9⟩ = .ok ("6\n1\t0\n2\t2\n3\t0\n4\t1\n5\t3\n6\t2\n".toList.map Char.toNat) := by decide +kernel
example : orderSaveTree orderExample (some (Arr.ofList 1 [16, 15, 14, 13, 12, 11])) ⟨fun _ => 7, fun _ => 8, fun _ => 9⟩ = .ok ("6\n16\t4\n15\t4\n14\t4\n13\t4\n12\t-1\n11\t4\n".toList.map Char.toNat) := by decide +kernel
example : OrderMem orderExample ∧ ValidOrder orderExample ∧ LabelMem (some (Arr.ofList 1 [16, 15, 14, 13, 12, 11])) 1 7 :=
  ⟨orderExample_mem, orderExample_valid, fun a h => by cases h; decide⟩

end Scotch
