import Verif.Dist.FoldFin2
import Verif.Dist.FoldJunk

set_option autoImplicit false
set_option linter.unusedSimpArgs false

namespace Scotch.Fold

section
variable {f : FoldIn} {cm : Int} {L : List Move}

/-- A vertex of a chain of messages belongs to one of them. -/
theorem chain_find {a : Int} {l : List Move} (h : Chain a l) {v : Int} (h0 : a ≤ v) (h1 : v < a + tot l) : ∃ m ∈ l, m.adj ≤ v ∧ v < m.adj + m.num := by
  induction l generalizing a with
  | nil => rw [tot_nil] at h1; omega
  | cons x l ih =>
    rw [tot_cons] at h1
    have := h.1
    by_cases c : v < a + x.num
    · exact ⟨x, by simp, by omega, by omega⟩
    · obtain ⟨m, hm, e⟩ := ih h.2 (by omega) (by omega)
      exact ⟨m, by simp [hm], e⟩

/-- Every piece is either what its holder keeps, or a message. -/
theorem piece_kind (hf : f.Ok) (h : f.Good cm L) {q : Int} (hq : f.Rcv q) {o : Nat} {pc : Int × Int} (hpc : (f.pieces L q)[o]? = some pc) :
    (o = 0 ∧ pc = (f.vrt q, f.cnt q - tot (sends L q))) ∨ ∃ m ∈ L, m.rcv = q ∧ m.ridx + 1 = o ∧ pc = (m.adj, m.num) := by
  cases o with
  | zero =>
    unfold FoldIn.pieces at hpc
    simp only [List.getElem?_cons_zero, Option.some.injEq] at hpc
    exact Or.inl ⟨rfl, hpc.symm⟩
  | succ o =>
    rw [pieces_succ] at hpc
    cases hm : (recvs L q)[o]? with
    | none => rw [hm] at hpc; cases hpc
    | some m =>
      rw [hm] at hpc
      simp only [Option.map_some, Option.some.injEq] at hpc
      have hmem := mem_recvs.1 (List.mem_of_getElem? hm)
      have := row_at (h.rcv_row hq).1 hm
      exact Or.inr ⟨m, hmem.1, hmem.2, by omega, hpc.symm⟩

/-- The process that owned the vertices of a piece. -/
theorem owner_unique (hf : f.Ok) {p p' v : Int} (p0 : 0 ≤ p) (p1 : p < f.procglbnbr) (p0' : 0 ≤ p') (p1' : p' < f.procglbnbr)
    (h : f.vrt p ≤ v ∧ v < f.vrt p + f.cnt p) (h' : f.vrt p' ≤ v ∧ v < f.vrt p' + f.cnt p') : p = p' := by
  by_cases c : p < p'
  · have := vrt_mono hf p0 c (by omega); omega
  · by_cases c' : p' < p
    · have := vrt_mono hf p0' c' (by omega); omega
    · omega

theorem FoldIn.Good.msg_in (hf : f.Ok) (h : f.Good cm L) {m : Move} (hm : m ∈ L) :
    f.vrt m.snd ≤ m.adj ∧ m.adj + m.num ≤ f.vrt m.snd + f.cnt m.snd ∧ f.vrt m.snd + f.cnt m.snd - tot (sends L m.snd) ≤ m.adj := by
  obtain ⟨m1, m2, m3, m4⟩ := h.mv m hm
  obtain ⟨g1, g2, a, g3, g4, g5, g6⟩ := h.snd_row hf m2.1 m2.2
  have := chain_bounds g3 (fun m' h' => (h.mv m' (mem_sends.1 h').1).1) (mem_sends.2 ⟨hm, rfl⟩)
  omega

theorem where_exists (hf : f.Ok) (h : f.Good cm L) {p v : Int} (p0 : 0 ≤ p) (p1 : p < f.procglbnbr) (v0 : f.vrt p ≤ v) (v1 : v < f.vrt p + f.cnt p) :
    ∃ q, f.Rcv q ∧ ∃ (o : Nat) (pc : Int × Int), (f.pieces L q)[o]? = some pc ∧ pc.1 ≤ v ∧ v < pc.1 + pc.2 := by
  obtain ⟨g1, g2, a, g3, g4, g5, g6⟩ := h.snd_row hf p0 p1
  by_cases c : a ≤ v
  · obtain ⟨m, hm, e1, e2⟩ := chain_find g3 c (by omega)
    obtain ⟨hm, hs⟩ := mem_sends.1 hm
    have hr := (h.mv m hm).2.2.1
    obtain ⟨i, i1, i2, i3⟩ := row_get (h.rcv_row hr).1 (mem_recvs.2 ⟨hm, rfl⟩)
    exact ⟨m.rcv, hr, i + 1, (m.adj, m.num), by rw [pieces_succ, i1]; rfl, e1, e2⟩
  · have hr : f.Rcv p := by
      refine Classical.byContradiction fun hr => ?_
      have := g6 hr
      omega
    exact ⟨p, hr, 0, (f.vrt p, f.cnt p - tot (sends L p)), rfl, v0, by dsimp only; omega⟩

theorem where_unique (hf : f.Ok) (h : f.Good cm L) {v q q' : Int} {o o' : Nat} {pc pc' : Int × Int} (hq : f.Rcv q) (hq' : f.Rcv q')
    (hpc : (f.pieces L q)[o]? = some pc) (hpc' : (f.pieces L q')[o']? = some pc') (v0 : pc.1 ≤ v) (v1 : v < pc.1 + pc.2) (v0' : pc'.1 ≤ v) (v1' : v < pc'.1 + pc'.2) :
    q = q' ∧ o = o' := by
  obtain ⟨r1, r2, r3, r4, r5, r6⟩ := hf.ranges
  have bq : ∀ q, f.Rcv q → 0 ≤ q ∧ q < f.procglbnbr := by
    intro q hq
    unfold FoldIn.Rcv at hq
    omega
  have tn : ∀ p, 0 ≤ tot (sends L p) := fun p => tot_nonneg (fun m hm => (h.mv m (mem_sends.1 hm).1).1)
  -- a kept vertex is not in a message
  have key : ∀ {q : Int} {m : Move}, f.Rcv q → m ∈ L → f.vrt q ≤ v → v < f.vrt q + (f.cnt q - tot (sends L q)) → m.adj ≤ v → v < m.adj + m.num → False := by
    intro q m hq hm a1 a2 b1 b2
    have hi := h.msg_in hf hm
    have hs := (h.mv m hm).2.1
    have := tn q
    have e := owner_unique hf (bq q hq).1 (bq q hq).2 hs.1 hs.2 ⟨a1, by omega⟩ ⟨by omega, by omega⟩
    subst e
    omega
  rcases piece_kind hf h hq hpc with ⟨e1, rfl⟩ | ⟨m, hm, e1, e2, rfl⟩
  · rcases piece_kind hf h hq' hpc' with ⟨e1', rfl⟩ | ⟨m', hm', e1', e2', rfl⟩
    · dsimp only at v0 v1 v0' v1'
      have := tn q
      have := tn q'
      exact ⟨owner_unique hf (bq q hq).1 (bq q hq).2 (bq q' hq').1 (bq q' hq').2 ⟨v0, by omega⟩ ⟨v0', by omega⟩, by omega⟩
    · exact absurd (key hq hm' v0 v1 v0' v1') id
  · rcases piece_kind hf h hq' hpc' with ⟨e1', rfl⟩ | ⟨m', hm', e1', e2', rfl⟩
    · exact absurd (key hq' hm v0' v1' v0 v1) id
    · dsimp only at v0 v1 v0' v1'
      have hi := h.msg_in hf hm
      have hi' := h.msg_in hf hm'
      have hs := (h.mv m hm).2.1
      have hs' := (h.mv m' hm').2.1
      have es := owner_unique hf hs.1 hs.2 hs'.1 hs'.2 ⟨by omega, by omega⟩ (v := v) ⟨by omega, by omega⟩
      obtain ⟨g1, g2, a, g3, g4, g5, g6⟩ := h.snd_row hf hs.1 hs.2
      have mm := mem_sends.2 ⟨hm, rfl⟩
      have mm' : m' ∈ sends L m.snd := mem_sends.2 ⟨hm', es.symm⟩
      have hn : ∀ x ∈ sends L m.snd, 0 ≤ x.num := fun x hx => (h.mv x (mem_sends.1 hx).1).1
      have ei : m.sidx = m'.sidx := by
        by_cases c : m.sidx < m'.sidx
        · have := chain_order g3 g1 hn mm mm' c; omega
        · by_cases c' : m'.sidx < m.sidx
          · have := chain_order g3 g1 hn mm' mm c'; omega
          · omega
      have := h.snd_unique hf hm hm' es ei
      subst this
      exact ⟨by omega, by omega⟩

theorem size_map_recvs (l : List Move) : FoldIn.size (l.map (fun m => (m.adj, m.num))) = tot l := by
  unfold FoldIn.size tot
  rw [List.map_map]
  rfl

theorem size_pieces (q : Int) : FoldIn.size (f.pieces L q) = f.cnt q + tot (recvs L q) - tot (sends L q) := by
  unfold FoldIn.pieces
  rw [size_cons, size_map_recvs]
  dsimp only
  omega

/-- No vertex is lost. -/
theorem sum_size (hf : f.Ok) (h : f.Good cm L) : sumI f.procrcvbas f.procrcvnnd (fun q => FoldIn.size (f.pieces L q)) = f.vertglbnbr := by
  obtain ⟨q1, q2, q3, q4, q5, q6⟩ := hf.ranges
  have hmv := h.mv
  have e1 : sumI 0 f.procglbnbr (fun p => (f.cnt p + tot (recvs L p)) - tot (sends L p)) = f.vertglbnbr := by
    rw [sumI_sub_dist, sumI_add_dist, sum_sends (fun m hm => (hmv m hm).2.1), sum_recvs (fun m hm => ?_), ← hf.sum]
    · omega
    · have := (hmv m hm).2.2.1
      unfold FoldIn.Rcv at this
      omega
  rw [sumI_congr (g := fun p => (f.cnt p + tot (recvs L p)) - tot (sends L p)) (fun q _ _ => size_pieces q)]
  rw [sumI_split (show 0 ≤ f.procrcvbas by omega) (by omega), sumI_split (show f.procrcvbas ≤ f.procrcvnnd by omega) (by omega)] at e1
  have z : ∀ p, 0 ≤ p → p < f.procglbnbr → ¬ f.Rcv p → (f.cnt p + tot (recvs L p)) - tot (sends L p) = 0 := by
    intro p p0 p1 hp
    rw [recvs_snd (f := f) (fun m hm => (hmv m hm).2.2.1) hp, tot_nil, (h.snd p p0 p1 hp).2.2.1]
    omega
  rw [sumI_congr (lo := 0) (g := fun _ => 0) (fun p p0 p1 => z p p0 (by omega) (by unfold FoldIn.Rcv; omega)),
    sumI_congr (lo := f.procrcvnnd) (g := fun _ => 0) (fun p p0 p1 => z p (by omega) p1 (by unfold FoldIn.Rcv; omega)),
    sumI_const (by omega), sumI_const (by omega)] at e1
  omega

theorem piece_nonneg (hf : f.Ok) (h : f.Good cm L) {q : Int} (hq : f.Rcv q) {pc : Int × Int} (hpc : pc ∈ f.pieces L q) : 0 ≤ pc.2 := by
  obtain ⟨o, ho⟩ := List.getElem?_of_mem hpc
  rcases piece_kind hf h hq ho with ⟨e1, rfl⟩ | ⟨m, hm, e1, e2, rfl⟩
  · obtain ⟨r1, r2, r3, r4, r5, r6⟩ := hf.ranges
    obtain ⟨g1, g2, a, g3, g4, g5, g6⟩ := h.snd_row hf (p := q) (by unfold FoldIn.Rcv at hq; omega) (by unfold FoldIn.Rcv at hq; omega)
    dsimp only
    omega
  · exact (h.mv m hm).1

theorem size_nonneg {l : List (Int × Int)} (h : ∀ x ∈ l, 0 ≤ x.2) : 0 ≤ FoldIn.size l := by
  induction l with
  | nil => exact Int.le_refl _
  | cons x l ih =>
    rw [size_cons]
    have := h x (by simp)
    have := ih (fun y hy => h y (by simp [hy]))
    omega

theorem size_take_mono {l : List (Int × Int)} (h : ∀ x ∈ l, 0 ≤ x.2) {i j : Nat} (hij : i ≤ j) : FoldIn.size (l.take i) ≤ FoldIn.size (l.take j) := by
  induction l generalizing i j with
  | nil => simp
  | cons x l ih =>
    cases i with
    | zero =>
      rw [List.take_zero, size_nil]
      exact size_nonneg (fun y hy => h y (List.mem_of_mem_take hy))
    | succ i =>
      cases j with
      | zero => omega
      | succ j =>
        rw [List.take_succ_cons, List.take_succ_cons, size_cons, size_cons]
        have := ih (fun y hy => h y (by simp [hy])) (show i ≤ j by omega)
        omega

/-- New numbers of distinct pieces do not overlap. -/
theorem start_lt (hf : f.Ok) (h : f.Good cm L) {q q' : Int} {o o' : Nat} {pc : Int × Int} (hq : f.Rcv q) (hq' : f.Rcv q')
    (hpc : (f.pieces L q)[o]? = some pc) (hlt : q < q' ∨ (q = q' ∧ o < o')) : f.start L q o + pc.2 ≤ f.start L q' o' := by
  have e : f.start L q o + pc.2 = f.start L q (o + 1) := by
    unfold FoldIn.start
    rw [size_take_succ hpc]
    omega
  rw [e]
  unfold FoldIn.Rcv at hq'
  rcases hlt with c | ⟨rfl, c⟩
  · unfold FoldIn.start
    have hq2 := hq
    unfold FoldIn.Rcv at hq2
    rw [sumI_split (show f.procrcvbas ≤ q + 1 by omega) (show q + 1 ≤ q' by omega), sumI_succ (by omega)]
    have a1 := sumI_nonneg (lo := q + 1) (hi := q') (f := fun r => FoldIn.size (f.pieces L r)) (fun r h1 h2 => size_nonneg (fun x hx => piece_nonneg hf h (q := r) ⟨by omega, by omega⟩ hx))
    have a2 := size_take_mono (l := f.pieces L q) (fun x hx => piece_nonneg hf h hq hx) (i := o + 1) (j := max (o + 1) (f.pieces L q).length) (by omega)
    rw [size_take_all (n := max (o + 1) (f.pieces L q).length) (by omega)] at a2
    have a3 := size_nonneg (l := (f.pieces L q').take o') (fun x hx => piece_nonneg hf h (q := q') ⟨by omega, by omega⟩ (List.mem_of_mem_take hx))
    omega
  · unfold FoldIn.start
    have := size_take_mono (l := f.pieces L q) (fun x hx => piece_nonneg hf h hq hx) (i := o + 1) (j := o') (by omega)
    omega

theorem start_range (hf : f.Ok) (h : f.Good cm L) {q : Int} {o : Nat} {pc : Int × Int} (hq : f.Rcv q) (hpc : (f.pieces L q)[o]? = some pc) :
    f.baseval ≤ f.start L q o ∧ f.start L q o + pc.2 ≤ f.baseval + f.vertglbnbr := by
  have hq2 := hq
  unfold FoldIn.Rcv at hq2
  have nn : ∀ r, f.Rcv r → 0 ≤ FoldIn.size (f.pieces L r) := fun r hr => size_nonneg (fun x hx => piece_nonneg hf h hr hx)
  have a0 := sumI_nonneg (lo := f.procrcvbas) (hi := q) (f := fun r => FoldIn.size (f.pieces L r)) (fun r h1 h2 => nn r ⟨by omega, by omega⟩)
  have a1 := sumI_nonneg (lo := q + 1) (hi := f.procrcvnnd) (f := fun r => FoldIn.size (f.pieces L r)) (fun r h1 h2 => nn r ⟨by omega, by omega⟩)
  have hs := sum_size hf h
  rw [sumI_split (show f.procrcvbas ≤ q + 1 by omega) (show q + 1 ≤ f.procrcvnnd by omega), sumI_succ (by omega)] at hs
  have a2 := size_take_mono (l := f.pieces L q) (fun x hx => piece_nonneg hf h hq hx) (i := o + 1) (j := max (o + 1) (f.pieces L q).length) (by omega)
  rw [size_take_all (n := max (o + 1) (f.pieces L q).length) (by omega), size_take_succ hpc] at a2
  have a3 := size_nonneg (l := (f.pieces L q).take o) (fun x hx => piece_nonneg hf h hq (List.mem_of_mem_take hx))
  unfold FoldIn.start
  omega

end

end Scotch.Fold
