import Verif.Dist.FoldPlan4

set_option autoImplicit false
set_option linter.unusedSimpArgs false

namespace Scotch.Fold

/-- Slot of a message in the table of the pieces. -/
def slotOf (cs : Int) (m : Move) : Int := (if m.both then 1 else 0) + m.snd * cs + m.sidx

section
variable {f : FoldIn} {cm : Int} {L : List Move}

theorem FoldIn.Good.snd_row (hf : f.Ok) (h : f.Good cm L) {p : Int} (p0 : 0 ≤ p) (p1 : p < f.procglbnbr) :
    Row Move.sidx 0 (sends L p) ∧ (sends L p).length ≤ cm ∧ (∃ a, Chain a (sends L p) ∧ f.vrt p ≤ a ∧ a + tot (sends L p) = f.vrt p + f.cnt p ∧
      (¬ f.Rcv p → a = f.vrt p)) := by
  have hc := hf.cnt0 p p0 p1
  by_cases hr : f.Rcv p
  · rcases h.keep p hr with ⟨a1, a2, a3⟩ | ⟨a1, a2, a3, a4, a5⟩
    · rw [a1]
      exact ⟨trivial, by simp; omega, f.vrt p + f.cnt p, trivial, by omega, by rw [tot_nil]; omega, fun hh => absurd hr hh⟩
    · exact ⟨a2, a4, _, a1, by omega, by omega, fun hh => absurd hr hh⟩
  · obtain ⟨a1, a2, a3, a4⟩ := h.snd p p0 p1 hr
    exact ⟨a2, a4, _, a1, Int.le_refl _, by omega, fun _ => rfl⟩

theorem FoldIn.Good.rcv_row (h : f.Good cm L) {q : Int} (hq : f.Rcv q) : Row Move.ridx 0 (recvs L q) ∧ (recvs L q).length ≤ cm := by
  rcases h.keep q hq with ⟨a1, a2, a3⟩ | ⟨a1, a2, a3, a4, a5⟩
  · exact ⟨a2, a3⟩
  · rcases a5 with a5 | ⟨m, b1, b2, b3, b4⟩
    · rw [a5]; exact ⟨trivial, by simp; omega⟩
    · rw [b1]
      rw [b2] at a4
      exact ⟨⟨b4, trivial⟩, a4⟩

theorem sends_split {l1 l2 : List Move} {m : Move} {p : Int} (e : m.snd = p) :
    sends (l1 ++ m :: l2) p = sends l1 p ++ m :: sends l2 p := by
  unfold sends
  rw [List.filter_append, List.filter_cons, if_pos (by simpa using e)]

theorem recvs_split {l1 l2 : List Move} {m : Move} {p : Int} (e : m.rcv = p) :
    recvs (l1 ++ m :: l2) p = recvs l1 p ++ m :: recvs l2 p := by
  unfold recvs
  rw [List.filter_append, List.filter_cons, if_pos (by simpa using e)]

theorem row_get {idx : Move → Int} {k : Int} {l : List Move} (h : Row idx k l) {m : Move} (hm : m ∈ l) :
    ∃ i : Nat, l[i]? = some m ∧ idx m = k + i ∧ i < l.length := by
  obtain ⟨l1, l2, rfl⟩ := List.append_of_mem hm
  refine ⟨l1.length, by simp, row_mid h, by simp⟩

/-- Ranks of a message among those of its sender and of its receiver. -/
theorem FoldIn.Good.ranks (hf : f.Ok) (h : f.Good cm L) {l1 l2 : List Move} {m : Move} (e : L = l1 ++ m :: l2) :
    m.sidx = (sends l1 m.snd).length ∧ m.ridx = (recvs l1 m.rcv).length ∧ m.sidx < cm ∧ m.ridx < cm := by
  obtain ⟨m1, m2, m3, m4⟩ := h.mv m (by rw [e]; simp)
  obtain ⟨a1, a2, a3⟩ := h.snd_row hf m2.1 m2.2
  obtain ⟨b1, b2⟩ := h.rcv_row m3
  rw [e, sends_split rfl] at a1 a2
  rw [e, recvs_split rfl] at b1 b2
  have c1 := row_mid a1
  have c2 := row_mid b1
  rw [List.length_append, List.length_cons] at a2 b2
  omega

/-- A message already seen has other ranks. -/
theorem FoldIn.Good.ranks_lt (hf : f.Ok) (h : f.Good cm L) {l1 l2 : List Move} {m m' : Move} (e : L = l1 ++ m :: l2) (hm' : m' ∈ l1) :
    (m'.snd = m.snd → m'.sidx < m.sidx) ∧ (m'.rcv = m.rcv → m'.ridx < m.ridx) := by
  obtain ⟨r1, r2, _⟩ := h.ranks hf e
  obtain ⟨l3, l4, rfl⟩ := List.append_of_mem hm'
  rw [List.append_assoc, List.cons_append] at e
  obtain ⟨s1, s2, _⟩ := h.ranks hf e
  constructor
  · intro hh
    rw [sends_split hh, List.length_append, List.length_cons] at r1
    rw [hh] at s1
    omega
  · intro hh
    rw [recvs_split hh, List.length_append, List.length_cons] at r2
    rw [hh] at s2
    omega

theorem FoldIn.Good.idx (hf : f.Ok) (h : f.Good cm L) {m : Move} (hm : m ∈ L) : 0 ≤ m.sidx ∧ m.sidx < cm ∧ 0 ≤ m.ridx ∧ m.ridx < cm := by
  obtain ⟨l1, l2, e⟩ := List.append_of_mem hm
  have := h.ranks hf e
  omega

/-- Quotient and remainder are determined. -/
theorem mul_add_inj {cs p q a b : Int} (h : p * cs + a = q * cs + b) (a0 : 0 ≤ a) (a1 : a < cs) (b0 : 0 ≤ b) (b1 : b < cs) : p = q ∧ a = b := by
  have e1 : (p * cs + a) / cs = p := by
    rw [Int.add_comm, Int.add_mul_ediv_right _ _ (by omega), Int.ediv_eq_zero_of_lt a0 a1]; omega
  have e2 : (q * cs + b) / cs = q := by
    rw [Int.add_comm, Int.add_mul_ediv_right _ _ (by omega), Int.ediv_eq_zero_of_lt b0 b1]; omega
  have : p = q := by rw [← e1, ← e2, h]
  subst this
  omega

theorem mul_add_bounds {cs p a P : Int} (p0 : 0 ≤ p) (p1 : p < P) (a0 : 0 ≤ a) (a1 : a < cs) : 0 ≤ p * cs + a ∧ p * cs + a < cs * P := by
  have h1 : 0 ≤ p * cs := Int.mul_nonneg p0 (by omega)
  have h2 : (p + 1) * cs ≤ P * cs := Int.mul_le_mul_of_nonneg_right (by omega) (by omega)
  rw [Int.add_mul, Int.one_mul] at h2
  rw [Int.mul_comm cs P]
  omega

theorem slotOf_eq (cs : Int) (m : Move) : slotOf cs m = m.snd * cs + ((if m.both then 1 else 0) + m.sidx) := by
  unfold slotOf; omega

theorem slotOf_off (hf : f.Ok) (h : f.Good cm L) {m : Move} (hm : m ∈ L) :
    0 ≤ (if m.both then (1 : Int) else 0) + m.sidx ∧ (if m.both then (1 : Int) else 0) + m.sidx < cm + 1 := by
  have := h.idx hf hm
  split <;> omega

/-- A message does not use the slot of the vertices that a receiver keeps. -/
theorem slotOf_ne_own (hf : f.Ok) (h : f.Good cm L) {m : Move} (hm : m ∈ L) {q : Int} (hq : f.Rcv q) : slotOf (cm + 1) m ≠ q * (cm + 1) := by
  intro e
  obtain ⟨b0, b1⟩ := slotOf_off hf h hm
  have hi := h.idx hf hm
  rw [slotOf_eq, ← Int.add_zero (q * (cm + 1))] at e
  obtain ⟨e1, e2⟩ := mul_add_inj e b0 b1 (Int.le_refl _) (by omega)
  have := ((h.mv m hm).2.2.2).2 (e1 ▸ hq)
  rw [this] at e2
  simp at e2
  omega

/-- Messages that use the same slot have the same sender and rank. -/
theorem slotOf_inj (hf : f.Ok) (h : f.Good cm L) {m m' : Move} (hm : m ∈ L) (hm' : m' ∈ L) (e : slotOf (cm + 1) m = slotOf (cm + 1) m') :
    m.snd = m'.snd ∧ m.sidx = m'.sidx := by
  obtain ⟨b0, b1⟩ := slotOf_off hf h hm
  obtain ⟨c0, c1⟩ := slotOf_off hf h hm'
  rw [slotOf_eq, slotOf_eq] at e
  obtain ⟨e1, e2⟩ := mul_add_inj e b0 b1 c0 c1
  have : m.both = m'.both := by
    rw [Bool.eq_iff_iff, (h.mv m hm).2.2.2, (h.mv m' hm').2.2.2, e1]
  rw [this] at e2
  exact ⟨e1, by omega⟩

theorem row_unique {idx : Move → Int} {k : Int} {l : List Move} (h : Row idx k l) {m m' : Move} (hm : m ∈ l) (hm' : m' ∈ l) (e : idx m = idx m') : m = m' := by
  obtain ⟨i, a1, a2, _⟩ := row_get h hm
  obtain ⟨j, b1, b2, _⟩ := row_get h hm'
  have : i = j := by omega
  subst this
  rw [a1] at b1
  exact Option.some.inj b1

theorem FoldIn.Good.snd_unique (hf : f.Ok) (h : f.Good cm L) {m m' : Move} (hm : m ∈ L) (hm' : m' ∈ L) (e1 : m.snd = m'.snd) (e2 : m.sidx = m'.sidx) : m = m' := by
  have := h.mv m hm
  exact row_unique (h.snd_row hf this.2.1.1 this.2.1.2).1 (mem_sends.2 ⟨hm, rfl⟩) (mem_sends.2 ⟨hm', e1.symm⟩) e2

/-- Contents of the tables of a process once the messages of `l1` have been recorded. -/
structure TI (f : FoldIn) (me cm : Int) (l1 : List Move) (t : Tables) : Prop where
  clo : t.commdattab.lo = 0
  chi : t.commdattab.hi = cm
  vlo : t.commvrttab.lo = 0
  vhi : t.commvrttab.hi = cm
  /-- messages of the process -/
  csnd : ∀ m ∈ l1, m.snd = me → t.commdattab.get m.sidx = (m.num, m.rcv) ∧ t.commvrttab.get m.sidx = m.adj
  crcv : f.Rcv me → ∀ m ∈ l1, m.rcv = me → t.commdattab.get m.ridx = (m.num, m.snd) ∧ t.commvrttab.get m.ridx = m.adj
  cnon : ∀ k, 0 ≤ k → k < cm → (∀ m ∈ l1, m.snd = me → m.sidx ≠ k) → (f.Rcv me → ∀ m ∈ l1, m.rcv = me → m.ridx ≠ k) → t.commdattab.get k = (0, -1)
  typ : t.commtypval = if f.Rcv me then (if sends l1 me = [] then 2 else 3) else 1
  rcv : f.Rcv me → t.vertadjtab.lo = 0 ∧ t.vertadjtab.hi = (cm + 1) * f.procglbnbr ∧ t.vertdlttab.lo = 0 ∧ t.vertdlttab.hi = (cm + 1) * f.procglbnbr ∧
    t.slotsndtax.lo = f.procrcvbas * (cm + 1) ∧ t.slotsndtax.hi = f.procrcvbas * (cm + 1) + (cm + 1) * f.procfldnbr ∧
    (∀ q, f.Rcv q → t.vertadjtab.get (q * (cm + 1)) = f.vrt q ∧ t.vertdlttab.get (q * (cm + 1)) = f.cnt q - tot (sends l1 q) ∧ t.slotsndtax.get (q * (cm + 1)) = q * (cm + 1)) ∧
    (∀ m ∈ l1, t.vertadjtab.get (slotOf (cm + 1) m) = m.adj ∧ t.vertdlttab.get (slotOf (cm + 1) m) = m.num ∧
      t.slotsndtax.get (m.rcv * (cm + 1) + (1 + m.ridx)) = slotOf (cm + 1) m) ∧
    (∀ s, (∀ q, f.Rcv q → s ≠ q * (cm + 1)) → (∀ m ∈ l1, slotOf (cm + 1) m ≠ s) → t.vertadjtab.get s = -1) ∧
    (∀ s, (∀ q, f.Rcv q → s ≠ q * (cm + 1)) → (∀ m ∈ l1, m.rcv * (cm + 1) + (1 + m.ridx) ≠ s) → t.slotsndtax.get s = -1)

theorem isRcv_iff {me : Int} : f.isRcv me = true ↔ f.Rcv me := by
  unfold FoldIn.isRcv FoldIn.Rcv
  rw [decide_eq_true_iff]

end

end Scotch.Fold
