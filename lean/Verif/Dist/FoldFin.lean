import Verif.Dist.FoldTab3

set_option autoImplicit false
set_option linter.unusedSimpArgs false

namespace Scotch.Fold

theorem chain_bounds {a : Int} {l : List Move} (h : Chain a l) (hn : ∀ m ∈ l, 0 ≤ m.num) {m : Move} (hm : m ∈ l) :
    a ≤ m.adj ∧ m.adj + m.num ≤ a + tot l := by
  induction l generalizing a with
  | nil => cases hm
  | cons x l ih =>
    have hx := hn x (by simp)
    have ht := tot_nonneg (l := l) (fun m hm => hn m (by simp [hm]))
    rw [tot_cons]
    rcases List.mem_cons.1 hm with rfl | hm
    · have := h.1
      omega
    · have := ih h.2 (fun m hm => hn m (by simp [hm])) hm
      omega

theorem row_ge {idx : Move → Int} {k : Int} {l : List Move} (h : Row idx k l) {m : Move} (hm : m ∈ l) : k ≤ idx m := by
  obtain ⟨i, _, e, _⟩ := row_get h hm
  omega

theorem chain_order {a k : Int} {idx : Move → Int} {l : List Move} (h : Chain a l) (hr : Row idx k l) (hn : ∀ m ∈ l, 0 ≤ m.num) {m m' : Move} (hm : m ∈ l) (hm' : m' ∈ l)
    (hlt : idx m < idx m') : m.adj + m.num ≤ m'.adj := by
  induction l generalizing a k with
  | nil => cases hm
  | cons x l ih =>
    rcases List.mem_cons.1 hm with rfl | hm2
    · rcases List.mem_cons.1 hm' with rfl | hm3
      · omega
      · have := chain_bounds h.2 (fun m hm => hn m (by simp [hm])) hm3
        have := h.1
        omega
    · rcases List.mem_cons.1 hm' with rfl | hm3
      · have := row_ge hr.2 hm2
        have := hr.1
        omega
      · exact ih h.2 hr.2 (fun m hm => hn m (by simp [hm])) hm2 hm3

theorem size_nil : FoldIn.size [] = 0 := rfl

theorem size_cons (x : Int × Int) (l : List (Int × Int)) : FoldIn.size (x :: l) = x.2 + FoldIn.size l := by
  unfold FoldIn.size; rw [List.map_cons, List.sum_cons]

theorem size_take_succ {l : List (Int × Int)} {o : Nat} {pc : Int × Int} (h : l[o]? = some pc) :
    FoldIn.size (l.take (o + 1)) = FoldIn.size (l.take o) + pc.2 := by
  induction l generalizing o with
  | nil => simp at h
  | cons x l ih =>
    cases o with
    | zero =>
      simp only [List.getElem?_cons_zero, Option.some.injEq] at h
      subst h
      simp [size_cons, size_nil]
    | succ o =>
      simp only [List.getElem?_cons_succ] at h
      rw [List.take_succ_cons, List.take_succ_cons, size_cons, size_cons, ih h]
      omega

section
variable {f : FoldIn} {me cm : Int} {L : List Move}

/-- Where the pieces of all receivers are recorded in the tables. -/
structure Tab (f : FoldIn) (cm : Int) (L : List Move) (t : Tables) : Prop where
  alo : t.vertadjtab.lo = 0
  ahi : t.vertadjtab.hi = (cm + 1) * f.procglbnbr
  dlo : t.vertdlttab.lo = 0
  dhi : t.vertdlttab.hi = (cm + 1) * f.procglbnbr
  slo : t.slotsndtax.lo = f.procrcvbas * (cm + 1)
  shi : t.slotsndtax.hi = f.procrcvbas * (cm + 1) + (cm + 1) * f.procfldnbr
  len : ∀ q, f.Rcv q → (f.pieces L q).length ≤ cm + 1
  inn : ∀ q, f.Rcv q → ∀ (o : Nat) pc, (f.pieces L q)[o]? = some pc →
    0 ≤ t.slotsndtax.get (q * (cm + 1) + o) ∧ t.slotsndtax.get (q * (cm + 1) + o) < (cm + 1) * f.procglbnbr ∧
    t.vertadjtab.get (t.slotsndtax.get (q * (cm + 1) + o)) = pc.1 ∧ t.vertdlttab.get (t.slotsndtax.get (q * (cm + 1) + o)) = pc.2 ∧ 0 ≤ pc.1
  out : ∀ q, f.Rcv q → ∀ o : Nat, (f.pieces L q).length ≤ o → o < cm + 1 → t.slotsndtax.get (q * (cm + 1) + o) = -1
  inj : ∀ q q' (o o' : Nat), f.Rcv q → f.Rcv q' → o < (f.pieces L q).length → o' < (f.pieces L q').length →
    t.slotsndtax.get (q * (cm + 1) + o) = t.slotsndtax.get (q' * (cm + 1) + o') → q = q' ∧ o = o'
  asc : ∀ s s', 0 ≤ s → s < s' → s' < (cm + 1) * f.procglbnbr → t.vertadjtab.get s ≠ -1 → t.vertadjtab.get s' ≠ -1 →
    t.vertadjtab.get s + t.vertdlttab.get s ≤ t.vertadjtab.get s' ∧ 0 ≤ t.vertdlttab.get s
  last : ∀ s, 0 ≤ s → s < (cm + 1) * f.procglbnbr → t.vertadjtab.get s ≠ -1 → t.vertadjtab.get s + t.vertdlttab.get s ≤ f.vrt f.procglbnbr ∧ 0 ≤ t.vertdlttab.get s
  free : ∃ s, 0 ≤ s ∧ s < (cm + 1) * f.procglbnbr ∧ t.vertadjtab.get s = -1

theorem vrt_mono (hf : f.Ok) {p p' : Int} (h0 : 0 ≤ p) (h1 : p < p') (h2 : p' ≤ f.procglbnbr) : f.vrt p + f.cnt p ≤ f.vrt p' := by
  obtain ⟨n, hn⟩ : ∃ n : Nat, p' = p + 1 + n := ⟨(p' - p - 1).toNat, by omega⟩
  subst hn
  clear h1
  induction n with
  | zero => simpa using hf.step p h0 (by omega)
  | succ n ih =>
    have := ih (by omega)
    have h3 := hf.step (p + 1 + n) (by omega) (by omega)
    have h4 := hf.cnt0 (p + 1 + n) (by omega) (by omega)
    rw [show p + 1 + ((n + 1 : Nat) : Int) = p + 1 + n + 1 by omega]
    omega

theorem vrt_nonneg (hf : f.Ok) {p : Int} (h0 : 0 ≤ p) (h1 : p ≤ f.procglbnbr) : 0 ≤ f.vrt p := by
  have a := hf.base0
  have b := hf.first
  by_cases e : p = 0
  · subst e; omega
  · have := vrt_mono hf (Int.le_refl 0) (by omega : 0 < p) h1
    have := hf.cnt0 0 (Int.le_refl _) (by omega)
    omega

theorem pieces_succ {q : Int} (o : Nat) : (f.pieces L q)[o + 1]? = ((recvs L q)[o]?).map (fun m => (m.adj, m.num)) := by
  unfold FoldIn.pieces
  rw [List.getElem?_cons_succ, List.getElem?_map]

theorem pieces_len {q : Int} : (f.pieces L q).length = (recvs L q).length + 1 := by
  unfold FoldIn.pieces
  rw [List.length_cons, List.length_map]

theorem row_at {idx : Move → Int} {k : Int} {l : List Move} (h : Row idx k l) {i : Nat} {m : Move} (hm : l[i]? = some m) : idx m = k + i := by
  induction l generalizing k i with
  | nil => simp at hm
  | cons x l ih =>
    cases i with
    | zero =>
      simp only [List.getElem?_cons_zero, Option.some.injEq] at hm
      subst hm
      have := h.1
      simpa using this
    | succ i =>
      simp only [List.getElem?_cons_succ] at hm
      have := ih h.2 hm
      omega

/-- Kinds of slots that are used. -/
theorem TI.kinds (hf : f.Ok) (h : f.Good cm L) (hcm : 0 ≤ cm) (hme : f.Rcv me) {t : Tables} (ht : TI f me cm L t) {s : Int} (hu : t.vertadjtab.get s ≠ -1) :
    ∃ p o, 0 ≤ p ∧ p < f.procglbnbr ∧ s = p * (cm + 1) + o ∧ 0 ≤ o ∧ o < cm + 1 ∧
      ((f.Rcv p ∧ o = 0 ∧ t.vertadjtab.get s = f.vrt p ∧ t.vertdlttab.get s = f.cnt p - tot (sends L p)) ∨
       ∃ m ∈ L, m.snd = p ∧ o = (if m.both then (1 : Int) else 0) + m.sidx ∧ t.vertadjtab.get s = m.adj ∧ t.vertdlttab.get s = m.num) := by
  obtain ⟨q1, q2, q3, q4, q5, q6⟩ := hf.ranges
  obtain ⟨r1, r2, r3, r4, r5, r6, r7, r8, r9, r10⟩ := ht.rcv hme
  by_cases c1 : ∃ q, f.Rcv q ∧ s = q * (cm + 1)
  · obtain ⟨q, hq, rfl⟩ := c1
    have := r7 q hq
    exact ⟨q, 0, by unfold FoldIn.Rcv at hq; omega, by unfold FoldIn.Rcv at hq; omega, by omega, Int.le_refl _, by omega, Or.inl ⟨hq, rfl, this.1, this.2.1⟩⟩
  · by_cases c2 : ∃ m ∈ L, slotOf (cm + 1) m = s
    · obtain ⟨m, hm, rfl⟩ := c2
      have := r8 m hm
      obtain ⟨m1, m2, m3, m4⟩ := h.mv m hm
      have ho := slotOf_off hf h hm
      exact ⟨m.snd, _, m2.1, m2.2, slotOf_eq _ _, ho.1, ho.2, Or.inr ⟨m, hm, rfl, rfl, this.1, this.2.1⟩⟩
    · exact absurd (r9 s (fun q hq e => c1 ⟨q, hq, e⟩) (fun m hm e => c2 ⟨m, hm, e⟩)) hu

theorem TI.tab (hf : f.Ok) (h : f.Good cm L) (hcm : 0 ≤ cm) (hme : f.Rcv me) {t : Tables} (ht : TI f me cm L t) : Tab f cm L t := by
  obtain ⟨q1, q2, q3, q4, q5, q6⟩ := hf.ranges
  obtain ⟨r1, r2, r3, r4, r5, r6, r7, r8, r9, r10⟩ := ht.rcv hme
  have hlen : ∀ q, f.Rcv q → ((f.pieces L q).length : Int) ≤ cm + 1 := by
    intro q hq
    have := (h.rcv_row hq).2
    rw [pieces_len]
    omega
  have hnn : ∀ p, ∀ m ∈ sends L p, 0 ≤ m.num := fun p m hm => (h.mv m (mem_sends.1 hm).1).1
  -- slot of the o-th piece
  have hslot : ∀ q, f.Rcv q → ∀ o : Nat, o < (f.pieces L q).length →
      (o = 0 ∧ t.slotsndtax.get (q * (cm + 1) + o) = q * (cm + 1)) ∨
      ∃ m ∈ L, m.rcv = q ∧ m.ridx + 1 = o ∧ t.slotsndtax.get (q * (cm + 1) + o) = slotOf (cm + 1) m ∧ (f.pieces L q)[o]? = some (m.adj, m.num) := by
    intro q hq o ho
    cases o with
    | zero => exact Or.inl ⟨rfl, by have := (r7 q hq).2.2; simpa using this⟩
    | succ o =>
      rw [pieces_len] at ho
      have hget : (recvs L q)[o]? = some ((recvs L q)[o]'(by omega)) := List.getElem?_eq_getElem _
      obtain ⟨m, hm⟩ : ∃ m, (recvs L q)[o]? = some m := ⟨_, hget⟩
      have hmem := mem_recvs.1 (List.mem_of_getElem? hm)
      have hi := row_at (h.rcv_row hq).1 hm
      refine Or.inr ⟨m, hmem.1, hmem.2, by omega, ?_, by rw [pieces_succ, hm]; rfl⟩
      rw [← (r8 m hmem.1).2.2, hmem.2]
      congr 1
      omega
  have hbnd : ∀ s, t.vertadjtab.get s ≠ -1 → ∃ p o, 0 ≤ p ∧ p < f.procglbnbr ∧ s = p * (cm + 1) + o ∧ 0 ≤ o ∧ o < cm + 1 ∧
      f.vrt p ≤ t.vertadjtab.get s ∧ t.vertadjtab.get s + t.vertdlttab.get s ≤ f.vrt p + f.cnt p ∧ 0 ≤ t.vertdlttab.get s := by
    intro s hu
    obtain ⟨p, o, p0, p1, e, o0, o1, hk⟩ := ht.kinds hf h hcm hme hu
    refine ⟨p, o, p0, p1, e, o0, o1, ?_⟩
    obtain ⟨g1, g2, a, g3, g4, g5, g6⟩ := h.snd_row hf p0 p1
    have g7 := tot_nonneg (hnn p)
    rcases hk with ⟨k1, k2, k3, k4⟩ | ⟨m, hm, k1, k2, k3, k4⟩
    · omega
    · have := chain_bounds g3 (hnn p) (mem_sends.2 ⟨hm, k1⟩)
      have := (h.mv m hm).1
      omega
  refine { alo := r1, ahi := r2, dlo := r3, dhi := r4, slo := r5, shi := r6, len := hlen, inn := ?_, out := ?_, inj := ?_, asc := ?_, last := ?_, free := ?_ }
  · intro q hq o pc hpc
    have ho : o < (f.pieces L q).length := (List.getElem?_eq_some_iff.1 hpc).1
    rcases hslot q hq o ho with ⟨rfl, e2⟩ | ⟨m, hm, e1, e2, e3, e4⟩
    · rw [e2]
      unfold FoldIn.pieces at hpc
      simp only [List.getElem?_cons_zero, Option.some.injEq] at hpc
      subst hpc
      have b := mul_add_bounds (cs := cm + 1) (p := q) (a := 0) (P := f.procglbnbr) (by unfold FoldIn.Rcv at hq; omega) (by unfold FoldIn.Rcv at hq; omega) (Int.le_refl _) (by omega)
      have := r7 q hq
      exact ⟨by omega, by omega, this.1, this.2.1, vrt_nonneg hf (by unfold FoldIn.Rcv at hq; omega) (by unfold FoldIn.Rcv at hq; omega)⟩
    · rw [e3]
      rw [e4] at hpc
      obtain rfl := Option.some.inj hpc
      obtain ⟨m1, m2, m3, m4⟩ := h.mv m hm
      have ho := slotOf_off hf h hm
      have b := mul_add_bounds (cs := cm + 1) (p := m.snd) (P := f.procglbnbr) m2.1 m2.2 ho.1 ho.2
      rw [← slotOf_eq] at b
      have := r8 m hm
      obtain ⟨g1, g2, a, g3, g4, g5, g6⟩ := h.snd_row hf m2.1 m2.2
      have hc := chain_bounds g3 (hnn m.snd) (mem_sends.2 ⟨hm, rfl⟩)
      have := vrt_nonneg hf m2.1 (by omega)
      refine ⟨b.1, b.2, (r8 m hm).1, (r8 m hm).2.1, ?_⟩
      dsimp only
      omega
  · intro q hq o ho o1
    refine r10 _ ?_ ?_
    · intro q' hq' e
      rw [← Int.add_zero (q' * (cm + 1))] at e
      have := mul_add_inj e (by omega) o1 (Int.le_refl _) (by omega)
      rw [pieces_len] at ho
      omega
    · intro m hm e
      have hi := h.idx hf hm
      have := mul_add_inj e (by omega) (by omega) (by omega) o1
      have hr := (h.rcv_row hq).1
      obtain ⟨i, _, e2, e3⟩ := row_get hr (mem_recvs.2 ⟨hm, this.1⟩)
      rw [pieces_len] at ho
      omega
  · intro q q' o o' hq hq' ho ho' e
    rcases hslot q hq o ho with ⟨rfl, e2⟩ | ⟨m, hm, e1, e2, e3, e4⟩
    · rcases hslot q' hq' o' ho' with ⟨rfl, e2'⟩ | ⟨m', hm', e1', e2', e3', e4'⟩
      · rw [e2, e2'] at e
        exact ⟨Int.eq_of_mul_eq_mul_right (by omega) e, rfl⟩
      · rw [e2, e3'] at e
        exact absurd e.symm (slotOf_ne_own hf h hm' hq)
    · rcases hslot q' hq' o' ho' with ⟨rfl, e2'⟩ | ⟨m', hm', e1', e2', e3', e4'⟩
      · rw [e3, e2'] at e
        exact absurd e (slotOf_ne_own hf h hm hq')
      · rw [e3, e3'] at e
        obtain ⟨f1, f2⟩ := slotOf_inj hf h hm hm' e
        have := h.snd_unique hf hm hm' f1 f2
        subst this
        exact ⟨by omega, by omega⟩
  · intro s s' s0 hlt s1 hu hu'
    obtain ⟨p, o, p0, p1, e, o0, o1, b1, b2, b3⟩ := hbnd s hu
    obtain ⟨p', o', p0', p1', e', o0', o1', b1', b2', b3'⟩ := hbnd s' hu'
    refine ⟨?_, b3⟩
    by_cases hp : p < p'
    · have := vrt_mono hf p0 hp (by omega)
      omega
    · have hpe : p = p' := by
        refine Classical.byContradiction fun hne => ?_
        have h1 : (p' + 1) * (cm + 1) ≤ p * (cm + 1) := Int.mul_le_mul_of_nonneg_right (by omega) (by omega)
        rw [Int.add_mul, Int.one_mul] at h1
        omega
      subst hpe
      obtain ⟨pp, oo, _, _, ee, oo0, oo1, hk⟩ := ht.kinds hf h hcm hme hu
      obtain ⟨pp', oo', _, _, ee', oo0', oo1', hk'⟩ := ht.kinds hf h hcm hme hu'
      obtain ⟨z1, z2⟩ := mul_add_inj (e.symm.trans ee) o0 o1 oo0 oo1
      obtain ⟨z1', z2'⟩ := mul_add_inj (e'.symm.trans ee') o0' o1' oo0' oo1'
      subst z1 z2 z1' z2'
      obtain ⟨g1, g2, a, g3, g4, g5, g6⟩ := h.snd_row hf p0 p1
      rcases hk with ⟨k1, k2, k3, k4⟩ | ⟨m, hm, k1, k2, k3, k4⟩
      · rcases hk' with ⟨k1', k2', k3', k4'⟩ | ⟨m', hm', k1', k2', k3', k4'⟩
        · omega
        · have := chain_bounds g3 (hnn p) (mem_sends.2 ⟨hm', k1'⟩)
          omega
      · rcases hk' with ⟨k1', k2', k3', k4'⟩ | ⟨m', hm', k1', k2', k3', k4'⟩
        · omega
        · have hb : m.both = m'.both := by
            rw [Bool.eq_iff_iff, (h.mv m hm).2.2.2, (h.mv m' hm').2.2.2, k1, k1']
          rw [hb] at k2
          have := chain_order g3 g1 (hnn p) (mem_sends.2 ⟨hm, k1⟩) (mem_sends.2 ⟨hm', k1'⟩) (by omega)
          omega
  · intro s s0 s1 hu
    obtain ⟨p, o, p0, p1, e, o0, o1, b1, b2, b3⟩ := hbnd s hu
    have := vrt_mono hf p0 p1 (Int.le_refl _)
    exact ⟨by omega, b3⟩
  · have hp := q5 f.procsndbas (Int.le_refl _) (by omega)
    have b := mul_add_bounds (cs := cm + 1) (p := f.procsndbas) (a := cm) (P := f.procglbnbr) (by omega) (by omega) hcm (by omega)
    refine ⟨f.procsndbas * (cm + 1) + cm, b.1, b.2, ?_⟩
    refine Classical.byContradiction fun hu => ?_
    obtain ⟨p, o, p0, p1, e, o0, o1, hk⟩ := ht.kinds hf h hcm hme hu
    obtain ⟨z1, z2⟩ := mul_add_inj e hcm (by omega) o0 o1
    subst z1
    rcases hk with ⟨k1, k2, k3, k4⟩ | ⟨m, hm, k1, k2, k3, k4⟩
    · exact hp k1
    · have hi := h.idx hf hm
      have hb : m.both = false := by
        rw [Bool.eq_false_iff]
        intro hh
        have := ((h.mv m hm).2.2.2).1 hh
        rw [k1] at this
        exact hp this
      rw [hb] at k2
      simp at k2
      omega

end

end Scotch.Fold
