import Verif.Dist.FoldTab2

set_option autoImplicit false
set_option linter.unusedSimpArgs false

namespace Scotch.Fold

section
variable {f : FoldIn} {me cm : Int} {L : List Move}

/-- Conditional write. -/
def setIf {α : Type} (b : Prop) [Decidable b] (a : Arr α) (i : Int) (v : α) : Arr α := if b then a.set i v else a

theorem setIf_lo {α : Type} (b : Prop) [Decidable b] (a : Arr α) (i : Int) (v : α) : (setIf b a i v).lo = a.lo := by
  unfold setIf; split <;> rfl

theorem setIf_hi {α : Type} (b : Prop) [Decidable b] (a : Arr α) (i : Int) (v : α) : (setIf b a i v).hi = a.hi := by
  unfold setIf; split <;> rfl

theorem setIf_same {α : Type} {b : Prop} [Decidable b] (a : Arr α) (i : Int) (v : α) (h : b) : (setIf b a i v).get i = v := by
  unfold setIf; rw [if_pos h, Arr.set_get_same]

theorem setIf_ne {α : Type} {b : Prop} [Decidable b] (a : Arr α) {i k : Int} (v : α) (h : b → k ≠ i) : (setIf b a i v).get k = a.get k := by
  unfold setIf
  split
  · rename_i hb; rw [Arr.set_get_ne _ _ (h hb)]
  · rfl

theorem both_eq {t : Tables} {m : Move} (h1 : t.commdattab.lo = 0) (h2 : t.commdattab.hi = cm) (h3 : t.commvrttab.lo = 0) (h4 : t.commvrttab.hi = cm)
    (i0 : 0 ≤ m.sidx) (i1 : m.sidx < cm) (d1 : t.vertdlttab.lo ≤ m.snd * (cm + 1)) (d2 : m.snd * (cm + 1) < t.vertdlttab.hi) (hb : m.snd = me → m.both = true) :
    t.both me (cm + 1) m = .ok { t with
      commtypval := if m.snd = me then 3 else t.commtypval
      commdattab := setIf (m.snd = me) t.commdattab m.sidx (m.num, m.rcv)
      commvrttab := setIf (m.snd = me) t.commvrttab m.sidx m.adj
      vertdlttab := setIf (m.both = true) t.vertdlttab (m.snd * (cm + 1)) (t.vertdlttab.get (m.snd * (cm + 1)) - m.num) } := by
  unfold Tables.both setIf
  by_cases b1 : m.both = true
  · rw [if_pos b1, Arr.rd_ok _ d1 d2, ok_bind, Arr.wr_ok _ _ d1 d2, ok_bind]
    by_cases b2 : m.snd = me
    · rw [if_pos b2, comm_eq (cm := cm) (by exact h1) (by exact h2) (by exact h3) (by exact h4) i0 i1]
      simp only [b1, b2, if_true]
    · rw [if_neg b2]
      simp only [b1, b2, if_true, if_false]
      rfl
  · have b2 : ¬ m.snd = me := fun hh => b1 (hb hh)
    rw [if_neg b1]
    simp only [b1, b2, if_false]
    rfl

theorem emit_rcv (hf : f.Ok) (h : f.Good cm L) (hme : f.Rcv me) {l1 l2 : List Move} {m : Move} (e : L = l1 ++ m :: l2) {t : Tables} (ht : TI f me cm l1 t) :
    Holds (t.emit f me cm m) (TI f me cm (l1 ++ [m])) := by
  obtain ⟨q1, q2, q3, q4, q5, q6⟩ := hf.ranges
  have hm : m ∈ L := by rw [e]; simp
  have hl1 : ∀ m' ∈ l1, m' ∈ L := fun m' h' => by rw [e]; simp [h']
  have hi := h.idx hf hm
  obtain ⟨m1, m2, m3, m4⟩ := h.mv m hm
  obtain ⟨r1, r2, r3, r4, r5, r6, r7, r8, r9, r10⟩ := ht.rcv hme
  have hown := mul_add_bounds (cs := cm + 1) (p := m.snd) (a := 0) (P := f.procglbnbr) m2.1 m2.2 (Int.le_refl _) (by omega)
  rw [Int.add_zero] at hown
  have hoff := slotOf_off hf h hm
  have hsl := mul_add_bounds (cs := cm + 1) (p := m.snd) (P := f.procglbnbr) m2.1 m2.2 hoff.1 hoff.2
  rw [← slotOf_eq] at hsl
  have hrs := rcv_slot (cm := cm) (o := 1 + m.ridx) hf m3 (by omega) (by omega)
  have hno : ∀ m' ∈ l1, slotOf (cm + 1) m' ≠ slotOf (cm + 1) m := by
    intro m' h' he
    obtain ⟨a1, a2⟩ := slotOf_inj hf h (hl1 m' h') hm he
    have := (h.ranks_lt hf e h').1 a1
    omega
  have hno2 : ∀ m' ∈ l1, m'.rcv * (cm + 1) + (1 + m'.ridx) ≠ m.rcv * (cm + 1) + (1 + m.ridx) := by
    intro m' h' he
    have hi' := h.idx hf (hl1 m' h')
    obtain ⟨a1, a2⟩ := mul_add_inj he (by omega) (by omega) (by omega) (by omega)
    have := (h.ranks_lt hf e h').2 a1
    omega
  have hq2 : ∀ q, q * (cm + 1) ≠ m.rcv * (cm + 1) + (1 + m.ridx) := by
    intro q he
    rw [← Int.add_zero (q * (cm + 1))] at he
    obtain ⟨a1, a2⟩ := mul_add_inj he (by omega) (by omega) (by omega) (by omega)
    omega
  unfold Tables.emit
  rw [if_pos (isRcv_iff.2 hme)]
  dsimp only
  rw [both_eq (cm := cm) ht.clo ht.chi ht.vlo ht.vhi hi.1 hi.2.1 (by omega) (by omega) (fun hh => m4.2 (hh ▸ hme)), ok_bind, Holds_bind]
  have hstep : Holds (if m.rcv = me then ({ t with
      commtypval := if m.snd = me then 3 else t.commtypval
      commdattab := setIf (m.snd = me) t.commdattab m.sidx (m.num, m.rcv)
      commvrttab := setIf (m.snd = me) t.commvrttab m.sidx m.adj
      vertdlttab := setIf (m.both = true) t.vertdlttab (m.snd * (cm + 1)) (t.vertdlttab.get (m.snd * (cm + 1)) - m.num) } : Tables).comm m.ridx m.num m.snd m.adj else return { t with
      commtypval := if m.snd = me then 3 else t.commtypval
      commdattab := setIf (m.snd = me) t.commdattab m.sidx (m.num, m.rcv)
      commvrttab := setIf (m.snd = me) t.commvrttab m.sidx m.adj
      vertdlttab := setIf (m.both = true) t.vertdlttab (m.snd * (cm + 1)) (t.vertdlttab.get (m.snd * (cm + 1)) - m.num) })
      (fun r => r = { t with
        commtypval := if m.snd = me then 3 else t.commtypval
        commdattab := setIf (m.rcv = me) (setIf (m.snd = me) t.commdattab m.sidx (m.num, m.rcv)) m.ridx (m.num, m.snd)
        commvrttab := setIf (m.rcv = me) (setIf (m.snd = me) t.commvrttab m.sidx m.adj) m.ridx m.adj
        vertdlttab := setIf (m.both = true) t.vertdlttab (m.snd * (cm + 1)) (t.vertdlttab.get (m.snd * (cm + 1)) - m.num) }) := by
    rw [Holds_ite]
    refine ⟨fun b => ?_, fun b => ?_⟩
    · rw [comm_eq (cm := cm) (by dsimp only; rw [setIf_lo]; exact ht.clo) (by dsimp only; rw [setIf_hi]; exact ht.chi) (by dsimp only; rw [setIf_lo]; exact ht.vlo) (by dsimp only; rw [setIf_hi]; exact ht.vhi) hi.2.2.1 hi.2.2.2, Holds_ok]
      rw [setIf.eq_1 (m.rcv = me), setIf.eq_1 (m.rcv = me), if_pos b, if_pos b]
    · rw [Holds_pure, setIf.eq_1 (m.rcv = me), setIf.eq_1 (m.rcv = me), if_neg b, if_neg b]
  refine hstep.mono ?_
  rintro _ rfl
  dsimp only
  have es : (if m.both = true then (1 : Int) else 0) + m.snd * (cm + 1) + m.sidx = slotOf (cm + 1) m := rfl
  rw [es]
  rw [Int.add_assoc (m.rcv * (cm + 1)) 1 m.ridx]
  rw [Arr.wr_ok _ _ (by omega) (by omega), ok_bind, Arr.wr_ok _ _ (by rw [setIf_lo]; omega) (by rw [setIf_hi]; omega), ok_bind, Arr.wr_ok _ _ (by omega) (by omega), ok_bind, Holds_pure]
  refine { clo := ?_, chi := ?_, vlo := ?_, vhi := ?_, csnd := ?_, crcv := fun _ => ?_, cnon := ?_, typ := ?_, rcv := fun _ => ⟨r1, r2, ?_, ?_, r5, r6, ?_, ?_, ?_, ?_⟩ } <;> dsimp only
  · rw [setIf_lo, setIf_lo]; exact ht.clo
  · rw [setIf_hi, setIf_hi]; exact ht.chi
  · rw [setIf_lo, setIf_lo]; exact ht.vlo
  · rw [setIf_hi, setIf_hi]; exact ht.vhi
  · intro m' h' hs
    rcases mem_snoc.1 h' with h' | rfl
    · have n1 : m.rcv = me → m'.sidx ≠ m.ridx := by
        intro hh
        have hx := (h.mix hme (hl1 m' h') hm hs hh).1
        have := (h.ranks_lt hf e h').1 (by rw [hx])
        rw [hx] at this
        omega
      have n2 : m.snd = me → m'.sidx ≠ m.sidx := by
        intro hh
        have := (h.ranks_lt hf e h').1 (by omega)
        omega
      rw [setIf_ne _ _ n1, setIf_ne _ _ n2, setIf_ne _ _ n1, setIf_ne _ _ n2]
      exact ht.csnd m' h' hs
    · by_cases hr : m'.rcv = me
      · obtain ⟨-, x1, x2, x3, x4⟩ := h.mix hme hm hm hs hr
        rw [x3, ← x2, setIf_same _ _ _ hr, setIf_same _ _ _ hr, hr, hs]
        exact ⟨rfl, rfl⟩
      · rw [setIf_ne _ _ (fun hh => absurd hh hr), setIf_ne _ _ (fun hh => absurd hh hr), setIf_same _ _ _ hs, setIf_same _ _ _ hs]
        exact ⟨rfl, rfl⟩
  · intro m' h' hs
    rcases mem_snoc.1 h' with h' | rfl
    · have n1 : m.rcv = me → m'.ridx ≠ m.ridx := by
        intro hh
        have := (h.ranks_lt hf e h').2 (by omega)
        omega
      have n2 : m.snd = me → m'.ridx ≠ m.sidx := by
        intro hh
        have hx := (h.mix hme hm (hl1 m' h') hh hs).1
        have := (h.ranks_lt hf e h').1 (by rw [hx])
        rw [hx] at this
        omega
      rw [setIf_ne _ _ n1, setIf_ne _ _ n2, setIf_ne _ _ n1, setIf_ne _ _ n2]
      exact ht.crcv hme m' h' hs
    · rw [setIf_same _ _ _ hs, setIf_same _ _ _ hs]
      exact ⟨rfl, rfl⟩
  · intro k k0 k1 hk hk'
    rw [setIf_ne _ _ (fun hh => Ne.symm (hk' hme m (by simp) hh)), setIf_ne _ _ (fun hh => Ne.symm (hk m (by simp) hh))]
    exact ht.cnon k k0 k1 (fun m' h' => hk m' (by simp [h'])) (fun _ m' h' => hk' hme m' (by simp [h']))
  · rw [if_pos hme]
    by_cases hs : m.snd = me
    · rw [if_pos hs, sends_same _ hs, if_neg (by simp)]
    · rw [if_neg hs, sends_other _ hs, ht.typ, if_pos hme]
  · rw [Arr.set_lo, setIf_lo]; exact r3
  · rw [Arr.set_hi, setIf_hi]; exact r4
  · intro q hq
    have n1 := slotOf_ne_own hf h hm hq
    rw [Arr.set_get_ne _ _ (Ne.symm n1), Arr.set_get_ne _ _ (Ne.symm n1), Arr.set_get_ne _ _ (hq2 q)]
    obtain ⟨a1, a2, a3⟩ := r7 q hq
    refine ⟨a1, ?_, a3⟩
    by_cases hs : m.snd = q
    · subst hs
      rw [setIf_same _ _ _ (m4.2 hq), sends_same _ rfl, tot_snoc, a2]
      omega
    · rw [setIf_ne _ _ (fun _ hh => hs (Int.eq_of_mul_eq_mul_right (by omega) hh).symm), sends_other _ hs]
      exact a2
  · intro m' h'
    rcases mem_snoc.1 h' with h' | rfl
    · obtain ⟨a1, a2, a3⟩ := r8 m' h'
      rw [Arr.set_get_ne _ _ (hno m' h'), Arr.set_get_ne _ _ (hno m' h'), Arr.set_get_ne _ _ (hno2 m' h'), setIf_ne _ _ (fun hb => slotOf_ne_own hf h (hl1 m' h') (m4.1 hb))]
      exact ⟨a1, a2, a3⟩
    · rw [Arr.set_get_same, Arr.set_get_same, Arr.set_get_same]
      exact ⟨rfl, rfl, rfl⟩
  · intro s hs hs'
    rw [Arr.set_get_ne _ _ (Ne.symm (hs' m (by simp)))]
    exact r9 s hs (fun m' h' => hs' m' (by simp [h']))
  · intro s hs hs'
    rw [Arr.set_get_ne _ _ (Ne.symm (hs' m (by simp)))]
    exact r10 s hs (fun m' h' => hs' m' (by simp [h']))

theorem emits_holds (hf : f.Ok) (h : f.Good cm L) (l1 l2 : List Move) (e : L = l1 ++ l2) {t : Tables} (ht : TI f me cm l1 t) :
    Holds (Tables.emits f me cm l2 t) (TI f me cm L) := by
  induction l2 generalizing l1 t with
  | nil =>
    unfold Tables.emits
    rw [Holds_ok, e, List.append_nil]
    exact ht
  | cons m l2 ih =>
    unfold Tables.emits
    rw [Holds_bind]
    have : Holds (t.emit f me cm m) (TI f me cm (l1 ++ [m])) := by
      by_cases hme : f.Rcv me
      · exact emit_rcv hf h hme e ht
      · exact emit_snd hf h hme e ht
    exact this.mono (fun t' ht' => ih (l1 ++ [m]) (by rw [e]; simp) ht')

theorem foldTables_holds (hf : f.Ok) (hcm : 0 ≤ cm) (h : f.Good cm L) (j1 j2 : Int → Int) :
    Holds (foldTables f me (cm, L) j1 j2) (TI f me cm L) := by
  unfold foldTables
  rw [Holds_bind]
  exact (tablesInit_holds hf hcm j1 j2).mono (fun t ht => emits_holds hf h [] L rfl ht)

end

end Scotch.Fold
