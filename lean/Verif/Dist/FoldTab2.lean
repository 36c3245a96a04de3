import Verif.Dist.FoldTab

set_option autoImplicit false
set_option linter.unusedSimpArgs false

namespace Scotch.Fold

section
variable {f : FoldIn} {me cm : Int} {L : List Move}

theorem rcv_slot (hf : f.Ok) {q o : Int} (hq : f.Rcv q) (o0 : 0 ≤ o) (o1 : o < cm + 1) :
    f.procrcvbas * (cm + 1) ≤ q * (cm + 1) + o ∧ q * (cm + 1) + o < f.procrcvbas * (cm + 1) + (cm + 1) * f.procfldnbr := by
  obtain ⟨q1, q2, q3, _⟩ := hf.ranges
  unfold FoldIn.Rcv at hq
  have := mul_add_bounds (cs := cm + 1) (p := q - f.procrcvbas) (P := f.procfldnbr) (by omega) (by omega) o0 o1
  rw [Int.sub_mul] at this
  omega

theorem tablesInit_holds (hf : f.Ok) (hcm : 0 ≤ cm) (j1 j2 : Int → Int) : Holds (tablesInit f me cm j1 j2) (TI f me cm []) := by
  obtain ⟨q1, q2, q3, q4, q5, q6⟩ := hf.ranges
  have hv1 := hf.vlo
  have hv2 := hf.vhi
  have hc1 := hf.clo
  have hc2 := hf.chi
  have typ0 : ∀ b : Bool, (b = true ↔ f.Rcv me) → (if b then (2 : Int) else 1) = if f.Rcv me then (if sends [] me = [] then 2 else 3) else 1 := by
    intro b hb
    cases b with
    | true => rw [if_pos rfl, if_pos (hb.1 rfl)]; rfl
    | false => rw [if_neg (by simp), if_neg (fun hh => by have := hb.2 hh; cases this)]
  unfold tablesInit
  dsimp only
  rw [Holds_ite]
  refine ⟨fun hr => ?_, fun hr => ?_⟩
  · simp only [hr, if_true]
    let A : Int → Tables → Prop := fun p t =>
      t.commdattab = Arr.const 0 cm (0, -1) ∧ t.commvrttab = ⟨0, cm, j1⟩ ∧ t.commtypval = 2 ∧
      t.vertadjtab.lo = 0 ∧ t.vertadjtab.hi = (cm + 1) * f.procglbnbr ∧ t.vertdlttab.lo = 0 ∧ t.vertdlttab.hi = (cm + 1) * f.procglbnbr ∧
      t.slotsndtax.lo = f.procrcvbas * (cm + 1) ∧ t.slotsndtax.hi = f.procrcvbas * (cm + 1) + (cm + 1) * f.procfldnbr ∧
      (∀ q, f.Rcv q → q < p → t.vertadjtab.get (q * (cm + 1)) = f.vrt q ∧ t.vertdlttab.get (q * (cm + 1)) = f.cnt q ∧ t.slotsndtax.get (q * (cm + 1)) = q * (cm + 1)) ∧
      ∀ s, (∀ q, f.Rcv q → s ≠ q * (cm + 1)) → t.vertadjtab.get s = -1 ∧ t.slotsndtax.get s = -1
    refine Holds_forUp A (by omega) ?_ ?_ ?_
    · refine ⟨rfl, rfl, rfl, rfl, rfl, rfl, rfl, rfl, rfl, fun q hq h2 => ?_, fun s _ => ⟨rfl, rfl⟩⟩
      unfold FoldIn.Rcv at hq
      omega
    · rintro p t p0 p1 ⟨b1, b2, b3, b4, b5, b6, b7, b8, b9, b10, b11⟩
      have hp : f.Rcv p := ⟨p0, p1⟩
      have k1 := mul_add_bounds (cs := cm + 1) (p := p) (a := 0) (P := f.procglbnbr) (by omega) (by omega) (Int.le_refl _) (by omega)
      have k2 := rcv_slot (cm := cm) hf hp (Int.le_refl 0) (by omega)
      rw [Int.add_zero] at k1 k2
      rw [Arr.rd_ok _ (by omega) (by omega), ok_bind, Arr.wr_ok _ _ (by omega) (by omega), ok_bind, Arr.rd_ok _ (by omega) (by omega), ok_bind,
        Arr.wr_ok _ _ (by omega) (by omega), ok_bind, Arr.wr_ok _ _ (by omega) (by omega), ok_bind, Holds_pure]
      refine ⟨b1, b2, b3, b4, b5, b6, b7, b8, b9, ?_, ?_⟩
      · intro q hq h2
        dsimp only
        by_cases e : q = p
        · subst e
          rw [Arr.set_get_same, Arr.set_get_same, Arr.set_get_same]
          exact ⟨rfl, rfl, rfl⟩
        · have ne : q * (cm + 1) ≠ p * (cm + 1) := by
            intro hh
            exact e (Int.eq_of_mul_eq_mul_right (by omega) hh)
          rw [Arr.set_get_ne _ _ ne, Arr.set_get_ne _ _ ne, Arr.set_get_ne _ _ ne]
          exact b10 q hq (by omega)
      · intro s hs
        dsimp only
        rw [Arr.set_get_ne _ _ (hs p hp), Arr.set_get_ne _ _ (hs p hp)]
        exact b11 s hs
    · rintro t ⟨b1, b2, b3, b4, b5, b6, b7, b8, b9, b10, b11⟩
      have hme : f.Rcv me := isRcv_iff.1 hr
      refine { clo := by rw [b1]; rfl, chi := by rw [b1]; rfl, vlo := by rw [b2], vhi := by rw [b2], csnd := fun m hm => (by cases hm), crcv := fun _ m hm => (by cases hm), cnon := fun k _ _ _ _ => by rw [b1]; rfl, typ := ?_, rcv := fun _ => ⟨b4, b5, b6, b7, b8, b9, ?_, fun m hm => (by cases hm), fun s hs _ => (b11 s hs).1, fun s hs _ => (b11 s hs).2⟩ }
      · rw [b3, if_pos hme]; rfl
      · intro q hq
        have := b10 q hq (by unfold FoldIn.Rcv at hq; omega)
        refine ⟨this.1, ?_, this.2.2⟩
        rw [this.2.1]
        simp [sends, tot]
  · rw [Holds_pure]
    have hme : ¬ f.Rcv me := fun hh => hr (isRcv_iff.2 hh)
    exact { clo := rfl, chi := rfl, vlo := rfl, vhi := rfl, csnd := fun m hm => (by cases hm), crcv := fun hh => absurd hh hme, cnon := fun k _ _ _ _ => rfl, typ := typ0 _ isRcv_iff, rcv := fun hh => absurd hh hme }

theorem mem_snoc {l : List Move} {m m' : Move} : m' ∈ l ++ [m] ↔ m' ∈ l ∨ m' = m := by simp

/-- Table of the messages of the process: what `Tables.comm` leaves. -/
theorem comm_eq {t : Tables} {i : Int} (h1 : t.commdattab.lo = 0) (h2 : t.commdattab.hi = cm) (h3 : t.commvrttab.lo = 0) (h4 : t.commvrttab.hi = cm)
    (i0 : 0 ≤ i) (i1 : i < cm) (n p a : Int) :
    t.comm i n p a = .ok { t with commdattab := t.commdattab.set i (n, p), commvrttab := t.commvrttab.set i a } := by
  unfold Tables.comm
  rw [Arr.wr_ok _ _ (by omega) (by omega), ok_bind, Arr.wr_ok _ _ (by omega) (by omega), ok_bind]
  rfl

/-- On a receiver, messages sent and received are not mixed. -/
theorem FoldIn.Good.mix (h : f.Good cm L) {q : Int} (hq : f.Rcv q) {m m' : Move} (hm : m ∈ L) (hm' : m' ∈ L) (e : m.snd = q) (e' : m'.rcv = q) :
    m = m' ∧ m.num = 0 ∧ m.ridx = 0 ∧ m.sidx = 0 ∧ m.rcv = q := by
  have a : m ∈ sends L q := mem_sends.2 ⟨hm, e⟩
  have b : m' ∈ recvs L q := mem_recvs.2 ⟨hm', e'⟩
  rcases h.keep q hq with ⟨a1, a2, a3⟩ | ⟨a1, a2, a3, a4, a5⟩
  · rw [a1] at a; cases a
  · rcases a5 with a5 | ⟨m0, b1, b2, b3, b4⟩
    · rw [a5] at b; cases b
    · rw [b2] at a a2
      rw [b1] at b
      simp only [List.mem_singleton] at a b
      subst a b
      exact ⟨rfl, b3, b4, a2.1, e'⟩

theorem emit_snd (hf : f.Ok) (h : f.Good cm L) (hme : ¬ f.Rcv me) {l1 l2 : List Move} {m : Move} (e : L = l1 ++ m :: l2) {t : Tables} (ht : TI f me cm l1 t) :
    Holds (t.emit f me cm m) (TI f me cm (l1 ++ [m])) := by
  have hm : m ∈ L := by rw [e]; simp
  have hl1 : ∀ m' ∈ l1, m' ∈ L := fun m' h' => by rw [e]; simp [h']
  have hi := h.idx hf hm
  unfold Tables.emit
  rw [if_neg (fun hh => hme (isRcv_iff.1 hh)), Holds_ite]
  refine ⟨fun hs => ?_, fun hs => ?_⟩
  · rw [comm_eq ht.clo ht.chi ht.vlo ht.vhi hi.1 hi.2.1, Holds_ok]
    refine { clo := ht.clo, chi := ht.chi, vlo := ht.vlo, vhi := ht.vhi, csnd := ?_, crcv := fun hh => absurd hh hme, cnon := ?_, typ := ?_, rcv := fun hh => absurd hh hme }
    · intro m' h' hs'
      dsimp only
      rcases mem_snoc.1 h' with h' | rfl
      · have := (h.ranks_lt hf e h').1 (by omega)
        rw [Arr.set_get_ne _ _ (by omega), Arr.set_get_ne _ _ (by omega)]
        exact ht.csnd m' h' hs'
      · rw [Arr.set_get_same, Arr.set_get_same]
        exact ⟨rfl, rfl⟩
    · intro k k0 k1 hk _
      dsimp only
      rw [Arr.set_get_ne _ _ (fun hh => hk m (by simp) hs hh.symm)]
      exact ht.cnon k k0 k1 (fun m' h' => hk m' (by simp [h'])) (fun hh => absurd hh hme)
    · dsimp only
      rw [ht.typ, if_neg hme, if_neg hme]
  · rw [Holds_pure]
    refine { clo := ht.clo, chi := ht.chi, vlo := ht.vlo, vhi := ht.vhi, csnd := ?_, crcv := fun hh => absurd hh hme, cnon := ?_, typ := ?_, rcv := fun hh => absurd hh hme }
    · intro m' h' hs'
      rcases mem_snoc.1 h' with h' | rfl
      · exact ht.csnd m' h' hs'
      · exact absurd hs' hs
    · intro k k0 k1 hk _
      exact ht.cnon k k0 k1 (fun m' h' => hk m' (by simp [h'])) (fun hh => absurd hh hme)
    · rw [ht.typ, if_neg hme, if_neg hme]

end

end Scotch.Fold
