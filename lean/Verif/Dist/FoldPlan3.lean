import Verif.Dist.FoldPlan2

set_option autoImplicit false
set_option linter.unusedSimpArgs false

namespace Scotch.Fold

section
variable {f : FoldIn} {T : Int → Int × Int} {cm a0 x : Int}

theorem recvs_snd {L : List Move} (h : ∀ m ∈ L, f.Rcv m.rcv) {p : Int} (hp : ¬ f.Rcv p) : recvs L p = [] := by
  rw [List.eq_nil_iff_forall_not_mem]
  intro m hm
  obtain ⟨h1, h2⟩ := mem_recvs.1 hm
  exact hp (h2 ▸ h m h1)

/-- Amount that bounds the number of turns of the main loop. -/
def mu (c : Ctl) : Nat := (c.sortsndnnd + 1 - c.sortsndbas).toNat + (c.sortrcvnnd + 1 - c.sortrcvnum).toNat

theorem plan_go (hf : f.Ok) (hT : Srt f T) (ha0 : f.procsndbas ≤ a0) (hpos : ∀ k, a0 ≤ k → k < f.procsndnnd → 0 < (T k).1) (hcm : 4 ≤ cm)
    {c : Ctl} (h : CI f T cm a0 c) {n : Int} {both : Bool} {c' : Ctl} (hp : PickOk f T cm a0 c (.go x n both c')) :
    Holds (do
      let cap ← capacity cm c'
      let r ← raise both cap.1 cap.2 n c'.vertglbdlt
      let snd ← c'.tab.rd x
      let adj := (← f.procvrttab.rd snd.2) + (← f.proccnttab.rd snd.2) - r.2.1
      let s ← loopM (giveStep f cm snd.2 both) (f.procglbnbr.toNat + 2)
        ⟨{ c' with vertglbdlt := r.1 }, r.2.1, r.2.2, adj, 0, 0, 0⟩
      tail s) (fun c'' => CI f T cm a0 c'' ∧ mu c'' < mu c) := by
  obtain ⟨q1, q2, q3, q4, q5, q6⟩ := hf.ranges
  obtain ⟨p1, p2, p3, p4, p5, p6, p7, p8, p9, p10, p11, p12⟩ := hp
  have hlo := p2.lo
  have hhi := p2.hi
  have hx0 := p3.x0
  have hx1 := p3.x1
  have hi1 := p2.i1
  have hj1 := p2.j1
  have hv1 := hf.vlo
  have hv2 := hf.vhi
  have hc1 := hf.clo
  have hc2 := hf.chi
  obtain ⟨u1, u2⟩ := h.cur p1
  have hrng := hT.rng x hx0 hx1
  have hj2 := h.cb.j1
  have hg0 := h.cb.gd
  have hmu : ∀ g c'', Frame { c' with vertglbdlt := g } c'' → mu c'' < mu c := by
    rintro g c'' ⟨g1, g2, g3, g4, g5⟩
    dsimp only at g1 g2 g4 g5
    unfold mu
    rw [g1, g2]
    rcases p12 with ⟨_, e1, e2, e3, e4, _⟩ | ⟨_, e1, e2, e3, _⟩ <;> omega
  rw [Holds_bind]
  refine (capacity_holds hf p2).mono ?_
  rintro ⟨cn, rnb⟩ ⟨hcn, hrnb⟩
  dsimp only at hcn hrnb ⊢
  rw [Holds_bind]
  replace hcn : 0 ≤ cn ∧ cn ≤ cm ∧ (0 < cn → cn ≤ c'.sortrcvnnd + 1 - c'.sortrcvnum) ∧ (cn = 0 → c'.sortrcvnnd + 1 - c'.sortrcvnum ≤ 0) := by
    rw [Int.max_def, Int.min_def] at hcn
    split at hcn <;> split at hcn <;> omega
  obtain ⟨n1, n2, n3, n4⟩ := hcn
  have hb0 : both = false → 0 < cn := by
    intro hb
    rcases p12 with ⟨_, e1, e2, e3, e4, _⟩ | ⟨e0, _⟩
    · omega
    · rw [hb] at e0; cases e0
  have hlow : both = true → - (cn * n) ≤ rnb := by
    intro hb
    rcases p12 with ⟨e0, _⟩ | ⟨_, e1, e2, e3, e4, e5⟩
    · rw [hb] at e0; cases e0
    · have : sumI c'.sortrcvnum (c'.sortrcvnum + cn) (fun _ => - n) ≤ rnb := by
        rw [hrnb]
        refine sumI_mono ?_
        intro k k0 k1
        unfold cap
        rw [p10, p6]
        by_cases e : k = c.sortrcvnum
        · subst e
          rcases u2 with u | u
          · have := hT.rasc c.sortrcvnum x (by omega) (by omega) (by omega)
            omega
          · omega
        · have e6 := h.cb.same k (by omega) (by omega) (by omega)
          have := hT.rasc k x (by omega) (by omega) (by omega)
          rw [e6]
          omega
      rw [sumI_const (by omega)] at this
      have e6 : (c'.sortrcvnum + cn - c'.sortrcvnum) * - n = - (cn * n) := by
        rw [show c'.sortrcvnum + cn - c'.sortrcvnum = cn by omega, Int.mul_neg]
      omega
  refine (raise_holds (gd := c'.vertglbdlt) (by omega) p5 hb0 hlow).mono ?_
  rintro ⟨g, snb, rd⟩ ⟨r1, r2, r3, r4, r5, r6, r7, r8⟩
  dsimp only at r1 r2 r3 r4 r5 r6 r7 r8 ⊢
  have hxe : c'.tab.get x = T x := by
    rcases p12 with ⟨e0, e1, e2, e3, e4, e5⟩ | ⟨_, _, _, _, _, e5⟩
    · have := q5 x (by have := h.cb.a1; omega) (by have := h.cb.b1; omega)
      unfold FoldIn.Rcv at this
      exact p2.same x hx0 hx1 (by omega)
    · rw [p6]; exact e5
  rw [Arr.rd_ok _ (by omega) (by omega), ok_bind, hxe, Arr.rd_ok _ (by omega) (by omega), ok_bind, Arr.rd_ok _ (by omega) (by omega), ok_bind]
  show Holds (do
      let s ← loopM (giveStep f cm (T x).2 both) (f.procglbnbr.toNat + 2)
        ⟨{ c' with vertglbdlt := g }, snb, rd, f.vrt (T x).2 + f.cnt (T x).2 - snb, 0, 0, 0⟩
      tail s) (fun c'' => CI f T cm a0 c'' ∧ mu c'' < mu c)
  by_cases hz : cn = 0
  · have hbt : both = true := by
      cases hb : both with
      | true => rfl
      | false => have := hb0 hb; omega
    rcases p12 with ⟨e0, _⟩ | ⟨_, e1, e2, e3, e4, e5⟩
    · rw [hbt] at e0; cases e0
    have hrz : rnb = 0 := by rw [hrnb, hz, sumI_empty (by omega)]
    have e := r8 hz hrz
    simp only [Prod.mk.injEq] at e
    obtain ⟨z1, z2, z3⟩ := e
    have z4 : g = (T x).1 := by omega
    have hgd := h.cb.gd
    have hix : c'.sortrcvnum = x := by omega
    subst z2 z3 hbt
    rw [z4, Int.sub_zero]
    have hcom0 := h.com0
    have hcomn := h.comn
    have hxi : x = c.sortrcvnum := by omega
    have hc0 : c'.commrcvnum = 0 := by
      rw [p8]
      refine Classical.byContradiction fun hh => ?_
      have := hcomn (by omega)
      rw [← hxi, e5] at this
      omega
    refine (self_holds hf hT p2 hcm (by omega) (by omega) (by omega) hix ?_ hxe (by omega) hc0 ha0 (f.procglbnbr.toNat + 1)).mono ?_
    · unfold Cur at u1 ⊢
      rw [p7, p9, p8, ← hxi]
      rw [← hxi, e5] at u1
      exact u1
    · rintro c'' ⟨w1, w2⟩
      exact ⟨w1, hmu _ c'' w2⟩
  · have hII : II f T cm a0 x both (f.vrt (T x).2 + f.cnt (T x).2 - snb) snb c'.sortrcvnum (c'.sortrcvnum + cn)
        ⟨{ c' with vertglbdlt := g }, snb, rd, f.vrt (T x).2 + f.cnt (T x).2 - snb, 0, 0, 0⟩ := by
      have hnil : sends c'.moves (T x).2 = [] ∧ recvs c'.moves (T x).2 = [] := by
        rw [p9]
        rcases p12 with ⟨e0, e1, e2, e3, e4, e5⟩ | ⟨_, e1, e2, e3, e4, e5⟩
        · refine ⟨h.cb.s1 x (by omega) (by omega), recvs_snd (f := f) (fun m hm => (h.cb.mv m hm).2.2.1) ?_⟩
          rw [hT.rcv x hx0 hx1]
          exact q5 x (by have := h.cb.a1; omega) (by have := h.cb.b1; omega)
        · exact h.cb.r4 x (by omega) (by omega)
      have hgd := p2.gd
      refine { cb := p2.raise (by omega), cur := ?_, w1 := ?_, com1 := ?_, com2 := ?_, xb := ⟨hx0, hx1, p3.xs, p3.xr, p3.xb⟩, sx := ?_, snb0 := r2, rd0 := r5, rd1 := r6, iw := by dsimp only; omega, wj := by dsimp only; omega, wc := by omega, le := by dsimp only; omega, cap := ?_ }
      · unfold Cur at u1 ⊢
        dsimp only
        rw [p6, p7, p8, p9]
        exact u1
      · dsimp only
        rw [p6, p7]
        exact u2
      · dsimp only
        rw [p8]
        exact h.com1
      · have e : used f { c' with vertglbdlt := g } = used f c' := rfl
        rw [e, p4]
        dsimp only
        rw [p8]
        have := h.com2
        omega
      · refine ⟨?_, ?_, ?_, ?_, ?_, hnil.2⟩ <;> dsimp only <;> rw [hnil.1]
        · trivial
        · trivial
        · rw [tot_nil]; omega
        · rw [tot_nil]; omega
        · rfl
      · dsimp only
        have e : sumI c'.sortrcvnum (c'.sortrcvnum + cn) (cap { c' with vertglbdlt := g }) = rnb + cn * (g - c'.vertglbdlt) := by
          rw [sumI_congr (g := fun k => cap c' k + (g - c'.vertglbdlt)) (fun k _ _ => by unfold cap; dsimp only; omega), sumI_add_dist, ← hrnb, sumI_const (by omega)]
          rw [show c'.sortrcvnum + cn - c'.sortrcvnum = cn by omega]
        rw [e]
        exact r7
    rw [Holds_bind]
    refine (give_holds hf hT ha0 hpos hcm hII).mono ?_
    rintro s ⟨s1, s2⟩
    have hclose := s1.close hf hT (fun hb => ?_) (fun hb => ?_)
    · refine (tail_holds hf ha0 hcm s1 hclose).mono ?_
      rintro c'' ⟨w1, w2⟩
      have w3 := s2.trans w2
      exact ⟨w1, hmu _ c'' w3⟩
    · have := r4 hb
      rcases p12 with ⟨e0, e1, e2, e3, e4, e5⟩ | ⟨e0, _⟩
      · have := hT.sval x (by have := h.cb.a1; omega) (by have := h.cb.b1; omega)
        omega
      · rw [hb] at e0; cases e0
    · refine ⟨rfl, ?_⟩
      have hgd := h.cb.gd
      rcases p12 with ⟨e0, _⟩ | ⟨_, e1, e2, e3, e4, e5⟩
      · rw [hb] at e0; cases e0
      · omega

end

end Scotch.Fold
