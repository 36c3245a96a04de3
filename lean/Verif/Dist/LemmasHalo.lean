import Verif.Dist.LemmasNumber

/-! # Distributed graphs: halo exchange -/

set_option autoImplicit false
set_option linter.unusedSimpArgs false

namespace Scotch.Dist
open Local

/-! ## Lists -/

theorem decode_append' (u : Int) (l m : List Int) : decode u (l ++ m) = decode u l ++ decode (endPos u l) m := by
  induction l generalizing u with
  | nil => rfl
  | cons y l ih =>
    simp only [List.cons_append, decode, endPos]
    split
    · exact ih _
    · rw [ih]; rfl

theorem pick_append' (q : Int) (l m : List (Int × Int)) : pick q (l ++ m) = pick q l ++ pick q m := by
  unfold pick
  rw [List.filter_append, List.map_append]

/-- Ascending lists with the same items are equal. -/
theorem asc_ext {l m : List Int} (hl : l.Pairwise (· < ·)) (hm : m.Pairwise (· < ·)) (h : ∀ x, x ∈ l ↔ x ∈ m) : l = m := by
  induction l generalizing m with
  | nil =>
    cases m with
    | nil => rfl
    | cons y m => exact absurd ((h y).2 (by simp)) (by simp)
  | cons x l ih =>
    cases m with
    | nil => exact absurd ((h x).1 (by simp)) (by simp)
    | cons y m =>
      rw [List.pairwise_cons] at hl hm
      have e : x = y := by
        rcases List.mem_cons.1 ((h x).1 (by simp)) with h1 | h1
        · exact h1
        · rcases List.mem_cons.1 ((h y).2 (by simp)) with h2 | h2
          · exact h2.symm
          · have := hl.1 y h2; have := hm.1 x h1; omega
      subst e
      rw [ih hl.2 hm.2]
      intro z
      constructor
      · intro hz
        rcases List.mem_cons.1 ((h z).1 (List.mem_cons_of_mem _ hz)) with h1 | h1
        · have := hl.1 z hz; omega
        · exact h1
      · intro hz
        rcases List.mem_cons.1 ((h z).2 (List.mem_cons_of_mem _ hz)) with h1 | h1
        · have := hm.1 z hz; omega
        · exact h1

/-- Items of a list less than `a`. -/
def below (W : List Int) (a : Int) : List Int := W.filter fun w => decide (w < a)

theorem below_split {W : List Int} (h : W.Pairwise (· < ·)) {a b : Int} (hab : a ≤ b) :
    below W b = below W a ++ W.filter fun w => decide (a ≤ w ∧ w < b) := by
  induction W with
  | nil => rfl
  | cons x W ih =>
    rw [List.pairwise_cons] at h
    unfold below at ih ⊢
    by_cases h1 : x < a
    · rw [List.filter_cons_of_pos (by simp; omega), List.filter_cons_of_pos (by simpa using h1), List.filter_cons_of_neg (by simp; omega), ih h.2]
      rfl
    · have h0 : W.filter (fun w => decide (w < a)) = [] := by
        rw [List.filter_eq_nil_iff]
        intro w hw
        have := h.1 w hw
        simp
        omega
      rw [h0, List.nil_append] at ih
      rw [List.filter_cons_of_neg (p := fun w => decide (w < a)) (by simpa using h1), h0, List.nil_append]
      by_cases h2 : x < b
      · rw [List.filter_cons_of_pos (by simpa using h2), List.filter_cons_of_pos (by simp; omega), ih h.2]
      · rw [List.filter_cons_of_neg (by simpa using h2), List.filter_cons_of_neg (by simp; omega), ih h.2]

theorem below_all {W : List Int} {a : Int} (h : ∀ w, w ∈ W → w < a) : below W a = W := by
  unfold below
  rw [List.filter_eq_self]
  intro w hw
  simpa using h w hw

theorem below_none {W : List Int} {a : Int} (h : ∀ w, w ∈ W → a ≤ w) : below W a = [] := by
  unfold below
  rw [List.filter_eq_nil_iff]
  intro w hw
  have := h w hw
  simp
  omega

section
variable {L : Local} {G : Ghost} {W : List Int}

theorem Numbered.rng (hL : L.Ok) (h : Numbered L G W) {w : Int} (hw : w ∈ W) : L.procvrttab.get 0 ≤ w ∧ w < L.procvrttab.get L.procglbnbr := by
  obtain ⟨u, e, e1, e2, e3, rfl, _⟩ := (h.mem w).1 hw
  exact hL.dest u e e1 e2 e3

/-- Number of ghost vertices that belong to the processes before `q`. -/
theorem Numbered.before (hL : L.Ok) (h : Numbered L G W) {q : Int} (q1 : 0 ≤ q) (q2 : q ≤ L.procglbnbr) :
    sumI 0 q G.procrcvtab.get = (below W (L.procvrttab.get q)).length := by
  obtain ⟨n, rfl⟩ : ∃ n : Nat, q = n := ⟨q.toNat, by omega⟩
  clear q1
  induction n with
  | zero =>
    rw [sumI_empty (by omega), below_none]
    · rfl
    · intro w hw
      exact (h.rng hL hw).1
  | succ n ih =>
    have e : ((n + 1 : Nat) : Int) = (n : Int) + 1 := by omega
    rw [e] at q2 ⊢
    rw [sumI_succ (by omega), ih (by omega), below_split h.asc (hL.mono n (n + 1) (by omega) (by omega) (by omega)), List.length_append, h.rcv n (by omega) (by omega)]
    unfold part
    omega

/-- Ghost vertices of process `q` are in the block of `q`. -/
theorem Numbered.block (hL : L.Ok) (h : Numbered L G W) {q : Int} (q1 : 0 ≤ q) (q2 : q < L.procglbnbr) :
    (below W (L.procvrttab.get q)).length + (part L.procvrttab W q).length ≤ W.length ∧
    ∀ k (hk : k < (part L.procvrttab W q).length) (hk' : (below W (L.procvrttab.get q)).length + k < W.length),
      W[(below W (L.procvrttab.get q)).length + k] = (part L.procvrttab W q)[k] := by
  have h1 := below_split h.asc (hL.mono q (q + 1) (by omega) (by omega) (by omega))
  have h2 := below_split h.asc (hL.mono (q + 1) L.procglbnbr (by omega) (by omega) (by omega))
  rw [below_all (fun w hw => (h.rng hL hw).2), h1, List.append_assoc] at h2
  have hp : W.filter (fun w => decide (L.procvrttab.get q ≤ w ∧ w < L.procvrttab.get (q + 1))) = part L.procvrttab W q := rfl
  rw [hp] at h2
  generalize hR : W.filter (fun w => decide (L.procvrttab.get (q + 1) ≤ w ∧ w < L.procvrttab.get L.procglbnbr)) = R at h2
  generalize part L.procvrttab W q = B at h2 ⊢
  generalize below W (L.procvrttab.get q) = A at h2 ⊢
  subst h2
  refine ⟨by simp only [List.length_append]; omega, fun k hk hk' => ?_⟩
  rw [List.getElem_append_right (by omega), List.getElem_append_left (by omega)]
  congr 1
  omega

end

/-! ## Send arrays -/

theorem cumul_holds {P first : Int} {cnt : Arr Int} {junk : Int → Int} (hP : 0 < P) (h1 : cnt.lo ≤ 0) (h2 : P ≤ cnt.hi) :
    Holds (cumul P first cnt junk) (fun a => a.lo = 0 ∧ a.hi = P ∧ ∀ p, 0 ≤ p → p < P → a.get p = first + sumI 0 p cnt.get) := by
  unfold cumul
  simp only [Holds_bind, Holds_wr]
  refine ⟨by omega, ?_⟩
  refine Holds_forUp (I := fun p a => a.lo = 0 ∧ a.hi = P ∧ ∀ q, 0 ≤ q → q < p → a.get q = first + sumI 0 q cnt.get) (by omega) ?_ ?_ (fun s hs => hs)
  · refine ⟨rfl, rfl, fun q q1 q2 => ?_⟩
    have : q = 0 := by omega
    subst this
    rw [Arr.set_get_same, sumI_empty (by omega)]
    omega
  · rintro p a p1 p2 ⟨l, u, hq⟩
    simp only [Holds_bind, Holds_rd, Holds_wr, l, u]
    refine ⟨by omega, by omega, by omega, l, u, fun q q1 q2 => ?_⟩
    rw [Arr.set_get]
    by_cases hqp : q = p
    · rw [if_pos hqp, hqp, hq (p - 1) (by omega) (by omega)]
      have := sumI_succ (lo := 0) (i := p - 1) (by omega) cnt.get
      rw [show p - 1 + 1 = p by omega] at this
      omega
    · rw [if_neg hqp]
      exact hq q q1 (by omega)

section
variable {α : Type}

theorem seg_split_at (f : Int → Int) {i n : Int} (h1 : 0 ≤ i) (h2 : i < n) : seg f 0 n = seg f 0 i ++ [f i] ++ seg f (i + 1) n := by
  rw [seg_append f (lo := 0) (mid := i + 1) (by omega) (by omega), seg_succ f h1]

theorem haloFill_holds {L : Local} {G : Ghost} {W : List Int} (hL : L.Ok) (h : Numbered L G W) {attr : Arr α} {jsnd : Int → α} {jdsp : Int → Int}
    (ha : attr.lo ≤ 0 ∧ L.g.vertnbr ≤ attr.hi) :
    Holds (haloFill L.procglbnbr G attr jsnd jdsp) (fun a => a.lo = 0 ∧ a.hi = G.procsndnbr ∧ ∀ q, 0 ≤ q → q < L.procglbnbr → ∀ k (hk : k < (L.sends q L.g.vertnnd).length),
      a.get (sumI 0 q G.procsndtab.get + k) = attr.get ((L.sends q L.g.vertnnd)[k] - L.g.baseval)) := by
  have hpos := hL.pos
  have hnnd := hL.nnd
  obtain ⟨s1, s2, s3, s4, s5⟩ := h.sid
  have hsnd0 : ∀ q, 0 ≤ q → q < L.procglbnbr → 0 ≤ G.procsndtab.get q := fun q q1 q2 => by rw [h.snd q q1 q2]; omega
  -- blocks are disjoint
  have hblk : ∀ p q, 0 ≤ p → p < q → q ≤ L.procglbnbr → sumI 0 p G.procsndtab.get + G.procsndtab.get p ≤ sumI 0 q G.procsndtab.get := by
    intro p q p1 p2 p3
    rw [sumI_split (lo := 0) (mid := p + 1) (hi := q) (by omega) (by omega), sumI_succ p1]
    have : 0 ≤ sumI (p + 1) q G.procsndtab.get := sumI_nonneg fun i i1 i2 => hsnd0 i (by omega) (by omega)
    omega
  have hoff0 : ∀ q, 0 ≤ q → q ≤ L.procglbnbr → 0 ≤ sumI 0 q G.procsndtab.get := fun q q1 q2 => sumI_nonneg fun i i1 i2 => hsnd0 i (by omega) (by omega)
  unfold haloFill
  rw [Holds_bind]
  refine (cumul_holds hpos (by rw [h.dlo.1]) (by rw [h.dlo.2])).mono ?_
  rintro dsp ⟨d1, d2, d3⟩
  rw [Holds_bind]
  refine Holds_forUp (I := fun i (s : Fill α) => s.pos = endPos L.g.baseval (seg G.procsidtab.get 0 i) - L.g.baseval ∧ s.attrsndtab.lo = 0 ∧ s.attrsndtab.hi = G.procsndnbr ∧
      s.attrdsptab.lo = 0 ∧ s.attrdsptab.hi = L.procglbnbr ∧ ∀ q, 0 ≤ q → q < L.procglbnbr →
        s.attrdsptab.get q = sumI 0 q G.procsndtab.get + (pick q (decode L.g.baseval (seg G.procsidtab.get 0 i))).length ∧
        ∀ k (hk : k < (pick q (decode L.g.baseval (seg G.procsidtab.get 0 i))).length), s.attrsndtab.get (sumI 0 q G.procsndtab.get + k) =
          attr.get ((pick q (decode L.g.baseval (seg G.procsidtab.get 0 i)))[k] - L.g.baseval)) s2 ?_ ?_ ?_
  · refine ⟨?_, rfl, rfl, d1, d2, fun q q1 q2 => ?_⟩
    · dsimp only
      rw [seg_empty _ (by omega)]
      show (0 : Int) = L.g.baseval - L.g.baseval
      omega
    · dsimp only
      have e : seg G.procsidtab.get 0 0 = [] := seg_empty _ (by omega)
      simp only [e]
      refine ⟨?_, fun k hk => ?_⟩
      · rw [d3 q q1 q2]
        show _ = _ + ((0 : Nat) : Int)
        omega
      · exact absurd hk (by show ¬ k < 0; omega)
  · rintro i s i1 i2 ⟨p1, p2, p3, p4, p5, hq⟩
    rw [Holds_bind, Holds_rd]
    refine ⟨⟨by omega, by omega⟩, ?_⟩
    have hsg := seg_succ G.procsidtab.get i1
    have hall := seg_split_at G.procsidtab.get i1 i2
    generalize hx : G.procsidtab.get i = x at hsg hall ⊢
    rw [Holds_ite]
    refine ⟨fun hneg => ?_, fun hneg => ?_⟩
    · rw [Holds_pure]
      refine ⟨?_, p2, p3, p4, p5, ?_⟩
      · dsimp only
        rw [hsg, endPos_append, if_pos hneg]
        omega
      · simp only [hsg, decode_append, if_pos hneg]
        exact hq
    · have hdec : decode L.g.baseval (seg G.procsidtab.get 0 (i + 1)) = decode L.g.baseval (seg G.procsidtab.get 0 i) ++ [(endPos L.g.baseval (seg G.procsidtab.get 0 i), x)] := by
        rw [hsg, decode_append, if_neg hneg]
      have hdall : decode L.g.baseval (seg G.procsidtab.get 0 G.procsidnbr) =
          decode L.g.baseval (seg G.procsidtab.get 0 (i + 1)) ++ decode (endPos L.g.baseval (seg G.procsidtab.get 0 (i + 1))) (seg G.procsidtab.get (i + 1) G.procsidnbr) := by
        rw [hall, ← hsg, decode_append']
      have hmem : (endPos L.g.baseval (seg G.procsidtab.get 0 i), x) ∈ decode L.g.baseval (seg G.procsidtab.get 0 G.procsidnbr) := by
        rw [hdall, hdec]
        simp
      obtain ⟨x1, x2⟩ := s4 _ hmem
      dsimp only at x1 x2
      have hpk := s5 x x1 x2
      have hpre : ∃ R, L.sends x L.g.vertnnd = pick x (decode L.g.baseval (seg G.procsidtab.get 0 i)) ++ [endPos L.g.baseval (seg G.procsidtab.get 0 i)] ++ R := by
        rw [hdall, hdec, pick_append', pick_append, if_pos rfl] at hpk
        exact ⟨_, hpk.symm⟩
      obtain ⟨R, hR⟩ := hpre
      have hlen : ((pick x (decode L.g.baseval (seg G.procsidtab.get 0 i))).length : Int) < G.procsndtab.get x := by
        rw [h.snd x x1 x2, hR]
        simp only [List.length_append, List.length_cons, List.length_nil]
        omega
      have hu : endPos L.g.baseval (seg G.procsidtab.get 0 i) ∈ L.sends x L.g.vertnnd := by rw [hR]; simp
      have hub := (mem_sends.1 hu).1
      obtain ⟨g1, g2⟩ := hq x x1 x2
      have hb := hblk x L.procglbnbr x1 x2 (by omega)
      have ho := hoff0 x x1 (by omega)
      have hsum := h.sum
      simp only [Holds_bind, Holds_rd, Holds_wr, Holds_pure, p2, p3, p4, p5]
      refine ⟨⟨x1, x2⟩, ⟨x1, x2⟩, by omega, by omega, ?_⟩
      refine ⟨?_, p2, p3, p4, p5, ?_⟩
      · rw [hsg, endPos_append, if_neg hneg]
        exact p1
      · intro q q1 q2
        obtain ⟨f1, f2⟩ := hq q q1 q2
        simp only [hdec, pick_append]
        by_cases hqx : x = q
        · subst hqx
          simp only [if_true]
          rw [Arr.set_get_same]
          refine ⟨by rw [List.length_append, f1]; simp only [List.length_singleton]; omega, fun k hk => ?_⟩
          rw [List.length_append, List.length_singleton] at hk
          rw [Arr.set_get]
          by_cases hkk : k = (pick x (decode L.g.baseval (seg G.procsidtab.get 0 i))).length
          · rw [if_pos (by omega), p1]
            subst hkk
            rw [List.getElem_append_right (Nat.le_refl _)]
            simp
          · rw [if_neg (by omega), List.getElem_append_left (by omega)]
            exact f2 k (by omega)
        · simp only [if_neg hqx, List.append_nil]
          rw [Arr.set_get_ne _ _ (fun e => hqx e.symm)]
          refine ⟨f1, fun k hk => ?_⟩
          rw [Arr.set_get_ne _ _ ?_]
          · exact f2 k hk
          · have hkl : ((pick q (decode L.g.baseval (seg G.procsidtab.get 0 i))).length : Int) ≤ G.procsndtab.get q := by
              rw [h.snd q q1 q2, ← s5 q q1 q2, hdall, hdec, pick_append', pick_append, if_neg hqx, List.append_nil, List.length_append]
              omega
            by_cases hlt : x < q
            · have := hblk x q x1 hlt (by omega)
              omega
            · have := hblk q x q1 (by omega) (by omega)
              omega
  · rintro s ⟨_, p2, p3, _, _, hq⟩
    rw [Holds_pure]
    refine ⟨p2, p3, fun q q1 q2 k hk => ?_⟩
    obtain ⟨_, f2⟩ := hq q q1 q2
    simp only [s5 q q1 q2] at f2
    exact f2 k hk

/-- What a message contains. -/
structure Posted (L : Local) (G : Ghost) (attr : Arr α) (m : Message α) : Prop where
  snd : m.procsndtab = G.procsndtab
  lo : m.senddsptab.lo = 0
  hi : m.senddsptab.hi = L.procglbnbr
  dsp : ∀ q, 0 ≤ q → q < L.procglbnbr → m.senddsptab.get q = sumI 0 q G.procsndtab.get
  alo : m.attrsndtab.lo = 0
  ahi : m.attrsndtab.hi = sumI 0 L.procglbnbr G.procsndtab.get
  val : ∀ q, 0 ≤ q → q < L.procglbnbr → ∀ k (hk : k < (L.sends q L.g.vertnnd).length),
    m.attrsndtab.get (sumI 0 q G.procsndtab.get + k) = attr.get ((L.sends q L.g.vertnnd)[k] - L.g.baseval)

theorem message_holds {L : Local} {G : Ghost} {W : List Int} (hL : L.Ok) (h : Numbered L G W) {attr : Arr α} {jsnd : Int → α} {jdsp : Int → Int}
    (ha : attr.lo ≤ 0 ∧ L.g.vertnbr ≤ attr.hi) : Holds (message L.procglbnbr G attr jsnd jdsp) (Posted L G attr) := by
  unfold message
  rw [Holds_bind]
  refine (haloFill_holds hL h ha).mono ?_
  rintro a ⟨a1, a2, a3⟩
  rw [Holds_bind]
  refine (cumul_holds hL.pos (by rw [h.dlo.1]) (by rw [h.dlo.2])).mono ?_
  rintro dsp ⟨d1, d2, d3⟩
  rw [Holds_pure]
  exact ⟨rfl, d1, d2, fun q q1 q2 => by rw [d3 q q1 q2]; omega, a1, by rw [a2, h.sum], a3⟩

end

end Scotch.Dist
