import Verif.HOrder.LemmasCp7
import Verif.HOrder.LemmasSi
import Verif.Bipart.LemmasGpGrow

/-! # Ordering of compressed graphs -/

set_option autoImplicit false
set_option linter.unusedSimpArgs false

namespace Scotch.HOrder
open Graph Cblk
open Coarsen (IsMask)

variable {h hc : Hgraph} {φ ρ π idx : Int → Int} {K : Int} {vsiz : Arr Int}

/-- First position of the vertices of a class. -/
def cpS (h : Hgraph) (φ π : Int → Int) (i : Int) : Int := sumI 0 i (fun j => csize h φ (π j))

/-- Number of vertices of a class, before some vertex. -/
def cpCnt (h : Hgraph) (φ : Int → Int) (v c : Int) : Int := sumI h.s.baseval v (fun u => if φ u = c then 1 else 0)

/-- Position of a vertex. -/
def cpP (h : Hgraph) (φ π idx : Int → Int) (u : Int) : Int := cpS h φ π (idx (φ u)) + cpCnt h φ u (φ u)

/-- Classes, in the order of the compressed ordering. -/
structure Perm (K : Int) (π idx : Int → Int) : Prop where
  range : ∀ i, 0 ≤ i → i < K - 1 → 1 ≤ π i ∧ π i < K
  inj : ∀ i j, 0 ≤ i → i < K - 1 → 0 ≤ j → j < K - 1 → π i = π j → i = j
  idx : ∀ c, 1 ≤ c → c < K → 0 ≤ idx c ∧ idx c < K - 1 ∧ π (idx c) = c

theorem Perm.exists {π : Int → Int} (h1 : ∀ i, 0 ≤ i → i < K - 1 → 1 ≤ π i ∧ π i < K) (h2 : ∀ i j, 0 ≤ i → i < K - 1 → 0 ≤ j → j < K - 1 → π i = π j → i = j) : ∃ idx, Perm K π idx := by
  have hI : IsInj 0 1 (K - 1) π := ⟨fun i i1 i2 => by have := h1 i i1 (by omega); omega, fun i j i1 i2 j1 j2 he => h2 i j i1 (by omega) j1 (by omega) he⟩
  have : ∀ c, ∃ j, 1 ≤ c → c < K → 0 ≤ j ∧ j < K - 1 ∧ π j = c := by
    intro c
    by_cases hc : 1 ≤ c ∧ c < K
    · obtain ⟨i, i1, i2, i3⟩ := hI.surj c hc.1 (by omega)
      exact ⟨i, fun _ _ => ⟨i1, by omega, i3⟩⟩
    · exact ⟨0, fun a b => absurd ⟨a, b⟩ hc⟩
  obtain ⟨idx, hidx⟩ := Classical.skolem.1 this
  exact ⟨idx, h1, h2, hidx⟩

theorem Perm.idx_of (Q : Perm K π idx) {i : Int} (i1 : 0 ≤ i) (i2 : i < K - 1) : idx (π i) = i := by
  obtain ⟨r1, r2⟩ := Q.range i i1 i2
  obtain ⟨a, b, c⟩ := Q.idx (π i) r1 r2
  exact Q.inj _ _ a b i1 i2 c

theorem cpS_succ {i : Int} (h1 : 0 ≤ i) : cpS h φ π (i + 1) = cpS h φ π i + csize h φ (π i) := by
  unfold cpS; rw [sumI_succ h1]

theorem cpS_lt (C : Cx h φ ρ K) (Q : Perm K π idx) {i : Int} (h1 : 0 ≤ i) (h2 : i < K - 1) : cpS h φ π i < cpS h φ π (i + 1) := by
  obtain ⟨r1, r2⟩ := Q.range i h1 h2
  have := C.csize_pos r1 (by have := C.K_le; omega)
  rw [cpS_succ h1]
  omega

open Classical in
theorem cpS_all (C : Cx h φ ρ K) (Q : Perm K π idx) : cpS h φ π (K - 1) = h.vnohnbr := by
  have hp := C.cls.pos
  unfold cpS
  rw [sumI_enum π (csize h φ) 1 K 0 (K - 1) (by omega) Q.inj Q.range]
  have := C.csize_sum
  have := C.H.nnd
  have e' : sumI 1 K (csize h φ) = h.vnohnbr := by omega
  rw [← e']
  apply sumI_congr
  intro c c1 c2
  obtain ⟨a, b, d⟩ := Q.idx c c1 c2
  rw [if_pos ⟨idx c, a, b, d⟩]

theorem cpCnt_lt {u v c : Int} (h1 : h.s.baseval ≤ u) (h2 : u < v) (he : φ u = c) : cpCnt h φ u c + 1 ≤ cpCnt h φ v c := by
  unfold cpCnt
  rw [sumI_split (lo := h.s.baseval) (mid := u + 1) (hi := v) (by omega) (by omega), sumI_succ h1, if_pos he]
  have := sumI_nonneg (lo := u + 1) (hi := v) (f := fun u => if φ u = c then (1 : Int) else 0) (fun i _ _ => by split <;> omega)
  omega

theorem cpCnt_nonneg (v c : Int) : 0 ≤ cpCnt h φ v c := sumI_nonneg (fun i _ _ => by split <;> omega)

theorem cpP_in (C : Cx h φ ρ K) (Q : Perm K π idx) {u : Int} (u1 : h.s.baseval ≤ u) (u2 : u < h.vnohnnd) : cpS h φ π (idx (φ u)) ≤ cpP h φ π idx u ∧ cpP h φ π idx u < cpS h φ π (idx (φ u) + 1) := by
  obtain ⟨n1, n2⟩ := C.cls.num u u1 u2
  obtain ⟨a, b, d⟩ := Q.idx _ n1 n2
  have h1 := cpCnt_nonneg (h := h) (φ := φ) u (φ u)
  have h2 := cpCnt_lt (h := h) (φ := φ) u1 u2 rfl
  have h3 : cpCnt h φ h.vnohnnd (φ u) = csize h φ (φ u) := (C.low_sum n2 (fun _ => 1)).symm
  rw [cpS_succ a, d]
  unfold cpP
  omega

theorem cpS_mono (C : Cx h φ ρ K) (Q : Perm K π idx) {a b : Int} (h1 : 0 ≤ a) (h2 : a ≤ b) (h3 : b ≤ K - 1) : cpS h φ π a + (b - a) ≤ cpS h φ π b := mono_le (S := cpS h φ π) (n := K - 1) (fun _ i1 i2 => cpS_lt C Q i1 i2) h1 h2 h3

/-- A position is in one class only. -/
theorem cpS_uniq (C : Cx h φ ρ K) (Q : Perm K π idx) {a b i : Int} (a1 : 0 ≤ a) (a2 : a < K - 1) (b1 : 0 ≤ b) (b2 : b < K - 1) (h1 : cpS h φ π a ≤ i) (h2 : i < cpS h φ π (a + 1)) (h3 : cpS h φ π b ≤ i) (h4 : i < cpS h φ π (b + 1)) : a = b := by
  rcases Int.lt_trichotomy a b with hl | hl | hl
  · have := cpS_mono C Q (a := a + 1) (b := b) (by omega) (by omega) (by omega); omega
  · exact hl
  · have := cpS_mono C Q (a := b + 1) (b := a) (by omega) (by omega) (by omega); omega

theorem cpP_isInj (C : Cx h φ ρ K) (Q : Perm K π idx) : IsInj h.s.baseval 0 h.vnohnbr (cpP h φ π idx) := by
  have hn := C.H.nnd
  have hall := cpS_all C Q
  constructor
  · intro u u1 u2
    obtain ⟨p1, p2⟩ := cpP_in C Q u1 (by omega)
    obtain ⟨n1, n2⟩ := C.cls.num u u1 (by omega)
    obtain ⟨a, b, d⟩ := Q.idx _ n1 n2
    have h1 := cpS_mono C Q (a := 0) (b := idx (φ u)) (by omega) a (by omega)
    have h2 := cpS_mono C Q (a := idx (φ u) + 1) (b := K - 1) (by omega) (by omega) (by omega)
    have h3 : cpS h φ π 0 = 0 := sumI_empty (Int.le_refl _) _
    omega
  · intro u w u1 u2 w1 w2 he
    obtain ⟨p1, p2⟩ := cpP_in C Q u1 (by omega)
    obtain ⟨q1, q2⟩ := cpP_in C Q w1 (by omega)
    obtain ⟨n1, n2⟩ := C.cls.num u u1 (by omega)
    obtain ⟨m1, m2⟩ := C.cls.num w w1 (by omega)
    obtain ⟨a, b, d⟩ := Q.idx _ n1 n2
    obtain ⟨a', b', d'⟩ := Q.idx _ m1 m2
    have hi := cpS_uniq C Q a b a' b' p1 p2 (by omega) (by omega)
    have hφ : φ u = φ w := by rw [← d, ← d', hi]
    have hcnt : cpCnt h φ u (φ u) = cpCnt h φ w (φ u) := by
      unfold cpP at he
      rw [← hφ] at he
      omega
    rcases Int.lt_trichotomy u w with hl | hl | hl
    · have := cpCnt_lt (h := h) (φ := φ) u1 hl rfl; omega
    · exact hl
    · have := cpCnt_lt (h := h) (φ := φ) w1 hl hφ.symm; omega

theorem cpPeri_holds (C : Cx h φ ρ K) (B : Built h φ ρ K hc vsiz) (Q : Perm K π idx) {coar cperi peri : Arr Int} (A : CoarOk h φ coar) (c1 : cperi.lo ≤ 0) (c2 : K - 1 ≤ cperi.hi) (hcp : ∀ i, 0 ≤ i → i < K - 1 → cperi.get i = π i)
    (p1 : peri.lo ≤ 0) (p2 : h.vnohnbr ≤ peri.hi) :
    Holds (cpPeri h hc coar vsiz cperi peri) (fun p => (p.lo = peri.lo ∧ p.hi = peri.hi) ∧ (∀ u, h.s.baseval ≤ u → u < h.vnohnnd → p.get (cpP h φ π idx u) = onum h.s u) ∧ ∀ x, (x < 0 ∨ h.vnohnbr ≤ x) → p.get x = peri.get x) := by
  have hp := C.cls.pos
  have hn := C.H.nnd
  have hso := C.H.some
  have hK := C.K_le
  have hJ := cpP_isInj C Q
  unfold cpPeri
  rw [B.base, B.nohnnd, Holds_bind]
  refine Holds_forUp (fun i s => s.1.lo = 1 ∧ s.1.hi = cnnd h K + 1 + 1 ∧ s.2 = cpS h φ π (i - 1) ∧ ∀ j, 0 ≤ j → j < i - 1 → s.1.get (π j) = cpS h φ π j) hp ?_ ?_ ?_
  · exact ⟨B.vlo, B.vhi, (sumI_empty (by omega) _).symm, fun j j1 j2 => by omega⟩
  · rintro i ⟨t, n⟩ i1 i2 ⟨a1, a2, a3, a4⟩
    dsimp only at a1 a2 a3 a4 ⊢
    obtain ⟨r1, r2⟩ := Q.range (i - 1) (by omega) (by omega)
    rw [Arr.rd_ok _ (by omega) (by omega), ok_bind, hcp _ (by omega) (by omega), Arr.wr_ok _ _ (by omega) (by omega), ok_bind, Arr.rd_ok _ (by rw [B.zlo]; omega) (by rw [B.zhi]; omega), ok_bind, Holds_pure,
      B.siz _ r1 (by omega)]
    refine ⟨a1, a2, ?_, ?_⟩
    · dsimp only
      have := cpS_succ (h := h) (φ := φ) (π := π) (i := i - 1) (by omega)
      rw [show i + 1 - 1 = i - 1 + 1 by omega]
      omega
    · intro j j1 j2
      dsimp only
      by_cases hj : j = i - 1
      · rw [hj, Arr.set_get_same, a3]
      · rw [Arr.set_get_ne _ _ (fun he => hj (Q.inj _ _ j1 (by omega) (by omega) (by omega) he))]
        exact a4 j j1 (by omega)
  rintro ⟨vpos, n⟩ ⟨a1, a2, a3, a4⟩
  dsimp only at a1 a2 a3 a4 ⊢
  rw [Holds_bind]
  refine Holds_forUp (fun v s => (s.1.lo = 1 ∧ s.1.hi = cnnd h K + 1 + 1) ∧ (s.2.lo = peri.lo ∧ s.2.hi = peri.hi) ∧ (∀ c, 1 ≤ c → c < K → s.1.get c = cpS h φ π (idx c) + cpCnt h φ v c) ∧
    (∀ u, h.s.baseval ≤ u → u < v → s.2.get (cpP h φ π idx u) = onum h.s u) ∧ ∀ x, (x < 0 ∨ h.vnohnbr ≤ x) → s.2.get x = peri.get x) (by omega) ?_ ?_ ?_
  · refine ⟨⟨a1, a2⟩, ⟨rfl, rfl⟩, ?_, fun u u1 u2 => by omega, fun _ _ => rfl⟩
    intro c k1 k2
    obtain ⟨q1, q2, q3⟩ := Q.idx c k1 k2
    have := a4 (idx c) q1 (by omega)
    rw [q3] at this
    have e : cpCnt h φ h.s.baseval c = 0 := sumI_empty (Int.le_refl _) _
    dsimp only
    omega
  · rintro v ⟨t, p⟩ v1 v2 ⟨⟨i1, i2⟩, ⟨i3, i4⟩, i5, i6, i7⟩
    dsimp only at i1 i2 i3 i4 i5 i6 i7 ⊢
    have hv := C.H.vtx v1 v2
    obtain ⟨n1, n2⟩ := C.cls.num v v1 v2
    have hP : t.get (φ v) = cpP h φ π idx v := i5 _ n1 n2
    have hr := hJ.range v v1 (by omega)
    rw [A.rd hv, ok_bind, Arr.rd_ok _ (by omega) (by omega), ok_bind, rdOnum_eq C.H.alloc.whole hv, ok_bind, hP, Arr.wr_ok _ _ (by omega) (by omega), ok_bind, Arr.wr_ok _ _ (by omega) (by omega), ok_bind, Holds_pure]
    refine ⟨⟨i1, i2⟩, ⟨i3, i4⟩, ?_, ?_, ?_⟩
    · intro c k1 k2
      have e : cpCnt h φ (v + 1) c = cpCnt h φ v c + if φ v = c then 1 else 0 := by unfold cpCnt; rw [sumI_succ v1]
      dsimp only
      by_cases hcv : c = φ v
      · rw [hcv, Arr.set_get_same]
        rw [hcv, if_pos rfl] at e
        unfold cpP
        omega
      · rw [Arr.set_get_ne _ _ hcv, i5 c k1 k2, e, if_neg (fun x => hcv x.symm)]
        omega
    · intro u u1 u2
      dsimp only
      by_cases hu : u = v
      · rw [hu, Arr.set_get_same]
      · rw [Arr.set_get_ne _ _ (fun he => hu (hJ.inj u v u1 (by omega) v1 (by omega) he))]
        exact i6 u u1 (by omega)
    · intro x hx
      dsimp only
      rw [Arr.set_get_ne _ _ (by omega)]
      exact i7 x hx
  · rintro ⟨t, p⟩ ⟨⟨i1, i2⟩, i3, i5, i6, i7⟩
    rw [Holds_pure]
    exact ⟨i3, i6, i7⟩

theorem Placed.of_tick {h : Hgraph} {ordenum : Int} {o o1 o' : Ord} {c : Cblk} {π : Int → Int} (P : Placed h ordenum o1 o' c π) (e1 : o1.peritab = o.peritab) (e2 : o1.treenbr = o.treenbr) (e3 : o1.cblknbr = o.cblknbr) : Placed h ordenum o o' c π := by
  obtain ⟨a1, a2, a3, a4, a5, a6, a7, a8, a9, a10, a11⟩ := P
  rw [e1] at a1 a2
  rw [e2] at a9
  rw [e3] at a10
  exact ⟨a1, a2, a3, a4, a5, a6, a7, a8, a9, a10, a11⟩

theorem orderCp_orders (env : Env) {p : CpPara} (hg : 1 ≤ p.gint) {cls : Graph → Prop} (hcl : Packs cls) {tot sure : Bool} {cpr unc : Method} (h1 : Orders cls tot sure true cpr) (h2 : Orders cls tot sure true unc) :
    Orders cls tot sure true (orderCp env p cpr unc) := by
  intro h ordenum o hcon hal hb hn ho1 ho2 ht hcls
  have h0 := ht rfl
  subst h0
  have H : CpH h := ⟨hcon, hal, hb, hn⟩
  have hunc : ∀ t : Nat, Meets tot (unc h 0 { o with tick := t } (leafBlock h.vnohnbr)) (fun r => (sure = true → r.1 = 0) ∧ (r.1 = 0 → ∃ π, Placed h 0 o r.2.1 r.2.2 π)) := by
    intro t
    refine Meets.mono (h2 h 0 { o with tick := t } hcon hal hb hn ho1 ho2 (fun _ => rfl) hcls) ?_
    rintro r ⟨q1, q2⟩
    refine ⟨q1, fun hr => ?_⟩
    obtain ⟨π, P⟩ := q2 hr
    exact ⟨π, P.of_tick rfl rfl rfl⟩
  unfold orderCp
  rw [Meets_bind]
  refine (Meets.of_holds (cpHashMask_holds h.s.degrmax)).mono ?_
  rintro msk ⟨m1, m2, m3⟩
  dsimp only
  rw [Meets_bind]
  refine (Meets.of_holds (cpSums_holds H hg _)).mono ?_
  rintro a ⟨s1, s2⟩
  rw [Meets_ite]
  refine ⟨fun _ => hunc _, fun _ => ?_⟩
  rw [Meets_bind]
  refine (Meets.of_holds (cpVerts_holds H m3 m1 s1 s2 _ _)).mono ?_
  intro b I
  rw [Meets_ite]
  refine ⟨fun _ => hunc _, fun _ => ?_⟩
  rw [Meets_bind]
  have hdm := H.w.degrmax.1
  refine (Meets.of_holds (cpBuild_holds H _ m3 (by omega) I)).mono ?_
  rintro ⟨hc, coar, vsiz⟩ ⟨φ, ρ, C, A, B⟩
  dsimp only at A B ⊢
  generalize b.nbr = K at C A B
  have hnn := H.nnd
  have hK2 : 2 ≤ K := by
    have := C.cls.num h.s.baseval (Int.le_refl _) (by omega)
    omega
  rw [Meets_bind]
  have hb' : 0 ≤ hc.s.baseval := by rw [B.base]; decide
  have hn' : 1 ≤ hc.vnohnbr := by rw [B.nohnbr]; omega
  refine Meets.mono (h1 hc 0 ⟨⟨0, hc.vnohnbr, env.junk (o.tick + 8)⟩, 1, 1, o.tick + 9⟩ (B.hcons C) (B.halloc C) hb' hn' (Int.le_refl _) (by show 0 + hc.vnohnbr ≤ hc.vnohnbr; omega) (fun _ => rfl)
    (hcl _ _ hcls (B.packed C))) ?_
  rintro ⟨r, oc, cc⟩ ⟨r1, r2⟩
  dsimp only at r1 r2 ⊢
  by_cases hr : r = 0
  · rw [if_neg (fun hx => hx hr)]
    obtain ⟨π, P⟩ := r2 hr
    have hcn := B.nohnbr
    obtain ⟨idx, Q⟩ := Perm.exists (K := K) (π := π) (fun i i1 i2 => (B.uvtx _).1 (P.vertex i i1 (by omega))) (fun i j i1 i2 j1 j2 => P.inj i j i1 (by omega) j1 (by omega))
    have hperi : ∀ i, 0 ≤ i → i < K - 1 → oc.peritab.get i = π i := by
      intro i i1 i2
      have := P.peri i i1 (by omega)
      rw [Int.zero_add] at this
      rw [this]
      unfold onum
      rw [B.vnum]
    have hlo : oc.peritab.lo = 0 := P.bnd.1
    have hhi : oc.peritab.hi = K - 1 := P.bnd.2.trans hcn
    have hKn := C.K_le
    have hS := fun i i1 i2 => cpS_lt C Q (i := i) i1 i2
    have hrd : ∀ i, 0 ≤ i → i < K - 1 → ∃ q, oc.peritab.rd i = .ok q ∧ vsiz.rd q = .ok (cpS h φ π (i + 1) - cpS h φ π i) := by
      intro i i1 i2
      obtain ⟨q1, q2⟩ := Q.range i i1 i2
      refine ⟨π i, by rw [Arr.rd_ok _ (by omega) (by omega), hperi i i1 i2], ?_⟩
      rw [Arr.rd_ok _ (by rw [B.zlo]; omega) (by rw [B.zhi]; omega), B.siz _ q1 (by omega), cpS_succ i1]
      congr 1
      omega
    have hsz := P.size
    rw [Meets_bind]
    refine (Meets.of_holds (cpTree_holds hS hrd cc 0 P.coherent P.alloc (Int.le_refl _) (by omega))).mono ?_
    intro c' T
    rw [Meets_bind]
    refine (Meets.of_holds (cpPeri_holds C B Q A (by omega) (by omega) hperi (by omega) (by omega))).mono ?_
    rintro peri ⟨e1, e2, e3⟩
    rw [Meets_pure]
    refine ⟨fun _ => rfl, fun _ => ?_⟩
    have hJ := cpP_isInj C Q
    have : ∀ i, ∃ u, 0 ≤ i → i < h.vnohnbr → h.s.baseval ≤ u ∧ u < h.vnohnnd ∧ cpP h φ π idx u = i := by
      intro i
      by_cases hi : 0 ≤ i ∧ i < h.vnohnbr
      · obtain ⟨u, u1, u2, u3⟩ := hJ.surj i hi.1 (by omega)
        exact ⟨u, fun _ _ => ⟨u1, by omega, u3⟩⟩
      · exact ⟨0, fun a b => absurd ⟨a, b⟩ hi⟩
    obtain ⟨π', hπ⟩ := Classical.skolem.1 this
    have hS0 : cpS h φ π 0 = 0 := sumI_empty (Int.le_refl _) _
    have hall := cpS_all C Q
    refine ⟨π', ⟨e1, ?_, ?_, ?_, ?_, ?_, T.coherent, T.alloc, ?_, ?_, ?_⟩⟩
    · intro i hi
      exact e3 i (by omega)
    · intro i i1 i2
      obtain ⟨u1, u2, _⟩ := hπ i i1 i2
      exact ⟨u1, u2⟩
    · intro i j i1 i2 j1 j2 he
      have a1 := (hπ i i1 i2).2.2
      have a2 := (hπ j j1 j2).2.2
      rw [he, a2] at a1
      exact a1.symm
    · intro i i1 i2
      obtain ⟨u1, u2, u3⟩ := hπ i i1 i2
      rw [Int.zero_add]
      have := e2 _ u1 u2
      rw [u3] at this
      exact this
    · rw [T.size, Int.zero_add, hsz, hcn, hS0, hall]
      omega
    · have e4 : oc.treenbr = 1 + cc.nodes - 1 := P.tree
      show o.treenbr + oc.treenbr - 1 = _
      rw [T.nodes]; omega
    · have e4 : oc.cblknbr = 1 + cc.width - 1 := P.cblk
      show o.cblknbr + oc.cblknbr - 1 = _
      rw [T.width]; omega
    · have hsep := T.separates _ (fun i j => Adj h.s (π' i) (π' j)) ?_ P.separates
      · rw [hS0] at hsep
        exact hsep
      · intro i j a b a1 a2 b1 b2 i1 i2 j1 j2 hab hadj
        have k1 := cpS_mono C Q (Int.le_refl 0) a1 (by omega)
        have k2 := cpS_mono C Q (a := a + 1) (b := K - 1) (by omega) (by omega) (Int.le_refl _)
        have k3 := cpS_mono C Q (Int.le_refl 0) b1 (by omega)
        have k4 := cpS_mono C Q (a := b + 1) (b := K - 1) (by omega) (by omega) (Int.le_refl _)
        obtain ⟨u1, u2, u3⟩ := hπ i (by omega) (by omega)
        obtain ⟨w1, w2, w3⟩ := hπ j (by omega) (by omega)
        have hid : ∀ x l e, h.s.baseval ≤ x → x < h.vnohnnd → cpP h φ π idx x = l → 0 ≤ e → e < K - 1 → cpS h φ π e ≤ l → l < cpS h φ π (e + 1) → π e = φ x := by
          intro x l e x1 x2 x3 l1 l2 l3 l4
          obtain ⟨p1, p2⟩ := cpP_in C Q x1 x2
          obtain ⟨n1, n2⟩ := C.cls.num x x1 x2
          obtain ⟨q1, q2, q3⟩ := Q.idx _ n1 n2
          rw [cpS_uniq C Q l1 l2 q1 q2 l3 l4 (by omega) (by omega)]
          exact q3
        have f1 := hid _ _ _ u1 u2 u3 a1 a2 i1 i2
        have f2 := hid _ _ _ w1 w2 w3 b1 b2 j1 j2
        obtain ⟨q1, q2⟩ := Q.range a a1 a2
        rw [B.adj C ((B.vtx _).2 ⟨q1, by omega⟩)]
        exact ⟨fun he => hab (Q.inj a b a1 a2 b1 b2 he), π' i, π' j, H.vtx u1 u2, f1.symm, f2.symm, hadj⟩
  · rw [if_pos hr, Meets_pure]
    refine ⟨fun hs => absurd (r1 hs) hr, fun hx => ?_⟩
    have hx : (1 : Int) = 0 := hx
    omega

theorem compresses (C : Cx h φ ρ K) (B : Built h φ ρ K hc vsiz) : Compresses h hc φ := by
  have hK := C.K_le
  refine ⟨?_, ?_, ?_, ?_, ?_⟩
  · intro v hv
    refine ⟨(B.vtx _).2 (C.num hv), ?_⟩
    rw [B.nohnnd]
    exact C.lt_iff hv
  · intro c hv
    obtain ⟨c1, c2⟩ := (B.vtx c).1 hv
    by_cases hk : c < K
    · obtain ⟨r1, r2, r3, _⟩ := C.cls.rep c c1 hk
      exact ⟨ρ c, C.H.vtx r1 r2, r3⟩
    · obtain ⟨r1, _, r3⟩ := C.halo_vtx (by omega) c2
      exact ⟨_, r1, r3⟩
  · intro u v hu hv he
    by_cases hn : u = v
    · exact Or.inl hn
    right
    by_cases hk : φ u < K
    · have u2 := (C.lt_iff hu).1 hk
      have v2 := (C.lt_iff hv).1 (by omega)
      have ht := C.cls.twin u v hu.1 u2 hv.1 v2 he
      have huv : Adj h.s u v := by
        rcases (ht v).2 (Or.inl rfl) with hx | hx
        · exact absurd hx.symm hn
        · exact hx
      refine ⟨u2, v2, huv, ?_⟩
      intro x x1 x2
      constructor
      · intro hx
        rcases (ht x).1 (Or.inr hx) with hy | hy
        · exact absurd hy x2
        · exact hy
      · intro hx
        rcases (ht x).2 (Or.inr hx) with hy | hy
        · exact absurd hy x1
        · exact hy
    · have e1 := C.halo_eq (c := φ u) (by omega) hu rfl
      have e2 := C.halo_eq (c := φ u) (by omega) hv he.symm
      omega
  · intro c d hv
    rw [B.adj C hv]
    constructor
    · rintro ⟨a, u, w, b1, b2, b3, b4⟩
      exact ⟨a, u, w, b1, b4, b2, b3⟩
    · rintro ⟨a, u, w, b1, b4, b2, b3⟩
      exact ⟨a, u, w, b1, b2, b3, b4⟩
  · intro c hv
    obtain ⟨c1, c2⟩ := (B.vtx c).1 hv
    exact B.veloE c1 c2

end Scotch.HOrder
