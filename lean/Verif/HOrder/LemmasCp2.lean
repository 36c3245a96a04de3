import Verif.HOrder.LemmasCp1

/-! # Compressed graphs: classes of vertices -/

set_option autoImplicit false
set_option linter.unusedSimpArgs false

namespace Scotch.HOrder
open Graph
open Coarsen (land maskLoop IsMask land_mask)

variable {h : Hgraph}

/-- Vertices before `v` have been put in classes `φ`, below `K`; the first vertex of class `c` is `ρ c`. -/
structure Cls (h : Hgraph) (φ ρ : Int → Int) (v K : Int) : Prop where
  pos : 1 ≤ K
  num : ∀ u, h.s.baseval ≤ u → u < v → 1 ≤ φ u ∧ φ u < K
  rep : ∀ c, 1 ≤ c → c < K → h.s.baseval ≤ ρ c ∧ ρ c < v ∧ φ (ρ c) = c ∧ ∀ u, h.s.baseval ≤ u → u < ρ c → φ u < c
  twin : ∀ u w, h.s.baseval ≤ u → u < v → h.s.baseval ≤ w → w < v → φ u = φ w → Twin h.s u w

theorem Cls.congr {φ φ' ρ : Int → Int} {v K : Int} (C : Cls h φ ρ v K) (he : ∀ u, h.s.baseval ≤ u → u < v → φ' u = φ u) : Cls h φ' ρ v K := by
  refine ⟨C.pos, ?_, ?_, ?_⟩
  · intro u u1 u2; rw [he u u1 u2]; exact C.num u u1 u2
  · intro c c1 c2
    obtain ⟨a, b, d, f⟩ := C.rep c c1 c2
    refine ⟨a, b, by rw [he _ a b]; exact d, ?_⟩
    intro u u1 u2
    rw [he u u1 (by omega)]; exact f u u1 u2
  · intro u w u1 u2 w1 w2 hu
    rw [he u u1 u2, he w w1 w2] at hu
    exact C.twin u w u1 u2 w1 w2 hu

/-- A new class. -/
theorem Cls.new {φ ρ : Int → Int} {v K : Int} (C : Cls h φ ρ v K) (hv : h.s.baseval ≤ v) (φ' : Int → Int) (he : ∀ u, h.s.baseval ≤ u → u < v → φ' u = φ u) (hn : φ' v = K) : Cls h φ' (fun c => if c = K then v else ρ c) (v + 1) (K + 1) := by
  have C' := C.congr he
  have hp := C.pos
  refine ⟨by omega, ?_, ?_, ?_⟩
  · intro u u1 u2
    by_cases e : u = v
    · rw [e, hn]; omega
    · have := C'.num u u1 (by omega); omega
  · intro c c1 c2
    by_cases e : c = K
    · rw [if_pos e]
      refine ⟨hv, by omega, by omega, ?_⟩
      intro u u1 u2
      have := C'.num u u1 u2; omega
    · rw [if_neg e]
      obtain ⟨a, b, d, f⟩ := C'.rep c c1 (by omega)
      exact ⟨a, by omega, d, f⟩
  · intro u w u1 u2 w1 w2 hu
    by_cases e : u = v
    · by_cases e' : w = v
      · rw [e, e']; exact Twin.refl _ _
      · have := C'.num w w1 (by omega)
        rw [e] at hu; omega
    · by_cases e' : w = v
      · have := C'.num u u1 (by omega)
        rw [e'] at hu; omega
      · exact C'.twin u w u1 (by omega) w1 (by omega) hu

/-- A vertex is added to the class of vertex `m`. -/
theorem Cls.merge {φ ρ : Int → Int} {v K m : Int} (C : Cls h φ ρ v K) (φ' : Int → Int) (he : ∀ u, h.s.baseval ≤ u → u < v → φ' u = φ u) (m1 : h.s.baseval ≤ m) (m2 : m < v) (hn : φ' v = φ m)
    (ht : Twin h.s v m) : Cls h φ' ρ (v + 1) K := by
  have C' := C.congr he
  rw [← he m m1 m2] at hn
  refine ⟨C.pos, ?_, ?_, ?_⟩
  · intro u u1 u2
    by_cases e : u = v
    · rw [e, hn]; exact C'.num m m1 m2
    · exact C'.num u u1 (by omega)
  · intro c c1 c2
    obtain ⟨a, b, d, f⟩ := C'.rep c c1 c2
    exact ⟨a, by omega, d, f⟩
  · have key : ∀ u, h.s.baseval ≤ u → u < v → φ' u = φ' v → Twin h.s u v := fun u u1 u2 hu => (C'.twin u m u1 u2 m1 m2 (hu.trans hn)).trans ht.symm
    intro u w u1 u2 w1 w2 hu
    by_cases e : u = v
    · by_cases e' : w = v
      · rw [e, e']; exact Twin.refl _ _
      · rw [e] at hu ⊢; exact (key w w1 (by omega) hu.symm).symm
    · by_cases e' : w = v
      · rw [e'] at hu ⊢; exact key u u1 (by omega) hu
      · exact C'.twin u w u1 (by omega) w1 (by omega) hu

/-- Degree of a vertex. -/
def deg (g : Graph) (v : Int) : Int := g.vend v - g.vert v

/-- Invariant of the loop on vertices. -/
structure BInv (h : Hgraph) (msk v : Int) (s : CpB) : Prop where
  tlo : s.tab.lo = 0
  thi : s.tab.hi = msk + 1
  old : ∀ x, 0 ≤ x → x < msk + 1 → (s.tab.get x).vertnum < v
  mlo : s.mate.lo = 0
  mhi : s.mate.hi = h.s.degrmax
  clo : s.coar.lo = h.s.baseval
  chi : s.coar.hi = h.s.vertnnd
  cls : ∃ ρ, Cls h s.coar.get ρ v s.nbr ∧ s.enbr = h.s.edgenbr - sumI h.s.baseval v (fun u => deg h.s u + 1) + sumI 1 s.nbr (fun c => deg h.s (ρ c) + 1)

theorem sumI_extend {K v : Int} (hK : 1 ≤ K) (f : Int → Int) (ρ : Int → Int) : sumI 1 (K + 1) (fun c => f (if c = K then v else ρ c)) = sumI 1 K (fun c => f (ρ c)) + f v := by
  rw [sumI_succ hK, if_pos rfl]
  congr 1
  exact sumI_congr (fun c _ c2 => by rw [if_neg (by omega)])

theorem cpVert_holds (H : CpH h) {v msk : Int} (v1 : h.s.baseval ≤ v) (v2 : v < h.vnohnnd) (hm : IsMask msk) (hmsk : 4 * h.s.degrmax + 3 ≤ msk) {hsum : Arr Int} (s1 : hsum.lo = h.s.baseval) (s2 : hsum.hi = h.vnohnnd) {s : CpB}
    (I : BInv h msk v s) : Holds (cpVert h.s msk hsum v s) (BInv h msk (v + 1)) := by
  have hv := H.vtx v1 v2
  have hle := H.le
  have hb := H.base
  obtain ⟨ρ, C, hen⟩ := I.cls
  have hp := C.pos
  have hd := (H.w.degrmax).2 v hv
  have hr := (H.w.range v hv).2
  unfold cpVert
  rw [rdDegr_eq H.alloc.whole hv, ok_bind, Arr.rd_ok _ (by omega) (by omega), ok_bind, Holds_bind]
  refine Holds.mono (cpMates_holds H v1 v2 s1 s2 I.clo I.chi (hsum.get v) I.mlo I.mhi) ?_
  rintro ⟨mate, n⟩ M
  dsimp only at M ⊢
  rw [Arr.wr_ok _ _ (by rw [I.clo]; exact v1) (by rw [I.chi]; omega), ok_bind]
  have hφ : ∀ u, h.s.baseval ≤ u → u < v → (s.coar.set v s.nbr).get u = s.coar.get u := fun u _ u2 => Arr.set_get_ne _ _ (by omega)
  have hnew : ∃ ρ, Cls h (s.coar.set v s.nbr).get ρ (v + 1) (s.nbr + 1) ∧ s.enbr = h.s.edgenbr - sumI h.s.baseval (v + 1) (fun u => deg h.s u + 1) + sumI 1 (s.nbr + 1) (fun c => deg h.s (ρ c) + 1) := by
    refine ⟨_, C.new v1 _ hφ (Arr.set_get_same _ _ _), ?_⟩
    rw [sumI_extend hp (fun x => deg h.s x + 1), sumI_succ v1]
    omega
  by_cases hn : n > 0
  · rw [if_pos hn, Holds_bind]
    refine Holds_forArcs H.alloc.whole hv hr (fun e t => CpTab msk v (seg h.s.dest (h.s.vert v) e) t) ?_ ?_ ?_
    · rw [seg_empty _ (Int.le_refl _)]
      exact CpTab.start hm I.tlo I.thi I.old
    · intro e t e1 e2 T
      rw [seg_succ _ e1]
      have hl := seg_length h.s.dest e1
      have hwv := (H.w.inside v e hv e1 e2).1
      refine cpPut_holds hm T (by omega) (by have := hwv.1; omega) ?_
      rw [mem_seg]
      rintro ⟨i, i1, i2, i3⟩
      have := H.w.simple v hv i e i1 (by omega) e1 e2 i3
      omega
    · intro tab T
      rw [Holds_bind]
      have hl := seg_length h.s.dest hr
      refine Holds.mono (cpPut_holds hm T (by omega) (by omega) ?_) ?_
      · rw [mem_seg]
        rintro ⟨i, i1, i2, i3⟩
        exact (H.w.inside v i hv i1 i2).2 i3
      · intro tab T
        have hold : ∀ x, 0 ≤ x → x < msk + 1 → (tab.get x).vertnum < v + 1 := fun x x1 x2 => by have := T.old x x1 x2; omega
        rw [Holds_bind]
        refine Holds.mono (cpTry_holds H v1 v2 hm T (by rw [List.length_append, List.length_singleton]; omega) ?_ n.toNat (by rw [Int.toNat_of_nonneg M.nn.1]; exact M)) ?_
        · intro x
          rw [List.mem_append, List.mem_singleton, mem_seg]
          exact Or.comm
        · intro r hr'
          cases r with
          | none =>
            dsimp only
            rw [Holds_pure]
            exact ⟨T.lo, T.hi, hold, M.lo, M.hi, I.clo, I.chi, hnew⟩
          | some c =>
            dsimp only
            obtain ⟨m, m1, m2, m3, m4⟩ := hr' c rfl
            rw [Arr.wr_ok _ _ (by show s.coar.lo ≤ v; rw [I.clo]; exact v1) (by show v < s.coar.hi; rw [I.chi]; omega), ok_bind, Holds_pure]
            refine ⟨T.lo, T.hi, hold, M.lo, M.hi, I.clo, I.chi, ρ, ?_, ?_⟩
            · refine C.merge _ ?_ m1 m2 ?_ m4
              · intro u u1 u2
                dsimp only
                rw [Arr.set_get_ne _ _ (by omega)]
                exact hφ u u1 u2
              · dsimp only
                rw [Arr.set_get_same, m3]
            · dsimp only
              rw [sumI_succ v1]
              unfold deg at *
              omega
  · rw [if_neg hn, Holds_pure]
    exact ⟨I.tlo, I.thi, fun x x1 x2 => by have := I.old x x1 x2; dsimp only; omega, M.lo, M.hi, I.clo, I.chi, hnew⟩

theorem cpVerts_holds (H : CpH h) {msk : Int} (hm : IsMask msk) (hmsk : 4 * h.s.degrmax + 3 ≤ msk) {hsum : Arr Int} (s1 : hsum.lo = h.s.baseval) (s2 : hsum.hi = h.vnohnnd) (junk : Int → Int) (mate : Int → CpMate) :
    Holds (cpVerts h msk junk mate hsum) (BInv h msk h.vnohnnd) := by
  have hb := H.base
  have hn := H.nnd
  have h1 := H.some
  have hw := H.wnnd
  unfold cpVerts
  refine Holds_forUp (BInv h msk) (by omega) ?_ (fun v s v1 v2 I => cpVert_holds H v1 v2 hm hmsk s1 s2 I) (fun s I => I)
  refine ⟨rfl, rfl, fun x _ _ => ?_, rfl, rfl, rfl, by dsimp only; omega, fun _ => 0, ⟨Int.le_refl _, fun u u1 u2 => by omega, fun c c1 c2 => by dsimp only at c2; omega, fun u w u1 u2 => by omega⟩, ?_⟩
  · show (-1 : Int) < h.s.baseval; omega
  · dsimp only
    rw [sumI_empty (Int.le_refl _), sumI_empty (Int.le_refl _)]
    omega

end Scotch.HOrder
