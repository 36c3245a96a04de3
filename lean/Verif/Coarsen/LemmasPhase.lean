import Verif.Coarsen.LemmasRange

set_option autoImplicit false
set_option linter.unusedSimpArgs false

namespace Scotch.Coarsen

variable {numMax : Int} {g : Graph} {coar : Arr Int} {mult : Arr (Int × Int)} {cnbr : Int}

/-- Reserved slots of a coarse vertex. -/
def slotC (g : Graph) (coar : Arr Int) (mult : Arr (Int × Int)) (compact : Bool) : Int → Int := if compact then lenC g coar mult else degC g mult

theorem slotC_bounds (g : Graph) (coar : Arr Int) (mult : Arr (Int × Int)) (compact : Bool) (c : Int) :
    lenC g coar mult c ≤ slotC g coar mult compact c ∧ slotC g coar mult compact c ≤ degC g mult c := by
  have := lenC_bounds g coar mult c
  unfold slotC
  cases compact <;> simp <;> omega

/-- Coarse vertices before `nnd` have been built. -/
structure Done (g : Graph) (coar : Arr Int) (mult : Arr (Int × Int)) (cnbr : Int) (compact : Bool) (nnd num : Int) (s : CState) (r : Sums) : Prop where
  start : num = g.baseval + sumI g.baseval nnd (slotC g coar mult compact)
  low : ∀ c, g.baseval ≤ c → c < nnd → g.baseval ≤ s.vert.get c ∧ s.vert.get c + lenC g coar mult c ≤ num
  cpt : compact = true → ∀ c, g.baseval ≤ c → c < nnd → s.vert.get c = g.baseval + sumI g.baseval c (lenC g coar mult)
  order : ∀ c d, g.baseval ≤ c → c < d → d < nnd → s.vert.get c + lenC g coar mult c ≤ s.vert.get d
  ends : ∀ a, s.vend = some a → ∀ c, g.baseval ≤ c → c < nnd → a.get c = s.vert.get c + lenC g coar mult c
  velo : ∀ c, g.baseval ≤ c → c < nnd → s.velo.get c = veloOf g (mult.get c)
  cont : ∀ c, g.baseval ≤ c → c < nnd → ∀ i (h : i < (accC g coar mult c).length), s.es.edge.get (s.vert.get c + i) = (accC g coar mult c)[i].1 ∧
    s.es.edlo.get (s.vert.get c + i) = (accC g coar mult c)[i].2
  edgenbr : r.edgenbr = sumI g.baseval nnd (lenC g coar mult)
  loadj : r.loadj = - sumI g.baseval nnd (intC g coar mult)
  degr : 0 ≤ r.degrmax ∧ ∀ c, g.baseval ≤ c → c < nnd → lenC g coar mult c ≤ r.degrmax
  tight : r.degrmax = 0 ∨ ∃ c, g.baseval ≤ c ∧ c < nnd ∧ lenC g coar mult c = r.degrmax
  vlo : s.vert.lo = g.baseval
  vhi : s.vert.hi = g.baseval + cnbr + (if compact then 1 else 0)
  vend : (s.vend.isSome = true ↔ compact = false) ∧ ∀ a, s.vend = some a → a.lo = g.baseval ∧ a.hi = g.baseval + cnbr
  wlo : s.velo.lo = g.baseval
  whi : s.velo.hi = g.baseval + cnbr
  elo : s.es.edge.lo = g.baseval
  ehi : s.es.edge.hi = g.baseval + g.edgenbr
  llo : s.es.edlo.lo = g.baseval
  lhi : s.es.edlo.hi = g.baseval + g.edgenbr

theorem Done.init (g : Graph) (coar : Arr Int) (mult : Arr (Int × Int)) (cnbr : Int) (compact : Bool) (J : Junk) :
    Done g coar mult cnbr compact g.baseval g.baseval (initState g cnbr compact J) ⟨0, 0, 0⟩ := by
  refine ⟨?_, fun c h h' => by omega, fun _ c h h' => by omega, fun c d h h' h'' => by omega, fun a _ c h h' => by omega, fun c h h' => by omega, fun c h h' => by omega, ?_, ?_,
    ⟨Int.le_refl _, fun c h h' => by omega⟩, Or.inl rfl, rfl, rfl, ?_, rfl, rfl, rfl, rfl, rfl, rfl⟩
  · rw [sumI_empty (Int.le_refl _)]; omega
  · rw [sumI_empty (Int.le_refl _)]
  · rw [sumI_empty (Int.le_refl _)]; rfl
  · unfold initState
    cases compact with
    | true => simp
    | false =>
      refine ⟨by simp, ?_⟩
      intro a ha
      have : a = ⟨g.baseval, g.baseval + cnbr, J.vend⟩ := by simpa using ha.symm
      rw [this]
      exact ⟨rfl, rfl⟩

/-- A range is built after previous ones. -/
theorem Done.step {compact : Bool} {bas nnd num : Int} {s s' : CState} {r : Sums} (D : Done g coar mult cnbr compact bas num s r) (B : Built g coar mult bas nnd num s s') (h1 : g.baseval ≤ bas)
    (h2 : bas ≤ nnd) :
    Done g coar mult cnbr compact nnd (num + sumI bas nnd (slotC g coar mult compact)) s' ⟨r.edgenbr + (s'.es.num - num), r.loadj + s'.es.adj, max r.degrmax s'.degrmax⟩ := by
  have hB := B.pos
  have hsl : 0 ≤ sumI bas nnd (slotC g coar mult compact) := sumI_nonneg fun i _ _ => by
    have := slotC_bounds g coar mult compact i
    have := lenC_bounds g coar mult i
    omega
  have hle : ∀ x, bas ≤ x → x < nnd → sumI bas x (lenC g coar mult) + lenC g coar mult x ≤ sumI bas nnd (slotC g coar mult compact) := by
    intro x x1 x2
    have a1 : sumI bas nnd (lenC g coar mult) ≤ sumI bas nnd (slotC g coar mult compact) := sumI_mono fun i _ _ => (slotC_bounds g coar mult compact i).1
    rw [sumI_split (mid := x + 1) (lo := bas) (hi := nnd) (by omega) (by omega) (lenC g coar mult), sumI_succ x1] at a1
    have : 0 ≤ sumI (x + 1) nnd (lenC g coar mult) := sumI_nonneg fun i _ _ => (lenC_bounds g coar mult i).1
    omega
  have hnn : ∀ x, 0 ≤ sumI bas x (lenC g coar mult) := fun x => sumI_nonneg fun i _ _ => (lenC_bounds g coar mult i).1
  have hbase : g.baseval ≤ num := by
    have : 0 ≤ sumI g.baseval bas (slotC g coar mult compact) := sumI_nonneg fun i _ _ => by
      have := slotC_bounds g coar mult compact i
      have := lenC_bounds g coar mult i
      omega
    have := D.start
    omega
  have vold : ∀ c, c < bas → s'.vert.get c = s.vert.get c := fun c hc => B.vert.frame c (by omega)
  have vnew : ∀ c, bas ≤ c → c < nnd → s'.vert.get c = num + sumI bas c (lenC g coar mult) := B.vert.val
  refine ⟨?_, ?_, ?_, ?_, ?_, ?_, ?_, ?_, ?_, ?_, ?_, ?_, ?_, ?_, ?_, ?_, ?_, ?_, ?_, ?_⟩
  · rw [D.start, sumI_split h1 h2]; omega
  · intro c c1 c2
    by_cases hc : c < bas
    · rw [vold c hc]; have := D.low c c1 hc; omega
    · rw [vnew c (by omega) c2]
      have := hle c (by omega) c2
      have := hnn c
      omega
  · intro hcm c c1 c2
    by_cases hc : c < bas
    · rw [vold c hc]; exact D.cpt hcm c c1 hc
    · rw [vnew c (by omega) c2, D.start, sumI_split h1 (show bas ≤ c by omega)]
      unfold slotC; rw [if_pos hcm]; omega
  · intro c d c1 c2 c3
    by_cases hd : d < bas
    · rw [vold c (by omega), vold d hd]; exact D.order c d c1 c2 hd
    · rw [vnew d (by omega) c3]
      by_cases hc : c < bas
      · rw [vold c hc]
        have := (D.low c c1 hc).2
        have := hnn d
        omega
      · rw [vnew c (by omega) (by omega), sumI_split (mid := c + 1) (hi := d) (lo := bas) (by omega) (by omega), sumI_succ (show bas ≤ c by omega)]
        have : 0 ≤ sumI (c + 1) d (lenC g coar mult) := sumI_nonneg fun i _ _ => (lenC_bounds g coar mult i).1
        omega
  · intro a ha c c1 c2
    have he := B.ends
    rw [ha] at he
    cases hs : s.vend with
    | none => rw [hs] at he; exact he.elim
    | some b =>
      rw [hs] at he
      have he' : Filled bas nnd _ b a := he
      by_cases hc : c < bas
      · rw [vold c hc, he'.frame c (by omega)]
        exact D.ends b hs c c1 hc
      · rw [vnew c (by omega) c2, he'.val c (by omega) c2]
  · intro c c1 c2
    by_cases hc : c < bas
    · rw [B.velo.frame c (by omega)]; exact D.velo c c1 hc
    · exact B.velo.val c (by omega) c2
  · intro c c1 c2 i hi
    by_cases hc : c < bas
    · rw [vold c hc]
      have := (D.low c c1 hc).2
      have hl : lenC g coar mult c = (accC g coar mult c).length := rfl
      rw [B.frame.edge _ (by omega), B.frame.edlo _ (by omega)]
      exact D.cont c c1 hc i hi
    · rw [vnew c (by omega) c2]
      exact B.cont c (by omega) c2 i hi
  · dsimp only; rw [D.edgenbr, hB, sumI_split h1 h2]; omega
  · dsimp only; rw [D.loadj, B.adj, sumI_split h1 h2]; omega
  · refine ⟨by have := D.degr.1; dsimp only; omega, ?_⟩
    intro c c1 c2
    dsimp only
    by_cases hc : c < bas
    · have := D.degr.2 c c1 hc; omega
    · have := B.degr.2 c (by omega) c2; omega
  · dsimp only
    by_cases hd : r.degrmax ≤ s'.degrmax
    · rcases B.tight with h | ⟨c, c1, c2, c3⟩
      · left; have := D.degr.1; omega
      · right; exact ⟨c, by omega, c2, by omega⟩
    · rcases D.tight with h | ⟨c, c1, c2, c3⟩
      · have := B.degr.1; omega
      · right; exact ⟨c, c1, by omega, by omega⟩
  · rw [B.vert.lo]; exact D.vlo
  · rw [B.vert.hi]; exact D.vhi
  · have he := B.ends
    cases hs : s.vend with
    | none =>
      have hd := D.vend
      rw [hs] at he hd
      cases hs' : s'.vend with
      | none => exact hd
      | some a => rw [hs'] at he; exact he.elim
    | some b =>
      have hd := D.vend
      rw [hs] at he hd
      cases hs' : s'.vend with
      | none => rw [hs'] at he; exact he.elim
      | some a =>
        rw [hs'] at he
        have he' : Filled bas nnd _ b a := he
        refine ⟨by simpa using hd.1, ?_⟩
        intro a' ha'
        cases ha'
        rw [he'.lo, he'.hi]
        exact hd.2 b rfl
  · rw [B.velo.lo]; exact D.wlo
  · rw [B.velo.hi]; exact D.whi
  · rw [B.frame.elo]; exact D.elo
  · rw [B.frame.ehi]; exact D.ehi
  · rw [B.frame.llo]; exact D.llo
  · rw [B.frame.lhi]; exact D.lhi

theorem Done.room (P : PreC numMax g coar mult cnbr) {compact : Bool} {bas nnd num : Int} {s : CState} {r : Sums} (D : Done g coar mult cnbr compact bas num s r) (hsum : sumI g.baseval (g.baseval + cnbr) (degC g mult) = g.edgenbr)
    (h1 : g.baseval ≤ bas) (h2 : bas ≤ nnd) (h3 : nnd ≤ g.baseval + cnbr) : Room bas nnd num (num + sumI bas nnd (degC g mult)) s := by
  have _ := P.base
  have hdn : ∀ a b, 0 ≤ sumI a b (degC g mult) := fun a b => sumI_nonneg fun i _ _ => by unfold degC; omega
  have hsn : 0 ≤ sumI g.baseval bas (slotC g coar mult compact) := sumI_nonneg fun i _ _ => by
    have := slotC_bounds g coar mult compact i
    have := lenC_bounds g coar mult i
    omega
  have hle : sumI g.baseval bas (slotC g coar mult compact) ≤ sumI g.baseval bas (degC g mult) := sumI_mono fun i _ _ => (slotC_bounds g coar mult compact i).2
  have e1 := sumI_split h1 (show bas ≤ g.baseval + cnbr by omega) (degC g mult)
  have e2 := sumI_split h2 h3 (degC g mult)
  have e3 := hdn nnd (g.baseval + cnbr)
  have hst := D.start
  have v1 := D.vlo
  have v2 := D.vhi
  have w1 := D.wlo
  have w2 := D.whi
  have x1 := D.elo
  have x2 := D.ehi
  have x3 := D.llo
  have x4 := D.lhi
  refine ⟨by omega, by rw [v2]; split <;> omega, by omega, by omega, ?_, by omega, by omega, by omega, by omega⟩
  intro a ha
  have := D.vend.2 a ha
  omega

theorem edgePhase_holds (P : PreC numMax g coar mult cnbr) {msk : Int} (hm : IsMask msk) (hmsk : 4 * g.degrmax + 3 ≤ msk) (hsum : sumI g.baseval (g.baseval + cnbr) (degC g mult) = g.edgenbr)
    {compact : Bool} {n : Nat} {cbas : Nat → Int} (R : Bounds g.baseval (g.baseval + cnbr) n cbas) : ∀ (k i : Nat) (num : Int) (s : CState) (r : Sums), i + k = n →
    Done g coar mult cnbr compact (cbas i) num s r →
    Holds (edgePhase numMax g coar mult msk compact cbas k i num s r) (fun q => ∃ num', Done g coar mult cnbr compact (g.baseval + cnbr) num' q.1 q.2) := by
  intro k
  induction k with
  | zero =>
    intro i num s r hi D
    unfold edgePhase
    rw [Holds_ok, ← R.last, show n = i by omega]
    exact ⟨num, D⟩
  | succ k ih =>
    intro i num s r hi D
    have b1 := R.in (i := i) (by omega)
    have b2 := R.in (i := i + 1) (by omega)
    have b3 := R.mono i (by omega)
    unfold edgePhase
    rw [Holds_bind]
    refine (slotsOf_holds P hm hmsk b1.1 b3 b2.2 compact).mono ?_
    rintro m rfl
    rw [Holds_bind]
    refine (edgeRange_holds P hm hmsk b1.1 b3 b2.2 (D.room P hsum b1.1 b3 b2.2)).mono ?_
    intro s' B
    exact ih (i + 1) _ _ _ (by omega) (D.step B b1.1 b3)

theorem edgeSeq_holds (P : PreC numMax g coar mult cnbr) {msk : Int} (hm : IsMask msk) (hmsk : 4 * g.degrmax + 3 ≤ msk) (hsum : sumI g.baseval (g.baseval + cnbr) (degC g mult) = g.edgenbr)
    (hc : 0 ≤ cnbr) (J : Junk) :
    Holds (edgeRange numMax g coar mult msk g.baseval (g.baseval + cnbr) g.baseval (initState g cnbr true J))
      (fun s => ∃ num', Done g coar mult cnbr true (g.baseval + cnbr) num' s ⟨s.es.num - g.baseval, s.es.adj, s.degrmax⟩) := by
  have D := Done.init g coar mult cnbr true J
  refine (edgeRange_holds P hm hmsk (Int.le_refl _) (by omega) (Int.le_refl _) (D.room P hsum (Int.le_refl _) (by omega) (Int.le_refl _))).mono ?_
  intro s B
  have hs := D.step B (Int.le_refl _) (by omega)
  have hd := B.degr.1
  dsimp only at hs
  rw [show (0 : Int) + (s.es.num - g.baseval) = s.es.num - g.baseval by omega, show (0 : Int) + s.es.adj = s.es.adj by omega, show max 0 s.degrmax = s.degrmax by omega] at hs
  exact ⟨_, hs⟩

end Scotch.Coarsen
