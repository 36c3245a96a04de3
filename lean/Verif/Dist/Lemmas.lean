import Verif.Dist.Spec
import Verif.Seg
import Verif.Sort.Props

/-! # Distributed graphs: proofs on ranges, and on vertices to send -/

set_option autoImplicit false
set_option linter.unusedSimpArgs false

namespace Scotch.Dist

/-! ## Ranges -/

theorem toInt32_of {x : Int} (h1 : -2147483648 ≤ x) (h2 : x < 2147483648) : toInt32 x = x := by
  unfold toInt32
  omega

theorem build2_holds {P base : Int} {nbr max : Int → Int} {j1 j2 j3 : Int → Int} (hP : 0 < P)
    (hr : ∀ p, 0 ≤ p → p < P → 0 ≤ nbr p ∧ nbr p ≤ max p ∧ max p < 2147483648) :
    Holds (build2 P base nbr max j1 j2 j3) (fun o => ∃ r, o = some r ∧ r.procdsptab.get 0 = base ∧ r.procvrttab.get 0 = base ∧
      (r.procvrttab.lo = 0 ∧ r.procvrttab.hi = P + 1) ∧
      ∀ p, 0 ≤ p → p < P → r.procdsptab.get (p + 1) = r.procdsptab.get p + nbr p ∧ r.procvrttab.get (p + 1) = r.procvrttab.get p + max p ∧
        r.proccnttab.get p = nbr p) := by
  unfold build2
  simp only [Holds_bind, Holds_wr]
  refine ⟨by omega, by omega, ?_⟩
  have hg : ∀ i, (gathered P nbr max).get i = if i % 2 = 0 then toInt32 (nbr (i / 2)) else toInt32 (max (i / 2)) := fun i => rfl
  refine Holds_forUpB (I := fun p r => r.procdsptab.lo = 0 ∧ r.procdsptab.hi = P + 1 ∧ r.procvrttab.lo = 0 ∧ r.procvrttab.hi = P + 1 ∧
      r.proccnttab.lo = 0 ∧ r.proccnttab.hi = P ∧ r.procdsptab.get 0 = base ∧ r.procvrttab.get 0 = base ∧
      ∀ q, 0 ≤ q → q < p → r.procdsptab.get (q + 1) = r.procdsptab.get q + nbr q ∧ r.procvrttab.get (q + 1) = r.procvrttab.get q + max q ∧
        r.proccnttab.get q = nbr q) (B := fun _ => False) (by omega) ?_ ?_ ?_ (fun _ h => h.elim)
  · refine ⟨rfl, rfl, rfl, rfl, rfl, rfl, Arr.set_get_same .., Arr.set_get_same .., fun q h1 h2 => by omega⟩
  · rintro p r p1 p2 ⟨l1, u1, l2, u2, l3, u3, e1, e2, hq⟩
    have hpos : ¬ (gathered P nbr max).get p < 0 := by
      rw [hg]
      have hb : 0 ≤ p / 2 ∧ p / 2 < P := by omega
      have := hr (p / 2) hb.1 hb.2
      split
      · rw [toInt32_of (by omega) (by omega)]; omega
      · rw [toInt32_of (by omega) (by omega)]; omega
    have hn : (gathered P nbr max).get (2 * p) = nbr p := by
      have := hr p p1 p2
      rw [hg, if_pos (by omega), show 2 * p / 2 = p by omega, toInt32_of (by omega) (by omega)]
    have hm : (gathered P nbr max).get (2 * p + 1) = max p := by
      have := hr p p1 p2
      rw [hg, if_neg (by omega), show (2 * p + 1) / 2 = p by omega, toInt32_of (by omega) (by omega)]
    have gl : (gathered P nbr max).lo = 0 := rfl
    have gh : (gathered P nbr max).hi = 2 * P := rfl
    simp only [Holds_bind, Holds_rd, Holds_wr, Holds_pure, Holds_ite, gl, gh, l1, u1, l2, u2, l3, u3, Arr.set_lo, Arr.set_hi, Loop.Sat_next, Loop.Sat_brk]
    refine ⟨by omega, fun h => absurd h hpos, fun _ => ⟨by omega, by omega, by omega, by omega, by omega, by omega, by omega, by omega, by omega, ?_⟩⟩
    refine ⟨trivial, trivial, trivial, trivial, trivial, trivial, ?_, ?_, ?_⟩
    · rw [Arr.set_get_ne _ _ (by omega)]; exact e1
    · rw [Arr.set_get_ne _ _ (by omega)]; exact e2
    · intro q q1 q2
      by_cases hqp : q = p
      · subst hqp
        rw [Arr.set_get_same, Arr.set_get_same, Arr.set_get_same, Arr.set_get_ne _ _ (by omega), Arr.set_get_ne _ _ (by omega), hn, hm]
        exact ⟨rfl, rfl, by omega⟩
      · have := hq q q1 (by omega)
        rw [Arr.set_get_ne _ _ (by omega), Arr.set_get_ne _ _ (by omega), Arr.set_get_ne _ _ (by omega), Arr.set_get_ne _ _ (by omega), Arr.set_get_ne _ _ (by omega)]
        exact this
  · rintro r ⟨_, _, l2, u2, _, _, e1, e2, hq⟩
    rw [Holds_pure]
    exact ⟨r, rfl, e1, e2, ⟨l2, u2⟩, hq⟩

/-- Process `q` owns global number `w`. -/
def Own (vrt : Arr Int) (P q w : Int) : Prop := (0 ≤ q ∧ q < P) ∧ vrt.get q ≤ w ∧ w < vrt.get (q + 1)

theorem ownerOf_holds {vrt : Arr Int} {P w : Int} (hP : 0 < P) (h0 : vrt.lo ≤ 0) (h1 : P ≤ vrt.hi) (hlo : vrt.get 0 ≤ w) (hhi : w < vrt.get P) :
    Holds (ownerOf vrt P w) (Own vrt P · w) := by
  unfold ownerOf
  refine Holds_loopM (I := fun s => 0 ≤ s.1 ∧ s.1 < s.2 ∧ s.2 ≤ P ∧ vrt.get s.1 ≤ w ∧ w < vrt.get s.2) (μ := fun s => (s.2 - s.1).toNat) ?_ _ _ ⟨by omega, by omega, by omega, hlo, hhi⟩ (by dsimp only; omega)
  rintro ⟨a, b⟩ ⟨i1, i2, i3, i4, i5⟩
  dsimp only at i1 i2 i3 i4 i5 ⊢
  rw [Holds_ite]
  refine ⟨fun h => ?_, fun h => ?_⟩
  · rw [Holds_pure]
    have e : b = a + 1 := by omega
    subst e
    exact ⟨⟨i1, by omega⟩, i4, i5⟩
  · simp only [Holds_bind, Holds_rd, Holds_ite, Holds_pure]
    refine ⟨by omega, fun h' => ?_, fun h' => ?_⟩
    · exact ⟨⟨by dsimp only; omega, by dsimp only; omega, by dsimp only; omega, h', i5⟩, by dsimp only; omega⟩
    · exact ⟨⟨by dsimp only; omega, by dsimp only; omega, by dsimp only; omega, i4, by dsimp only; omega⟩, by dsimp only; omega⟩

end Scotch.Dist
