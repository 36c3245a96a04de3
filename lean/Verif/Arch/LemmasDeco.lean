import Verif.Arch.SpecDeco
import Verif.Arch.Generic

/-! # Decomposition-defined architectures: trees of domains -/

set_option autoImplicit false

namespace Scotch.Deco
open ArchIO

/-! ## Domains under others -/

theorem Under.inv {m k : Int} (h : Under m k) : k = m ∨ Under m (k / 2) := by
  cases h with
  | self => exact .inl rfl
  | @left j h => exact .inr (by rw [show 2 * j / 2 = j by omega]; exact h)
  | @right j h => exact .inr (by rw [show (2 * j + 1) / 2 = j by omega]; exact h)

theorem Under.le {m k : Int} (hm : 1 ≤ m) (h : Under m k) : m ≤ k := by
  induction h with
  | self => exact Int.le_refl _
  | left _ ih => omega
  | right _ ih => omega

theorem Under.trans {a b c : Int} (h : Under a b) (h' : Under b c) : Under a c := by
  induction h' with
  | self => exact h
  | left _ ih => exact .left ih
  | right _ ih => exact .right ih

theorem Under.halves {m k : Int} : Under m k ↔ k = m ∨ Under (2 * m) k ∨ Under (2 * m + 1) k := by
  constructor
  · intro h
    induction h with
    | self => exact .inl rfl
    | left _ ih =>
      rcases ih with rfl | h | h
      · exact .inr (.inl .self)
      · exact .inr (.inl (.left h))
      · exact .inr (.inr (.left h))
    | right _ ih =>
      rcases ih with rfl | h | h
      · exact .inr (.inr .self)
      · exact .inr (.inl (.right h))
      · exact .inr (.inr (.right h))
  · rintro (rfl | h | h)
    · exact .self
    · exact Under.trans (.left .self) h
    · exact Under.trans (.right .self) h

theorem Under.compare {a b k : Int} (h : Under a k) (h' : Under b k) : Under a b ∨ Under b a := by
  induction h with
  | self => exact .inr h'
  | @left j h ih =>
    rcases h'.inv with h1 | h1
    · exact .inl (by rw [← h1]; exact .left h)
    · rw [show 2 * j / 2 = j by omega] at h1
      exact ih h1
  | @right j h ih =>
    rcases h'.inv with h1 | h1
    · exact .inl (by rw [← h1]; exact .right h)
    · rw [show (2 * j + 1) / 2 = j by omega] at h1
      exact ih h1

theorem Under.disj {m k : Int} (hm : 1 ≤ m) (h : Under (2 * m) k) (h' : Under (2 * m + 1) k) : False := by
  rcases h.compare h' with h1 | h1
  · rcases h1.inv with h2 | h2
    · omega
    · rw [show (2 * m + 1) / 2 = m by omega] at h2
      have := h2.le (by omega)
      omega
  · have := h1.le (by omega)
    omega

theorem Under.root (n : Nat) : ∀ k : Int, 1 ≤ k → k ≤ n → Under 1 k := by
  induction n with
  | zero => intro k h1 h2; omega
  | succ n ih =>
    intro k h1 h2
    by_cases h : k = 1
    · subst h; exact .self
    · have := ih (k / 2) (by omega) (by omega)
      rcases (by omega : k = 2 * (k / 2) ∨ k = 2 * (k / 2) + 1) with e | e
      · rw [e]; exact .left this
      · rw [e]; exact .right this

/-! ## Terminal domains -/

section
variable {n max : Int} {t : Arr TermVert} {d : Arr Int}

theorem Legal.inj (L : Legal n max t d) {i j : Int} (i1 : 0 ≤ i) (i2 : i < n) (j1 : 0 ≤ j) (j2 : j < n) (h : (t.get i).num = (t.get j).num) : i = j :=
  L.apart i j i1 i2 j1 j2 (by rw [h]; exact .self)

theorem Used.le (L : Legal n max t d) {m : Int} (h : Used n t m) : m ≤ max := by
  obtain ⟨h1, i, i1, i2, h2⟩ := h
  have := h2.le h1
  have := (L.num i i1 i2).2
  omega

theorem used_num (L : Legal n max t d) {i : Int} (i1 : 0 ≤ i) (i2 : i < n) : Used n t (t.get i).num := ⟨(L.num i i1 i2).1, i, i1, i2, .self⟩

theorem Has.used {m k : Int} (hm : 1 ≤ m) (h : Has n t m k) : Used n t m := by
  obtain ⟨i, i1, i2, h, -⟩ := h
  exact ⟨hm, i, i1, i2, h⟩

/-- Array of terminal domains. -/
structure Own (n max : Int) (t : Arr TermVert) (i : Int) (a : Arr DecoVert) : Prop where
  lo : a.lo = 0
  hi : a.hi = max
  term : ∀ j, 0 ≤ j → j < i → a.get ((t.get j).num - 1) = ((t.get j).labl, 1, (t.get j).wght)
  rest : ∀ m, (∀ j, 0 ≤ j → j < i → (t.get j).num ≠ m) → a.get (m - 1) = (-1, 0, 0)

theorem terms_holds (L : Legal n max t d) : Holds (forUp 0 n ⟨0, max, fun _ => (-1, 0, 0)⟩ (setTerm t)) (Own n max t n) := by
  refine Holds_forUp (Own n max t) (by have := L.some; omega) ⟨rfl, rfl, fun j j1 j2 => by omega, fun m _ => rfl⟩ ?_ (fun _ h => h)
  intro i a i1 i2 I
  unfold setTerm
  rw [Arr.rd_ok _ (by have := L.vert.1; omega) (by have := L.vert.2; omega)]
  obtain ⟨n1, n2⟩ := L.num i i1 i2
  show Holds (a.wr _ _) _
  rw [Arr.wr_ok _ _ (by rw [I.lo]; omega) (by rw [I.hi]; omega)]
  refine ⟨I.lo, I.hi, ?_, ?_⟩
  · intro j j1 j2
    by_cases h : j = i
    · subst h
      rw [Arr.set_get_same]
    · rw [Arr.set_get_ne _ _ (fun e => h (L.inj j1 (by omega) i1 i2 (by omega)))]
      exact I.term j j1 (by omega)
  · intro m hm
    rw [Arr.set_get_ne _ _ (fun e => hm i i1 (by omega) (by omega))]
    exact I.rest m fun j j1 j2 => hm j j1 (by omega)

/-! ## Accumulation -/

/-- Data of a half, if any. -/
def gat (x : DecoVert) (p : Prop) [Decidable p] (y : DecoVert) : DecoVert := if p then gather x y else x

structure Acc (max M : Int) (o a : Arr DecoVert) : Prop where
  lo : a.lo = 0
  hi : a.hi = max
  eqn : ∀ m, 1 ≤ m → m ≤ max → a.get (m - 1) = gat (gat (o.get (m - 1)) (M < 2 * m + 1 ∧ 2 * m + 1 ≤ max) (a.get (2 * m))) (M < 2 * m ∧ 2 * m ≤ max) (a.get (2 * m - 1))

theorem gat_congr {x x' y y' : DecoVert} {p q : Prop} [Decidable p] [Decidable q] (hx : x = x') (hp : p ↔ q) (hy : q → y = y') : gat x p y = gat x' q y' := by
  unfold gat
  subst hx
  by_cases h : q
  · rw [if_pos (hp.2 h), if_pos h, hy h]
  · rw [if_neg (fun h' => h (hp.1 h')), if_neg h]

theorem gat_true {x y : DecoVert} {p : Prop} [Decidable p] (h : p) : gat x p y = gather x y := if_pos h
theorem gat_false {x y : DecoVert} {p : Prop} [Decidable p] (h : ¬ p) : gat x p y = x := if_neg h

theorem accum_holds (hmax : 1 ≤ max) {o : Arr DecoVert} (h1 : o.lo = 0) (h2 : o.hi = max) : Holds (forUp 0 (max - 1) o fun k a => accum (max - 1 - k) a) (Acc max 1 o) := by
  refine Holds_forUp (fun k a => Acc max (max - k) o a) (by omega) ⟨h1, h2, ?_⟩ ?_ (fun a h => by rw [show max - (max - 1) = 1 by omega] at h; exact h)
  · intro m m1 m2
    rw [gat_false (by omega), gat_false (by omega)]
  · intro k a k1 k2 I
    generalize hM : max - k = M at I
    have hM2 : 2 ≤ M := by omega
    have hMm : M ≤ max := by omega
    have l := I.lo
    have hh := I.hi
    unfold accum
    rw [show max - 1 - k = M - 1 by omega, show (M - 1 - 1) / 2 = M / 2 - 1 by omega, show max - (k + 1) = M - 1 by omega]
    rw [Arr.rd_ok _ (by omega) (by omega), Arr.rd_ok _ (by omega) (by omega)]
    show Holds (a.wr _ _) _
    rw [Arr.wr_ok _ _ (by omega) (by omega)]
    refine ⟨l, hh, ?_⟩
    intro m m1 m2
    have hp := I.eqn m m1 m2
    by_cases hm : m = M / 2
    · subst hm
      rw [Arr.set_get_same, hp, Arr.set_get_ne _ _ (by omega), Arr.set_get_ne _ _ (by omega)]
      rcases (by omega : M = 2 * (M / 2) ∨ M = 2 * (M / 2) + 1) with e | e
      · have : a.get (M - 1) = a.get (2 * (M / 2) - 1) := by rw [show M - 1 = 2 * (M / 2) - 1 by omega]
        rw [this]
        rw [gat_false (p := M < 2 * (M / 2) ∧ _) (by omega), gat_true (p := M - 1 < 2 * (M / 2) ∧ _) (by omega)]
        exact congrArg (fun x => gather x _) (gat_congr rfl (by omega) (fun _ => rfl))
      · have : a.get (M - 1) = a.get (2 * (M / 2)) := by rw [show M - 1 = 2 * (M / 2) by omega]
        rw [this]
        rw [gat_false (p := M < 2 * (M / 2) ∧ _) (by omega), gat_false (p := M < 2 * (M / 2) + 1 ∧ _) (by omega), gat_false (p := M - 1 < 2 * (M / 2) ∧ _) (by omega),
          gat_true (p := M - 1 < 2 * (M / 2) + 1 ∧ _) (by omega)]
    · rw [Arr.set_get_ne _ _ (by omega), hp]
      refine gat_congr (gat_congr rfl (by omega) ?_) (by omega) ?_
      · intro h
        exact (Arr.set_get_ne _ _ (by omega)).symm
      · intro h
        exact (Arr.set_get_ne _ _ (by omega)).symm

/-! ## Data of domains -/

/-- Data of a domain: smallest label, number of processors, weight. -/
structure Data (n max : Int) (t : Arr TermVert) (a : Arr DecoVert) (m : Int) : Prop where
  unused : ¬ Used n t m → a.get (m - 1) = (-1, 0, 0)
  labl : Used n t m → Has n t m (a.get (m - 1)).1 ∧ ∀ k, Has n t m k → (a.get (m - 1)).1 ≤ k
  size : Used n t m → 1 ≤ (a.get (m - 1)).2.1
  term : ∀ i, 0 ≤ i → i < n → (t.get i).num = m → a.get (m - 1) = ((t.get i).labl, 1, (t.get i).wght)
  node : Used n t m → (∀ i, 0 ≤ i → i < n → (t.get i).num ≠ m) → (a.get (m - 1)).2.1 = (a.get (2 * m - 1)).2.1 + (a.get (2 * m + 1 - 1)).2.1 ∧ (a.get (m - 1)).2.2 = (a.get (2 * m - 1)).2.2 + (a.get (2 * m + 1 - 1)).2.2

theorem gather_unused (x : DecoVert) : gather x (-1, 0, 0) = x := if_neg (by simp)

theorem Has.labl (L : Legal n max t d) {m k : Int} (h : Has n t m k) : 0 ≤ k ∧ k < n := by
  obtain ⟨i, i1, i2, -, rfl⟩ := h
  exact L.labl i i1 i2

theorem has_halves {m : Int} (hno : ∀ i, 0 ≤ i → i < n → (t.get i).num ≠ m) (k : Int) : Has n t m k ↔ Has n t (2 * m) k ∨ Has n t (2 * m + 1) k := by
  constructor
  · rintro ⟨i, i1, i2, h, e⟩
    rcases Under.halves.1 h with h | h | h
    · exact absurd h (hno i i1 i2)
    · exact .inl ⟨i, i1, i2, h, e⟩
    · exact .inr ⟨i, i1, i2, h, e⟩
  · rintro (⟨i, i1, i2, h, e⟩ | ⟨i, i1, i2, h, e⟩)
    · exact ⟨i, i1, i2, Under.halves.2 (.inr (.inl h)), e⟩
    · exact ⟨i, i1, i2, Under.halves.2 (.inr (.inr h)), e⟩

theorem data_of (L : Legal n max t d) {o a : Arr DecoVert} (O : Own n max t n o) (A : Acc max 1 o a) : ∀ m, 1 ≤ m → m ≤ max → Data n max t a m := by
  suffices H : ∀ (f : Nat) (m : Int), 1 ≤ m → m ≤ max → max - m ≤ f → Data n max t a m from fun m m1 m2 => H (max - m).toNat m m1 m2 (by omega)
  intro f
  induction f using Nat.strong_induction_on with
  | _ f ih =>
    intro m m1 m2 hf
    have hl : 2 * m ≤ max → Data n max t a (2 * m) := fun h => ih (max - 2 * m).toNat (by omega) (2 * m) (by omega) h (by omega)
    have hr : 2 * m + 1 ≤ max → Data n max t a (2 * m + 1) := fun h => ih (max - (2 * m + 1)).toNat (by omega) (2 * m + 1) (by omega) h (by omega)
    have e := A.eqn m m1 m2
    have hnone : ¬ Used n t (2 * m) → ¬ Used n t (2 * m + 1) → a.get (m - 1) = o.get (m - 1) := by
      intro h1 h2
      rw [e]
      have e1 : gat (o.get (m - 1)) (1 < 2 * m + 1 ∧ 2 * m + 1 ≤ max) (a.get (2 * m)) = o.get (m - 1) := by
        by_cases h : 2 * m + 1 ≤ max
        · have := (hr h).unused h2
          rw [show 2 * m + 1 - 1 = 2 * m by omega] at this
          rw [gat_true (by omega), this, gather_unused]
        · rw [gat_false (by omega)]
      rw [e1]
      by_cases h : 2 * m ≤ max
      · rw [gat_true (by omega), (hl h).unused h1, gather_unused]
      · rw [gat_false (by omega)]
    by_cases ht : ∃ i, 0 ≤ i ∧ i < n ∧ (t.get i).num = m
    · obtain ⟨i, i1, i2, hi⟩ := ht
      have hno : ∀ c, Under m c → (c = m ∨ ∀ j, 0 ≤ j → j < n → ¬ Under c (t.get j).num) := by
        intro c hc
        by_cases h : c = m
        · exact .inl h
        · refine .inr fun j j1 j2 hj => h ?_
          have e1 := L.apart i j i1 i2 j1 j2 (by rw [hi]; exact hc.trans hj)
          subst e1
          rw [hi] at hj
          have h1 := hc.le m1
          have h2 := hj.le (by omega)
          omega
      have u1 : ¬ Used n t (2 * m) := by
        rintro ⟨-, j, j1, j2, hj⟩
        rcases hno (2 * m) (.left .self) with h | h
        · omega
        · exact h j j1 j2 hj
      have u2 : ¬ Used n t (2 * m + 1) := by
        rintro ⟨-, j, j1, j2, hj⟩
        rcases hno (2 * m + 1) (.right .self) with h | h
        · omega
        · exact h j j1 j2 hj
      have e1 := hnone u1 u2
      have e2 := O.term i i1 i2
      rw [hi] at e2
      rw [e2] at e1
      refine ⟨?_, ?_, ?_, ?_, ?_⟩
      · intro h
        exact absurd ⟨m1, i, i1, i2, by rw [hi]; exact .self⟩ h
      · intro _
        rw [e1]
        refine ⟨⟨i, i1, i2, by rw [hi]; exact .self, rfl⟩, ?_⟩
        rintro k ⟨j, j1, j2, hj, rfl⟩
        rw [← hi] at hj
        rw [← L.apart i j i1 i2 j1 j2 hj]
      · intro _
        rw [e1]
      · intro j j1 j2 hj
        rw [L.inj j1 j2 i1 i2 (hj.trans hi.symm)]
        exact e1
      · intro _ h
        exact absurd hi (h i i1 i2)
    · have ht : ∀ i, 0 ≤ i → i < n → (t.get i).num ≠ m := fun i i1 i2 h => ht ⟨i, i1, i2, h⟩
      have e0 := O.rest m ht
      by_cases hu : Used n t m
      · obtain ⟨u1, u2⟩ := L.full m hu ht
        have b1 := u1.le L
        have b2 := u2.le L
        have D1 := hl b1
        have D2 := hr b2
        have e1 : a.get (m - 1) = gather (gather (-1, 0, 0) (a.get (2 * m + 1 - 1))) (a.get (2 * m - 1)) := by
          rw [e, gat_true (p := 1 < 2 * m ∧ _) (by omega), gat_true (p := 1 < 2 * m + 1 ∧ _) (by omega), e0, show 2 * m + 1 - 1 = 2 * m by omega]
        obtain ⟨p1, p2⟩ := D1.labl u1
        obtain ⟨q1, q2⟩ := D2.labl u2
        have s1 := D1.size u1
        have s2 := D2.size u2
        have g1 := (p1.labl L).1
        have g2 := (q1.labl L).1
        generalize hx : a.get (2 * m - 1) = x at e1 p1 p2 s1 g1
        generalize hy : a.get (2 * m + 1 - 1) = y at e1 q1 q2 s2 g2
        have e2 : a.get (m - 1) = (if y.1 > x.1 then x.1 else y.1, y.2.1 + x.2.1, y.2.2 + x.2.2) := by
          rw [e1]
          unfold gather
          rw [if_pos (by omega : y.1 ≠ -1), if_pos (by omega : x.1 ≠ -1)]
          dsimp only
          rw [if_pos (show (-1 : Int) = -1 ∨ (-1 : Int) > y.1 from .inl rfl)]
          refine Prod.ext ?_ (Prod.ext (by dsimp only; omega) (by dsimp only; omega))
          dsimp only
          by_cases h : y.1 > x.1
          · rw [if_pos (.inr h), if_pos h]
          · rw [if_neg (by omega), if_neg h]
        refine ⟨fun h => absurd hu h, ?_, ?_, fun i i1 i2 h => absurd h (ht i i1 i2), ?_⟩
        · intro _
          rw [e2]
          dsimp only
          by_cases h : y.1 > x.1
          · rw [if_pos h]
            refine ⟨(has_halves ht _).2 (.inl p1), fun k hk => ?_⟩
            rcases (has_halves ht k).1 hk with h | h
            · exact p2 k h
            · have := q2 k h; omega
          · rw [if_neg h]
            refine ⟨(has_halves ht _).2 (.inr q1), fun k hk => ?_⟩
            rcases (has_halves ht k).1 hk with h | h
            · have := p2 k h; omega
            · exact q2 k h
        · intro _
          rw [e2]
          dsimp only
          omega
        · intro _ _
          rw [e2, hx, hy]
          exact ⟨Int.add_comm _ _, Int.add_comm _ _⟩
      · have u1 : ¬ Used n t (2 * m) := fun ⟨_, j, j1, j2, hj⟩ => hu ⟨m1, j, j1, j2, Under.halves.2 (.inr (.inl hj))⟩
        have u2 : ¬ Used n t (2 * m + 1) := fun ⟨_, j, j1, j2, hj⟩ => hu ⟨m1, j, j1, j2, Under.halves.2 (.inr (.inr hj))⟩
        refine ⟨fun _ => (hnone u1 u2).trans e0, fun h => absurd h hu, fun h => absurd h hu, fun i i1 i2 h => absurd h (ht i i1 i2), fun h => absurd h hu⟩

end

end Scotch.Deco
