import Verif.Arch.LemmasDeco3

/-!
# C59 — Decomposition-defined architectures

An architecture built from the description of a tree of domains behaves as this tree, but for one routine.
-/

set_option autoImplicit false

namespace Scotch

open Deco ArchIO

theorem bisect_fixed (a : Deco) (f : Nat) : ∀ d, bisectAll (fixed a) f d = bisectAll (ops a) f d := by
  induction f with
  | zero => intro d; rfl
  | succ f ih =>
    intro d
    unfold bisectAll
    simp only [ih]
    rfl

section
variable {n max : Int} {t : Arr TermVert} {d : Arr Int}

/-- C59. Construction from a legal decomposition ends without fault. Domains are those of the tree: each is split in its two halves, which share out its processors, down to single processors; sizes and weights are sums over
processors; numbers of domains are the smallest numbers of their processors; the inclusion test means inclusion; distances are symmetric, those of processors are the given ones, and others are rounded averages of the distances of
halves. For the laws to hold, 1 must be added to the domain numbers that `archDecoDomTerm` gives (`fixed`), see `C59_term_not`. -/
theorem C59_deco_partial (L : Legal n max t d) : Holds (build n max t d) (fun a =>
    (∀ w, (∀ i, 0 ≤ i → i < n → w (t.get i).labl = (t.get i).wght) → ArchLaws (fixed a) n w (Used n t) (Has n t)) ∧
    Bisects (ops a) n ∧ InclLaw (ops a) (Used n t) (Has n t) ∧
    (∀ m, Used n t m → Holds ((ops a).num m) (fun k => ∀ k', Has n t m k' → k ≤ k')) ∧
    ∃ D, DistLaws n t d D ∧ ∀ i j, Used n t i → Used n t j → (ops a).dist i j = .ok (D i j)) := by
  refine Holds.mono (build_holds L) ?_
  intro a h
  refine ⟨fun w hw => (addLaws L h hw).laws, ?_, incl_law L a, ?_, _, h.distLaws L, ?_⟩
  · classical
    have B := (addLaws L h (w := fun k => if hk : ∃ i, 0 ≤ i ∧ i < n ∧ (t.get i).labl = k then (t.get hk.choose).wght else 0) (by
      intro i i1 i2
      have hk : ∃ j, 0 ≤ j ∧ j < n ∧ (t.get j).labl = (t.get i).labl := ⟨i, i1, i2, rfl⟩
      rw [dif_pos hk, L.other _ i hk.choose_spec.1 hk.choose_spec.2.1 i1 i2 hk.choose_spec.2.2])).laws.bisects
    unfold Bisects at B ⊢
    simp only [bisect_fixed] at B
    exact B
  · intro m hm
    show Holds (num a m) _
    unfold num
    rw [Arr.rd_ok _ (by rw [h.lo]; have := hm.1; omega) (by rw [h.hi]; have := hm.le L; omega)]
    exact ((h.data m hm.1 (hm.le L)).labl hm).2
  · intro i j hi hj
    exact distE_ok h.dlo h.dhi hi.1 (hi.le L) hj.1 (hj.le L)

/-- C59 is false of the routine that gives the domain of a processor from its number: it never gives the right domain, whatever the architecture and the processor. -/
theorem C59_term_not (L : Legal n max t d) : Holds (build n max t d) (fun a => ∀ k, 0 ≤ k → k < n →
    Holds ((ops a).term k) (fun r => ∃ v, r = some v ∧ ¬ (Used n t v ∧ ∀ j, Has n t v j ↔ j = k))) := by
  refine Holds.mono (build_holds L) ?_
  intro a h k k1 k2
  classical
  have A := (addLaws L h (w := fun k => if hk : ∃ i, 0 ≤ i ∧ i < n ∧ (t.get i).labl = k then (t.get hk.choose).wght else 0) (by
      intro i i1 i2
      have hk : ∃ j, 0 ≤ j ∧ j < n ∧ (t.get j).labl = (t.get i).labl := ⟨i, i1, i2, rfl⟩
      rw [dif_pos hk, L.other _ i hk.choose_spec.1 hk.choose_spec.2.1 i1 i2 hk.choose_spec.2.2])).term k k1 k2
  have A : Holds (do return (← term a k).map (· + 1)) (fun r => ∃ m, r = some m ∧ Used n t m ∧ (∀ j, Has n t m j ↔ j = k) ∧ ∀ m', Used n t m' → (∀ j, Has n t m' j ↔ j = k) → m' = m) := A
  rw [Holds_bind] at A
  refine Holds.mono A ?_
  rintro r ⟨m, e, -, -, hu⟩
  cases r with
  | none => cases e
  | some v =>
    refine ⟨v, rfl, fun ⟨h1, h2⟩ => ?_⟩
    have h3 := hu v h1 h2
    have h4 : v + 1 = m := Option.some.inj e
    omega

/-- C59. Distances between domains that have no processor in common lie between the smallest and the largest distance between processors. -/
theorem C59_bounds (L : Legal n max t d) {D : Int → Int → Int} (h : DistLaws n t d D) {lo hi : Int} (hd : ∀ i j, 0 ≤ j → j < i → i < n → lo ≤ given d i j ∧ given d i j ≤ hi)
    {x y : Int} (hx : Used n t x) (hy : Used n t y) (hno : ∀ k, ¬ (Has n t x k ∧ Has n t y k)) : lo ≤ D x y ∧ D x y ≤ hi := by
  suffices H : ∀ (f : Nat) (x y : Int), Used n t x → Used n t y → (∀ k, ¬ (Has n t x k ∧ Has n t y k)) → (max - x) + (max - y) ≤ f → lo ≤ D x y ∧ D x y ≤ hi from
    H ((max - x) + (max - y)).toNat x y hx hy hno (by have := hx.le L; have := hy.le L; omega)
  intro f
  induction f using Nat.strong_induction_on with
  | _ f ih =>
    intro x y hx hy hno hf
    have hxy : x ≠ y := by
      rintro rfl
      obtain ⟨-, i, i1, i2, hi⟩ := hx
      exact hno _ ⟨⟨i, i1, i2, hi, rfl⟩, ⟨i, i1, i2, hi, rfl⟩⟩
    have x1 := hx.1
    have y1 := hy.1
    have xm := hx.le L
    have ym := hy.le L
    have sub : ∀ {m c k : Int}, (c = m ∨ c = 2 * m ∨ c = 2 * m + 1) → Has n t c k → Has n t m k := by
      rintro m c k hc ⟨i, i1, i2, hi, e⟩
      refine ⟨i, i1, i2, ?_, e⟩
      rcases hc with rfl | rfl | rfl
      · exact hi
      · exact Under.halves.2 (.inr (.inl hi))
      · exact Under.halves.2 (.inr (.inr hi))
    have step : ∀ x' y', (x' = x ∨ x' = 2 * x ∨ x' = 2 * x + 1) → (y' = y ∨ y' = 2 * y ∨ y' = 2 * y + 1) → x + y < x' + y' → Used n t x' → Used n t y' → lo ≤ D x' y' ∧ D x' y' ≤ hi := by
      intro x' y' hx' hy' hlt u v
      have := u.le L
      have := v.le L
      exact ih ((max - x') + (max - y')).toNat (by omega) x' y' u v (fun k hk => hno k ⟨sub hx' hk.1, sub hy' hk.2⟩) (by omega)
    by_cases tx : ∃ i, 0 ≤ i ∧ i < n ∧ (t.get i).num = x
    · obtain ⟨i, i1, i2, rfl⟩ := tx
      by_cases ty : ∃ j, 0 ≤ j ∧ j < n ∧ (t.get j).num = y
      · obtain ⟨j, j1, j2, rfl⟩ := ty
        rcases Int.lt_trichotomy i j with hij | hij | hij
        · rw [h.symm, h.term j i i1 hij j2]
          exact hd j i i1 hij j2
        · exact absurd (by rw [hij]) hxy
        · rw [h.term i j j1 hij i2]
          exact hd i j j1 hij i2
      · have ty : ∀ j, 0 ≤ j → j < n → (t.get j).num ≠ y := fun j j1 j2 e => ty ⟨j, j1, j2, e⟩
        obtain ⟨u1, u2⟩ := L.full y hy ty
        have e := h.one y i hy (fun e => hxy e.symm) i1 i2 ty
        have s1 := step _ (2 * y) (.inl rfl) (.inr (.inl rfl)) (by omega) hx u1
        have s2 := step _ (2 * y + 1) (.inl rfl) (.inr (.inr rfl)) (by omega) hx u2
        rw [h.symm, e]
        rw [h.symm] at s1 s2
        omega
    · have tx : ∀ j, 0 ≤ j → j < n → (t.get j).num ≠ x := fun j j1 j2 e => tx ⟨j, j1, j2, e⟩
      obtain ⟨u1, u2⟩ := L.full x hx tx
      by_cases ty : ∃ j, 0 ≤ j ∧ j < n ∧ (t.get j).num = y
      · obtain ⟨j, j1, j2, rfl⟩ := ty
        have e := h.one x j hx hxy j1 j2 tx
        have s1 := step (2 * x) _ (.inr (.inl rfl)) (.inl rfl) (by omega) u1 hy
        have s2 := step (2 * x + 1) _ (.inr (.inr rfl)) (.inl rfl) (by omega) u2 hy
        rw [e]
        omega
      · have ty : ∀ j, 0 ≤ j → j < n → (t.get j).num ≠ y := fun j j1 j2 e => ty ⟨j, j1, j2, e⟩
        obtain ⟨v1, v2⟩ := L.full y hy ty
        have e := h.both x y hx hy hxy tx ty
        have s1 := step (2 * x) (2 * y) (.inr (.inl rfl)) (.inr (.inl rfl)) (by omega) u1 v1
        have s2 := step (2 * x) (2 * y + 1) (.inr (.inl rfl)) (.inr (.inr rfl)) (by omega) u1 v2
        have s3 := step (2 * x + 1) (2 * y) (.inr (.inr rfl)) (.inr (.inl rfl)) (by omega) u2 v1
        have s4 := step (2 * x + 1) (2 * y + 1) (.inr (.inr rfl)) (.inr (.inr rfl)) (by omega) u2 v2
        rw [e]
        omega

end

/-! ## Three processors: domain 1 is made of domain 2 and of processor 2; domain 2 is made of processors 0 and 1 -/

def decoT : Arr TermVert := ⟨0, 3, fun i => if i = 0 then ⟨1, 7, 5⟩ else if i = 1 then ⟨2, 8, 3⟩ else ⟨0, 9, 4⟩⟩

def decoD : Arr Int := Arr.ofList 0 [4, 2, 6]

theorem under_of {m k : Int} (hm : 1 ≤ m) (hk : 1 ≤ k) (h : incl m k = .ok true) : Under m k := ((incl_spec hm hk).elim h).1 rfl

theorem not_under {m k : Int} (hm : 1 ≤ m) (hk : 1 ≤ k) (h : incl m k = .ok false) : ¬ Under m k := fun hu => by
  have := ((incl_spec hm hk).elim h).2 hu
  cases this

theorem deco_legal : Legal 3 5 decoT decoD := by
  have h3 : ∀ i : Int, 0 ≤ i → i < 3 → i = 0 ∨ i = 1 ∨ i = 2 := by intro i h1 h2; omega
  refine ⟨by decide, by decide, by decide, ?_, ?_, ?_, ?_, ?_⟩
  · intro i i1 i2
    rcases h3 i i1 i2 with rfl | rfl | rfl <;> decide
  · intro i j i1 i2 j1 j2
    rcases h3 i i1 i2 with rfl | rfl | rfl <;> rcases h3 j j1 j2 with rfl | rfl | rfl <;> decide
  · intro i i1 i2
    rcases h3 i i1 i2 with rfl | rfl | rfl <;> decide
  · intro i j i1 i2 j1 j2 h
    rcases h3 i i1 i2 with rfl | rfl | rfl <;> rcases h3 j j1 j2 with rfl | rfl | rfl <;>
      first | rfl | exact absurd h (not_under (by decide) (by decide) (by decide +kernel))
  · rintro m ⟨m1, i, i1, i2, h⟩ hno
    have hle := h.le m1
    have : m ≤ 5 := by rcases h3 i i1 i2 with rfl | rfl | rfl <;> exact Int.le_trans hle (by decide)
    have h5 := hno 0 (by decide) (by decide)
    have h4 := hno 1 (by decide) (by decide)
    have h6 := hno 2 (by decide) (by decide)
    have h5 : (5 : Int) ≠ m := h5
    have h4 : (3 : Int) ≠ m := h4
    have h6 : (4 : Int) ≠ m := h6
    rcases (by omega : m = 1 ∨ m = 2) with rfl | rfl
    · exact ⟨⟨by decide, 0, by decide, by decide, under_of (by decide) (by decide) (by decide +kernel)⟩, ⟨by decide, 1, by decide, by decide, under_of (by decide) (by decide) (by decide +kernel)⟩⟩
    · exact ⟨⟨by decide, 2, by decide, by decide, under_of (by decide) (by decide) (by decide +kernel)⟩, ⟨by decide, 0, by decide, by decide, under_of (by decide) (by decide) (by decide +kernel)⟩⟩

example : Holds (build 3 5 decoT decoD) (fun a => Bisects (ops a) 3) := Holds.mono (C59_deco_partial deco_legal) fun _ h => h.2.1

/-- What is built: processors 0, 1 and 2 are domains 4, 5 and 3. -/
example : (do let a ← build 3 5 decoT decoD; pure (a.domverttab.toList, a.domdisttab.toList)) =
    .ok ([(0, 3, 24), (0, 2, 16), (2, 1, 8), (0, 1, 9), (1, 1, 7)], [3, 3, 5, 4, 1, 6, 3, 1, 4, 2, 0]) := by decide +kernel

/-- The domains that are given for processors 0, 1 and 2 are those of processor 2, of processor 0, and of processors 0 and 1. -/
example : (do let a ← build 3 5 decoT decoD; pure [← (ops a).term 0, ← (ops a).term 1, ← (ops a).term 2]) = .ok [some 3, some 4, some 2] := by decide +kernel

/-- With a single processor, the number that is given is 0, which is not a domain: its data is out of the array. -/
theorem C59_term_oob : (do let a ← build 1 1 ⟨0, 1, fun _ => ⟨0, 1, 1⟩⟩ ⟨0, 0, fun _ => 0⟩; match ← (ops a).term 0 with | none => pure 0 | some v => (ops a).size v) = .error .oob := by decide +kernel

end Scotch
