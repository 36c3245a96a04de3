import Verif.Arch.ModelMatch
import Verif.Arch.Domains

/-!
# Matchings of architectures: specification
-/

set_option autoImplicit false

namespace Scotch.Arch

/-- The first `m` cells of an array match the vertices `[0, n)`: each vertex belongs to exactly one coarse vertex, and coarse
vertices are made of one or two vertices. -/
structure Matched (n m : Int) (a : Arr Multi) : Prop where
  range : ∀ c, 0 ≤ c → c < m → (0 ≤ (a.get c).1 ∧ (a.get c).1 < n) ∧ 0 ≤ (a.get c).2 ∧ (a.get c).2 < n
  once : ∀ v, 0 ≤ v → v < n → ∃ c, 0 ≤ c ∧ c < m ∧ ((a.get c).1 = v ∨ (a.get c).2 = v) ∧
    ∀ c', 0 ≤ c' → c' < m → ((a.get c').1 = v ∨ (a.get c').2 = v) → c' = c

/-- A routine that coarsens by matchings: when there are several vertices, a call gives a matching, of which the coarse vertices become the vertices to
match; calls lead to a single vertex, within a number of calls bounded by `μ`. `Inv s n` says that `s` is a state of the routine when there are `n` vertices. -/
structure Matcher {σ : Type} (mate : σ → M (Int × σ)) (mult : σ → Arr Multi) (Inv : σ → Int → Prop) (μ : σ → Nat) : Prop where
  pos : ∀ s n, Inv s n → 1 ≤ n
  step : ∀ s n, Inv s n → 1 < n → Holds (mate s) (fun r => r.1 ≤ n ∧ Matched n r.1 (mult r.2) ∧ Inv r.2 r.1 ∧ μ r.2 < μ s ∧ (mult r.2).lo ≤ 0 ∧ r.1 ≤ (mult r.2).hi)

/-- A routine that tells when there is a single vertex left. -/
def Stops {σ : Type} (mate : σ → M (Int × σ)) (Inv : σ → Int → Prop) : Prop :=
  ∀ s, Inv s 1 → Holds (mate s) (fun r => r.1 = -1)

/-- Repeated calls of a routine, from a state for `n` vertices: each call gives a matching that has fewer coarse vertices, down to a single vertex; then
the routine returns `-1`. -/
inductive Coarsens {σ : Type} (mate : σ → M (Int × σ)) (mult : σ → Arr Multi) : σ → Int → Prop
  | done (s s' : σ) : mate s = .ok (-1, s') → Coarsens mate mult s 1
  | step (s s' : σ) (n r : Int) : mate s = .ok (r, s') → 1 ≤ r → r < n → Matched n r (mult s') → Coarsens mate mult s' r → Coarsens mate mult s n

/-- The same, when a call may leave the number of vertices unchanged; there are finitely many calls. -/
inductive CoarsensW {σ : Type} (mate : σ → M (Int × σ)) (mult : σ → Arr Multi) : σ → Int → Prop
  | done (s : σ) : CoarsensW mate mult s 1
  | step (s s' : σ) (n r : Int) : mate s = .ok (r, s') → 1 ≤ r → r ≤ n → Matched n r (mult s') → CoarsensW mate mult s' r → CoarsensW mate mult s n

/-- Coarse vertices of a matching, as a list, for examples. -/
def cellsOf (x : M (Int × Arr Multi)) : Option (List Multi) :=
  match x with
  | .ok (r, a) => some ((List.range r.toNat).map fun c => a.get c)
  | .error _ => none

end Scotch.Arch
