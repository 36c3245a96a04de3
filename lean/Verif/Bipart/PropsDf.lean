import Verif.Bipart.PropsBd

/-!
# C28 — diffusion

`DfEnv` gives the number of threads, the floating-point operations, which are arbitrary, and the contents of allocated memory.
-/

set_option autoImplicit false

namespace Scotch.Bipart
open Graph

/-! ## Theorem -/

/-- Whatever the number of threads, the floating-point operations and the number of passes, diffusion gives a valid bipartition and does not change the problem, when there are at least two vertices, edge loads are positive, and
no value is not a number. -/
theorem C28_df_partial (max : Int) (env : Path → DfEnv) (hn : ∀ p, 1 ≤ (env p).thrdnbr) (hnan : ∀ p x, (env p).flo.isnan x = false) (para : DfParam) :
    BipMethod ⟨max, true, true⟩ true (fun _ p b => do return (0, ← bipartDf (env p) para b)) := by
  intro p b R V
  refine Ends.bind (Ends.of_holds (bipartDf_holds (consE_iff.2 R.cons) R.alloc (R.anch rfl) (R.pos rfl) (hn p) (hnan p) para)) ?_
  rintro b' ⟨h1, h2⟩
  exact Ends.pure ⟨h1, fun _ => rfl, fun _ => h2⟩

/-! ## Case -/

/-- Diffusion on a band graph, followed by refinement. -/
def exDf : BStrat := .bd 1 (.concat (.df ⟨5, false⟩) (.fm ⟨10, -1⟩)) .empty

example : exEnvR.Ok ⟨100, true, false⟩ ∧ BGood ⟨100, true, false⟩ true exDf := ⟨exEnvR_ok true false, rfl, ⟨⟨rfl, rfl⟩, (by decide : (0 : Int) ≤ 10)⟩, trivial⟩

/-- Two vertices, linked to anchors 3 and 4 and to each other; `a` is the load of the edge between them. -/
def exDG (a : Int) : Graph :=
  { baseval := 1, vertnbr := 4, vertnnd := 5, verttax := Arr.ofList 1 [1, 3, 5, 6, 7], vendtax := none, velotax := none, velosum := 4, vnumtax := none, vlbltax := none, edgenbr := 6,
    edgetax := Arr.ofList 1 [2, 3, 1, 4, 1, 2], edlotax := some (Arr.ofList 1 [a, 1, a, 1, 1, 1]), edlosum := 2 * a + 4, degrmax := 2 }

/-- All vertices are in part 0. -/
def exDB (g : Graph) : Bgraph :=
  { s := g, veextax := none, parttax := Arr.ofList 1 [0, 0, 0, 0], frontab := Arr.ofList 0 [0, 0, 0, 0], fronnbr := 0, compload0min := 1, compload0max := 3, compload0avg := g.velosum / 2, compload0dlt := g.velosum - g.velosum / 2,
    compload0 := g.velosum, compsize0 := g.vertnbr, commload := 0, commloadextn0 := 0, commgainextn0 := 0, commgainextn := 0, domndist := 1, domnwght0 := 1, domnwght1 := 1, vfixload0 := 0, vfixload1 := 0 }

theorem exDB_valid (g : Graph) (hb : g.baseval = 1) (hn : g.vertnnd ≤ 5) (hs : g.vertnbr ≤ 4) (hc : g.Consistent) (ha : g.Allocated) (h : check exAvg (exDB g) = .ok true) : Alloc (exDB g) ∧ Valid (exDB g) := by
  have A : Alloc (exDB g) := ⟨ha, ⟨by rw [show (exDB g).s = g from rfl, hb]; exact Int.le_refl 1, hn⟩, ⟨Int.le_refl 0, hs⟩, fun _ h => by cases h⟩
  refine ⟨A, ?_⟩
  have hk := C28_check exAvg (exDB g) hc A ?_
  · exact ((Holds.elim hk h).1 rfl).1
  · rintro v ⟨h1, h2⟩
    rw [show (exDB g).s = g from rfl, hb] at h1
    rw [show (exDB g).s = g from rfl] at h2
    rcases (by omega : v = 1 ∨ v = 2 ∨ v = 3 ∨ v = 4) with rfl | rfl | rfl | rfl <;> simp [exDB, Bgraph.part, Arr.ofList]

theorem exDG_loaded : Loaded (exDG 1) := by
  rintro v e ⟨h1, h2⟩ h3 h4
  change 1 ≤ v at h1
  change v < 5 at h2
  have e1 : 1 ≤ (exDG 1).vert v ∧ (exDG 1).vend v ≤ 7 := by
    rcases (by omega : v = 1 ∨ v = 2 ∨ v = 3 ∨ v = 4) with rfl | rfl | rfl | rfl <;> decide
  rcases (by omega : e = 1 ∨ e = 2 ∨ e = 3 ∨ e = 4 ∨ e = 5 ∨ e = 6) with rfl | rfl | rfl | rfl | rfl | rfl <;> decide

theorem exDB_ready (a : Int) (hc : (exDG a).Consistent) (ha : (exDG a).Allocated) (h : check exAvg (exDB (exDG a)) = .ok true) (pos : Bool) (hp : pos = true → Loaded (exDG a)) :
    Ready ⟨100, pos, true⟩ (exDB (exDG a)) ∧ Valid (exDB (exDG a)) := by
  obtain ⟨A, V⟩ := exDB_valid (exDG a) rfl (Int.le_refl _) (Int.le_refl _) hc ha h
  exact ⟨⟨hc, A, by show (0 : Int) ≤ 1; decide, by show (0 : Int) < 4; decide, by show (5 : Int) ≤ 100; decide, by show (0 : Int) ≤ 1; decide,
    by show (0 : Int) = sumI 1 5 (fun _ => 0); decide +kernel, rfl, by show (0 : Int) ≤ 4 / 2; decide, hp, fun _ => by show (2 : Int) ≤ 4; decide⟩, V⟩

example : Ready ⟨100, true, true⟩ (exDB (exDG 1)) ∧ Valid (exDB (exDG 1)) :=
  exDB_ready 1 (consB_sound (by decide +kernel)) (allocB_sound (by decide +kernel)) (by decide +kernel) true (fun _ => exDG_loaded)

set_option maxRecDepth 100000 in
/-- Vertices 2 and 4 go to part 1, with two threads. -/
example : (bipartDf (exEnv.df []) ⟨5, true⟩ (exDB (exDG 1))).map show' = .ok [0, 1, 0, 1, 2, 2, 0, 2, 1, 0] := by decide +kernel

set_option maxRecDepth 100000 in
example : (bipartSt exEnvR 30 exDf [] (exH 1)).map (fun r => (r.1, show' r.2)) = .ok (0, [0, 1, 1, 1, 1, 1, 0, 0, 0, 4, 4, 0, 4, 4, 0]) := by decide +kernel

/-! ## Disagreements -/

set_option maxRecDepth 100000 in
/-- When an edge has load zero, the frontier may miss vertices: a vertex is only put in the frontier when the sum of the loads of its edges that are cut is not zero (bgraph_bipart_df.c:438). No error is reported. -/
theorem C28_df_wrong : ∃ b, Ready ⟨100, false, true⟩ b ∧ Valid b ∧ ∃ b', bipartDf (exEnv.df []) ⟨5, true⟩ b = .ok b' ∧ ¬ Valid b' := by
  obtain ⟨R, V⟩ := exDB_ready 0 (consB_sound (by decide +kernel)) (allocB_sound (by decide +kernel)) (by decide +kernel) false (fun h => by cases h)
  refine ⟨_, R, V, ?_⟩
  have h : (bipartDf (exEnv.df []) ⟨5, true⟩ (exDB (exDG 0))).map (fun r => decide (r.fronnbr = 0 ∧ r.s.nbrs 1 = [(2, 0), (3, 1)] ∧ r.part 1 = 0 ∧ r.part 2 = 1 ∧ r.s.baseval = 1 ∧ r.s.vertnnd = 5)) = .ok true := by decide +kernel
  generalize bipartDf (exEnv.df []) ⟨5, true⟩ (exDB (exDG 0)) = x at h
  cases x with
  | error e => cases h
  | ok b' =>
    obtain ⟨h1, h4, h5, h6, h7, h8⟩ := of_decide_eq_true (by injection h : decide _ = true)
    refine ⟨b', rfl, fun V => ?_⟩
    have hf : Frontier b'.s b'.part 1 := by
      refine ⟨⟨by omega, by omega⟩, (2, 0), by rw [h4]; simp, ?_⟩
      change b'.part 2 ≠ b'.part 1
      rw [h5, h6]; decide
    obtain ⟨i, i1, i2, i3⟩ := (V.fron.2.2 1).1 hf
    omega

/-- Multiples of 1/1000, two infinite values (`true` for the negative one), and a value that is not a number. -/
inductive Ext where
  | fin (x : Int)
  | inf (neg : Bool)
  | nan

/-- Sum, as in IEEE 754. -/
def Ext.add : Ext → Ext → Ext
  | .fin x, .fin y => .fin (x + y)
  | .fin _, .inf s => .inf s
  | .inf s, .fin _ => .inf s
  | .inf s, .inf t => if s = t then .inf s else .nan
  | _, _ => .nan

def Ext.neg : Ext → Ext
  | .fin x => .fin (- x)
  | .inf s => .inf (!s)
  | .nan => .nan

/-- Product, as in IEEE 754: zero times an infinite value is not a number. -/
def Ext.mul : Ext → Ext → Ext
  | .fin x, .fin y => .fin (x * y / 1000)
  | .fin x, .inf s => if x = 0 then .nan else .inf (s != decide (x < 0))
  | .inf s, .fin x => if x = 0 then .nan else .inf (s != decide (x < 0))
  | .inf s, .inf t => .inf (s != t)
  | _, _ => .nan

/-- Quotient, as in IEEE 754; zero has no sign. -/
def Ext.div : Ext → Ext → Ext
  | .fin x, .fin y => if y = 0 then (if x = 0 then .nan else .inf (decide (x < 0))) else .fin (1000 * x / y)
  | .fin _, .inf _ => .fin 0
  | .inf s, .fin x => .inf (s != decide (x < 0))
  | _, _ => .nan

def Ext.le0 : Ext → Bool
  | .fin x => decide (x ≤ 0)
  | .inf s => s
  | .nan => false

def Ext.ge0 : Ext → Bool
  | .fin x => decide (0 ≤ x)
  | .inf s => !s
  | .nan => false

def Ext.isNan : Ext → Bool
  | .nan => true
  | _ => false

def exExt : Flo :=
  { F := Ext, ofInt := fun i => .fin (1000 * i), eps := .fin 1, neg := Ext.neg, add := Ext.add, sub := fun x y => x.add y.neg, mul := Ext.mul, div := Ext.div, le0 := Ext.le0, ge0 := Ext.ge0, isnan := Ext.isNan }

/-- The only edge of vertex 1, to the last vertex, has load zero. -/
def exDN : Graph :=
  { baseval := 1, vertnbr := 3, vertnnd := 4, verttax := Arr.ofList 1 [1, 2, 3, 5], vendtax := none, velotax := none, velosum := 3, vnumtax := none, vlbltax := none, edgenbr := 4,
    edgetax := Arr.ofList 1 [3, 3, 1, 2], edlotax := some (Arr.ofList 1 [0, 1, 0, 1]), edlosum := 2, degrmax := 2 }

set_option maxRecDepth 100000 in
/-- When all edges of a vertex have load zero, its value becomes infinite, and the one of its neighbours is not a number. If one of them is the last vertex, memory is then accessed after the end of arrays (bgraph_bipart_df.c:356–364). -/
theorem C28_df_nan_wrong : ∃ b, Ready ⟨100, false, true⟩ b ∧ Valid b ∧ bipartDf ⟨1, exExt, fun _ => .fin 0, fun _ => .fin 0, fun _ _ => .fin 0, fun _ _ => 0⟩ ⟨5, true⟩ b = .error .oob := by
  have C : exDN.Consistent := consB_sound (by decide +kernel)
  obtain ⟨A, V⟩ := exDB_valid exDN rfl (by decide) (by decide) C (allocB_sound (by decide +kernel)) (by decide +kernel)
  refine ⟨exDB exDN, ⟨C, A, by decide, by decide, by decide, by decide, by decide +kernel, rfl, by decide, (fun h => by cases h), fun _ => by decide⟩, V, ?_⟩
  have h : (bipartDf ⟨1, exExt, fun _ => .fin 0, fun _ => .fin 0, fun _ _ => .fin 0, fun _ _ => 0⟩ ⟨5, true⟩ (exDB exDN)).map (fun _ => ()) = .error .oob := by decide +kernel
  generalize bipartDf ⟨1, exExt, fun _ => .fin 0, fun _ => .fin 0, fun _ _ => .fin 0, fun _ _ => 0⟩ ⟨5, true⟩ (exDB exDN) = x at h ⊢
  cases x with
  | error e => injection h with h; rw [h]
  | ok b' => cases h

end Scotch.Bipart
