import Verif.Arch.LemmasVar
import Verif.Arch.LemmasCmpltw
import Verif.Arch.LemmasTleaf2

/-!
# Target architectures: properties C06 to C12

`ArchLaws`, `InclLaw`, `DistLaw`, `NumberLaws` and `Bisects` are defined in `Arch/Spec.lean`, and the
meaning of the domains of each class, `Valid` and `Has`, in `Arch/Domains.lean`.
-/

set_option autoImplicit false

namespace Scotch
open Arch ArchSpec

/-! ## C06: complete graphs -/

/-- **C06.** Splitting a domain of a complete graph shares out its processors between two non-empty
domains, and is refused exactly for single processors; sizes are numbers of processors. Hence recursive
bisection reaches every processor exactly once. -/
theorem C06_cmplt (n : Int) (hn : 1 ≤ n) :
    ArchLaws (Cmplt.ops n) n (fun _ => 1) (Cmplt.Valid n) Cmplt.Has ∧ Bisects (Cmplt.ops n) n :=
  ⟨(Cmplt.addLaws n hn).laws, (Cmplt.addLaws n hn).laws.bisects⟩

example : (do bisectAll (Cmplt.ops 5) 5 (← (Cmplt.ops 5).frst)) = .ok [0, 1, 2, 3, 4] := by decide +kernel

/-- **C06.** Weighted complete graphs: construction from an array of weights fails exactly when there is no
processor or some weight is not positive; otherwise splitting is exact, weights being the sums of the
weights of the processors of domains. Number of processors below `2 ^ 31`, so that the sorting stack
suffices. -/
theorem C06_cmpltw (n : Int) (velotab : Arr Int) (junk : Int → Cmpltw.Rec) (hlo : velotab.lo ≤ 0)
    (hhi : n ≤ velotab.hi) (hmax : n < 2 ^ 31) :
    Holds (Cmpltw.build n velotab junk) (fun r => match r with
    | none => n ≤ 0 ∨ ∃ k, 0 ≤ k ∧ k < n ∧ velotab.get k ≤ 0
    | some a => (0 < n ∧ ∀ k, 0 ≤ k → k < n → 0 < velotab.get k) ∧
        ArchLaws (Cmpltw.ops a) n velotab.get (Cmpltw.Valid a) (Cmpltw.Has a) ∧ Bisects (Cmpltw.ops a) n) := by
  refine (Cmpltw.build_spec n velotab junk hlo hhi hmax).mono ?_
  intro r hr
  cases r with
  | none => exact hr
  | some a =>
    obtain ⟨rfl, hw⟩ := hr
    exact ⟨⟨by have := hw.nbr; omega, hw.pos⟩, (Cmpltw.addLaws hw).laws, (Cmpltw.addLaws hw).laws.bisects⟩

/-- Construction and recursive bisection of a weighted complete graph, for examples. -/
def Arch.Cmpltw.buildAndSplit (l : List Int) : M (List Int) := do
  match ← Cmpltw.build l.length (Arr.ofList 0 l) (fun _ => (0, 0)) with
  | none => return []
  | some a => bisectAll (Cmpltw.ops a) l.length (← (Cmpltw.ops a).frst)

example : Cmpltw.buildAndSplit [2, 5, 1, 1, 3] = .ok [3, 1, 4, 2, 0] := by decide +kernel
example : Cmpltw.buildAndSplit [2, 0, 1] = .ok [] := by decide +kernel

/-- **C06.** Variable-sized complete graphs and hypercubes, the number of processors of which is not
bounded: splitting a domain gives two domains which share out its processors, at whatever depth the
architecture is cut. The last hypothesis excludes integer overflow, see `C06_var_overflow`. -/
theorem C06_var (numMax : Nat) (d : Var.Dom) (hv : Var.Valid d) (h : 2 * d.termnum + 1 ≤ numMax) :
    Holds (Var.bipart numMax d) (fun r => ∃ d0 d1, r = some (d0, d1) ∧ Var.Valid d0 ∧ Var.Valid d1 ∧
      d0.termlvl = d.termlvl + 1 ∧ d1.termlvl = d.termlvl + 1 ∧
      ∀ L, d.termlvl < L →
        (∀ k, Var.Has L d k ↔ Var.Has L d0 k ∨ Var.Has L d1 k) ∧ ∀ k, ¬ (Var.Has L d0 k ∧ Var.Has L d1 k)) :=
  Var.bipart_spec numMax d hv h

example : Var.Valid ⟨3, 13⟩ ∧ 2 * 13 + 1 ≤ 2 ^ 31 - 1 ∧
    Var.bipart (2 ^ 31 - 1) ⟨3, 13⟩ = .ok (some (⟨4, 26⟩, ⟨4, 27⟩)) := by
  unfold Var.Valid; decide +kernel

/-- The test of `archVcmpltDomBipart` for domains that are too deep comes after the computation: such
domains make the computation overflow. -/
theorem C06_var_overflow (numMax : Nat) (d : Var.Dom) :
    Var.bipart numMax d = .error .overflow ↔ numMax < 2 * d.termnum + 1 :=
  Var.bipart_ub numMax d

example : Var.Valid ⟨30, 2 ^ 30⟩ ∧ Var.bipart (2 ^ 31 - 1) ⟨30, 2 ^ 30⟩ = .error .overflow := by
  unfold Var.Valid; decide +kernel

/-! ## C07: hypercubes -/

/-- **C07.** For hypercubes, up to 30 dimensions, splitting is exact, and the distance between processors
is the number of bits by which they differ, which is a distance. -/
theorem C07_hcub (n : Nat) (hn : n ≤ 30) :
    ArchLaws (Hcub.ops n) (2 ^ n) (fun _ => 1) (Hcub.Valid n) Hcub.Has ∧ Bisects (Hcub.ops n) (2 ^ n) ∧
    DistLaw (Hcub.ops n) (2 ^ n) (fun a b => (hamming n a.toNat b.toNat : Int)) ∧
    IsMetric (2 ^ n) (fun a b => (hamming n a.toNat b.toNat : Int)) :=
  ⟨(Hcub.addLaws n hn).laws, (Hcub.addLaws n hn).laws.bisects, Hcub.dist_spec n hn, Hcub.hamming_metric n⟩

example : (do bisectAll (Hcub.ops 2) 4 (← (Hcub.ops 2).frst)) = .ok [0, 1, 2, 3] := by decide +kernel
example : hamming 5 0b10110 0b00011 = 3 := by decide +kernel

/-- **C07, negation beyond 30 dimensions.** The reader accepts 31 and 32 dimensions on 32-bit integers, but
then the routines evaluate shifts that are not defined, even on the first domain and on processor 0. -/
theorem C07_hcub_accepts_too_much :
    Hcub.archAccepts 32 31 = true ∧ Hcub.archAccepts 32 32 = true ∧
    (Hcub.ops 31).term 0 = .error .shift ∧
    (do (Hcub.ops 31).size (← (Hcub.ops 31).frst)) = .error .shift ∧
    (do (Hcub.ops 32).bipart (← (Hcub.ops 32).frst)) = .error .shift := by decide +kernel

/-- **C07.** Variable-sized hypercubes: the distance between processors of the same depth is the number
of bits by which they differ. -/
theorem C07_vhcub_dist (L : Nat) (d0 d1 : Var.Dom) (h0 : Var.Valid d0) (h1 : Var.Valid d1) (e0 : d0.termlvl = L)
    (e1 : d1.termlvl = L) : Var.distH d0 d1 = .ok (hamming (L + 1) d0.termnum d1.termnum) :=
  Var.distH_spec L d0 d1 h0 h1 e0 e1

example : Var.Valid ⟨3, 13⟩ ∧ Var.Valid ⟨3, 10⟩ ∧ Var.distH ⟨3, 13⟩ ⟨3, 10⟩ = .ok 3 := by
  unfold Var.Valid; decide +kernel

/-! ## C08: meshes and tori -/

/-- **C08.** Splitting of boxes is exact, for meshes and tori of any number of dimensions. -/
theorem C08_meshX (cs : List Int) (hne : cs ≠ []) (hp : Mesh.Pos cs) :
    ArchLaws (Mesh.opsX cs) (Mesh.total cs) (fun _ => 1) (Mesh.Valid cs) (Mesh.Has cs) ∧
    Bisects (Mesh.opsX cs) (Mesh.total cs) ∧
    ArchLaws (Mesh.opsTX cs) (Mesh.total cs) (fun _ => 1) (Mesh.Valid cs) (Mesh.Has cs) ∧
    Bisects (Mesh.opsTX cs) (Mesh.total cs) :=
  have h := Mesh.addLawsX cs hne hp
  have h' := h.withDist (Mesh.distX cs)
  ⟨h.laws, h.laws.bisects, h'.laws, h'.laws.bisects⟩

example : Mesh.Pos [3, 2] ∧ (do bisectAll (Mesh.opsX [3, 2]) 6 (← (Mesh.opsX [3, 2]).frst)) =
    .ok [0, 3, 1, 4, 2, 5] := by
  refine ⟨⟨by decide, by decide, trivial⟩, by decide +kernel⟩

/-- **C08.** Same for the two-dimensional classes. -/
theorem C08_mesh2 (c0 c1 : Int) (h0 : 1 ≤ c0) (h1 : 1 ≤ c1) :
    ArchLaws (Mesh.ops2 c0 c1) (c0 * c1) (fun _ => 1) (Mesh.Valid [c0, c1]) (Mesh.Has [c0, c1]) ∧
    Bisects (Mesh.ops2 c0 c1) (c0 * c1) ∧
    ArchLaws (Mesh.opsT2 c0 c1) (c0 * c1) (fun _ => 1) (Mesh.Valid [c0, c1]) (Mesh.Has [c0, c1]) ∧
    Bisects (Mesh.opsT2 c0 c1) (c0 * c1) := by
  have h := Mesh.addLaws2 c0 c1 h0 h1
  have h' := h.withDist (Mesh.torusDist2 c0 c1)
  have e : Mesh.total [c0, c1] = c0 * c1 := by simp [Mesh.total]
  rw [e] at h h'
  exact ⟨h.laws, h.laws.bisects, h'.laws, h'.laws.bisects⟩

example : (do bisectAll (Mesh.ops2 3 2) 6 (← (Mesh.ops2 3 2).frst)) = .ok [0, 3, 1, 4, 2, 5] := by
  decide +kernel

/-- **C08.** Same for the three-dimensional classes. -/
theorem C08_mesh3 (c0 c1 c2 : Int) (h0 : 1 ≤ c0) (h1 : 1 ≤ c1) (h2 : 1 ≤ c2) :
    ArchLaws (Mesh.ops3 c0 c1 c2) (c0 * (c1 * c2)) (fun _ => 1) (Mesh.Valid [c0, c1, c2]) (Mesh.Has [c0, c1, c2]) ∧
    Bisects (Mesh.ops3 c0 c1 c2) (c0 * (c1 * c2)) ∧
    ArchLaws (Mesh.opsT3 c0 c1 c2) (c0 * (c1 * c2)) (fun _ => 1) (Mesh.Valid [c0, c1, c2]) (Mesh.Has [c0, c1, c2]) ∧
    Bisects (Mesh.opsT3 c0 c1 c2) (c0 * (c1 * c2)) := by
  have h := Mesh.addLaws3 c0 c1 c2 h0 h1 h2
  have h' := h.withDist (Mesh.torusDist3 c0 c1 c2)
  have e : Mesh.total [c0, c1, c2] = c0 * (c1 * c2) := by simp [Mesh.total]
  rw [e] at h h'
  exact ⟨h.laws, h.laws.bisects, h'.laws, h'.laws.bisects⟩

example : (do bisectAll (Mesh.ops3 2 2 2) 8 (← (Mesh.ops3 2 2 2).frst)) = .ok [0, 4, 2, 6, 1, 5, 3, 7] := by
  decide +kernel

/-! ## C09: distances in meshes and tori -/

/-- **C09.** Distances between processors of 2D and 3D meshes are grid distances. -/
theorem C09_mesh_dist (c0 c1 c2 : Int) (h0 : 1 ≤ c0) (h1 : 1 ≤ c1) (h2 : 1 ≤ c2) :
    DistLaw (Mesh.ops2 c0 c1) (Mesh.total [c0, c1]) (manhattan [c0, c1]) ∧
    DistLaw (Mesh.ops3 c0 c1 c2) (Mesh.total [c0, c1, c2]) (manhattan [c0, c1, c2]) :=
  ⟨Mesh.dist2_spec c0 c1 h0 h1, Mesh.dist3_spec c0 c1 c2 h0 h1 h2⟩

example : manhattan [4, 3] 0 11 = 5 := by decide +kernel

/-- **C09.** Distances between processors of tori are grid distances with wrap-around. -/
theorem C09_torus_dist (c0 c1 c2 : Int) (cs : List Int) (h0 : 1 ≤ c0) (h1 : 1 ≤ c1) (h2 : 1 ≤ c2)
    (hp : Mesh.Pos cs) :
    DistLaw (Mesh.opsT2 c0 c1) (Mesh.total [c0, c1]) (torus [c0, c1]) ∧
    DistLaw (Mesh.opsT3 c0 c1 c2) (Mesh.total [c0, c1, c2]) (torus [c0, c1, c2]) ∧
    DistLaw (Mesh.opsTX cs) (Mesh.total cs) (torus cs) :=
  ⟨Mesh.distT2_spec c0 c1 h0 h1, Mesh.distT3_spec c0 c1 c2 h0 h1 h2,
    Mesh.distX_spec cs hp _ rfl (fun k hk => Mesh.termX_spec cs hp k hk)⟩

example : torus [4, 3] 0 11 = 2 ∧ torus [5, 5, 5] 0 124 = 3 := by decide +kernel

/-- **C09.** Both are distances: symmetric, zero exactly on equal processors, and satisfying the triangle
inequality. -/
theorem C09_metric (cs : List Int) (hp : Mesh.Pos cs) :
    IsMetric (Mesh.total cs) (manhattan cs) ∧ IsMetric (Mesh.total cs) (torus cs) :=
  ⟨Mesh.manhattan_metric cs hp, Mesh.torus_metric cs hp⟩

example : Mesh.Pos [4, 3] ∧ Mesh.total [4, 3] = 12 := ⟨⟨by decide, by decide, trivial⟩, by decide⟩

/-- **C09, partial for d-dimensional meshes.** The distance routine of d-dimensional meshes computes the
distance of the *torus* of same extents. It is hence still symmetric and zero exactly on equal
processors. The Manhattan distance is what is missing: see `C09_meshX_not_manhattan`. -/
theorem C09_meshX_partial (cs : List Int) (hp : Mesh.Pos cs) :
    DistLaw (Mesh.opsX cs) (Mesh.total cs) (torus cs) ∧ IsMetric (Mesh.total cs) (torus cs) :=
  ⟨Mesh.distX_spec cs hp _ rfl (fun k hk => Mesh.termX_spec cs hp k hk), Mesh.torus_metric cs hp⟩

/-- **C09, negation for d-dimensional meshes.** In the 1D mesh of 10 processors, the ends of the line are
reported at distance 1 instead of 9. -/
theorem C09_meshX_not_manhattan : ¬ DistLaw (Mesh.opsX [10]) (Mesh.total [10]) (manhattan [10]) := by
  intro h
  obtain ⟨da, db, ea, eb, e⟩ := h 0 9 (by decide) (by decide) (by decide) (by decide)
  have ha : (Mesh.opsX [10]).term 0 = .ok (some [(0, 0)]) := by decide +kernel
  have hb : (Mesh.opsX [10]).term 9 = .ok (some [(9, 9)]) := by decide +kernel
  rw [ha] at ea
  rw [hb] at eb
  cases ea
  cases eb
  revert e
  decide +kernel

/-! ## C10: tree-leaf architectures -/

/-- Example of tree: 2 subtrees of 3 leaves each, links of costs 5 and 1; labels of each group of 3 leaves
are permuted. -/
def Arch.Tleaf.sample : Tleaf.Arch where
  termnbr := 6
  levlnbr := 2
  sizetab := Arr.ofList 0 [2, 3]
  linktab := Arr.ofList 0 [5, 1]
  permnbr := 3
  permtab := Arr.ofList 0 [2, 0, 1]
  peritab := Arr.ofList 0 [1, 2, 0]

theorem Arch.Tleaf.sample_wf : Tleaf.WFL Tleaf.sample := by
  refine ⟨⟨by decide, by decide, by decide, by decide, by decide, ?_, ?_, by decide +kernel⟩, by decide, by decide,
    by decide, by decide, by decide, by decide, ?_, ?_⟩
  · intro l h0 h1
    have : l = 0 ∨ l = 1 := by simp only [Tleaf.sample] at h1; omega
    rcases this with rfl | rfl <;> decide +kernel
  · intro l h0 h1
    have : l = 0 ∨ l = 1 := by simp only [Tleaf.sample] at h1; omega
    rcases this with rfl | rfl <;> decide +kernel
  · intro l h0 h1
    have : l = 0 ∨ l = 1 ∨ l = 2 := by simp only [Tleaf.sample] at h1; omega
    rcases this with rfl | rfl | rfl <;> decide +kernel
  · intro l h0 h1
    have : l = 0 ∨ l = 1 ∨ l = 2 := by simp only [Tleaf.sample] at h1; omega
    rcases this with rfl | rfl | rfl <;> decide +kernel

/-- **C10.** For tree-leaf architectures, splitting is exact, and the distance between two leaves is the
sum of the costs of the levels below their lowest common ancestor, which is a distance. -/
theorem C10_tleaf (a : Tleaf.Arch) (h : Tleaf.WF a) :
    ArchLaws (Tleaf.ops a) a.termnbr (fun _ => 1) (Tleaf.Valid a) (Tleaf.Has a) ∧
    Bisects (Tleaf.ops a) a.termnbr ∧
    DistLaw (Tleaf.ops a) a.termnbr (Tleaf.leafDist a) ∧ IsMetric a.termnbr (Tleaf.leafDist a) :=
  ⟨(Tleaf.addLaws h).laws, (Tleaf.addLaws h).laws.bisects, Tleaf.distLaw h, Tleaf.leafDist_metric h⟩

example : Tleaf.WF Tleaf.sample := Tleaf.sample_wf.wf
example : (do bisectAll (Tleaf.ops Tleaf.sample) 6 (← Tleaf.frst)) = .ok [0, 1, 2, 3, 4, 5] := by decide +kernel
example : Tleaf.dist Tleaf.sample ⟨2, 1, 1⟩ ⟨2, 2, 1⟩ = .ok 1 ∧
    Tleaf.dist Tleaf.sample ⟨2, 1, 1⟩ ⟨2, 3, 1⟩ = .ok 6 := by decide +kernel

/-- **C10.** Same for labelled tree-leaf architectures, processors being known by their labels. -/
theorem C10_ltleaf (a : Tleaf.Arch) (h : Tleaf.WFL a) :
    ArchLaws (Tleaf.opsL a) a.termnbr (fun _ => 1) (Tleaf.Valid a) (Tleaf.HasL a) ∧
    Bisects (Tleaf.opsL a) a.termnbr ∧
    DistLaw (Tleaf.opsL a) a.termnbr (fun x y => Tleaf.leafDist a (Tleaf.place a x) (Tleaf.place a y)) :=
  ⟨(Tleaf.addLawsL h).laws, (Tleaf.addLawsL h).laws.bisects, Tleaf.distLawL h⟩

example : Tleaf.WFL Tleaf.sample ∧
    (do bisectAll (Tleaf.opsL Tleaf.sample) 6 (← Tleaf.frst)) = .ok [2, 0, 1, 5, 3, 4] :=
  ⟨Tleaf.sample_wf, by decide +kernel⟩

/-! ## C11: numbers of processors -/

/-- **C11, partial.** Numbering laws of every class. What is missing is the rejection of negative numbers,
which are accepted: see `C11_negative_accepted`. -/
theorem C11_numbers_partial :
    (∀ n, 1 ≤ n → NumberLaws (Cmplt.ops n) n (Cmplt.Valid n) Cmplt.Has) ∧
    (∀ a w, Cmpltw.WF a w → NumberLaws (Cmpltw.ops a) a.vertnbr (Cmpltw.Valid a) (Cmpltw.Has a)) ∧
    (∀ n, n ≤ 30 → NumberLaws (Hcub.ops n) (2 ^ n) (Hcub.Valid n) Hcub.Has) ∧
    (∀ c0 c1, 1 ≤ c0 → 1 ≤ c1 →
      NumberLaws (Mesh.ops2 c0 c1) (Mesh.total [c0, c1]) (Mesh.Valid [c0, c1]) (Mesh.Has [c0, c1]) ∧
      NumberLaws (Mesh.opsT2 c0 c1) (Mesh.total [c0, c1]) (Mesh.Valid [c0, c1]) (Mesh.Has [c0, c1])) ∧
    (∀ c0 c1 c2, 1 ≤ c0 → 1 ≤ c1 → 1 ≤ c2 →
      NumberLaws (Mesh.ops3 c0 c1 c2) (Mesh.total [c0, c1, c2]) (Mesh.Valid [c0, c1, c2]) (Mesh.Has [c0, c1, c2]) ∧
      NumberLaws (Mesh.opsT3 c0 c1 c2) (Mesh.total [c0, c1, c2]) (Mesh.Valid [c0, c1, c2]) (Mesh.Has [c0, c1, c2])) ∧
    (∀ cs, cs ≠ [] → Mesh.Pos cs →
      NumberLaws (Mesh.opsX cs) (Mesh.total cs) (Mesh.Valid cs) (Mesh.Has cs) ∧
      NumberLaws (Mesh.opsTX cs) (Mesh.total cs) (Mesh.Valid cs) (Mesh.Has cs)) ∧
    (∀ a, Tleaf.WF a → NumberLaws (Tleaf.ops a) a.termnbr (Tleaf.Valid a) (Tleaf.Has a)) ∧
    (∀ a, Tleaf.WFL a → NumberLaws (Tleaf.opsL a) a.termnbr (Tleaf.Valid a) (Tleaf.HasL a)) := by
  refine ⟨fun n hn => (Cmplt.addLaws n hn).laws.numbers, fun a w h => (Cmpltw.addLaws h).laws.numbers,
    fun n hn => (Hcub.addLaws n hn).laws.numbers, fun c0 c1 h0 h1 => ⟨?_, ?_⟩, fun c0 c1 c2 h0 h1 h2 => ⟨?_, ?_⟩,
    fun cs h0 h1 => ⟨?_, ?_⟩, fun a h => (Tleaf.addLaws h).laws.numbers, fun a h => (Tleaf.addLawsL h).laws.numbers⟩
  · exact (Mesh.addLaws2 c0 c1 h0 h1).laws.numbers
  · exact ((Mesh.addLaws2 c0 c1 h0 h1).withDist _).laws.numbers
  · exact (Mesh.addLaws3 c0 c1 c2 h0 h1 h2).laws.numbers
  · exact ((Mesh.addLaws3 c0 c1 c2 h0 h1 h2).withDist _).laws.numbers
  · exact (Mesh.addLawsX cs h0 h1).laws.numbers
  · exact ((Mesh.addLawsX cs h0 h1).withDist _).laws.numbers

example : ∃ a w, Cmpltw.WF a w ∧ a.vertnbr = 5 := by
  have h := Cmpltw.build_spec 5 (Arr.ofList 0 [2, 5, 1, 1, 3]) (fun _ => (0, 0)) (by decide) (by decide) (by decide)
  obtain ⟨r, e, hr⟩ := Holds_iff_exists.1 h
  cases r with
  | none =>
    rcases hr with hr | ⟨k, k0, k1, hk⟩
    · omega
    · have : k = 0 ∨ k = 1 ∨ k = 2 ∨ k = 3 ∨ k = 4 := by omega
      rcases this with rfl | rfl | rfl | rfl | rfl <;> exact absurd hk (by decide +kernel)
  | some a => exact ⟨a, _, hr.2, hr.1⟩

/-- **C11.** For variable-sized classes, the number `k` of a processor of depth `L` gives a domain of this
depth, of number `k` and which contains only this processor; 0 is rejected. -/
theorem C11_var (L k : Nat) (h1 : 2 ^ L ≤ k) (h2 : k < 2 ^ (L + 1)) :
    (∃ d, Var.term k = .ok (some d) ∧ Var.Valid d ∧ Var.num d = .ok k ∧ ∀ j, Var.Has L d j ↔ j = k) ∧
    Var.term 0 = .ok none ∧ Holds Var.frst (fun d => Var.Valid d ∧ Var.Has L d k) := by
  refine ⟨⟨_, Var.term_spec L k h1 h2, ⟨h1, h2⟩, rfl, ?_⟩, rfl, Var.frst_spec L k h1 h2⟩
  intro j
  simp [Var.Has]

example : 2 ^ 3 ≤ 13 ∧ 13 < 2 ^ (3 + 1) := by decide

/-- **C11, negation.** Negative numbers are accepted by complete graphs, tree-leaf architectures and
meshes; for weighted complete graphs, they even make the routine read past the end of its array. -/
theorem C11_negative_accepted :
    (Cmplt.ops 4).term (-3) = .ok (some ⟨-3, 1⟩) ∧
    (Tleaf.ops Tleaf.sample).term (-3) = .ok (some ⟨2, -3, 1⟩) ∧
    (Mesh.ops2 4 3).term (-3) = .ok (some [(-3, -3), (0, 0)]) ∧
    (Cmpltw.ops ⟨2, Arr.ofList 0 [(7, 0), (5, 1)], 12⟩).term (-3) = .error .oob := by decide +kernel

/-! ## C12: inclusion of domains -/

/-- **C12.** The inclusion test means inclusion, for every class but tree-leaf. -/
theorem C12_incl :
    (∀ n, InclLaw (Cmplt.ops n) (Cmplt.Valid n) Cmplt.Has) ∧
    (∀ a w, Cmpltw.WF a w → InclLaw (Cmpltw.ops a) (Cmpltw.Valid a) (Cmpltw.Has a)) ∧
    (∀ n, InclLaw (Hcub.ops n) (Hcub.Valid n) Hcub.Has) ∧
    (∀ c0 c1, 1 ≤ c0 → 1 ≤ c1 → InclLaw (Mesh.ops2 c0 c1) (Mesh.Valid [c0, c1]) (Mesh.Has [c0, c1])) ∧
    (∀ c0 c1 c2, 1 ≤ c0 → 1 ≤ c1 → 1 ≤ c2 →
      InclLaw (Mesh.ops3 c0 c1 c2) (Mesh.Valid [c0, c1, c2]) (Mesh.Has [c0, c1, c2])) ∧
    (∀ cs, Mesh.Pos cs → InclLaw (Mesh.opsX cs) (Mesh.Valid cs) (Mesh.Has cs)) ∧
    (∀ d0 d1, Var.Valid d0 → Var.Valid d1 → Holds (Var.incl d0 d1) (fun r => r = true ↔
      ∀ L, d0.termlvl ≤ L → d1.termlvl ≤ L → ∀ k, Var.Has L d1 k → Var.Has L d0 k)) :=
  ⟨Cmplt.inclLaw, fun _ _ h => Cmpltw.inclLaw h, Hcub.inclLaw, Mesh.inclLaw2, Mesh.inclLaw3, Mesh.inclLawX,
    Var.incl_spec⟩

example : (Cmplt.ops 9).incl ⟨2, 4⟩ ⟨3, 3⟩ = .ok true ∧ (Cmplt.ops 9).incl ⟨2, 4⟩ ⟨3, 4⟩ = .ok false := by
  decide +kernel

/-- **C12, partial for tree-leaf.** The test means inclusion for domains of different levels, and when the
second domain is a single node. For other domains of the same level, it means that domains intersect:
see `C12_tleaf_not_inclusion`. -/
theorem C12_tleaf_partial (a : Tleaf.Arch) (h : Tleaf.WF a) (d0 d1 : Tleaf.Dom) (h0 : Tleaf.Valid a d0)
    (h1 : Tleaf.Valid a d1) (hne : d0.levlnum ≠ d1.levlnum ∨ d1.indxnbr = 1) :
    Holds ((Tleaf.ops a).incl d0 d1) (fun r => r = true ↔ ∀ k, Tleaf.Has a d1 k → Tleaf.Has a d0 k) :=
  Tleaf.incl_spec h d0 d1 h0 h1 hne

example : Tleaf.incl Tleaf.sample ⟨1, 1, 1⟩ ⟨2, 3, 2⟩ = .ok true ∧
    Tleaf.incl Tleaf.sample ⟨1, 1, 1⟩ ⟨2, 0, 2⟩ = .ok false := by decide +kernel

/-- **C12, negation for tree-leaf.** In the example tree, the domain made of leaf 0 is said to include the
domain made of leaves 0 and 1. Both are obtained by splitting. -/
theorem C12_tleaf_not_inclusion :
    (Tleaf.ops Tleaf.sample).incl ⟨2, 0, 1⟩ ⟨2, 0, 2⟩ = .ok true ∧
    (Tleaf.ops Tleaf.sample).bipart ⟨0, 0, 1⟩ = .ok (some (⟨1, 0, 1⟩, ⟨1, 1, 1⟩)) ∧
    (Tleaf.ops Tleaf.sample).bipart ⟨1, 0, 1⟩ = .ok (some (⟨2, 0, 2⟩, ⟨2, 2, 1⟩)) ∧
    (Tleaf.ops Tleaf.sample).bipart ⟨2, 0, 2⟩ = .ok (some (⟨2, 0, 1⟩, ⟨2, 1, 1⟩)) ∧
    Tleaf.Has Tleaf.sample ⟨2, 0, 2⟩ 1 ∧ ¬ Tleaf.Has Tleaf.sample ⟨2, 0, 1⟩ 1 := by
  refine ⟨by decide +kernel, by decide +kernel, by decide +kernel, by decide +kernel, ?_, ?_⟩ <;>
    unfold Tleaf.Has <;> decide +kernel

end Scotch
