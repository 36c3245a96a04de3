import Verif.Mesh.LemmasMetis
import Verif.Mesh.Decide

/-!
# Meshes: properties C37 and C38

The graph of the nodes of a mesh, and the dual graphs of a mesh.
-/

set_option autoImplicit false
set_option linter.unusedSimpArgs false

namespace Scotch.Mesh

/-- **C37.** For every consistent mesh, whatever the contents of memory, conversion succeeds without any memory fault, and yields a consistent graph of the nodes, in which different nodes are neighbours exactly when some
element has both. Hash keys and the size of the hash table must be representable. -/
theorem C37_node_graph (numMax : Int) (m : Mesh) (J : Junk) (hc : m.Consistent) (ha : m.Allocated) (hb : 0 ≤ m.baseval) (hd : m.degrmax * m.degrmax * 4 ≤ numMax)
    (hk : ∀ v, m.Elem v ∨ m.Node v → v * 37 ≤ numMax) : ∃ g, toGraph numMax m J = .ok g ∧ NodeGraph m g :=
  Holds_iff_exists.1 (toGraph_holds ⟨hc, ha, hb, hd, hk⟩ J)

/-- **C38**, for meshes without element loads. In the dual graph, different elements are neighbours exactly when they share enough nodes: as many as requested, or all nodes but one of the smaller of them, but at least one. -/
theorem C38_dual_graph (numMax : Int) (m : Mesh) (nocon : Int) (J : Junk) (hc : m.Consistent) (ha : m.Allocated) (hb : 0 ≤ m.baseval) (hd : m.degrmax * m.degrmax * 4 ≤ numMax)
    (hk : ∀ v, m.Elem v ∨ m.Node v → v * 37 ≤ numMax) (hl : m.velotax = none) : ∃ g, toDual numMax m nocon J = .ok g ∧ DualGraph m nocon g := by
  refine Holds_iff_exists.1 (toDual_holds ⟨hc, ha, hb, hd, hk⟩ nocon J ?_)
  rw [hc.velosum, sumI_congr (g := fun _ => 1) (fun i _ _ => by unfold velo; rw [hl]), sumI_const (by have := hc.velmnnd; have := hc.velmnbr; omega)]
  have := hc.velmnnd
  omega

namespace Metis

/-- **C38.** The METIS compatible routine, for every mesh: the adjacency arrays that are returned are well formed, and element `w` is a neighbour of element `v` exactly when they are different and have enough nodes in
common: as many as requested, or all nodes but one of the smaller of them, but at least one. `D` bounds the number of nodes of elements and of elements of nodes. -/
theorem C38_metis (numMax ne nn : Int) (eptr eind : Arr Int) (ncommon base : Int) (J : Junk) (hI : Input base ne nn eptr eind) (D : Int) (hD0 : 0 ≤ D)
    (hD1 : ∀ v, base ≤ v → v < base + ne → ((nodes eptr eind v).length : Int) ≤ D) (hD2 : ∀ n, base ≤ n → n < base + nn → valence base ne eptr eind n ≤ D)
    (hD : D * D * 4 ≤ numMax) (hk : (base + ne + nn) * 37 ≤ numMax) :
    ∃ r, meshToDual numMax ne nn eptr eind ncommon base J = .ok r ∧ Output base ne r ∧
      ∀ v, base ≤ v → v < base + ne → ∀ w, w ∈ adj r v ↔ base ≤ w ∧ w < base + ne ∧ w ≠ v ∧ threshold eptr eind ncommon v w ≤ common eptr eind v w := by
  obtain ⟨r, h1, h2⟩ := Holds_iff_exists.1 (meshToDual_holds hI hD0 hD1 hD2 hD hk ncommon J)
  exact ⟨r, h1, h2⟩

/-- **C38**, as stated: when all elements have more nodes than requested, and at least one is requested, elements are neighbours exactly when they are different and share at least the requested number of nodes.
What is missing is smaller elements: see `C38_not_exact`. -/
theorem C38_partial (numMax ne nn : Int) (eptr eind : Arr Int) (ncommon base : Int) (J : Junk) (hI : Input base ne nn eptr eind) (D : Int) (hD0 : 0 ≤ D)
    (hD1 : ∀ v, base ≤ v → v < base + ne → ((nodes eptr eind v).length : Int) ≤ D) (hD2 : ∀ n, base ≤ n → n < base + nn → valence base ne eptr eind n ≤ D)
    (hD : D * D * 4 ≤ numMax) (hk : (base + ne + nn) * 37 ≤ numMax) (h1 : 1 ≤ ncommon) (hs : ∀ v, base ≤ v → v < base + ne → ncommon < (nodes eptr eind v).length) :
    ∃ r, meshToDual numMax ne nn eptr eind ncommon base J = .ok r ∧ Output base ne r ∧
      ∀ v, base ≤ v → v < base + ne → ∀ w, w ∈ adj r v ↔ base ≤ w ∧ w < base + ne ∧ w ≠ v ∧ ncommon ≤ common eptr eind v w := by
  obtain ⟨r, a1, a2, a3⟩ := C38_metis numMax ne nn eptr eind ncommon base J hI D hD0 hD1 hD2 hD hk
  refine ⟨r, a1, a2, ?_⟩
  intro v v1 v2 w
  rw [a3 v v1 v2 w]
  have hv := hs v v1 v2
  constructor
  · rintro ⟨w1, w2, w3, w4⟩
    have := hs w w1 w2
    refine ⟨w1, w2, w3, ?_⟩
    unfold threshold at w4
    omega
  · rintro ⟨w1, w2, w3, w4⟩
    have := hs w w1 w2
    refine ⟨w1, w2, w3, ?_⟩
    unfold threshold
    omega

/-! ## Cases -/

def inputB (base ne nn : Int) (eptr eind : Arr Int) : Bool :=
  decide (0 ≤ base) && decide (0 ≤ ne) && decide (1 ≤ nn) && decide (eptr.lo ≤ base) && decide (base + ne + 1 ≤ eptr.hi) && decide (eptr.get base = base) &&
  allI base (base + ne) (fun v => decide (eptr.get v ≤ eptr.get (v + 1))) && decide (eptr.get (base + ne) > base → eind.lo ≤ base) && decide (eptr.get (base + ne) > base → eptr.get (base + ne) ≤ eind.hi) &&
  allI base (base + ne) (fun v => (nodes eptr eind v).all fun n => decide (base ≤ n ∧ n < base + nn)) && allI base (base + ne) (fun v => decide (nodes eptr eind v).Nodup)

theorem inputB_sound {base ne nn : Int} {eptr eind : Arr Int} (h : inputB base ne nn eptr eind = true) : Input base ne nn eptr eind := by
  unfold inputB at h
  simp only [Bool.and_eq_true, decide_eq_true_eq, allI_iff, List.all_eq_true] at h
  obtain ⟨⟨⟨⟨⟨⟨⟨⟨⟨⟨h1, h2⟩, h3⟩, h4⟩, h5⟩, h6⟩, h7⟩, h8⟩, h9⟩, h10⟩, h11⟩ := h
  exact ⟨h1, h2, h3, h4, h5, h6, h7, h8, h9, h10, h11⟩

/-- Three triangles, (1, 2, 3), (2, 3, 4), and (4, 5, 6). -/
def exPtr : Arr Int := Arr.ofList 1 [1, 4, 7, 10]
def exInd : Arr Int := Arr.ofList 1 [1, 2, 3, 2, 3, 4, 4, 5, 6]

theorem exInput : Input 1 3 6 exPtr exInd := inputB_sound (by decide +kernel)

theorem exD1 : ∀ v, (1 : Int) ≤ v → v < 1 + 3 → ((nodes exPtr exInd v).length : Int) ≤ 3 := by
  have : allI 1 (1 + 3) (fun v => decide (((nodes exPtr exInd v).length : Int) ≤ 3)) = true := by decide +kernel
  intro v v1 v2; exact of_decide_eq_true (allI_iff.1 this v v1 v2)

theorem exD2 : ∀ n, (1 : Int) ≤ n → n < 1 + 6 → valence 1 3 exPtr exInd n ≤ 3 := by
  have : allI 1 (1 + 6) (fun n => decide (valence 1 3 exPtr exInd n ≤ 3)) = true := by decide +kernel
  intro v v1 v2; exact of_decide_eq_true (allI_iff.1 this v v1 v2)

theorem exSize : ∀ v, (1 : Int) ≤ v → v < 1 + 3 → (2 : Int) < (nodes exPtr exInd v).length := by
  have : allI 1 (1 + 3) (fun v => decide ((2 : Int) < (nodes exPtr exInd v).length)) = true := by decide +kernel
  intro v v1 v2; exact of_decide_eq_true (allI_iff.1 this v v1 v2)

example (J : Junk) := C38_partial 2147483647 3 6 exPtr exInd 2 1 J exInput 3 (by omega) exD1 exD2 (by omega) (by omega) (by omega) exSize

/-- What is shown of a result. -/
def show' (r : Arr Int × Arr Int) : List (List Int) := [r.1.toList, r.2.toList]

example : (meshToDual 2147483647 3 6 exPtr exInd 2 1 ⟨fun _ => 7, fun _ => 8, ⟨fun _ => 9, fun _ => 10⟩⟩).map show' = .ok [[1, 2, 3, 3], [2, 1]] := by decide +kernel
example : (meshToDual 2147483647 3 6 exPtr exInd 1 1 ⟨fun _ => 7, fun _ => 8, ⟨fun _ => 9, fun _ => 10⟩⟩).map show' = .ok [[1, 2, 4, 5], [2, 1, 3, 2]] := by decide +kernel

/-! ## Disagreements -/

/-- Elements (0, 1) and (0, 2). -/
def badPtr : Arr Int := Arr.ofList 0 [0, 2, 4]
def badInd : Arr Int := Arr.ofList 0 [0, 1, 0, 2]

/-- Elements may be connected although they share fewer nodes than requested: here, one node is shared and two are requested. -/
theorem C38_not_exact : ∃ (ne nn : Int) (eptr eind : Arr Int) (ncommon : Int), Input 0 ne nn eptr eind ∧ 1 ≤ ncommon ∧ ∀ J : Junk, ∃ r, meshToDual 2147483647 ne nn eptr eind ncommon 0 J = .ok r ∧
    1 ∈ adj r 0 ∧ (common eptr eind 0 1 : Int) < ncommon := by
  have hI : Input 0 2 3 badPtr badInd := inputB_sound (by decide +kernel)
  refine ⟨2, 3, badPtr, badInd, 2, hI, by omega, fun J => ?_⟩
  have d1 : allI 0 (0 + 2) (fun v => decide (((nodes badPtr badInd v).length : Int) ≤ 2)) = true := by decide +kernel
  have d2 : allI 0 (0 + 3) (fun n => decide (valence 0 2 badPtr badInd n ≤ 2)) = true := by decide +kernel
  obtain ⟨r, h1, -, h3⟩ := C38_metis 2147483647 2 3 badPtr badInd 2 0 J hI 2 (by omega) (fun v v1 v2 => of_decide_eq_true (allI_iff.1 d1 v v1 v2)) (fun v v1 v2 => of_decide_eq_true (allI_iff.1 d2 v v1 v2)) (by omega) (by omega)
  exact ⟨r, h1, (h3 0 (by omega) (by omega) 1).2 ⟨by omega, by omega, by omega, by decide +kernel⟩, by decide +kernel⟩

end Metis

/-! ## Cases -/

/-- Two triangles, (2, 3, 4) and (3, 4, 5): elements 0 and 1. Nodes have loads. -/
def exMesh : Mesh :=
  { baseval := 0, velmnbr := 2, velmbas := 0, velmnnd := 2, veisnbr := 0, vnodnbr := 4, vnodbas := 2, vnodnnd := 6, verttax := Arr.ofList 0 [0, 3, 6, 7, 9, 11, 12], vendtax := none, velotax := none,
    vnlotax := some (Arr.ofList 2 [1, 2, 3, 4]), velosum := 2, vnlosum := 10, edgenbr := 12, edgetax := Arr.ofList 0 [2, 3, 4, 3, 4, 5, 0, 0, 1, 0, 1, 1], degrmax := 3 }

theorem exMesh_cons : exMesh.Consistent := consB_sound (by decide +kernel)
theorem exMesh_alloc : exMesh.Allocated := allocB_sound (by decide +kernel)

theorem exMesh_keys : ∀ v, exMesh.Elem v ∨ exMesh.Node v → v * 37 ≤ 2147483647 := by
  rintro v (h | h)
  · have : v < 2 := h.2
    omega
  · have : v < 6 := h.2
    omega

example (J : Junk) := C37_node_graph 2147483647 exMesh J exMesh_cons exMesh_alloc (by decide +kernel) (by decide +kernel) exMesh_keys
example (J : Junk) := C38_dual_graph 2147483647 exMesh 2 J exMesh_cons exMesh_alloc (by decide +kernel) (by decide +kernel) exMesh_keys rfl

example : (toGraph 2147483647 exMesh ⟨fun _ => 7, fun _ => 8⟩).map (fun g => [g.verttax.toList, seg g.edgetax.get 0 g.edgenbr]) = .ok [[0, 2, 5, 8, 10], [1, 2, 0, 2, 3, 0, 1, 3, 1, 2]] := by decide +kernel

/-! ## Disagreement -/

/-- The mesh above, with element loads 5 and 6. -/
def exLoads : Mesh := { exMesh with velotax := some (Arr.ofList 0 [5, 6]), velosum := 11 }

/-- The dual graph of a consistent mesh whose elements have loads is not consistent: loads are dropped, but not their sum. -/
theorem C38_loads_wrong : ∃ m : Mesh, m.Consistent ∧ m.Allocated ∧ ∃ J g, toDual 2147483647 m 2 J = .ok g ∧ ¬ g.Consistent := by
  refine ⟨exLoads, consB_sound (by decide +kernel), allocB_sound (by decide +kernel), ⟨fun _ => 0, fun _ => 0⟩, ?_⟩
  have h : (toDual 2147483647 exLoads 2 ⟨fun _ => 0, fun _ => 0⟩).map (fun g => [g.velosum, sumI g.baseval g.vertnnd g.velo]) = .ok [11, 2] := by decide +kernel
  cases hr : toDual 2147483647 exLoads 2 ⟨fun _ => 0, fun _ => 0⟩ with
  | error e => rw [hr] at h; cases h
  | ok g =>
    rw [hr] at h
    have h' : [g.velosum, sumI g.baseval g.vertnnd g.velo] = [11, 2] := Except.ok.inj h
    refine ⟨g, rfl, fun C => ?_⟩
    have h1 := (List.cons.inj h').1
    have h2 := (List.cons.inj (List.cons.inj h').2).1
    have := C.velosum
    omega

end Scotch.Mesh
