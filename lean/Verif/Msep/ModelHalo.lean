import Verif.Mesh.Spec
import Verif.Bipart.Model

/-!
# Meshes with halos: model

src/libscotch/hmesh_mesh.c. The last nodes of a halo mesh are halo nodes, and the last arcs of each element are the arcs to its halo nodes.
-/

set_option autoImplicit false

namespace Scotch.Msep
open Bipart (copyN)

/-- `Hmesh` — hmesh.h:84–94. -/
structure Hmesh where
  m : Mesh
  vehdtax : Arr Int
  veihnbr : Int
  vnohnbr : Int
  vnohnnd : Int
  vnhlsum : Int
  enohnbr : Int

/-- Copy of a part of array `vendtax`. -/
def copyVend (m : Mesh) (dst : Arr Int) (d s n : Int) : M (Arr Int) := forUp 0 n dst fun i a => do a.wr (d + i) (← m.rdVend (s + i))

/-- Fields that are always set — hmesh_mesh.c:85–99; elements and ends of vertices are set below. -/
def meshBase (h : Hmesh) : Mesh :=
  { h.m with veisnbr := h.m.veisnbr + h.veihnbr, vnodnbr := h.vnohnbr, vnodnnd := h.vnohnbr + h.m.vnodbas, vnlosum := h.vnhlsum, edgenbr := h.enohnbr }

/-- Elements before nodes — hmesh_mesh.c:111–122. -/
def meshElems (junk : Int → Int) (h : Hmesh) : M Mesh := do
  let a ← copyN ⟨0, h.m.velmnbr + h.vnohnbr, junk⟩ h.vehdtax 0 h.m.velmbas h.m.velmnbr
  let a ← copyVend h.m a h.m.velmnbr h.m.vnodbas h.vnohnbr
  return { meshBase h with vendtax := some (a.shift h.m.baseval) }

/-- `memCpy` of a number of bytes: cells of which some bytes only are copied hold any value, and the ones after them keep theirs. A negative number is converted to a number that is larger than any array. `sz` is the size of `Gnum`. -/
def copyBytes (sz : Int) (dst src : Arr Int) (d s bytes : Int) : M (Arr Int) := if bytes < 0 then .error .oob else copyN dst src d s (bytes / sz)

/-- Nodes before elements — hmesh_mesh.c:123–136. Halo nodes are turned into elements. The size of the second copy is `m.vnodnbr - vnohnbr * sizeof (Gnum)`. -/
def meshNodes (sz : Int) (junk : Int → Int) (h : Hmesh) : M Mesh := do
  let a ← copyVend h.m ⟨0, h.m.velmnbr + h.m.vnodnbr, junk⟩ 0 h.m.baseval h.vnohnbr
  let a ← copyBytes sz a h.m.verttax h.vnohnbr h.vnohnnd (h.m.vnodnbr - h.vnohnbr * sz)
  let a ← copyN a h.vehdtax h.m.vnodnbr h.m.velmbas h.m.velmnbr
  return { meshBase h with velmnbr := h.m.velmnbr + h.m.vnodnbr - h.vnohnbr, velmbas := h.vnohnnd, vendtax := some (a.shift h.m.baseval) }

/-- `hmeshMesh` — hmesh_mesh.c:80–147. -/
def hmeshMesh (sz : Int) (junk : Int → Int) (h : Hmesh) : M Mesh := do
  if h.vnohnbr = h.m.vnodnbr then return meshBase h
  else if h.m.velmbas ≤ h.m.vnodbas then meshElems junk h
  else meshNodes sz junk h

/-! ## Specification -/

/-- Nodes that are not in the halo. -/
def Hmesh.Inner (h : Hmesh) (n : Int) : Prop := h.m.vnodbas ≤ n ∧ n < h.vnohnnd

instance (h : Hmesh) (n : Int) : Decidable (h.Inner n) := by unfold Hmesh.Inner; infer_instance

/-- Nodes of an element that are not in the halo. -/
def Hmesh.inner (h : Hmesh) (e : Int) : List Int := (h.m.nbr e).filter fun n => decide (h.Inner n)

/-- Number of arcs between elements and nodes that are not in the halo. -/
def Hmesh.arcs (h : Hmesh) : Int := sumI h.m.velmbas h.m.velmnnd (fun e => (h.inner e).length) + sumI h.m.vnodbas h.vnohnnd (fun n => (h.m.nbr n).length)

/-- A consistent halo mesh. Its number of arcs without the halo, `enohnbr`, may be wrong. -/
structure Hmesh.Consistent (h : Hmesh) : Prop where
  mesh : h.m.Consistent
  vnohnbr : 0 ≤ h.vnohnbr ∧ h.vnohnbr ≤ h.m.vnodnbr
  vnohnnd : h.vnohnnd = h.m.vnodbas + h.vnohnbr
  range : ∀ e, h.m.Elem e → h.m.vert e ≤ h.vehdtax.get e ∧ h.vehdtax.get e ≤ h.m.vend e
  /-- arcs to halo nodes are the last ones -/
  split : ∀ e i, h.m.Elem e → h.m.vert e ≤ i → i < h.m.vend e → (h.Inner (h.m.edgetax.get i) ↔ i < h.vehdtax.get e)
  vnhlsum : h.vnhlsum = sumI h.m.vnodbas h.vnohnnd h.m.vnlo

/-- Memory. -/
structure Hmesh.Allocated (h : Hmesh) : Prop where
  mesh : h.m.Allocated
  vehd : h.vehdtax.lo ≤ h.m.velmbas ∧ h.m.velmnnd ≤ h.vehdtax.hi

/-- The mesh without its halo: it has the same elements, and the nodes that are not in the halo; neighbours are the same, but for nodes of the halo. The number of arcs is the one that is recorded in the halo mesh: all the rest
is consistent. -/
structure WithoutHalo (h : Hmesh) (m : Mesh) : Prop where
  consistent : ({ m with edgenbr := h.arcs } : Mesh).Consistent
  edgenbr : m.edgenbr = h.enohnbr
  allocated : m.Allocated
  base : m.baseval = h.m.baseval
  elem : ∀ e, m.Elem e ↔ h.m.Elem e
  node : ∀ n, m.Node n ↔ h.Inner n
  nodes : ∀ e, m.Elem e → m.nbr e = h.inner e
  elems : ∀ n, m.Node n → m.nbr n = h.m.nbr n
  velo : ∀ e, m.velo e = h.m.velo e
  vnlo : ∀ n, m.vnlo n = h.m.vnlo n

end Scotch.Msep
