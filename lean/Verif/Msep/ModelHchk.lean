import Verif.Msep.ModelHalo
import Verif.Mesh.LemmasCheck

/-!
# Check of halo meshes: model

src/libscotch/hmesh_check.c. This check is made on the halo meshes that orderings build, when the library is compiled for it.
-/

set_option autoImplicit false

namespace Scotch.Msep

/-- An element — hmesh_check.c:97–103. -/
def hchkElem (h : Hmesh) (e : Int) (n : Int) : M (Loop Int Unit) := do
  let nh ← h.vehdtax.rd e
  let b ← h.m.verttax.rd e
  let nd ← h.m.rdVend e
  if nh < b ∨ nh > nd then return .brk () else return .next (n + (if nh = b then 1 else 0))

/-- Elements — hmesh_check.c:91–105: `same` tells whether `vehdtax` and `vendtax` are the same array. -/
def hchkElems (same : Bool) (h : Hmesh) : M (Loop Int Unit) := if same then return .next 0 else forUpB h.m.velmbas h.m.velmnnd 0 (hchkElem h)

/-- Sum of loads of nodes that are not in the halo — hmesh_check.c:111–119. -/
def hchkSum (h : Hmesh) : M Int :=
  match h.m.vnlotax with
  | none => return h.vnohnnd - h.m.vnodbas
  | some l => forUp h.m.vnodbas h.vnohnnd 0 fun n s => do return s + (← l.rd n)

/-- `hmeshCheck` — hmesh_check.c:73–126: `true` when 0 is returned. -/
def hmeshCheck (numMax : Int) (same : Bool) (h : Hmesh) : M Bool := do
  if h.vnohnnd < h.m.vnodbas ∨ h.vnohnnd > h.m.vnodnnd then return false
  else if ← Mesh.check numMax h.m then
    match ← hchkElems same h with
    | .brk _ => return false
    | .next n => if n ≠ h.veihnbr then return false else return decide ((← hchkSum h) = h.vnhlsum)
  else return false

/-! ## Specification -/

/-- What the check finds out. -/
structure HaloChecked (same : Bool) (h : Hmesh) : Prop where
  bounds : h.m.vnodbas ≤ h.vnohnnd ∧ h.vnohnnd ≤ h.m.vnodnnd
  /-- the mesh is consistent, but for its number of arcs, which is not checked -/
  mesh : ({ h.m with edgenbr := h.m.arcs } : Mesh).Consistent
  isolated : h.m.veisnbr = h.m.isolated
  range : ∀ e, h.m.Elem e → h.m.vert e ≤ h.vehdtax.get e ∧ h.vehdtax.get e ≤ h.m.vend e
  /-- elements without nodes, but for halo ones, unless there is no halo -/
  veihnbr : h.veihnbr = if same then 0 else sumI h.m.velmbas h.m.velmnnd (fun e => if h.vehdtax.get e = h.m.vert e then 1 else 0)
  vnhlsum : h.vnhlsum = sumI h.m.vnodbas h.vnohnnd h.m.vnlo

end Scotch.Msep
