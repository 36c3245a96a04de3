import Verif.Mesh.ModelMetis
import Verif.Seg
import Verif.Util

/-!
# Dual graph of a METIS mesh: specification
-/

set_option autoImplicit false

namespace Scotch.Mesh.Metis

/-- Nodes of an element of the mesh given by the user. -/
def nodes (eptr eind : Arr Int) (v : Int) : List Int := seg eind.get (eptr.get v) (eptr.get (v + 1))

/-- Number of nodes that two elements have in common. -/
def common (eptr eind : Arr Int) (v w : Int) : Nat := ((nodes eptr eind v).filter fun n => decide (n ∈ nodes eptr eind w)).length

/-- Number of elements that have a node. -/
def valence (base ne : Int) (eptr eind : Arr Int) (n : Int) : Int := sumI base (base + ne) fun v => if n ∈ nodes eptr eind v then 1 else 0

/-- What is required of the mesh given by the user: `ne` elements and `nn` nodes, numbered from `base` on. -/
structure Input (base ne nn : Int) (eptr eind : Arr Int) : Prop where
  base_nonneg : 0 ≤ base
  ne_nonneg : 0 ≤ ne
  nn_pos : 1 ≤ nn
  plo : eptr.lo ≤ base
  phi : base + ne + 1 ≤ eptr.hi
  first : eptr.get base = base
  mono : ∀ v, base ≤ v → v < base + ne → eptr.get v ≤ eptr.get (v + 1)
  ilo : eptr.get (base + ne) > base → eind.lo ≤ base
  ihi : eptr.get (base + ne) > base → eptr.get (base + ne) ≤ eind.hi
  range : ∀ v, base ≤ v → v < base + ne → ∀ n ∈ nodes eptr eind v, base ≤ n ∧ n < base + nn
  simple : ∀ v, base ≤ v → v < base + ne → (nodes eptr eind v).Nodup

/-- Number of common nodes from which elements are connected. -/
def threshold (eptr eind : Arr Int) (ncommon v w : Int) : Int :=
  max 1 (min ncommon (min ((nodes eptr eind v).length - 1) ((nodes eptr eind w).length - 1)))

/-- Neighbours of an element in the graph that is returned. -/
def adj (r : Arr Int × Arr Int) (v : Int) : List Int := seg r.2.get (r.1.get v) (r.1.get (v + 1))

/-- A well formed result: adjacency arrays of `ne` vertices. -/
structure Output (base ne : Int) (r : Arr Int × Arr Int) : Prop where
  xlo : r.1.lo = base
  xhi : r.1.hi = base + ne + 1
  alo : r.2.lo = base
  first : r.1.get base = base
  mono : ∀ v, base ≤ v → v < base + ne → r.1.get v ≤ r.1.get (v + 1)
  last : r.1.get (base + ne) = r.2.hi
  nodup : ∀ v, base ≤ v → v < base + ne → (adj r v).Nodup

end Scotch.Mesh.Metis
