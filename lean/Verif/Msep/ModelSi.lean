import Verif.Msep.ModelInduce

/-!
# Orderings of meshes as they are: model

src/libscotch/hmesh_order_si.c.
-/

set_option autoImplicit false

namespace Scotch.Msep

/-- `hmeshOrderSi` — hmesh_order_si.c:72–109: `org` is array `vnumtax` of the mesh, `base` and `n` are the base and the number of nodes of the ordering. -/
def orderSi (h : Hmesh) (org : Option (Arr Int)) (base n ordenum : Int) (peri : Arr Int) : M (Arr Int) :=
  match org with
  | none => forUp base (base + n) peri fun v a => a.wr (ordenum + (v - base)) v
  | some o => forUp h.m.vnodbas h.vnohnnd peri fun v a => do a.wr (ordenum + (v - h.m.vnodbas)) (← o.rd v)

/-- The part of an inverse permutation that begins at some index holds the nodes that are not in the halo, in order, by their numbers in the mesh of the user; the rest is unchanged. -/
structure InOrder (h : Hmesh) (org : Option (Arr Int)) (ordenum : Int) (peri r : Arr Int) : Prop where
  size : r.lo = peri.lo ∧ r.hi = peri.hi
  nodes : ∀ n, h.Inner n → r.get (ordenum + (n - h.m.vnodbas)) = orgNum h org n
  frame : ∀ x, x < ordenum ∨ ordenum + h.vnohnbr ≤ x → r.get x = peri.get x

end Scotch.Msep
