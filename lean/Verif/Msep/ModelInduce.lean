import Verif.Msep.ModelHalo
import Verif.Meets

/-!
# Submeshes with halos: model

`hmeshInducePart` in src/libscotch/hmesh_induce.c. It builds the halo mesh that is induced by a part of a separation of a halo mesh: elements of the part come first, then nodes of the part, then nodes of the separator or of the halo
that are neighbours of the elements.
-/

set_option autoImplicit false

namespace Scotch.Msep

/-- State of the numbering of nodes: numbers in the original mesh, loads, new numbers, next number, sum of loads. -/
structure IndNum where
  vnum : Arr Int
  vnlo : Arr Int
  indx : Arr Int
  num : Int
  sum : Int

/-- A node that is not in the halo — hmesh_induce.c:176–184. -/
def numNode (h : Hmesh) (part : Arr Int) (pv : Int) (n : Int) (s : IndNum) : M IndNum := do
  let p ← part.rd n
  if p = pv then do
    let indx ← s.indx.wr n s.num
    let vnum ← s.vnum.wr s.num (n - (h.m.vnodbas - h.m.baseval))
    match h.m.vnlotax with
    | none => return ⟨vnum, s.vnlo, indx, s.num + 1, s.sum⟩
    | some l => do
      let w ← l.rd n
      return ⟨vnum, ← s.vnlo.wr s.num w, indx, s.num + 1, s.sum + w⟩
  else if p = 2 then return { s with indx := ← s.indx.wr n (-1) }
  else return s

/-- Nodes that are not in the halo — hmesh_induce.c:172–185. -/
def numNodes (h : Hmesh) (part : Arr Int) (pv : Int) (s : IndNum) : M IndNum := forUp h.m.vnodbas h.vnohnnd s (numNode h part pv)

/-- State of the building of elements. -/
structure IndEl where
  indx : Arr Int
  vnuh : Arr Int
  vnlo : Arr Int
  vert : Arr Int
  vehd : Arr Int
  velo : Arr Int
  edge : Arr Int
  /-- `indvnodnum` -/
  vnod : Int
  /-- `indvertnum` -/
  elem : Int
  /-- `indedgenum` -/
  num : Int
  /-- `indedhdnum` -/
  hd : Int
  veih : Int
  velosum : Int
  vnlosum : Int

/-- An arc of an element — hmesh_induce.c:232–258. -/
def indArc (h : Hmesh) (vnohnnd : Int) (i : Int) (s : IndEl) : M IndEl := do
  let v ← h.m.edgetax.rd i
  let x ← s.indx.rd v
  if x = -1 then do
    let (vnlo, sum) ← (match h.m.vnlotax with
      | none => (return (s.vnlo, s.vnlosum))
      | some l => do
        let w ← l.rd v
        return (← s.vnlo.wr s.vnod w, s.vnlosum + w) : M (Arr Int × Int))
    let indx ← s.indx.wr v s.vnod
    let vnuh ← s.vnuh.wr s.vnod v
    let edge ← s.edge.wr (s.hd - 1) s.vnod
    return { s with vnlo := vnlo, vnlosum := sum, indx := indx, vnuh := vnuh, vnod := s.vnod + 1, edge := edge, hd := s.hd - 1 }
  else if x < vnohnnd then return { s with edge := ← s.edge.wr s.num x, num := s.num + 1 }
  else return { s with edge := ← s.edge.wr (s.hd - 1) x, hd := s.hd - 1 }

/-- An element — hmesh_induce.c:200–275. -/
def indElem (h : Hmesh) (part : Arr Int) (pv vnohnnd : Int) (e : Int) (s : IndEl) : M IndEl := do
  if (← part.rd e) ≠ pv then return { s with indx := ← s.indx.wr e (-1) }
  else do
    let b ← h.m.verttax.rd e
    if b = (← h.vehdtax.rd e) then return { s with indx := ← s.indx.wr e (-1) }
    else do
      let vert ← s.vert.wr s.elem s.num
      let nd ← h.m.rdVend e
      let (velo, sum) ← (match h.m.velotax with
        | none => (return (s.velo, s.velosum))
        | some l => do
          let w ← l.rd e
          return (← s.velo.wr s.elem w, s.velosum + w) : M (Arr Int × Int))
      let t ← forUp b nd { s with vert := vert, hd := s.num + (nd - b), velo := velo, velosum := sum } (indArc h vnohnnd)
      let vehd ← t.vehd.wr s.elem t.hd
      let indx ← t.indx.wr e s.elem
      return { t with veih := t.veih + (if t.hd = s.num then 1 else 0), vehd := vehd, num := s.num + (nd - b), indx := indx, elem := s.elem + 1 }

/-- Elements — hmesh_induce.c:194–276. -/
def indElems (h : Hmesh) (part : Arr Int) (pv vnohnnd : Int) (s : IndEl) : M IndEl := forUp h.m.velmbas h.m.velmnnd s (indElem h part pv vnohnnd)

/-- Arcs of a node of the part — hmesh_induce.c:305–321. -/
def indNode (h : Hmesh) (vnum : Arr Int) (v : Int) (s : IndEl) : M IndEl := do
  let n := (← vnum.rd v) + (h.m.vnodbas - h.m.baseval)
  let vert ← s.vert.wr v s.num
  forUp (← h.m.verttax.rd n) (← h.m.rdVend n) { s with vert := vert } fun i s => do
    return { s with edge := ← s.edge.wr s.num (← s.indx.rd (← h.m.edgetax.rd i)), num := s.num + 1 }

/-- Arcs of a node of the halo — hmesh_induce.c:332–344. -/
def indHalo (h : Hmesh) (v : Int) (s : IndEl) : M IndEl := do
  let n ← s.vnuh.rd v
  let vert ← s.vert.wr v s.num
  forUp (← h.m.verttax.rd n) (← h.m.rdVend n) { s with vert := vert } fun i s => do
    let x ← s.indx.rd (← h.m.edgetax.rd i)
    if x ≠ -1 then return { s with edge := ← s.edge.wr s.num x, num := s.num + 1 } else return s

/-- Size of the array of arcs — hmesh_induce.c:125–126. -/
def indEdges (h : Hmesh) (vertnbr : Int) : Int := if h.m.degrmax > 0 ∧ vertnbr < h.m.edgenbr / h.m.degrmax then vertnbr * h.m.degrmax else h.m.edgenbr

/-- Numbers in the mesh that was given by the user — hmesh_induce.c:357–360. -/
def indVnum (h : Hmesh) (org : Option (Arr Int)) (b nd : Int) (vnum : Arr Int) : M (Arr Int) :=
  match org with
  | none => return vnum
  | some o => forUp b nd vnum fun v a => do a.wr v (← o.rd ((← a.rd v) + (h.m.vnodbas - h.m.baseval)))

/-- State before elements are built — hmesh_induce.c:118–170 and 194–198. -/
def indInit (junk : Int → Int) (h : Hmesh) (velmnbr ne vnodnbr halo : Int) (indx : Arr Int) (n : IndNum) : IndEl where
  indx := indx
  vnuh := ⟨ne + h.m.baseval + vnodnbr, ne + h.m.baseval + vnodnbr + halo, junk⟩
  vnlo := n.vnlo
  vert := ⟨h.m.baseval, ne + h.m.baseval + vnodnbr + halo + 1, junk⟩
  vehd := ⟨h.m.baseval, h.m.baseval + velmnbr, junk⟩
  velo := ⟨h.m.baseval, ne + h.m.baseval, junk⟩
  edge := ⟨h.m.baseval, h.m.baseval + indEdges h (ne + vnodnbr + halo), junk⟩
  vnod := n.num
  elem := h.m.baseval
  num := h.m.baseval
  hd := h.m.baseval
  veih := 0
  velosum := 0
  vnlosum := 0

/-- The halo mesh that is returned, from the state after elements, after nodes of the part, and after nodes of the halo — hmesh_induce.c:128–158, 284–296, 324–326 and 352–363. -/
def indMesh (h : Hmesh) (ne vnodnbr halo : Int) (n : IndNum) (s t u : IndEl) (nd : Int) (vert : Arr Int) : Hmesh where
  m :=
    { baseval := h.m.baseval
      velmnbr := ne
      velmbas := h.m.baseval
      velmnnd := ne + h.m.baseval
      veisnbr := 0
      vnodnbr := nd - (ne + h.m.baseval)
      vnodbas := ne + h.m.baseval
      vnodnnd := nd
      verttax := vert
      vendtax := none
      velotax := if h.m.velotax.isSome ∧ ne ≠ 0 then some u.velo else none
      vnlotax := if h.m.vnlotax.isSome ∧ vnodnbr + halo ≠ 0 then some u.vnlo else none
      velosum := if h.m.velotax.isSome ∧ ne ≠ 0 then s.velosum else ne
      vnlosum := if h.m.vnlotax.isSome ∧ vnodnbr + halo ≠ 0 then n.sum + s.vnlosum else s.vnod - (ne + h.m.baseval)
      edgenbr := u.num - h.m.baseval
      edgetax := ⟨h.m.baseval, u.num, u.edge.get⟩
      degrmax := h.m.degrmax }
  vehdtax := u.vehd
  veihnbr := s.veih
  vnohnbr := vnodnbr
  vnohnnd := ne + h.m.baseval + vnodnbr
  vnhlsum := if h.m.vnlotax.isSome ∧ vnodnbr + halo ≠ 0 then n.sum else vnodnbr
  enohnbr := t.num - h.m.baseval

/-- `hmeshInducePart` — hmesh_induce.c:89–374: `org` is array `vnumtax` of the original mesh; the halo mesh and its own array `vnumtax` are returned. Memory is allocated. -/
def hmeshInducePart (junk : Int → Int) (h : Hmesh) (org : Option (Arr Int)) (part : Arr Int) (pv velmnbr vnodnbr vnspnbr : Int) : M (Hmesh × Arr Int) := do
  let b := h.m.baseval
  let ne := if pv = 0 then velmnbr - (h.m.veisnbr + h.veihnbr) else velmnbr
  let halo := vnspnbr + h.m.vnodnnd - h.vnohnnd
  let vnodbas := ne + b
  let vnohnnd := vnodbas + vnodnbr
  let n ← numNodes h part pv ⟨⟨vnodbas, vnohnnd, junk⟩, ⟨vnodbas, vnohnnd + halo, junk⟩, ⟨b, b + h.m.velmnbr + h.m.vnodnbr, junk⟩, vnodbas, 0⟩
  let indx ← forUp h.vnohnnd h.m.vnodnnd n.indx fun v a => a.wr v (-1)
  let s ← indElems h part pv vnohnnd (indInit junk h velmnbr ne vnodnbr halo indx n)
  let vnodnnd := s.elem + (s.vnod - vnodbas)
  let t ← forUp s.elem vnohnnd s (indNode h n.vnum)
  let u ← forUp (max s.elem vnohnnd) vnodnnd t (indHalo h)
  let nd := max (max s.elem vnohnnd) vnodnnd
  let vert ← u.vert.wr nd u.num
  let vnum ← indVnum h org vnodbas vnohnnd n.vnum
  return (indMesh h ne vnodnbr halo n s t u nd vert, vnum)

/-! ## Specification -/

/-- Nodes of the part. -/
def isIn (h : Hmesh) (part : Arr Int) (pv : Int) (n : Int) : Bool := decide (h.Inner n ∧ part.get n = pv)

/-- Elements that are kept: those of the part that have nodes that are not in the halo. -/
def Kept (h : Hmesh) (part : Arr Int) (pv : Int) (e : Int) : Prop := part.get e = pv ∧ h.m.vert e ≠ h.vehdtax.get e

instance (h : Hmesh) (part : Arr Int) (pv e : Int) : Decidable (Kept h part pv e) := by unfold Kept; infer_instance

/-- What the caller gives: part 0 or 1 of a separation, in which elements have no node of the other part, nodes no element of the other part, and elements without nodes, but for halo ones, are in part 0; sizes are right. -/
structure Separation (h : Hmesh) (part : Arr Int) (pv velmnbr vnodnbr vnspnbr : Int) : Prop where
  base : 0 ≤ h.m.baseval
  part01 : pv = 0 ∨ pv = 1
  sep : ∀ e, h.m.Elem e → part.get e = pv → ∀ n ∈ h.m.nbr e, h.Inner n → part.get n = pv ∨ part.get n = 2
  side : ∀ e, h.m.Elem e → ∀ n ∈ h.m.nbr e, h.Inner n → part.get n = pv → part.get e = pv
  iso : ∀ e, h.m.Elem e → h.m.vert e = h.vehdtax.get e → part.get e = 0
  isonbr : h.m.veisnbr + h.veihnbr = sumI h.m.velmbas h.m.velmnnd (fun e => if h.m.vert e = h.vehdtax.get e then 1 else 0)
  velmnbr : velmnbr = sumI h.m.velmbas h.m.velmnnd (fun e => if part.get e = pv then 1 else 0)
  vnodnbr : vnodnbr = sumI h.m.vnodbas h.vnohnnd (fun n => if part.get n = pv then 1 else 0)
  vnspnbr : vnspnbr = sumI h.m.vnodbas h.vnohnnd (fun n => if part.get n = 2 then 1 else 0)

/-- Number of a node in the mesh that was given by the user. -/
def orgNum (h : Hmesh) (org : Option (Arr Int)) (n : Int) : Int := match org with | none => n - (h.m.vnodbas - h.m.baseval) | some o => o.get n

/-- Halo mesh `r` is the submesh of a part; `num` tells the new numbers of vertices. -/
structure Induced (h : Hmesh) (org : Option (Arr Int)) (part : Arr Int) (pv : Int) (num : Int → Int) (r : Hmesh) (vnum : Arr Int) : Prop where
  base : r.m.baseval = h.m.baseval ∧ r.m.velmbas = r.m.baseval ∧ r.m.vnodbas = r.m.velmnnd
  sizes : r.m.velmnnd = r.m.velmbas + r.m.velmnbr ∧ r.m.vnodnnd = r.m.vnodbas + r.m.vnodnbr ∧ r.vnohnnd = r.m.vnodbas + r.vnohnbr ∧ r.vnohnnd ≤ r.m.vnodnnd
  /-- elements of the submesh are the kept ones, in the same order -/
  elem : ∀ e, h.m.Elem e → Kept h part pv e → r.m.Elem (num e)
  elem_surj : ∀ x, r.m.Elem x → ∃ e, h.m.Elem e ∧ Kept h part pv e ∧ num e = x
  elem_mono : ∀ e k, h.m.Elem e → h.m.Elem k → Kept h part pv e → Kept h part pv k → e < k → num e < num k
  /-- nodes that are not in its halo are those of the part, in the same order -/
  node : ∀ n, h.Inner n → part.get n = pv → r.Inner (num n)
  node_surj : ∀ x, r.Inner x → ∃ n, h.Inner n ∧ part.get n = pv ∧ num n = x
  node_mono : ∀ n k, h.Inner n → h.Inner k → part.get n = pv → part.get k = pv → n < k → num n < num k
  /-- nodes of its halo are nodes of the separator or of the halo -/
  halo_surj : ∀ x, r.m.Node x → ¬ r.Inner x → ∃ n, h.m.Node n ∧ (h.Inner n → part.get n = 2) ∧ num n = x
  halo : ∀ e, h.m.Elem e → Kept h part pv e → ∀ n ∈ h.m.nbr e, isIn h part pv n = false → r.m.Node (num n) ∧ ¬ r.Inner (num n)
  halo_inj : ∀ n k, h.m.Node n → h.m.Node k → (h.Inner n → part.get n = 2) → (h.Inner k → part.get k = 2) → r.m.Node (num n) → num n = num k → n = k
  /-- elements have the same nodes; those of the halo are the last ones -/
  nodes : ∀ e, h.m.Elem e → Kept h part pv e → r.m.nbr (num e) = ((h.m.nbr e).filter (isIn h part pv)).map num ++ (((h.m.nbr e).filter fun n => !isIn h part pv n).map num).reverse
  range : ∀ x, r.m.Elem x → r.m.vert x ≤ r.vehdtax.get x ∧ r.vehdtax.get x ≤ r.m.vend x
  split : ∀ x i, r.m.Elem x → r.m.vert x ≤ i → i < r.m.vend x → (r.Inner (r.m.edgetax.get i) ↔ i < r.vehdtax.get x)
  /-- nodes have the same elements, among those that are kept -/
  elems : ∀ n, h.Inner n → part.get n = pv → r.m.nbr (num n) = (h.m.nbr n).map num
  elems_halo : ∀ n, h.m.Node n → (h.Inner n → part.get n = 2) → r.m.Node (num n) → r.m.nbr (num n) = ((h.m.nbr n).filter fun e => decide (Kept h part pv e)).map num
  velo : ∀ e, h.m.Elem e → Kept h part pv e → r.m.velo (num e) = h.m.velo e
  vnlo : ∀ n, h.Inner n → part.get n = pv → r.m.vnlo (num n) = h.m.vnlo n
  vnlo_halo : ∀ n, h.m.Node n → (h.Inner n → part.get n = 2) → r.m.Node (num n) → r.m.vnlo (num n) = h.m.vnlo n
  velosum : r.m.velosum = sumI h.m.velmbas h.m.velmnnd (fun e => if Kept h part pv e then h.m.velo e else 0)
  vnhlsum : r.vnhlsum = sumI h.m.vnodbas h.vnohnnd (fun n => if part.get n = pv then h.m.vnlo n else 0)
  /-- elements whose nodes are all in the halo -/
  veihnbr : r.m.veisnbr + r.veihnbr = sumI h.m.velmbas h.m.velmnnd (fun e => if Kept h part pv e ∧ (h.m.nbr e).filter (isIn h part pv) = [] then 1 else 0)
  /-- numbers in the mesh of the user -/
  vnum : ∀ n, h.Inner n → part.get n = pv → vnum.get (num n) = orgNum h org n

end Scotch.Msep
