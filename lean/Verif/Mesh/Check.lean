import Verif.Mesh.Model

/-!
# Checking of meshes: model

src/libscotch/mesh_check.c. Sums of loads are the only computations that are checked for overflow.
-/

set_option autoImplicit false

namespace Scotch.Mesh

/-- Search of the reverse arc of an arc from `v` to `w`, which must be unique — mesh_check.c:128–141 and 176–189. -/
def checkReverse (m : Mesh) (v w : Int) : M Bool := do
  let vnd ← m.rdVend w
  let e ← Graph.findArc m.edgetax v (← m.verttax.rd w) vnd
  if e ≥ vnd then return false
  else do
    let e ← Graph.findArc m.edgetax v (e + 1) vnd
    return decide (¬ e < vnd)

/-- Body of the loops on arcs: vertices `[lo, hi)` are those of the same kind as `v` — mesh_check.c:112–142 and 160–190. -/
def checkArc (m : Mesh) (lo hi v e : Int) : M Bool := do
  let w ← m.edgetax.rd e
  if w < m.baseval ∨ w ≥ m.velmnbr + m.vnodnbr + m.baseval then return false
  else if w ≥ lo ∧ w < hi then return false
  else m.checkReverse v w

/-- Checking of the arrays for a vertex: its degree, or none in case of error — mesh_check.c:97–142 and 150–190. -/
def checkVert (m : Mesh) (lo hi v : Int) : M (Option Int) := do
  let vert ← m.verttax.rd v
  if vert < m.baseval then return none
  else do
    let vend ← m.rdVend v
    if vend < vert then return none
    else
      match ← forUpB vert vend () fun e _ => do
          if ← m.checkArc lo hi v e then return .next () else return .brk () with
      | .brk _ => return none
      | .next _ => return some (vend - vert)

/-- Loop on elements: maximum degree, and number of isolated elements — mesh_check.c:94–143. -/
def checkElems (m : Mesh) : M (Loop (Int × Int) Unit) :=
  forUpB m.velmbas m.velmnnd (0, 0) fun v s => do
    match ← m.checkVert m.velmbas m.velmnnd v with
    | none => return .brk ()
    | some d => return .next (if d > s.1 then (d, s.2) else if d = 0 then (s.1, s.2 + 1) else s)

/-- Loop on nodes: maximum degree — mesh_check.c:149–191. -/
def checkNodes (m : Mesh) (degrmax : Int) : M (Loop Int Unit) :=
  forUpB m.vnodbas m.vnodnnd degrmax fun v s => do
    match ← m.checkVert m.vnodbas m.vnodnnd v with
    | none => return .brk ()
    | some d => return .next (if d > s then d else s)

/-- Sum of loads, none in case of error — mesh_check.c:193–204 and 210–221. -/
def checkLoads (numMax : Int) (lotax : Option (Arr Int)) (lo hi : Int) : M (Loop Int Unit) :=
  match lotax with
  | none => return .next (hi - lo)
  | some a => forUpB lo hi 0 fun v s => do
    let x ← a.rd v
    if x < 1 then return .brk () else return .next (← Graph.addChk numMax s x)

/-- Loads and degrees — mesh_check.c:193–232. -/
def checkEnd (numMax : Int) (m : Mesh) (degrmax : Int) : M Bool := do
  match ← checkLoads numMax m.velotax m.velmbas m.velmnnd with
  | .brk _ => return false
  | .next velosum =>
    if velosum ≠ m.velosum then return false
    else
      match ← checkLoads numMax m.vnlotax m.vnodbas m.vnodnnd with
      | .brk _ => return false
      | .next vnlosum => if vnlosum ≠ m.vnlosum then return false else return decide (¬ m.degrmax < degrmax)

/-- `meshCheck` — mesh_check.c:72–233: `true` when 0 is returned. -/
def check (numMax : Int) (m : Mesh) : M Bool := do
  if m.velmbas > m.velmnnd ∨ m.vnodbas > m.vnodnnd ∨ m.velmnnd ≠ m.velmbas + m.velmnbr ∨ m.vnodnnd ≠ m.vnodbas + m.vnodnbr ∨
    (m.velmnnd ≠ m.vnodbas ∧ m.vnodnnd ≠ m.velmbas) then return false
  else
    match ← m.checkElems with
    | .brk _ => return false
    | .next s =>
      if s.2 ≠ m.veisnbr then return false
      else
        match ← m.checkNodes s.1 with
        | .brk _ => return false
        | .next d => checkEnd numMax m d

end Scotch.Mesh
