import Verif.Separ.Model
import Verif.Bipart.ModelDf

/-!
# Separation by diffusion: model

src/libscotch/vgraph_separate_df.c. Floating-point operations are arbitrary functions.
-/

set_option autoImplicit false

namespace Scotch.Separ

/-- Floating-point operations, values of the parameters `cdifval` and `cremval`, and contents of allocated memory. -/
structure SdEnv where
  flo : Bipart.Flo
  cdif : flo.F
  crem : flo.F
  edls : Int → flo.F
  difo : Int → flo.F
  difn : Int → flo.F

/-- Parameters. -/
structure SdParam where
  passnbr : Int
  movenbr : Int
  partval : Int

variable (env : SdEnv)

/-- An array of the size of the graph. -/
def sdArr (b : Vgraph) (f : Int → env.flo.F) : Arr env.flo.F := ⟨b.s.baseval, b.s.baseval + b.s.vertnbr, f⟩

/-- Loads of edges of each vertex — vgraph_separate_df.c:125–144. The load is also computed by a loop when edges have no load. -/
def sdEdls (b : Vgraph) : M (Arr env.flo.F) :=
  forUp b.s.baseval b.s.vertnnd (sdArr env b env.edls) fun v a => do
    let edlosum ← b.s.forArcs v 0 fun e _ s => do return s + (← b.s.rdEdlo e)
    a.wr v (env.flo.ofInt edlosum)

/-- Loads of the anchor vertices — vgraph_separate_df.c:157–165. -/
def sdVanc (b : Vgraph) (avg rootval : Int) : env.flo.F × env.flo.F :=
  let f := env.flo
  let compload0 := avg - b.compload2.tdiv 2
  let compload1 := b.s.velosum - avg - (b.compload2 + 1).tdiv 2
  let x0 := f.ofInt (- compload0 * b.dwgt0)
  let x1 := f.sub (f.ofInt (compload1 * b.dwgt1)) f.eps
  if rootval = 0 then (f.sub x0 (f.mul (f.ofInt b.compload2) (f.ofInt b.dwgt0)), x1) else (x0, f.add x1 (f.mul (f.ofInt b.compload2) (f.ofInt b.dwgt1)))

/-- Initial values — vgraph_separate_df.c:167–174. -/
def sdInit (b : Vgraph) (edls : Arr env.flo.F) (vanc : env.flo.F × env.flo.F) (difo : Arr env.flo.F) : M (Arr env.flo.F) := do
  let difo ← forUp b.s.baseval (b.s.baseval + (b.s.vertnbr - 2)) difo fun v a => a.wr v (env.flo.ofInt 0)
  let difo ← difo.wr (b.s.vertnnd - 2) (env.flo.div vanc.1 (← edls.rd (b.s.vertnnd - 2)))
  difo.wr (b.s.vertnnd - 1) (env.flo.div vanc.2 (← edls.rd (b.s.vertnnd - 1)))

/-- Absorption of the load of a vertex — vgraph_separate_df.c:205–214. -/
def sdAbsorb (d velf : env.flo.F) : env.flo.F :=
  let f := env.flo
  if f.ge0 d then (if f.le0 (f.sub d velf) then f.eps else f.sub d velf)
  else (if f.ge0 (f.add d velf) then f.neg f.eps else f.add d velf)

/-- New value of a vertex, before the division — vgraph_separate_df.c:191–214. -/
def sdDiff (b : Vgraph) (edls difo : Arr env.flo.F) (v : Int) : M env.flo.F := do
  let f := env.flo
  let d ← b.s.forArcs v (f.ofInt 0) fun e w d => do
    let x ← difo.rd w
    match b.s.edlotax with
    | none => return f.add d x
    | some a => return f.add d (f.mul x (f.ofInt (← a.rd e)))
  let veloval ← b.s.rdVelo v
  return sdAbsorb env (f.add (f.mul d env.cdif) (f.mul (f.mul (← difo.rd v) env.crem) (← edls.rd v))) (f.ofInt veloval)

/-- A move: loop on vertices — vgraph_separate_df.c:183–224, whose limit goes up by one at a time for the last two vertices. The loop stops when a value is not a number. -/
def sdMove (b : Vgraph) (edls difo difn : Arr env.flo.F) : M (Loop (Arr env.flo.F) (Arr env.flo.F)) :=
  forUpB b.s.baseval b.s.vertnnd difn fun v difn => do
    let d ← sdDiff env b edls difo v
    if env.flo.isnan d then return .brk difn
    else return .next (← difn.wr v (env.flo.div d (← edls.rd v)))

/-- Moves — vgraph_separate_df.c:179–230. The two arrays, of which the first one gives the parts. -/
def sdMoves (b : Vgraph) (edls : Arr env.flo.F) (movenbr : Int) (s : Arr env.flo.F × Arr env.flo.F) : M (Arr env.flo.F × Arr env.flo.F) := do
  let r ← forUpB 0 movenbr s fun _ (difo, difn) => do
    match ← sdMove env b edls difo difn with
    | .next difn => return .next (difn, difo)
    | .brk difn => return .brk (difo, difn)
  match r with
  | .next s => return s
  | .brk s => return s

/-- Parts — vgraph_separate_df.c:232–233. -/
def sdParts (b : Vgraph) (difo : Arr env.flo.F) : M (Arr Int) :=
  forUp b.s.baseval b.s.vertnnd b.parttax fun v a => do a.wr v (if env.flo.le0 (← difo.rd v) then 0 else 1)

/-- State of the loop on vertices: `parttax`, `frontab`, `fronnum`, `compsize1`, `compload1`, `compload2`. -/
structure SdState where
  part : Arr Int
  fron : Arr Int
  nbr : Int
  size1 : Int
  load1 : Int
  load2 : Int

/-- Whether a vertex has a neighbour in a given part — vgraph_separate_df.c:259–266. -/
def sdNear (g : Graph) (part : Arr Int) (v partend : Int) : M Bool := do
  let l ← forUpB (← g.verttax.rd v) (← g.rdVend v) () fun e _ => do
    if (← part.rd (← g.edgetax.rd e)) = partend then return Loop.brk () else return Loop.next ()
  match l with
  | .next _ => return false
  | .brk _ => return true

/-- Body of the loop on vertices — vgraph_separate_df.c:251–267. -/
def sdVert (b : Vgraph) (rootval v : Int) (s : SdState) : M SdState := do
  let partval ← s.part.rd v
  let veloval ← b.s.rdVelo v
  let s := { s with size1 := s.size1 + partval, load1 := s.load1 + partval * veloval }
  if partval = rootval then do
    if ← sdNear b.s s.part v (Bipart.xorP partval 1) then return { s with fron := (← s.fron.wr s.nbr v), nbr := s.nbr + 1, part := (← s.part.wr v 2), load2 := s.load2 + veloval }
    else return s
  else return s

/-- End of a pass — vgraph_separate_df.c:244–277. -/
def sdPassEnd (b : Vgraph) (rootval : Int) (part : Arr Int) : M Vgraph := do
  let s ← forUp b.s.baseval b.s.vertnnd ⟨part, b.frontab, 0, 0, 0, 0⟩ (sdVert b rootval)
  let compload0 := if rootval = 0 then b.s.velosum - s.load1 - s.load2 else b.s.velosum - s.load1
  let compload1 := if rootval = 0 then s.load1 else s.load1 - s.load2
  return { b with
    parttax := s.part, frontab := s.fron, fronnbr := s.nbr, compload0 := compload0, compload1 := compload1, compload2 := s.load2, comploaddlt := compload0 * b.dwgt1 - compload1 * b.dwgt0,
    compsize0 := if rootval = 0 then b.s.vertnbr - s.size1 - s.nbr else b.s.vertnbr - s.size1, compsize1 := if rootval = 0 then s.size1 else s.size1 - s.nbr }

/-- A pass — vgraph_separate_df.c:150–277. -/
def sdPass (para : SdParam) (avg : Int) (edls : Arr env.flo.F) (passnum : Int) (s : Vgraph × Arr env.flo.F × Arr env.flo.F) : M (Vgraph × Arr env.flo.F × Arr env.flo.F) := do
  let (b, difo, difn) := s
  let rootval := (para.partval + passnum) % 2
  let difo ← sdInit env b edls (sdVanc env b avg rootval) difo
  let (difo, difn) ← sdMoves env b edls para.movenbr (difo, difn)
  let part ← sdParts env b difo
  return (← sdPassEnd b rootval part, difo, difn)

/-- `vgraphSeparateDf` — vgraph_separate_df.c:89–290. There is at least one pass. -/
def separateDf (para : SdParam) (b : Vgraph) : M Vgraph := do
  let edls ← sdEdls env b
  let avg := b.compload0 + b.compload2.tdiv 2
  let s ← forUp 0 (max 1 para.passnbr) (b, sdArr env b env.difo, sdArr env b env.difn) (sdPass env para avg edls)
  return s.1

end Scotch.Separ
