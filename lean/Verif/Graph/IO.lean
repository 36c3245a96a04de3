import Verif.Graph.Model
import Verif.TextIO.Reader

/-!
# Graphs: model of graphLoad and graphSave (src/libscotch/graph_io.c)

`numMax` is the largest `Gnum`. Additions of `Gnum` values read from the file are checked for overflow. Sizes of arrays, in
bytes, are assumed not to exceed the range of `size_t`; memory allocation succeeds, and yields arrays of arbitrary content,
which are given as parameters (`junk`). Output to the stream succeeds.
-/

set_option autoImplicit false

namespace Scotch
open Text
namespace Graph

/-- Values of the header of a file; `lbl`, `edl` and `vel` are the tests `proptab[0] != 0`, `proptab[1] != 0` and
`proptab[2] != 0`. -/
structure Header where
  vertnbr : Int
  edgenbr : Int
  filebase : Int
  lbl : Bool
  edl : Bool
  vel : Bool

/-- Reading of the header — graph_io.c:113–143. `sprintf (proptab, "%3.3d", propval)` writes the three decimal digits of
`propval`. `edgenbr & 1` is the parity, the value not being negative at this point. -/
def loadHeader (numMax : Int) (s : Stream) : M (Option (Header × Stream)) :=
  getInt numMax s >?> fun (versval, s) =>
  guardO (versval = 0) >?> fun _ =>
  getInt numMax s >?> fun (vertnbr, s) =>
  getInt numMax s >?> fun (edgenbr, s) =>
  getInt numMax s >?> fun (baseadj, s) =>
  getInt numMax s >?> fun (propval, s) =>
  guardO (¬ (propval < 0 ∨ propval > 111)) >?> fun _ =>
  guardO (¬ vertnbr < 0) >?> fun _ =>
  guardO (¬ (edgenbr < 0 ∨ edgenbr % 2 ≠ 0)) >?> fun _ =>
  return some (⟨vertnbr, edgenbr, baseadj, decide (propval / 100 ≠ 0), decide (propval / 10 % 10 ≠ 0),
    decide (propval % 10 ≠ 0)⟩, s)

/-- Variables of the loops of `graphLoad`. -/
structure LoadSt where
  s : Stream
  verttax : Arr Int
  velotax : Option (Arr Int)
  vlbltax : Option (Arr Int)
  edgetax : Arr Int
  edlotax : Option (Arr Int)
  velosum : Int
  edlosum : Int
  degrmax : Int
  vlblmax : Int
  edgenum : Int

/-- Store of a load in an optional array, and update of the sum — graph_io.c:211–213, 240–242. -/
def loadSum (numMax : Int) (lotax : Option (Arr Int)) (i v sum : Int) : M (Option (Arr Int) × Int) :=
  match lotax with
  | none => return (none, sum)
  | some a => do
    let a ← a.wr i v
    let sum ← chk numMax (sum + v)
    return (some a, sum)

/-- Edge load — graph_io.c:232–243. -/
def loadEdlo (numMax : Int) (edl : Bool) (st : LoadSt) : M (Option LoadSt) :=
  if edl then
    getInt numMax st.s >?> fun (edloval, s) => do
      let (edlotax, edlosum) ← loadSum numMax st.edlotax st.edgenum edloval st.edlosum
      return some { st with s := s, edlotax := edlotax, edlosum := edlosum }
  else return some st

/-- Body of the loop on arcs — graph_io.c:232–250. -/
def loadArc (numMax baseadj : Int) (edl : Bool) (st : LoadSt) : M (Option LoadSt) :=
  loadEdlo numMax edl st >?> fun st =>
  getInt numMax st.s >?> fun (edgeval, s) => do
    let w ← chk numMax (edgeval + baseadj)
    let edgetax ← st.edgetax.wr st.edgenum w
    return some { st with s := s, edgetax := edgetax, edgenum := st.edgenum + 1 }

/-- Vertex label — graph_io.c:191–202. -/
def loadVlbl (numMax vertnum : Int) (st : LoadSt) : M (Option LoadSt) :=
  match st.vlbltax with
  | none => return some st
  | some a => getInt numMax st.s >?> fun (vlblval, s) => do
      let a ← a.wr vertnum vlblval
      return some { st with s := s, vlbltax := some a, vlblmax := if vlblval > st.vlblmax then vlblval else st.vlblmax }

/-- Vertex load — graph_io.c:203–214. -/
def loadVelo (numMax : Int) (vel : Bool) (vertnum : Int) (st : LoadSt) : M (Option LoadSt) :=
  if vel then
    getInt numMax st.s >?> fun (veloval, s) => do
      let (velotax, velosum) ← loadSum numMax st.velotax vertnum veloval st.velosum
      return some { st with s := s, velotax := velotax, velosum := velosum }
  else return some st

/-- Body of the loop on vertices — graph_io.c:189–251. -/
def loadVert (numMax baseadj edgennd : Int) (h : Header) (vertnum : Int) (st : LoadSt) : M (Option LoadSt) :=
  loadVlbl numMax vertnum st >?> fun st =>
  loadVelo numMax h.vel vertnum st >?> fun st =>
  getInt numMax st.s >?> fun (degrval, s) => do
    let degrmax := if st.degrmax < degrval then degrval else st.degrmax
    let verttax ← st.verttax.wr vertnum st.edgenum
    let degrnnd ← chk numMax (degrval + st.edgenum)
    if degrnnd > edgennd then return none
    else
      loopO st.edgenum degrnnd { st with s := s, degrmax := degrmax, verttax := verttax } fun _ st =>
        loadArc numMax baseadj h.edl st

/-- First loop of `graphLoad2`: index of the vertex that bears each label — graph_io.c:300–308. -/
def relabelIndex (baseval vertnnd vlblmax : Int) (vlbltax : Arr Int) : M (Option (Arr Int)) :=
  loopO baseval vertnnd (Arr.const 0 (vlblmax + 1) (-1)) fun vertnum indxtab => do
    let l ← vlbltax.rd vertnum
    if (← indxtab.rd l) ≠ -1 then return none
    else return some (← indxtab.wr l vertnum)

/-- Body of the second loop of `graphLoad2` — graph_io.c:312–324. -/
def relabelArc (vlblmax : Int) (indxtab : Arr Int) (edgenum : Int) (edgetax : Arr Int) : M (Option (Arr Int)) := do
  let w ← edgetax.rd edgenum
  if w > vlblmax then return none
  else do
    let x ← indxtab.rd w
    if x = -1 then return none
    else return some (← edgetax.wr edgenum x)

/-- `graphLoad2` — graph_io.c:282–330. The request of a negative number of bytes, which is a huge unsigned
number, fails. -/
def load2 (numMax baseval vertnnd : Int) (verttax edgetax : Arr Int) (vlblmax : Int) (vlbltax : Arr Int) :
    M (Option (Arr Int)) := do
  let size ← chk numMax (vlblmax + 1)
  if size < 0 then return none
  else relabelIndex baseval vertnnd vlblmax vlbltax >?> fun indxtab =>
    loopO baseval vertnnd edgetax fun vertnum edgetax => do
      let vert ← verttax.rd vertnum
      let vend ← verttax.rd (vertnum + 1)
      loopO vert vend edgetax fun edgenum edgetax => relabelArc vlblmax indxtab edgenum edgetax

/-- Contents of freshly allocated arrays. -/
structure LoadJunk where
  verttax : Int → Int
  velotax : Int → Int
  vlbltax : Int → Int
  edgetax : Int → Int
  edlotax : Int → Int

/-- Optional array: null when its size is zero. -/
def optArr (use : Bool) (lo n : Int) (junk : Int → Int) : Option (Arr Int) :=
  if use ∧ n ≠ 0 then some ⟨lo, lo + n, junk⟩ else none

/-- `if (vlbltax != NULL) graphLoad2 (...)`, and end of `graphLoad` — graph_io.c:258–279. -/
def loadEnd (numMax : Int) (h : Header) (baseval vertnnd : Int) (st : LoadSt) : M (Option (Graph × Stream)) :=
  let fin (edgetax : Arr Int) : Graph × Stream :=
    ({ baseval := baseval, vertnbr := h.vertnbr, vertnnd := vertnnd, verttax := st.verttax, vendtax := none,
       velotax := st.velotax, velosum := st.velosum, vnumtax := none, vlbltax := st.vlbltax, edgenbr := h.edgenbr,
       edgetax := edgetax, edlotax := st.edlotax, edlosum := st.edlosum, degrmax := st.degrmax }, st.s)
  match st.vlbltax with
  | none => return some (fin st.edgetax)
  | some vlbltax => load2 numMax baseval vertnnd st.verttax st.edgetax st.vlblmax vlbltax >?> fun edgetax =>
      return some (fin edgetax)

/-- `baseadj` — graph_io.c:146–155. -/
def loadAdj (numMax baseval : Int) (h : Header) : M Int :=
  if baseval = -1 then return 0
  else do
    let adj ← chk numMax (baseval - h.filebase)
    return if h.lbl then 0 else adj

/-- Body of `graphLoad`, after the header has been read — graph_io.c:145–279. -/
def loadBody (numMax baseval : Int) (noVert noEdge : Bool) (junk : LoadJunk) (h : Header) (s : Stream) :
    M (Option (Graph × Stream)) := do
  let gbase := if baseval = -1 then h.filebase else baseval
  let baseadj ← loadAdj numMax baseval h
  let _ ← chk numMax (h.vertnbr + 1)
  let vertnnd ← chk numMax (h.vertnbr + gbase)
  let vlblmax ← chk numMax (vertnnd - 1)
  let edgennd ← chk numMax (h.edgenbr + gbase)
  let velotax := optArr (h.vel && !noVert) gbase h.vertnbr junk.velotax
  let edlotax := optArr (h.edl && !noEdge) gbase h.edgenbr junk.edlotax
  loopO gbase vertnnd
    { s := s
      verttax := ⟨gbase, gbase + (h.vertnbr + 1), junk.verttax⟩
      velotax := velotax
      vlbltax := optArr h.lbl gbase h.vertnbr junk.vlbltax
      edgetax := ⟨gbase, gbase + h.edgenbr, junk.edgetax⟩
      edlotax := edlotax
      velosum := if velotax.isNone then h.vertnbr else 0
      edlosum := if edlotax.isNone then h.edgenbr else 0
      degrmax := 0
      vlblmax := vlblmax
      edgenum := gbase }
    (fun vertnum st => loadVert numMax baseadj edgennd h vertnum st) >?> fun st => do
  let verttax ← st.verttax.wr vertnnd st.edgenum
  if st.edgenum ≠ edgennd then return none
  else loadEnd numMax h gbase vertnnd { st with verttax := verttax }

/-- `graphLoad` — graph_io.c:88–280. `none`: an error is returned. `baseval` is the requested base, or −1 to keep that of the
file; `noVert` and `noEdge` are the flags `GRAPHIONOLOADVERT` and `GRAPHIONOLOADEDGE`. The rest of the stream is
returned with the graph. -/
def load (numMax baseval : Int) (noVert noEdge : Bool) (junk : LoadJunk) (s : Stream) : M (Option (Graph × Stream)) :=
  loadHeader numMax s >?> fun (h, s) => loadBody numMax baseval noVert noEdge junk h s

/-- Optional value followed by a tabulation — graph_io.c:367–370, 379–380. -/
def saveOpt (o : Option (Arr Int)) (i : Int) (out : Stream) : M Stream :=
  match o with
  | none => return out
  | some a => do return out ++ (printInt (← a.rd i) ++ [9])

/-- Number or label of the end of an arc — graph_io.c:381–382. -/
def saveEnd (g : Graph) (vertend : Int) : M Int :=
  match g.vlbltax with
  | none => return vertend
  | some a => a.rd vertend

/-- Body of the loop on arcs — graph_io.c:378–382. -/
def saveArc (g : Graph) (e : Int) (out : Stream) : M Stream := do
  let out ← saveOpt g.edlotax e (out ++ [9])
  let w ← saveEnd g (← g.edgetax.rd e)
  return out ++ printInt w

/-- Body of the loop on vertices — graph_io.c:365–384. -/
def saveVert (g : Graph) (v : Int) (out : Stream) : M Stream := do
  let out ← saveOpt g.vlbltax v out
  let out ← saveOpt g.velotax v out
  let vend ← g.rdVend v
  let vert ← g.verttax.rd v
  let out ← forUp vert vend (out ++ printInt (vend - vert)) fun e out => saveArc g e out
  return out ++ [10]

/-- Character `1` or `0` of `propstr` — graph_io.c:349–351. -/
def propChar (o : Option (Arr Int)) : Nat := if o.isSome then 49 else 48

/-- Header of the file — graph_io.c:349–361. -/
def saveHeader (g : Graph) : Stream :=
  [48, 10] ++ printInt g.vertnbr ++ [9] ++ printInt g.edgenbr ++ [10] ++ printInt g.baseval ++
    [9, propChar g.vlbltax, propChar g.edlotax, propChar g.velotax, 10]

/-- `graphSave` — graph_io.c:340–391: text that is written. -/
def save (g : Graph) : M Stream :=
  forUp g.baseval g.vertnnd (saveHeader g) fun v out => saveVert g v out

end Graph
end Scotch
