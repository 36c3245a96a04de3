import Verif.Graph.Model

/-!
# Cloning of graphs: model

src/libscotch/graph_clone.c. Memory allocation succeeds, except when the requested size is negative: converted to `size_t`, it is then larger than any memory.
-/

set_option autoImplicit false

namespace Scotch.Graph

/-- `memCpy (blk + off, src + fst, n * sizeof (Gnum))` — copy of `n` cells. A negative number is a huge size. -/
def copyTo (blk : Arr Int) (off : Int) (src : Arr Int) (fst n : Int) : M (Arr Int) :=
  if n < 0 then .error .oob else forUp 0 n blk fun i b => do b.wr (off + i) (← src.rd (fst + i))

/-- Number of cells of optional arrays of vertices — graph_clone.c:86–91. -/
def optSize (a : Option (Arr Int)) (n : Int) : Int := if a.isSome then n else 0

/-- Copy of an optional array of vertices: block, next free cell, and position of the copy — graph_clone.c:133–139, 143–149, 151–156. -/
def cloneOpt (base n : Int) (src : Option (Arr Int)) (s : Arr Int × Int) : M ((Arr Int × Int) × Option Int) :=
  match src with
  | none => return (s, none)
  | some a => do return ((← copyTo s.1 s.2 a base n, s.2 + n), some s.2)

/-- Copy of end indices: block, next free cell, position of the copy, and end of the edge array — graph_clone.c:107–130. -/
def cloneEnds (g : Graph) (blk : Arr Int) : M ((Arr Int × Int) × Option Int × Int) :=
  match g.vendtax with
  | none => do
    let e ← g.verttax.rd (g.vertnbr + g.baseval)
    return ((← blk.wr g.vertnbr e, g.vertnbr + 1), none, e)
  | some a => do
    let r ← forUp 0 g.vertnbr (blk, (0 : Int)) fun i s => do
      let x ← a.rd (g.baseval + i)
      return (← s.1.wr (g.vertnbr + i) x, if x > s.2 then x else s.2)
    return ((r.1, g.vertnbr + g.vertnbr), some g.vertnbr, r.2)

/-- Copy of edge arrays — graph_clone.c:158–179. Returns the block, and the position of loads. -/
def cloneEdges (g : Graph) (edgesiz : Int) (junk : Int → Int) : M (Arr Int × Option Int) := do
  let b ← copyTo ⟨0, edgesiz + optSize g.edlotax edgesiz, junk⟩ 0 g.edgetax g.baseval edgesiz
  match g.edlotax with
  | none => return (b, none)
  | some a => return (← copyTo b edgesiz a g.baseval edgesiz, some edgesiz)

/-- `graphClone` — graph_clone.c:69–193; none when 1 is returned. The contents of new memory are arbitrary. -/
def clone (g : Graph) (junk1 junk2 : Int → Int) : M (Option Graph) := do
  let base := g.baseval
  let n := g.vertnbr
  let datasiz := n + (if g.vendtax.isSome then n else 1) + optSize g.velotax n + optSize g.vnumtax n + optSize g.vlbltax n
  if datasiz < 0 then return none
  else do
    let blk ← copyTo ⟨0, datasiz, junk1⟩ 0 g.verttax base n
    let (s, vend, edgeend) ← cloneEnds g blk
    let edgesiz := edgeend - base
    let (s, velo) ← cloneOpt base n g.velotax s
    let (s, vnum) ← cloneOpt base n g.vnumtax s
    let (s, vlbl) ← cloneOpt base n g.vlbltax s
    if edgesiz + optSize g.edlotax edgesiz < 0 then return none
    else do
      let (b, edlo) ← cloneEdges g edgesiz junk2
      return some { g with
        vertnnd := n + base
        verttax := s.1.shift base
        vendtax := vend.map fun o => s.1.shift (base - o)
        velotax := velo.map fun o => s.1.shift (base - o)
        vnumtax := vnum.map fun o => s.1.shift (base - o)
        vlbltax := vlbl.map fun o => s.1.shift (base - o)
        edgetax := b.shift base
        edlotax := edlo.map fun o => b.shift (base - o) }

end Scotch.Graph
