import Verif.Graph.Model
import Verif.Sort.Model
import Verif.TextIO.Pairs
import Verif.Order.IO

/-!
# Input and output of mappings: model of library_graph_map_io.c

`Gnum` has `k + 1` bits: the largest value is `2^k - 1`. Streams do not fail on output. `SCOTCH_graphMapLoad` and `SCOTCH_graphMapSave` only call the functions below on the part array of the mapping.
-/

set_option autoImplicit false

namespace Scotch.MapIO
open Text

/-- Largest `Gnum`. -/
def numMax (k : Nat) : Int := 2 ^ k - 1

/-- Body of the loop of `SCOTCH_graphTabSave` — library_graph_map_io.c:216–218. -/
def saveLine (g : Graph) (parttab : Arr Int) (v : Int) (out : Stream) : M Stream := do
  let a ← rdLabel g.vlbltax v
  let b ← parttab.rd (v - g.baseval)
  return out ++ pairLine a b

/-- `SCOTCH_graphTabSave` — library_graph_map_io.c:199–225. -/
def tabSave (g : Graph) (parttab : Arr Int) : M Stream :=
  forUp g.baseval g.vertnnd (printInt g.vertnbr ++ [10]) (saveLine g parttab)

/-- An entry of arrays `mappsorttab` and `vertsorttab`: label and number. -/
abbrev VertSort := Int × Int

/-- Memory group of `SCOTCH_graphTabLoad` (lines 110–112), and state of the loops that fill it: cells 0 to `mappfilenbr - 1` are `mappsorttab`, the next ones are `vertsorttab`. The two arrays are contiguous, because the size of
their elements is a multiple of the alignment. `flag` and `labl` are `mappsortflag` and `mappsortlabl`, or `vertsortflag` and `vertsortlabl`. -/
structure Tab where
  tab : Arr VertSort
  flag : Bool
  labl : Int

/-- Stores an entry, and tells if labels are still in ascending order — library_graph_map_io.c:127–132, 153–158. -/
def Tab.put (t : Tab) (i labl num : Int) : M Tab := do
  let tab ← t.tab.wr i (labl, num)
  return ⟨tab, if labl < t.labl then false else t.flag, labl⟩

/-- Body of the reading loop — library_graph_map_io.c:120–132. -/
def readLine (k : Nat) (i : Int) (st : Tab × Stream) : M (Option (Tab × Stream)) :=
  scanInt (numMax k) st.2 >?> fun a => scanInt (numMax k) a.2 >?> fun b => do
    let t ← st.1.put i a.1 b.1
    return some (t, b.2)

/-- View of an array, the first index of which is `d` in the array. -/
def view {α : Type} (a : Arr α) (d : Int) : Arr α := ⟨a.lo - d, a.hi - d, fun i => a.get (i + d)⟩

/-- `intSort2asc1` on the `n` entries that start at index `d`, if they are not in order — library_graph_map_io.c:134–135, 160–161. -/
def sortIf (k : Nat) (flag : Bool) (tab : Arr VertSort) (d n : Int) : M (Arr VertSort) :=
  if flag then return tab
  else do
    let a ← Sorting.sort Sorting.lt2asc1 (k + 1) (view tab d) n
    return view a (-d)

/-- Body of the loop that searches for duplicates — library_graph_map_io.c:138–142. -/
def dupBody (tab : Arr VertSort) (i : Int) (_ : Unit) : M (Option Unit) := do
  let a ← tab.rd i
  let b ← tab.rd (i - 1)
  guardO (a.1 ≠ b.1)

/-- Body of the loop on vertex labels — library_graph_map_io.c:153–158. The based array is indexed from 0. -/
def vertBody (vlbltax : Arr Int) (N : Int) (v : Int) (t : Tab) : M Tab := do
  let l ← vlbltax.rd v
  t.put (N + v) l v

/-- Body of the `while` loop — library_graph_map_io.c:164–168. The result is `none` for `goto end`. -/
def skipBody (tab : Arr VertSort) (N l : Int) (m : Int) : M (Loop Int (Option Int)) := do
  let a ← tab.rd m
  if a.1 < l then
    if m + 1 ≥ N then return .brk none
    else return .next (m + 1)
  else return .brk (some m)

/-- State of the merging loop. -/
structure Merge where
  m : Int
  part : Arr Int

/-- Second half of the body of the merging loop — library_graph_map_io.c:169–170. -/
def assign (tab : Arr VertSort) (e : VertSort) (st : Merge) (m : Int) : M Merge := do
  let a ← tab.rd m
  if a.1 = e.1 then do
    let part ← st.part.wr e.2 a.2
    return ⟨m + 1, part⟩
  else return ⟨m, st.part⟩

/-- Body of the merging loop — library_graph_map_io.c:164–170. -/
def mergeBody (tab : Arr VertSort) (N : Int) (i : Int) (st : Merge) : M (Loop Merge (Arr Int)) := do
  let e ← tab.rd (N + i)
  match ← loopM (skipBody tab N e.1) (N.toNat + 2) st.m with
  | none => return .brk st.part
  | some m => return .next (← assign tab e st m)

/-- Body of the loop without labels — library_graph_map_io.c:180–182. -/
def directBody (g : Graph) (tab : Arr VertSort) (i : Int) (part : Arr Int) : M (Arr Int) := do
  let a ← tab.rd i
  if a.1 - g.baseval ≥ 0 ∧ a.1 - g.baseval < g.vertnbr then part.wr (a.1 - g.baseval) a.2 else return part

/-- What follows the search for duplicates — library_graph_map_io.c:145–184. -/
def finish (k : Nat) (g : Graph) (N : Int) (tab : Arr VertSort) (part : Arr Int) : M (Arr Int) :=
  match g.vlbltax with
  | some vlbltax => do
    let t ← forUp 0 g.vertnbr ⟨tab, true, -numMax k - 1⟩ (vertBody vlbltax N)
    let tab ← sortIf k t.flag t.tab N g.vertnbr
    match ← forUpB 0 g.vertnbr ⟨0, part⟩ (mergeBody tab N) with
    | .brk part => return part
    | .next st => return st.part
  | none => forUp 0 N part (directBody g tab)

/-- Number of cells of `vertsorttab` — library_graph_map_io.c:109. -/
def sortNbr (g : Graph) : Int := if g.vlbltax.isSome then g.vertnbr else 0

/-- What follows the reading of all entries — library_graph_map_io.c:134–188. -/
def process (k : Nat) (g : Graph) (N : Int) (t : Tab) (part : Arr Int) : M (Option (Arr Int)) := do
  let tab ← sortIf k t.flag t.tab 0 N
  loopO 1 N () (dupBody tab) >?> fun _ => do
    let part ← finish k g N tab part
    return some part

/-- `SCOTCH_graphTabLoad` — library_graph_map_io.c:78–189. The result is `none` when an error is returned: the part array is then filled with −1. -/
def tabLoad (k : Nat) (g : Graph) (parttab : Arr Int) (junk : Int → VertSort) (s : Stream) : M (Option (Arr Int)) := do
  let part ← forUp 0 g.vertnbr parttab (fun i a => a.wr i (-1))
  scanInt (numMax k) s >?> fun n => guardO (1 ≤ n.1) >?> fun _ =>
    loopO 0 n.1 (⟨⟨0, n.1 + sortNbr g, junk⟩, true, -numMax k - 1⟩, n.2) (readLine k) >?> fun st =>
      process k g n.1 st.1 part

end Scotch.MapIO
