import Verif.ArchIO.Model

/-!
# Decomposition-defined architectures: model

src/libscotch/arch_deco.c: construction from a list of terminal domains (`archDecoArchBuild2`) and routines on domains. Domains are numbered as in a heap: the two halves of domain `d` are `2d` and `2d + 1`. Sums of distances are
unbounded integers. Saving and loading are in Verif.ArchIO.
-/

set_option autoImplicit false

namespace Scotch.Deco
open ArchIO

/-- `ArchDecoTermVert` — arch_deco.h:89–93. -/
structure TermVert where
  labl : Int
  wght : Int
  num : Int

/-- Place in the array of distances — arch_deco.h:157–158. -/
def place (i j : Int) : Int := if i ≥ j then ((i - 1) * (i - 2)) / 2 + j - 1 else ((j - 1) * (j - 2)) / 2 + i - 1

/-- Distance that may be the one of a domain to itself: `archDecoArchDistE` — arch_deco.h:159. -/
def distE (t : Arr Int) (i j : Int) : M Int := if i = j then return 0 else t.rd (place i j)

/-- Terminal domain — arch_deco.c:145–147. -/
def setTerm (t : Arr TermVert) (i : Int) (a : Arr DecoVert) : M (Arr DecoVert) := do
  let v ← t.rd i
  a.wr (v.num - 1) (v.labl, 1, v.wght)

/-- Data of a half added to the one of a domain: smallest label, sums of sizes and of weights — arch_deco.c:152–158. `ARCHDOMNOTTERM` is -1. -/
def gather (a b : DecoVert) : DecoVert :=
  if b.1 ≠ -1 then (if a.1 = -1 ∨ a.1 > b.1 then b.1 else a.1, a.2.1 + b.2.1, a.2.2 + b.2.2) else a

/-- Accumulation from domain of index `i` to the one it is a half of — arch_deco.c:151–158. -/
def accum (i : Int) (a : Arr DecoVert) : M (Arr DecoVert) := do
  let b ← a.rd i
  let p ← a.rd ((i - 1) / 2)
  a.wr ((i - 1) / 2) (gather p b)

/-- Distances from terminal `i` to former ones — arch_deco.c:170–171. The index in the array of terminal distances follows. -/
def setDists (t : Arr TermVert) (d : Arr Int) (i : Int) (s : Arr Int × Int) : M (Arr Int × Int) :=
  forUp 0 i s fun j s => do
    let v ← t.rd i
    let w ← t.rd j
    return (← s.1.wr (place v.num w.num) (← d.rd s.2), s.2 + 1)

/-- Average distance between domains that both have halves — arch_deco.c:182–185. Operands are positive, so that division rounds down. -/
def avg4 (t : Arr Int) (i j : Int) : M Int := do
  return ((← distE t (2 * i) (2 * j)) + (← distE t (2 * i) (2 * j + 1)) + (← distE t (2 * i + 1) (2 * j)) + (← distE t (2 * i + 1) (2 * j + 1)) + 2) / 4

/-- Average distance between a domain that has halves and a terminal — arch_deco.c:187–188, 192–193. -/
def avg2 (t : Arr Int) (i j : Int) : M Int := do
  return ((← distE t (2 * i) j) + (← distE t (2 * i + 1) j) + 1) / 2

/-- Distance between domains `i` and `j` — arch_deco.c:178–203. -/
def setDist (a : Arr DecoVert) (i j : Int) (t : Arr Int) : M (Arr Int) := do
  let vi ← a.rd (i - 1)
  if vi.2.1 = 0 then return t
  else do
    let vj ← a.rd (j - 1)
    if vi.2.1 > 1 then
      if vj.2.1 > 1 then t.wr (place i j) (← avg4 t i j)
      else t.wr (place i j) (← avg2 t i j)
    else
      if vj.2.1 > 1 then t.wr (place i j) (← avg2 t j i)
      else return t

/-- Distances between domain `j` and later ones — arch_deco.c:175–204. Loops go down. -/
def setRow (a : Arr DecoVert) (max j : Int) (t : Arr Int) : M (Arr Int) := do
  let vj ← a.rd (j - 1)
  if vj.2.1 = 0 then return t
  else forUp 0 (max - j) t fun k t => setDist a (max - k) j t

/-- `archDecoArchBuild2` — arch_deco.c:99–208. -/
def build (n max : Int) (t : Arr TermVert) (d : Arr Int) : M Deco := do
  let a ← forUp 0 n ⟨0, max, fun _ => (-1, 0, 0)⟩ (setTerm t)
  let a ← forUp 0 (max - 1) a fun k a => accum (max - 1 - k) a
  let s ← forUp 1 n (⟨0, max * (max - 1) / 2 + 1, fun _ => 0⟩, 0) (setDists t d)
  let e ← forUp 0 max s.1 fun k e => setRow a max (max - k) e
  return ⟨n, max, a, e⟩

/-- `archDecoDomNum` — arch_deco.c:437–443. -/
def num (a : Deco) (d : Int) : M Int := do return (← a.domverttab.rd (d - 1)).1

/-- Step of the loop of `archDecoDomTerm` — arch_deco.c:462–471. State: number of terminals to come, index. -/
def termStep (a : Deco) (k : Int) (s : Int × Int) : M (Loop (Int × Int) (Option Int)) := do
  if ¬ 0 < s.1 then return .brk none
  else do
    let v ← a.domverttab.rd s.2
    if v.2.1 = 1 then
      if v.1 = k then return .brk (some s.2) else return .next (s.1 - 1, s.2 - 1)
    else return .next (s.1, s.2 - 1)

/-- `archDecoDomTerm` — arch_deco.c:453–474. -/
def term (a : Deco) (k : Int) : M (Option Int) := loopM (termStep a k) (a.domvertnbr.toNat + 2) (a.domtermnbr, a.domvertnbr - 1)

/-- `archDecoDomSize` — arch_deco.c:480–486. -/
def size (a : Deco) (d : Int) : M Int := do return (← a.domverttab.rd (d - 1)).2.1

/-- `archDecoDomWght` — arch_deco.c:492–498. -/
def wght (a : Deco) (d : Int) : M Int := do return (← a.domverttab.rd (d - 1)).2.2

/-- `archDecoDomDist` — arch_deco.c:505–512. -/
def dist (a : Deco) (d0 d1 : Int) : M Int := distE a.domdisttab d0 d1

/-- `archDecoDomBipart` — arch_deco.c:585–599. -/
def bipart (a : Deco) (d : Int) : M (Option (Int × Int)) := do
  let v ← a.domverttab.rd (d - 1)
  if v.2.1 ≤ 1 then return none else return some (2 * d, 2 * d + 1)

/-- `archDecoDomIncl` — arch_deco.c:609–623. Domain numbers are not negative. -/
def incl (d0 d1 : Int) : M Bool :=
  loopM (fun d => if d = 0 then return .brk false else if d = d0 then return .brk true else return .next (d / 2)) (d1.toNat + 1) d1

/-- Routines of the class; the first domain is 1 — arch_deco.c:522–530. -/
def ops (a : Deco) : ArchOps Int := ⟨num a, term a, size a, wght a, dist a, return 1, bipart a, incl⟩

end Scotch.Deco
