import Verif.Separ.Model

/-!
# Separation by greedy growing: model

src/libscotch/vgraph_separate_gg.c. The state of a vertex is 0 in part 0, 1 in part 1, 2 in the separator and
chained, 3 in the separator and linked in the gain table (vgraph_separate_gg.h:62–65). What is left arbitrary:
* the linked vertex that `gainTablFrst` returns (`pick`, which is only obeyed if it returns a linked vertex);
* the root vertex and the permutation drawn at random for each pass (`root`, `perm`);
* the values of `abs`, which is the `int` function of the C library, applied to integers that may be larger (`absI`).
-/

set_option autoImplicit false

namespace Scotch.Separ

/-- Decisions that are left arbitrary. -/
structure GgOracle where
  pick : Nat → Int
  root : Int
  perm : Arr Int
  absI : Int → Int

/-- State of a pass. The vertices that are chained through `gainlink.prev`, starting at `sepaptr`, form a list: a vertex is chained only
when its state becomes 2, and is unchained before its state changes again. -/
structure Gg where
  st : Arr Int
  gain : Arr Int
  chain : List Int
  comploaddlt : Int
  compload2 : Int
  tick : Nat

/-- Neighbour of a vertex that enters the separator — vgraph_separate_gg.c:219–231. -/
def ggArc2 (b : Vgraph) (veloend : Int) (_e x : Int) (s : Gg × Int) : M (Gg × Int) := do
  let stx ← s.1.st.rd x
  if stx = 0 then return (s.1, s.2 + (← b.s.rdVelo x))
  else if stx ≥ 2 then do
    let gain ← s.1.gain.wr x ((← s.1.gain.rd x) - veloend)
    if stx ≥ 3 then do
      let st ← s.1.st.wr x 2
      return ({ s.1 with gain := gain, st := st, chain := x :: s.1.chain }, s.2)
    else return ({ s.1 with gain := gain }, s.2)
  else return s

/-- Neighbour of a vertex that leaves the separator — vgraph_separate_gg.c:201–234. -/
def ggArc (b : Vgraph) (_e w : Int) (s : Gg) : M Gg := do
  if (← s.st.rd w) = 0 then do
    let st ← s.st.wr w 2
    let veloend ← b.s.rdVelo w
    let (s, compgain2) ← b.s.forArcs w ({ s with st := st, chain := w :: s.chain }, - veloend) (ggArc2 b veloend)
    let gain ← s.gain.wr w compgain2
    return { s with gain := gain }
  else return s

/-- Vertices of the chain go to the gain table — vgraph_separate_gg.c:236–240. -/
def ggLink : List Int → Gg → M Gg
  | [], s => return { s with chain := [] }
  | x :: l, s => do
    let st ← s.st.wr x 3
    ggLink l { s with st := st }

/-- A linked vertex, if any: the one that the oracle gives, or else the one of smallest number. -/
def ggFirst (b : Vgraph) (o : GgOracle) (s : Gg) : M (Option Int) := do
  let r ← forUpB b.s.baseval b.s.vertnnd () fun v _ => do
    if (← s.st.rd v) = 3 then return .brk v else return .next ()
  match r with
  | .next _ => return none
  | .brk v => if s.st.In (o.pick s.tick) ∧ s.st.get (o.pick s.tick) = 3 then return some (o.pick s.tick) else return some v

/-- One turn of the loop that grows part 1 — vgraph_separate_gg.c:175–241: the loop ends with `true` if the balance would be worse. -/
def ggStep (b : Vgraph) (o : GgOracle) (s : Int × Gg) : M (Loop (Int × Gg) (Bool × Gg)) := do
  let v := s.1
  let veloval ← b.s.rdVelo v
  let cmpldlt := s.2.comploaddlt - veloval * b.dwgt0
  if s.2.comploaddlt < o.absI cmpldlt then return .brk (true, s.2)
  else do
    let st ← s.2.st.wr v 1
    let g ← s.2.gain.rd v
    let t ← b.s.forArcs v { s.2 with st := st, compload2 := s.2.compload2 + g, comploaddlt := cmpldlt - (g + veloval) * b.dwgt1, chain := [] } (ggArc b)
    let t ← ggLink t.chain t
    match ← ggFirst b o t with
    | none => return .brk (false, t)
    | some w => return .next (w, { t with tick := t.tick + 1 })

/-- Gain of a vertex all neighbours of which are in part 0 — vgraph_separate_gg.c:159–170. -/
def ggGain (b : Vgraph) (v : Int) : M Int :=
  match b.s.velotax with
  | none => do return (← b.s.rdVend v) - (← b.s.verttax.rd v) - 1
  | some velotax => do b.s.forArcs v (- (← velotax.rd v)) fun _ w c => do return c + (← velotax.rd w)

/-- Root vertex — vgraph_separate_gg.c:152–173. -/
def ggSeed (b : Vgraph) (v : Int) (s : Gg) : M Gg := do
  let st ← s.st.wr v 3
  let veloval ← b.s.rdVelo v
  let gain ← s.gain.wr v (← ggGain b v)
  return { s with st := st, gain := gain, comploaddlt := s.comploaddlt - veloval * b.dwgt1, compload2 := s.compload2 + veloval }

/-- Next vertex of part 0 in the permutation — vgraph_separate_gg.c:255–260: its index, and the vertex. -/
def ggScan (b : Vgraph) (perm st : Arr Int) (permnum : Int) : M (Option (Int × Int)) := do
  let r ← forUpB permnum b.s.vertnbr () fun i _ => do
    let v ← perm.rd i
    if (← st.rd v) = 0 then return .brk (i, v) else return .next ()
  match r with
  | .next _ => return none
  | .brk x => return some x

/-- One turn of the loop on roots — vgraph_separate_gg.c:147–261. -/
def ggRoot (b : Vgraph) (o : GgOracle) (s : Int × Int × Gg) : M (Loop (Int × Int × Gg) Gg) := do
  let t ← ggSeed b s.1 s.2.2
  let (stop, t) ← loopM (ggStep b o) (b.s.vertnbr.toNat + 1) (s.1, t)
  if stop then return .brk t
  else do
    match ← ggScan b o.perm t.st s.2.1 with
    | none => return .brk t
    | some (i, v) => return .next (v, i + 1, t)

/-- One pass — vgraph_separate_gg.c:139–261. -/
def ggPass (b : Vgraph) (o : GgOracle) : M Gg :=
  let n := b.s.baseval + b.s.vertnbr
  loopM (ggRoot b o) (b.s.vertnbr.toNat + 1)
    (b.s.baseval + o.root, 0, ⟨Arr.const b.s.baseval n 0, Arr.const b.s.baseval n 0, [], b.s.velosum * b.dwgt1, 0, 0⟩)

/-- Parts of the vertices — vgraph_separate_gg.c:272–273. -/
def ggParts (b : Vgraph) (st part : Arr Int) : M (Arr Int) :=
  forUp b.s.baseval b.s.vertnnd part fun v part => do
    let x ← st.rd v
    part.wr v (if x ≤ 2 then x else 2)

/-- Draws of a pass: `contextIntRandVal` divides by its argument, the number of vertices — vgraph_separate_gg.c:145. -/
def ggDraw (b : Vgraph) : M Unit := if b.s.vertnbr = 0 then throw .divZero else return ()

/-- Body of the loop on passes — vgraph_separate_gg.c:136–275. -/
def ggTry (b : Vgraph) (o : Int → GgOracle) (passnum : Int) (s : Arr Int × Int × Int) : M (Arr Int × Int × Int) := do
  ggDraw b
  let t ← ggPass b (o passnum)
  let absI := (o passnum).absI
  if passnum = 0 ∨ s.2.2 > t.compload2 ∨ (s.2.2 = t.compload2 ∧ absI s.2.1 > absI t.comploaddlt) then do
    let part ← ggParts b t.st s.1
    return (part, t.comploaddlt, t.compload2)
  else return s

/-- `vgraphSeparateGg` — vgraph_separate_gg.c:90–308. -/
def separateGg (o : Int → GgOracle) (passnbr : Int) (b : Vgraph) : M Vgraph := do
  let (part, comploaddlt, compload2) ← forUp 0 passnbr (b.parttax, b.comploaddlt, b.compload2) (ggTry b o)
  finish b part comploaddlt compload2

end Scotch.Separ
