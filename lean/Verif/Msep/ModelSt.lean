import Verif.Msep.Model
import Verif.Bipart.Model

/-!
# Separation of meshes: strategies

src/libscotch/vmesh_store.c, vmesh_separate_st.c.
-/

set_option autoImplicit false

namespace Scotch.Msep
open Separ (Vgraph)
open Bipart (copyN)

/-- Position of a call in a strategy: what memory holds, and what methods draw, may differ from one to another. -/
abbrev Path := List Nat

/-- `VmeshStore` — vmesh.h:74–81. The data area is modelled by two arrays, which are copied at the same offsets by the routines below. -/
structure Store where
  ecmpsize0 : Int
  ecmpsize1 : Int
  ncmpsize0 : Int
  ncmpsize1 : Int
  ncmpload0 : Int
  ncmpload1 : Int
  ncmpload2 : Int
  ncmploaddlt : Int
  fronnbr : Int
  frontab : Arr Int
  parttab : Arr Int

/-- `vmeshStoreInit`, `vmeshStoreSave` — vmesh_store.c:72–87, 112–135. -/
def storeSave (junk : Int → Int) (b : Vmesh) : M Store := do
  let n := b.m.velmnbr + b.m.vnodnbr
  let fron ← copyN ⟨0, n, junk⟩ b.frontab 0 0 b.fronnbr
  let part ← copyN ⟨0, n, junk⟩ b.parttax 0 b.m.baseval n
  return ⟨b.ecmpsize0, b.ecmpsize1, b.ncmpsize0, b.ncmpsize1, b.ncmpload0, b.ncmpload1, b.ncmpload2, b.ncmploaddlt, b.fronnbr, fron, part⟩

/-- `vmeshStoreUpdt` — vmesh_store.c:143–169. -/
def storeUpdt (b : Vmesh) (st : Store) : M Vmesh := do
  let fron ← copyN b.frontab st.frontab 0 0 st.fronnbr
  let part ← copyN b.parttax st.parttab b.m.baseval 0 (b.m.velmnbr + b.m.vnodnbr)
  return ⟨b.m, part, fron, st.fronnbr, st.ecmpsize0, st.ecmpsize1, st.ncmpsize0, st.ncmpsize1, st.ncmpload0, st.ncmpload1, st.ncmpload2, st.ncmploaddlt⟩

/-- Strategies — vmesh_separate_st.c:102–111. Methods that are not modelled are functions. -/
inductive MStrat where
  | empty
  | zr
  | gr (sep : Path → Vgraph → M (Int × Vgraph))
  | concat (a b : MStrat)
  /-- the test may fail -/
  | cond (test : Path → Vmesh → Option Bool) (a b : MStrat)
  | cond1 (test : Path → Vmesh → Option Bool) (a : MStrat)
  | select (a b : MStrat)
  | ext (f : Path → Vmesh → M (Int × Vmesh))

/-- Memory, and the C function `abs`, which is on type `int`. -/
structure MEnv where
  numMax : Int
  junk : Path → Int → Int
  mesh : Path → Mesh.Junk
  wght : Path → Int × Int
  absI : Int → Int

/-- End of a selection — vmesh_separate_st.c:271–274. -/
def selBest (env : MEnv) (s0 : Store) (b : Vmesh) : M (Int × Vmesh) := do
  if s0.fronnbr < b.fronnbr ∨ (s0.fronnbr = b.fronnbr ∧ env.absI s0.ncmploaddlt < env.absI b.ncmploaddlt) then return (0, ← storeUpdt b s0) else return (0, b)

/-- `vmeshSeparateSt` — vmesh_separate_st.c:200–293. The values that the two strategies of a selection return are not used. -/
def separateSt (env : MEnv) : MStrat → Path → Vmesh → M (Int × Vmesh)
  | .empty, _, b => return (0, b)
  | .zr, _, b => do return (0, ← separateZr b)
  | .gr sep, p, b => separateGr env.numMax (env.mesh p) (env.wght p).1 (env.wght p).2 (sep p) b
  | .concat s t, p, b => do
    let (o, b) ← separateSt env s (1 :: p) b
    if o = 0 then separateSt env t (2 :: p) b else return (o, b)
  | .cond c s t, p, b =>
    match c p b with
    | none => return (1, b)
    | some true => separateSt env s (1 :: p) b
    | some false => separateSt env t (2 :: p) b
  | .cond1 c s, p, b =>
    match c p b with
    | none => return (1, b)
    | some true => separateSt env s (1 :: p) b
    | some false => return (0, b)
  | .select s t, p, b => do
    let s1 ← storeSave (env.junk (3 :: p)) b
    let (_, b) ← separateSt env s (1 :: p) b
    let s0 ← storeSave (env.junk (4 :: p)) b
    let b ← storeUpdt b s1
    let (_, b) ← separateSt env t (2 :: p) b
    selBest env s0 b
  | .ext f, p, b => f p b

/-! ## Specification -/

/-- Meaning of a method on the meshes of a class: it does not change the mesh; if it succeeds, the separation is valid. A sure method always succeeds; a total one always ends. -/
def MMethod (ok : Mesh → Prop) (tot sure : Bool) (f : Vmesh → M (Int × Vmesh)) : Prop :=
  ∀ b, ok b.m → b.m.Consistent → Alloc b → Valid b → Meets tot (f b) (fun r => r.2.m = b.m ∧ Alloc r.2 ∧ (sure = true → r.1 = 0) ∧ (r.1 = 0 → Valid r.2))

/-- Strategies: methods are right, and the strategies of a selection always succeed. Tests of sure strategies do not fail. -/
def MGood (ok : Mesh → Prop) (cls : Graph → Prop) (tot : Bool) : Bool → MStrat → Prop
  | _, .empty => True
  | _, .zr => True
  | sure, .gr sep => ∀ p, Separ.SepMethod cls tot sure (sep p)
  | sure, .concat s t => MGood ok cls tot sure s ∧ MGood ok cls tot sure t
  | sure, .cond c s t => (sure = true → ∀ p b, c p b ≠ none) ∧ MGood ok cls tot sure s ∧ MGood ok cls tot sure t
  | sure, .cond1 c s => (sure = true → ∀ p b, c p b ≠ none) ∧ MGood ok cls tot sure s
  | _, .select s t => MGood ok cls tot true s ∧ MGood ok cls tot true t
  | sure, .ext f => ∀ p, MMethod ok tot sure (f p)

/-- What separation by graphs needs: weights in memory are equal, and tables of `meshGraph` are not too large. -/
structure MEnv.Ok (env : MEnv) (ok : Mesh → Prop) (cls : Graph → Prop) : Prop where
  wght : ∀ p, env.wght p = (1, 1)
  base : ∀ m, ok m → 0 ≤ m.baseval
  node : ∀ m, ok m → 1 ≤ m.vnodnbr
  deg : ∀ m, ok m → m.degrmax * m.degrmax * 4 ≤ env.numMax
  key : ∀ m, ok m → ∀ v, m.Elem v ∨ m.Node v → v * 37 ≤ env.numMax
  cls : ∀ m g, ok m → Mesh.NodeGraph m g → cls g

end Scotch.Msep
