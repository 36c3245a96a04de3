import Verif.Msep.LemmasSt
import Verif.Msep.Props

/-! # C64: node separators of meshes, by strategies -/

set_option autoImplicit false

namespace Scotch.Msep

/-- Strategies: whatever the strategy, if its methods are right, then the separation is valid when success is reported, and the mesh is not changed.

What is missing: weights in memory must be equal, as above (`MEnv.Ok`), and the strategies of a selection must always succeed (`MGood`), because the values that they return are not used; see `C64_select_wrong`. -/
theorem C64_strategy_partial (ok : Mesh → Prop) (cls : Graph → Prop) (tot sure : Bool) (env : MEnv) (he : env.Ok ok cls) (s : MStrat) (hg : MGood ok cls tot sure s) (p : Path) : MMethod ok tot sure (separateSt env s p) :=
  separateSt_meets he s hg p

/-- A selection of two strategies that always succeed: the second one starts from the separation that was given to the first one, and the separator has no more nodes than those of the two strategies. -/
theorem C64_select (ok : Mesh → Prop) (cls : Graph → Prop) (tot : Bool) (env : MEnv) (he : env.Ok ok cls) (s t : MStrat) (gs : MGood ok cls tot true s) (gt : MGood ok cls tot true t) (p : Path) (b : Vmesh) (hk : ok b.m) (C : b.m.Consistent) (A : Alloc b)
    (V : Valid b) : Meets tot (separateSt env (.select s t) p b) (fun r => r.1 = 0 ∧ r.2.m = b.m ∧ Valid r.2 ∧ ∃ r1 b2 r2, separateSt env s (1 :: p) b = .ok r1 ∧ (b2.m = b.m ∧ Valid b2 ∧ ∀ v, b.m.Elem v ∨ b.m.Node v → b2.part v = b.part v) ∧
      separateSt env t (2 :: p) b2 = .ok r2 ∧ r.2.fronnbr ≤ r1.2.fronnbr ∧ r.2.fronnbr ≤ r2.2.fronnbr) := by
  refine (select_meets (fun q => separateSt_meets he s gs q) (fun q => separateSt_meets he t gt q) p hk C A V).mono ?_
  rintro r ⟨h1, h2, -, h4, r1, b2, r2, e1, B, e2, l1, l2⟩
  exact ⟨h1, h2, h4, r1, b2, r2, e1, ⟨B.m, B.valid, B.part⟩, e2, l1, l2⟩

/-- A separation that is saved is put back, whatever the separation of the same mesh that it replaces, and whatever memory held. -/
theorem C64_store (b c : Vmesh) (C : b.m.Consistent) (A : Alloc b) (V : Valid b) (hm : c.m = b.m) (Ac : Alloc c) (junk : Int → Int) :
    Holds (storeSave junk b >>= storeUpdt c) (fun c' => c'.m = b.m ∧ Valid c' ∧ c'.fronnbr = b.fronnbr ∧ ∀ v, b.m.Elem v ∨ b.m.Node v → c'.part v = b.part v) := by
  rw [Holds_bind]
  refine (storeSave_holds C A V junk).mono ?_
  intro st S
  refine (storeUpdt_holds C V S hm Ac).mono ?_
  intro c' B
  exact ⟨B.m, B.valid, B.fronnbr, B.part⟩

/-! ## Cases -/

/-- Memory: 5 everywhere. -/
def exEnv : MEnv := ⟨2147483647, fun _ _ => 5, fun _ => ⟨fun _ => 5, fun _ => 5⟩, fun _ => (1, 1), fun x => x.natAbs⟩

theorem exEnv_ok : exEnv.Ok (fun m => m = Mesh.exMesh) (fun _ => True) := by
  refine ⟨fun _ => rfl, ?_, ?_, ?_, ?_, fun _ _ _ _ => trivial⟩
  · rintro m rfl; decide
  · rintro m rfl; decide
  · rintro m rfl; decide +kernel
  · rintro m rfl; exact Mesh.exMesh_keys

/-- All in part 0, or as it is; then by the graph of nodes. -/
def exStrat : MStrat := .concat (.select .zr .empty) (.gr fun _ v => return (0, v))

theorem exStrat_good : MGood (fun m => m = Mesh.exMesh) (fun _ => True) true true exStrat := ⟨⟨trivial, trivial⟩, fun _ => empty_sep⟩

example := C64_strategy_partial _ _ _ _ exEnv exEnv_ok exStrat exStrat_good [] exSep rfl Mesh.exMesh_cons exSep_alloc exSep_valid
example := C64_select _ (fun _ => True) true exEnv exEnv_ok .zr .empty trivial trivial [] exSep rfl Mesh.exMesh_cons exSep_alloc exSep_valid
example := C64_store exSep { exSep with fronnbr := -7 } Mesh.exMesh_cons exSep_alloc exSep_valid rfl ⟨exSep_alloc.mesh, exSep_alloc.part, exSep_alloc.fron⟩ (fun _ => 5)

/-- The separator of the first strategy, which is empty, is selected. -/
example : (separateSt exEnv (.select .zr .empty) [] exSep).map (fun r => (r.2.parttax.toList, [r.2.fronnbr, r.2.ncmpload0])) = .ok ([0, 0, 0, 0, 0, 0], [0, 10]) := by decide +kernel
example : (separateSt exEnv (.select .empty .empty) [] exSep).map (fun r => (r.2.parttax.toList, [r.2.fronnbr, r.2.ncmpload0])) = .ok ([0, 1, 0, 2, 2, 1], [2, 1]) := by decide +kernel

/-! ## Disagreement -/

/-- A selection reports success even if its strategies fail, and may then return the separation that a strategy that failed has left: here, separation by the graph of nodes, which leaves nodes of the separator numbered from the base value, because the
strategy for graphs reports an error. Nodes of the frontier array are then not those of the separator. -/
theorem C64_select_wrong : ∃ b : Vmesh, b.m.Consistent ∧ Alloc b ∧ Valid b ∧ ∃ r, separateSt exEnv (.select .empty (.gr fun _ v => return (1, v))) [] b = .ok r ∧ r.1 = 0 ∧ ¬ Valid r.2 := by
  refine ⟨exSep, Mesh.exMesh_cons, exSep_alloc, exSep_valid, ?_⟩
  have h : (separateSt exEnv (.select .empty (.gr fun _ v => return (1, v))) [] exSep).map (fun r => [r.1, r.2.fronnbr, r.2.frontab.get 1, r.2.m.vnodbas]) = .ok [0, 2, 1, 2] := by decide +kernel
  cases hr : separateSt exEnv (.select .empty (.gr fun _ v => return (1, v))) [] exSep with
  | error e => rw [hr] at h; cases h
  | ok r =>
    rw [hr] at h
    have h' : [r.1, r.2.fronnbr, r.2.frontab.get 1, r.2.m.vnodbas] = [0, 2, 1, 2] := Except.ok.inj h
    simp only [List.cons.injEq, and_true] at h'
    refine ⟨r, rfl, h'.1, fun V => ?_⟩
    have := (V.fron.mem (i := 1) (by omega) (by omega)).1.1
    omega

end Scotch.Msep
