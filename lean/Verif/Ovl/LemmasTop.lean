import Verif.Ovl.LemmasSt
import Verif.Separ.PropsSt
import Verif.Post

/-! # Partitioning with overlap: library routine -/

set_option autoImplicit false

namespace Scotch.Ovl

/-- Coarse graphs are not subgraphs. -/
theorem coarsen_vnum (numMax : Int) (bits : Nat) (junk : Int → Int × Int) (J : Coarsen.Junk) (E : Match.Env) (n m : Int) : Post (Coarsen.coarsen numMax bits junk J E n m) (fun o => ∀ r, o = some r → r.graph.vnumtax = none) := by
  unfold Coarsen.coarsen
  split
  · rintro r h; cases h
  · rw [Post_bind]
    refine Post_iff.2 fun mm _ => ?_
    split
    · rintro r h; cases h
    · rw [Post_bind]
      have : Post (Coarsen.buildSeq numMax E.g mm.1 mm.2 J) (fun r => r.graph.vnumtax = none) := by
        unfold Coarsen.buildSeq Coarsen.assemble
        rw [Post_bind]
        refine Post_iff.2 fun _ _ => ?_
        rw [Post_bind]
        refine Post_iff.2 fun _ _ => ?_
        rw [Post_bind]
        refine Post_iff.2 fun _ _ => ?_
        rw [Post_bind, Post_bind]
        refine Post_iff.2 fun _ _ => ?_
        exact rfl
      refine this.mono fun rr hr r h => ?_
      cases h
      exact hr

theorem Holds.with {α : Type} {x : M α} {P Q : α → Prop} (h : Holds x P) (k : Post x Q) : Holds x (fun a => P a ∧ Q a) := by
  cases x with
  | ok a => exact ⟨h, k⟩
  | error e => exact absurd h (by intro h; exact h)

/-- The separation class of the examples is closed. -/
theorem exCls_closed : Closed Separ.exCls := by
  refine ⟨fun g h => h, ?_⟩
  rintro g l g' ⟨h1, ⟨h2, h3⟩, h4⟩ Cg hl hnd I C -
  have hb := I.baseval
  have hn := I.vertnbr
  have hnn := C.vertnnd
  have hlen : (l.length : Int) ≤ g.vertnbr := by
    have h0 := Cg.vertnbr
    have hs : l ⊆ seg id g.baseval g.vertnnd := fun k hk => (mem_seg id _ _ _).2 ⟨k, (hl k hk).1, (hl k hk).2, rfl⟩
    have h5 := (hnd.subperm hs).length_le
    have h6 := seg_length (id : Int → Int) (lo := g.baseval) (hi := g.vertnnd) (by omega)
    omega
  refine ⟨by omega, ⟨by omega, hnn⟩, ?_⟩
  intro v hv
  have hv1 := hv.1
  have hv2 := hv.2
  obtain ⟨i, rfl⟩ : ∃ i : Nat, v = g.baseval + i := ⟨(v - g.baseval).toNat, by omega⟩
  have hi : i < l.length := by omega
  rw [I.velo i hi]
  exact h4 _ (hl _ (List.getElem_mem hi))

theorem Mt.holds {α : Type} {x : M α} {Q : α → Prop} (h : Mt false true x Q) : Holds x Q := by
  cases x with
  | ok a => exact h
  | error e => cases e <;> first | exact h | exact absurd h (by decide) | (cases h)

theorem Mt.map {α β : Type} {nul tot : Bool} {x : M α} {f : α → β} {Q : β → Prop} (h : Mt nul tot x (fun a => Q (f a))) : Mt nul tot (do let a ← x; return f a) Q := by
  cases x with
  | ok a => exact h
  | error e => cases e <;> exact h

variable {cls : Graph → Prop} {env : WEnv} {nul tot sure : Bool}

theorem graphPartOvl_holds (he : env.Ok cls) (fuel : Nat) {strat : WStrat} {n : Int} (hg : WGood cls env n nul tot sure false strat) {g : Graph} (C : g.Consistent) (A : g.Allocated) (hb : 0 ≤ g.baseval) (h1 : 1 ≤ g.vertnbr) (hv : g.vnumtax = none) (hc : cls g)
    (hn : 1 ≤ n) {user : Arr Int} (hu : user.lo ≤ g.baseval ∧ g.vertnnd ≤ user.hi) :
    Mt nul tot (graphPartOvl env fuel strat g n user) (fun r => (r.2.lo = user.lo ∧ r.2.hi = user.hi) ∧ (sure = true → r.1 = 0) ∧ (r.1 = 0 → IsPartition g n r.2.get)) := by
  have hp : Pre (alloc env [] g n user) := ⟨C, ⟨A, hu, ⟨le_refl _, le_refl _⟩, ⟨le_refl _, le_refl _⟩, ⟨le_refl _, le_refl _⟩⟩, hb, h1, hv, hn⟩
  have h := partSt_holds he fuel strat sure false hg [0] (alloc env [] g n user) hp hc rfl (fun h => by cases h)
  unfold graphPartOvl
  apply Mt.map
  revert h
  cases partSt env fuel strat [0] (alloc env [] g n user) with
  | error e => cases e <;> exact id
  | ok r =>
    intro (R : Res sure _ r)
    refine ⟨R.same.part, R.sure, fun h0 => ?_⟩
    have := (R.valid h0).parts
    rw [R.same.s, R.same.partnbr] at this
    exact this

end Scotch.Ovl
