import Verif.Graph.LemmasCheck
import Verif.Safe

/-! # Graph checking: memory safety -/

set_option autoImplicit false
set_option linter.unusedSimpArgs false

namespace Scotch.Graph
variable {g : Graph} {numMax : Int}

theorem rdVend_safe (ha : Allocated g) {v : Int} (hv : g.Vertex v) : g.rdVend v = .ok (g.vend v) := by
  have : Holds (g.rdVend v) (fun r => r = g.vend v) := by rw [rdVend_holds ha hv]
  obtain ⟨r, e, rfl⟩ := Holds_iff_exists.1 this
  exact e

theorem rdVert_safe (ha : Allocated g) {v : Int} (hv : g.Vertex v) : g.verttax.rd v = .ok (g.vert v) := by
  have : Holds (g.verttax.rd v) (fun r => r = g.vert v) := by rw [rdVert_holds ha hv]
  obtain ⟨r, e, rfl⟩ := Holds_iff_exists.1 this
  exact e

theorem checkLoad_safe (o : Option (Arr Int)) (i s : Int) (h : ∀ a, o = some a → a.lo ≤ i ∧ i < a.hi) :
    Safe (checkLoad numMax o i s) (fun _ => True) := by
  unfold checkLoad
  cases o with
  | none => trivial
  | some a =>
    have := h a rfl
    dsimp only
    rw [Safe_bind, Safe_rd]
    refine ⟨this, ?_⟩
    rw [Safe_bind]
    unfold addChk
    split
    · rw [Safe_ok]
      split <;> trivial
    · rfl

theorem checkReverse_safe (ha : Allocated g) {v e w : Int} (hv : g.Vertex v) (hw : g.Vertex w) (h1 : g.vert v ≤ e)
    (h2 : e < g.vend v) : Safe (g.checkReverse v e w) (fun _ => True) := by
  unfold checkReverse
  rw [rdVend_safe ha hw]
  show Safe (g.verttax.rd w >>= _) _
  rw [rdVert_safe ha hw]
  show Safe (findArc _ _ _ _ >>= _) _
  rw [Safe_bind]
  refine (findArc_holds g.edgetax v (g.vert w) (g.vend w) (ha.edge w hw)).safe.mono ?_
  rintro r ⟨r1, r2, -, -⟩
  split
  · trivial
  · rename_i hlt
    rw [Safe_bind]
    have hed : Safe (edloDiffer g.edlotax e r) (fun _ => True) := by
      unfold edloDiffer
      cases hn : g.edlotax with
      | none => trivial
      | some a =>
        have b1 := ha.edlo a hn v hv (by omega)
        have b2 := ha.edlo a hn w hw (by omega)
        dsimp only
        rw [Safe_bind, Safe_rd]
        refine ⟨by omega, ?_⟩
        rw [Safe_bind, Safe_rd]
        exact ⟨by omega, trivial⟩
    refine hed.mono ?_
    intro b _
    cases b with
    | true => trivial
    | false =>
      simp only [Bool.false_eq_true, if_false]
      rw [Safe_bind]
      have b2 := ha.edge w hw (by omega)
      refine (findArc_holds g.edgetax v (r + 1) (g.vend w) (fun _ => by omega)).safe.mono ?_
      intro _ _; trivial

theorem checkArc_safe (ha : Allocated g) {v e : Int} (hv : g.Vertex v) (h1 : g.vert v ≤ e)
    (h2 : e < g.vend v) (s : Int) : Safe (g.checkArc numMax v e s) (fun _ => True) := by
  have hae := ha.edge v hv (by omega)
  unfold checkArc
  rw [Safe_bind, Safe_rd]
  refine ⟨by omega, ?_⟩
  rw [Safe_bind]
  refine (checkLoad_safe g.edlotax e s (fun a hn => ?_)).mono ?_
  · have := ha.edlo a hn v hv (by omega)
    omega
  · intro r _
    cases r with
    | none => trivial
    | some u =>
      dsimp only
      split
      · trivial
      · rename_i hin
        split
        · trivial
        · rw [Safe_bind]
          refine (checkReverse_safe ha hv ⟨by omega, by omega⟩ h1 h2).mono ?_
          intro b _
          cases b <;> trivial

theorem check_safe (ha : Allocated g) : Safe (g.check numMax) (fun _ => True) := by
  unfold check
  split
  · trivial
  · split
    · trivial
    · rw [Safe_bind]
      apply Safe_forUpB' (fun _ _ => True) (fun _ => True) trivial
      · intro i s i1 i2 _
        have hv : g.Vertex i := ⟨i1, i2⟩
        rw [Safe_bind]
        have : Safe (g.checkVert numMax i s) (fun _ => True) := by
          unfold checkVert
          rw [rdVert_safe ha hv]
          show Safe (if _ then _ else _) _
          split
          · trivial
          · rw [rdVend_safe ha hv]
            show Safe (if _ then _ else _) _
            split
            · trivial
            · rw [Safe_bind]
              apply Safe_forUpB' (fun _ _ => True) (fun _ => True) trivial
              · intro e t e1 e2 _
                rw [Safe_bind]
                refine (checkArc_safe ha hv e1 e2 t).mono ?_
                intro r _
                cases r <;> trivial
              · intro t _
                dsimp only
                rw [Safe_bind]
                have hvel : Safe (g.checkVelo numMax i s.velosum) (fun _ => True) := by
                  unfold checkVelo
                  cases hn : g.velotax with
                  | none => trivial
                  | some a =>
                    have := ha.velo a hn
                    dsimp only
                    rw [Safe_bind, Safe_rd]
                    refine ⟨by omega, ?_⟩
                    split
                    · trivial
                    · exact checkLoad_safe _ _ _ (by rintro a' ⟨⟩; omega)
                refine hvel.mono ?_
                intro r _
                cases r <;> trivial
              · intro _ _; trivial
        refine this.mono ?_
        intro r _
        cases r <;> trivial
      · intro _ _; trivial
      · intro _ _; trivial

end Scotch.Graph
