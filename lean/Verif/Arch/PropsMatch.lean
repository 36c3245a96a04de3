import Verif.Arch.LemmasMatchMesh
import Verif.Arch.Props

/-!
# C46: matchings of architectures
-/

set_option autoImplicit false
set_option linter.unusedSimpArgs false

namespace Scotch
open Arch

/-- A routine that satisfies its invariant coarsens down to a single vertex. -/
theorem Arch.Matcher.coarsens {σ : Type} {mate : σ → M (Int × σ)} {mult : σ → Arr Multi} {Inv : σ → Int → Prop} {μ : σ → Nat}
    (h : Matcher mate mult Inv μ) (hs : Stops mate Inv) (hμ : ∀ s n, Inv s n → μ s = n.toNat) : ∀ (k : Nat) s n, n.toNat ≤ k → Inv s n → Coarsens mate mult s n
  | 0, s, n, hk, I => by have := h.pos s n I; omega
  | k + 1, s, n, hk, I => by
    have h1 := h.pos s n I
    by_cases hn : n = 1
    · subst hn
      obtain ⟨⟨r, s'⟩, e, hr⟩ := Holds_iff_exists.1 (hs s I)
      dsimp only at hr
      subst hr
      exact .done s s' e
    · obtain ⟨⟨r, s'⟩, e, a1, a2, a3, a4, -⟩ := Holds_iff_exists.1 (h.step s n I (by omega))
      rw [hμ _ _ a3, hμ _ _ I] at a4
      dsimp only at *
      exact .step s s' n r e (h.pos s' r a3) (by omega) a2 (coarsens h hs hμ k s' r (by omega) a3)

/-- Complete graphs: successive matchings partition the processors, down to a single one. -/
theorem C46_cmplt (junk : Int → Multi) (n : Int) (hn : 1 ≤ n) : Coarsens Cmplt.matchMate Cmplt.Match.multtab (Cmplt.matchInit junk n) n :=
  Cmplt.matcher.coarsens Cmplt.stops (fun _ _ I => by rw [I.1]) _ _ _ (Nat.le_refl _) (Cmplt.matchInit_inv junk hn)

example : cellsOf ((Cmplt.matchMate (Cmplt.matchInit (fun _ => (0, 0)) 5)).map fun r => (r.1, r.2.multtab)) = some [(0, 1), (2, 3), (4, 4)] := by decide +kernel

/-- The same for hypercubes. -/
theorem C46_hcub (junk : Int → Multi) (d : Nat) (hd : d ≤ 30) : Holds (Hcub.matchInit junk d) (fun m => Coarsens Hcub.matchMate Hcub.Match.multtab m (2 ^ d)) :=
  (Hcub.matchInit_inv junk hd).mono fun m I => Hcub.matcher.coarsens Hcub.stops (fun _ _ I => by rw [I.1]) _ _ _ (Nat.le_refl _) I

example : cellsOf (do let m ← Hcub.matchInit (fun _ => (0, 0)) 2; let r ← Hcub.matchMate m; pure (r.1, r.2.multtab)) = some [(0, 1), (2, 3)] := by decide +kernel

/-- The same for trees of which the processors are the leaves. -/
theorem C46_tleaf (junk : Int → Multi) (a : Tleaf.Arch) (h : Tleaf.WF a) (hl : 1 ≤ a.levlnbr) :
    Holds (Tleaf.matchInit junk a) (fun m => Coarsens (Tleaf.matchMate a) Tleaf.Match.multtab m a.termnbr) :=
  (Tleaf.matchInit_inv h hl junk).mono fun m I => (Tleaf.matcher h).coarsens (Tleaf.stops h) (fun _ _ I => by rw [I.nbr]) _ _ _ (Nat.le_refl _) I

example : Tleaf.WF Tleaf.sample ∧ 1 ≤ Tleaf.sample.levlnbr ∧
    cellsOf (do let m ← Tleaf.matchInit (fun _ => (0, 0)) Tleaf.sample; let r ← Tleaf.matchMate Tleaf.sample m; pure (r.1, r.2.multtab)) = some [(0, 1), (2, 2), (3, 4), (5, 5)] :=
  ⟨Tleaf.sample_wf.wf, by decide, by decide +kernel⟩

/-- The same for meshes and tori. -/
theorem C46_mesh (junk : Int → Multi) (cs : List Int) (hp : Mesh.Pos cs) (hne : cs ≠ []) :
    Holds (Mesh.matchInit junk cs) (fun m => Coarsens Mesh.matchMate Mesh.Match.multtab m (Mesh.total cs)) :=
  (Mesh.matchInit_inv junk hp hne).mono fun m I => Mesh.matcher.coarsens Mesh.stops (fun _ _ I => by rw [I.nbr]) _ _ _ (Nat.le_refl _) I

example : Mesh.Pos [3, 2] ∧ cellsOf (do let m ← Mesh.matchInit (fun _ => (0, 0)) [3, 2]; let r ← Mesh.matchMate m; pure (r.1, r.2.multtab)) = some [(0, 0), (1, 2), (3, 3), (4, 5)] := by
  refine ⟨by simp [Mesh.Pos], by decide +kernel⟩

end Scotch
