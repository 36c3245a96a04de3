import Verif.Arch.LemmasSub4
import Verif.Arch.PropsMatch

/-!
# C58: sub-architectures
-/

set_option autoImplicit false
set_option linter.unusedSimpArgs false

namespace Scotch
open Arch

/-- **C58.** Restricting an architecture to a list of at least two of its processors (or to its first processor) gives an architecture: whatever the class of the original architecture, provided it satisfies the
laws of architectures and its matching routine gives matchings. -/
theorem C58_build {D σ : Type} {o : ArchOps D} {N : Int} {w : Int → Int} {V : D → Prop} {H : D → Int → Prop} (hL : ArchLaws o N w V H) (hN : 0 ≤ N)
    {mate : σ → M (Int × σ)} {mult : σ → Arr Multi} {Inv : σ → Int → Prop} {μ : σ → Nat} (hM : Matcher mate mult Inv μ) (junkS : Int → Sub.STree) (junkT : Int → Sub.Term) (junkD : Int → Sub.Data)
    (numMax q : Int) (vnum : Arr Int) (hP : Sub.Picks N q vnum) (hq : 2 ≤ q ∨ q = 1 ∧ vnum.get 0 = 0) (hqm : q ≤ numMax) (fuel : Nat) (s : σ) (hI : Inv s N) (hf : μ s < fuel) :
    Holds (Sub.build numMax o mate mult junkS junkT junkD fuel s q vnum) (fun r => ∃ a, r = some a ∧ Sub.SubOf o N w q vnum a) := by
  refine (Sub.build_holds hL hN hM junkS junkT junkD hP hq hqm hI hf).mono ?_
  rintro r ⟨a, root, rfl, g⟩
  exact ⟨a, rfl, g.subOf hP⟩

/-- Sub-architectures of complete graphs. -/
theorem C58_cmplt (n : Int) (hn : 1 ≤ n) (junk : Int → Multi) (junkS : Int → Sub.STree) (junkT : Int → Sub.Term) (junkD : Int → Sub.Data)
    (numMax q : Int) (vnum : Arr Int) (hP : Sub.Picks n q vnum) (hq : 2 ≤ q ∨ q = 1 ∧ vnum.get 0 = 0) (hqm : q ≤ numMax) (fuel : Nat) (hf : n < fuel) :
    Holds (Sub.build numMax (Cmplt.ops n) Cmplt.matchMate Cmplt.Match.multtab junkS junkT junkD fuel (Cmplt.matchInit junk n) q vnum)
      (fun r => ∃ a, r = some a ∧ Sub.SubOf (Cmplt.ops n) n (fun _ => 1) q vnum a) :=
  C58_build (C06_cmplt n hn).1 (by omega) Cmplt.matcher junkS junkT junkD numMax q vnum hP hq hqm fuel _ (Cmplt.matchInit_inv junk hn) (by show n.toNat < fuel; omega)

/-- Sub-architectures of hypercubes. -/
theorem C58_hcub (d : Nat) (hd : d ≤ 30) (junk : Int → Multi) (junkS : Int → Sub.STree) (junkT : Int → Sub.Term) (junkD : Int → Sub.Data)
    (numMax q : Int) (vnum : Arr Int) (hP : Sub.Picks (2 ^ d) q vnum) (hq : 2 ≤ q ∨ q = 1 ∧ vnum.get 0 = 0) (hqm : q ≤ numMax) (fuel : Nat) (hf : (2 : Int) ^ d < fuel) :
    Holds (do let m ← Hcub.matchInit junk d; Sub.build numMax (Hcub.ops d) Hcub.matchMate Hcub.Match.multtab junkS junkT junkD fuel m q vnum)
      (fun r => ∃ a, r = some a ∧ Sub.SubOf (Hcub.ops d) (2 ^ d) (fun _ => 1) q vnum a) := by
  rw [Holds_bind]
  refine (Hcub.matchInit_inv junk hd).mono ?_
  intro m I
  exact C58_build (C07_hcub d hd).1 (Int.le_of_lt (Int.pow_pos (by omega))) Hcub.matcher junkS junkT junkD numMax q vnum hP hq hqm fuel _ I (by show m.vertnbr.toNat < fuel; rw [I.1]; have : (0 : Int) < 2 ^ d := Int.pow_pos (by omega); omega)

/-- Sub-architectures of meshes. -/
theorem C58_mesh (cs : List Int) (hp : Mesh.Pos cs) (hne : cs ≠ []) (junk : Int → Multi) (junkS : Int → Sub.STree) (junkT : Int → Sub.Term) (junkD : Int → Sub.Data)
    (numMax q : Int) (vnum : Arr Int) (hP : Sub.Picks (Mesh.total cs) q vnum) (hq : 2 ≤ q ∨ q = 1 ∧ vnum.get 0 = 0) (hqm : q ≤ numMax) (fuel : Nat) (hf : Mesh.total cs < fuel) :
    Holds (do let m ← Mesh.matchInit junk cs; Sub.build numMax (Mesh.opsX cs) Mesh.matchMate Mesh.Match.multtab junkS junkT junkD fuel m q vnum)
      (fun r => ∃ a, r = some a ∧ Sub.SubOf (Mesh.opsX cs) (Mesh.total cs) (fun _ => 1) q vnum a) := by
  rw [Holds_bind]
  refine (Mesh.matchInit_inv junk hp hne).mono ?_
  intro m I
  exact C58_build (Mesh.addLawsX cs hne hp).laws (by have := Mesh.total_pos cs hp; omega) Mesh.matcher junkS junkT junkD numMax q vnum hP hq hqm fuel _ I (by show (Mesh.total m.dimntab).toNat < fuel; rw [← I.nbr]; have := Mesh.total_pos cs hp; omega)

/-- Sub-architectures of trees. -/
theorem C58_tleaf (t : Tleaf.Arch) (h : Tleaf.WF t) (hl : 1 ≤ t.levlnbr) (junk : Int → Multi) (junkS : Int → Sub.STree) (junkT : Int → Sub.Term) (junkD : Int → Sub.Data)
    (numMax q : Int) (vnum : Arr Int) (hP : Sub.Picks t.termnbr q vnum) (hq : 2 ≤ q ∨ q = 1 ∧ vnum.get 0 = 0) (hqm : q ≤ numMax) (fuel : Nat) (hf : t.termnbr < fuel) :
    Holds (do let m ← Tleaf.matchInit junk t; Sub.build numMax (Tleaf.ops t) (Tleaf.matchMate t) Tleaf.Match.multtab junkS junkT junkD fuel m q vnum)
      (fun r => ∃ a, r = some a ∧ Sub.SubOf (Tleaf.ops t) t.termnbr (fun _ => 1) q vnum a) := by
  rw [Holds_bind]
  refine (Tleaf.matchInit_inv h hl junk).mono ?_
  intro m I
  have hpos := (Tleaf.matcher h).pos _ _ I
  exact C58_build (C10_tleaf t h).1 (by omega) (Tleaf.matcher h) junkS junkT junkD numMax q vnum hP hq hqm fuel _ I (by show m.vertnbr.toNat < fuel; rw [I.nbr]; omega)

/-- Terminals 1, 3, 4 of a complete graph of 5: recursive bisection of the sub-architecture reaches its three processors. -/
example : Sub.Picks 5 3 (Arr.ofList 0 [1, 3, 4]) ∧
    (do match ← Sub.build 100 (Cmplt.ops 5) Cmplt.matchMate Cmplt.Match.multtab (fun _ => .null) (fun _ => ⟨0, 0⟩) (fun _ => ⟨0, 0, 0, 0, 0, 0, 0⟩) 6 (Cmplt.matchInit (fun _ => (0, 0)) 5) 3 (Arr.ofList 0 [1, 3, 4]) with
      | none => .error .null
      | some a => bisectAll (Sub.ops (Cmplt.ops 5) a) 5 0) = .ok [0, 1, 2] := by
  refine ⟨⟨by decide, by decide, ?_, ?_⟩, by decide +kernel⟩
  · intro i h1 h2
    have : i = 0 ∨ i = 1 ∨ i = 2 := by omega
    rcases this with rfl | rfl | rfl <;> decide +kernel
  · intro i j h1 h2 h3 h4
    have : i = 0 ∨ i = 1 ∨ i = 2 := by omega
    have : j = 0 ∨ j = 1 ∨ j = 2 := by omega
    rcases ‹i = 0 ∨ _› with rfl | rfl | rfl <;> rcases ‹j = 0 ∨ _› with rfl | rfl | rfl <;> decide +kernel

/-- Repeated calls of the matching routine of a sub-architecture. -/
theorem Arch.Matcher.coarsensW {σ : Type} {mate : σ → M (Int × σ)} {mult : σ → Arr Multi} {Inv : σ → Int → Prop} {μ : σ → Nat}
    (h : Matcher mate mult Inv μ) : ∀ (k : Nat) s n, μ s ≤ k → Inv s n → CoarsensW mate mult s n
  | k, s, n, hk, I => by
    have h1 := h.pos s n I
    by_cases hn : n = 1
    · subst hn; exact .done s
    · obtain ⟨⟨r, s'⟩, e, a1, a2, a3, a4, -⟩ := Holds_iff_exists.1 (h.step s n I (by omega))
      dsimp only at *
      cases k with
      | zero => omega
      | succ k => exact .step s s' n r e (h.pos s' r a3) a1 a2 (coarsensW h k s' r (by omega) a3)

/-- Numbers of the domains of a sub-architecture that do not exceed the range of 32-bit shifts. -/
def Arch.Sub.Shallow (a : Sub.Arch) : Prop := ∀ d, 0 ≤ d → d < a.domntab.hi → (a.domntab.get d).num < 2 ^ 29

theorem Arch.Sub.Good.depth {a : Sub.Arch} {q : Int} {w v : Int → Int} {root : Sub.BT} (g : Sub.Good a q w v root) (h : Sub.Shallow a) : Sub.BT.depth root ≤ 28 := by
  obtain ⟨x, j, m, ha, hm⟩ := Sub.at_deepest root 0 1
  have hb := ha.bounds
  have := h j hb.1 (by have : (Sub.BT.leaf x).nodes = 1 := rfl; have := g.dom; omega)
  rw [(g.fields ha).1] at this
  refine Classical.byContradiction fun hk => ?_
  have hp : (2 : Int) ^ 29 ≤ 2 ^ (Sub.BT.depth root) := by exact_mod_cast Nat.pow_le_pow_right (by omega) (show 29 ≤ Sub.BT.depth root by omega)
  omega

/-- **C58, C46.** The matching routine of a sub-architecture gives matchings too, so that one may take a sub-architecture of a sub-architecture. -/
theorem C58_nested {D σ : Type} {o : ArchOps D} {N : Int} {w : Int → Int} {V : D → Prop} {H : D → Int → Prop} (hL : ArchLaws o N w V H) (hN : 0 ≤ N)
    {mate : σ → M (Int × σ)} {mult : σ → Arr Multi} {Inv : σ → Int → Prop} {μ : σ → Nat} (hM : Matcher mate mult Inv μ) (junkS : Int → Sub.STree) (junkT : Int → Sub.Term) (junkD : Int → Sub.Data)
    (numMax q : Int) (vnum : Arr Int) (hP : Sub.Picks N q vnum) (hq : 2 ≤ q ∨ q = 1 ∧ vnum.get 0 = 0) (hqm : q ≤ numMax) (fuel : Nat) (s : σ) (hI : Inv s N) (hf : μ s < fuel) :
    Holds (Sub.build numMax o mate mult junkS junkT junkD fuel s q vnum) (fun r => ∃ a, r = some a ∧ (Sub.Shallow a → ∀ junk,
      Holds (Sub.matchInit junk a) (fun m => CoarsensW (Sub.matchMate a) Sub.Match.multtab m q ∧
        ∀ (q' : Int) (vnum' : Arr Int), Sub.Picks q q' vnum' → (2 ≤ q' ∨ q' = 1 ∧ vnum'.get 0 = 0) → q' ≤ numMax → ∀ fuel', 40 ≤ fuel' →
          Holds (Sub.build numMax (Sub.ops o a) (Sub.matchMate a) Sub.Match.multtab junkS junkT junkD fuel' m q' vnum') (fun r' => ∃ a', r' = some a' ∧
            Sub.SubOf (Sub.ops o a) q (fun i => w (vnum.get i)) q' vnum' a')))) := by
  refine (Sub.build_holds hL hN hM junkS junkT junkD hP hq hqm hI hf).mono ?_
  rintro r ⟨a, root, rfl, g⟩
  refine ⟨a, rfl, ?_⟩
  intro hs junk
  have hdep := g.depth hs
  refine (Sub.matchInit_inv g hdep junk).mono ?_
  intro m I
  have hM' := Sub.matcher g
  refine ⟨hM'.coarsensW _ m q (Nat.le_refl _) I, ?_⟩
  intro q' vnum' hP' hq' hqm' fuel' hf'
  have hA : ArchLaws (Sub.ops o a) q _ _ _ := g.addLaws.laws
  refine C58_build hA (by omega) hM' junkS junkT junkD numMax q' vnum' hP' hq' hqm' fuel' m I ?_
  have := I.lev
  have := I.lmax
  show (m.levlnum + 1).toNat < fuel'
  omega

/-- **C58, disagreement.** Restricting an architecture to a single processor that is not its first one does not give an architecture: the construction writes out of bounds. -/
theorem C58_single_not {D σ : Type} {o : ArchOps D} {N : Int} {w : Int → Int} {V : D → Prop} {H : D → Int → Prop} (hL : ArchLaws o N w V H) (hN : 0 ≤ N)
    (mate : σ → M (Int × σ)) (mult : σ → Arr Multi) (junkS : Int → Sub.STree) (junkT : Int → Sub.Term) (junkD : Int → Sub.Data) (numMax : Int) (hm : 1 ≤ numMax) (vnum : Arr Int)
    (hP : Sub.Picks N 1 vnum) (h0 : vnum.get 0 ≠ 0) (fuel : Nat) (s : σ) :
    Sub.build numMax o mate mult junkS junkT junkD (fuel + 1) s 1 vnum = .error .oob :=
  Sub.build_single hL hN mate mult junkS junkT junkD hm hP h0 fuel s

example : Sub.build (2 ^ 31 - 1) (Cmplt.ops 4) Cmplt.matchMate Cmplt.Match.multtab (fun _ => .null) (fun _ => ⟨0, 0⟩) (fun _ => ⟨0, 0, 0, 0, 0, 0, 0⟩) 6 (Cmplt.matchInit (fun _ => (0, 0)) 4) 1 (Arr.ofList 0 [2]) =
    .error .oob :=
  C58_single_not (C06_cmplt 4 (by omega)).1 (by omega) _ _ _ _ _ _ (by omega) _
    ⟨by decide, by decide, fun i h1 h2 => by have : i = 0 := by omega
                                             subst this; decide +kernel, fun i j _ _ _ _ _ => by omega⟩ (by decide +kernel) 5 _

end Scotch
