import Verif.Arch.LemmasSub2
import Verif.Arch.SpecSub

/-! # Sub-architectures: the whole construction -/

set_option autoImplicit false
set_option linter.unusedSimpArgs false

namespace Scotch.Arch.Sub
open BT

theorem tally_all {n : Int} (hn : 0 ≤ n) {P : Int → Prop} (h : ∀ k, 0 ≤ k → k < n → P k) : tally n (fun _ => 1) P = n := by
  rw [tally_congr (Q := fun _ => True) (fun k k0 k1 => ⟨fun _ => trivial, fun _ => h k k0 k1⟩)]
  unfold tally
  simp only [if_true]
  rw [sumI_const hn]; simp

section
variable {D σ : Type} {o : ArchOps D} {N : Int} {w : Int → Int} {V : D → Prop} {H : D → Int → Prop}

theorem org_wght (hL : ArchLaws o N w V H) {k : Int} (h0 : 0 ≤ k) (h1 : k < N) : Holds (o.term k) (fun r => ∃ d, r = some d ∧ o.wght d = .ok (w k)) := by
  refine (hL.term k h0 h1).mono ?_
  rintro r ⟨d, rfl, hv, hd, -⟩
  refine ⟨d, rfl, ?_⟩
  obtain ⟨s, e, hs⟩ := Holds_iff_exists.1 (hL.wght d hv)
  rw [e, hs, tally_congr (Q := fun j => j = k) (fun j _ _ => hd j), tally_single h0 h1]

/-- After `i` terminals of the list. -/
structure KeepInv (numMax N q : Int) (w : Int → Int) (vnum : Arr Int) (i : Int) (s : D × Arr Term × Arr STree) : Prop where
  ter : s.2.1.lo = 0 ∧ s.2.1.hi = q
  tree : s.2.2.lo = 0 ∧ s.2.2.hi = N
  term : ∀ j, 0 ≤ j → j < i → (s.2.1.get j).term = vnum.get j
  kept : ∀ j, 0 ≤ j → j < i → s.2.2.get (vnum.get j) = .node 1 (w (vnum.get j)) j (vnum.get j) .null .null
  out : ∀ c, 0 ≤ c → c < N → (∀ j, 0 ≤ j → j < i → vnum.get j ≠ c) → s.2.2.get c = outNode numMax

theorem keepStep_holds (hL : ArchLaws o N w V H) {numMax q : Int} {vnum : Arr Int} (hP : Picks N q vnum) {i : Int} {s : D × Arr Term × Arr STree} (i0 : 0 ≤ i) (i1 : i < q)
    (I : KeepInv numMax N q w vnum i s) : Holds (keepStep o vnum i s) (KeepInv numMax N q w vnum (i + 1)) := by
  have hr := hP.range i i0 i1
  unfold keepStep
  rw [Arr.rd_ok _ (by have := hP.lo; omega) (by have := hP.hi; omega), ok_bind, Holds_bind]
  refine (org_wght hL hr.1 hr.2).mono ?_
  rintro r ⟨d, rfl, hw⟩
  have t := I.ter
  have u := I.tree
  dsimp only [Option.getD]
  rw [updT_ok _ (by omega) (by omega), ok_bind, hw, ok_bind, Arr.wr_ok _ _ (by omega) (by omega), ok_bind, Holds_pure]
  refine ⟨t, u, ?_, ?_, ?_⟩
  · intro j j0 j1
    dsimp only
    by_cases hj : j = i
    · subst hj; rw [Arr.set_get_same]
    · rw [Arr.set_get_ne _ _ hj]; exact I.term j j0 (by omega)
  · intro j j0 j1
    dsimp only
    by_cases hj : j = i
    · subst hj; rw [Arr.set_get_same]
    · rw [Arr.set_get_ne _ _ (fun he => hj (hP.inj j i j0 (by omega) i0 i1 he))]
      exact I.kept j j0 (by omega)
  · intro c c0 c1 hc
    dsimp only
    rw [Arr.set_get_ne _ _ (fun he => hc i i0 (by omega) he.symm)]
    exact I.out c c0 c1 (fun j j0 j1 => hc j j0 (by omega))

open Classical in
/-- Tree of each terminal of the original architecture. -/
noncomputable def startT (q : Int) (vnum : Arr Int) (c : Int) : Option BT :=
  if h : ∃ j, 0 ≤ j ∧ j < q ∧ vnum.get j = c then some (.leaf h.choose) else none

theorem startT_some {q N : Int} {vnum : Arr Int} (hP : Picks N q vnum) {j : Int} (j0 : 0 ≤ j) (j1 : j < q) : startT q vnum (vnum.get j) = some (.leaf j) := by
  classical
  have h : ∃ j', 0 ≤ j' ∧ j' < q ∧ vnum.get j' = vnum.get j := ⟨j, j0, j1, rfl⟩
  unfold startT
  rw [dif_pos h]
  have hs := h.choose_spec
  rw [hP.inj h.choose j hs.1 hs.2.1 j0 j1 hs.2.2]

theorem lv_start {q N : Int} {vnum : Arr Int} (hP : Picks N q vnum) {c x : Int} : x ∈ lv (startT q vnum c) ↔ 0 ≤ x ∧ x < q ∧ vnum.get x = c := by
  classical
  by_cases h : ∃ j, 0 ≤ j ∧ j < q ∧ vnum.get j = c
  · obtain ⟨j, j0, j1, rfl⟩ := h
    rw [startT_some hP j0 j1]
    simp only [lv, leaves, List.mem_singleton]
    constructor
    · rintro rfl; exact ⟨j0, j1, rfl⟩
    · rintro ⟨x0, x1, hx⟩; exact hP.inj x j x0 x1 j0 j1 hx
  · unfold startT
    rw [dif_neg h]
    constructor
    · intro hh; cases hh
    · intro hh; exact absurd ⟨x, hh⟩ h

theorem start_forest {numMax q : Int} {vnum : Arr Int} (hP : Picks N q vnum) {s : D × Arr Term × Arr STree} (I : KeepInv numMax N q w vnum q s) :
    Forest numMax (fun j => w (vnum.get j)) q N s.2.2 (startT q vnum) := by
  classical
  refine ⟨⟨by have := I.tree; omega, by have := I.tree; omega⟩, ?_, ?_, ?_, ?_, ?_⟩
  · intro c c0 c1
    by_cases h : ∃ j, 0 ≤ j ∧ j < q ∧ vnum.get j = c
    · obtain ⟨j, j0, j1, rfl⟩ := h
      rw [startT_some hP j0 j1, I.kept j j0 j1]
      exact .leaf (w := fun j => w (vnum.get j)) j (vnum.get j)
    · have : startT q vnum c = none := by unfold startT; rw [dif_neg h]
      rw [this, I.out c c0 c1 (fun j j0 j1 he => h ⟨j, j0, j1, he⟩)]
      exact ⟨numMax, rfl⟩
  · intro c c0 c1
    unfold startT
    split <;> simp [lv, leaves]
  · intro c c0 c1 x hx
    rw [lv_start hP] at hx; exact ⟨hx.1, hx.2.1⟩
  · intro x x0 x1
    have := hP.range x x0 x1
    exact ⟨vnum.get x, this.1, this.2, (lv_start hP).2 ⟨x0, x1, rfl⟩⟩
  · intro c c' x _ _ _ _ h h'
    rw [lv_start hP] at h h'
    omega

theorem build_holds (hL : ArchLaws o N w V H) (hN : 0 ≤ N) {mate : σ → M (Int × σ)} {mult : σ → Arr Multi} {Inv : σ → Int → Prop} {μ : σ → Nat} (hM : Matcher mate mult Inv μ)
    (junkS : Int → STree) (junkT : Int → Term) (junkD : Int → Data) {numMax q : Int} {vnum : Arr Int} (hP : Picks N q vnum) (hq : 2 ≤ q ∨ q = 1 ∧ vnum.get 0 = 0) (hqm : q ≤ numMax)
    {fuel : Nat} {s : σ} (hI : Inv s N) (hf : μ s < fuel) :
    Holds (build numMax o mate mult junkS junkT junkD fuel s q vnum) (fun r => ∃ a root, r = some a ∧ Good a q (fun j => w (vnum.get j)) vnum.get root) := by
  unfold build
  obtain ⟨d, ed, hd⟩ := Holds_iff_exists.1 hL.frst
  rw [ed, ok_bind]
  obtain ⟨z, ez, hz⟩ := Holds_iff_exists.1 (hL.size d hd.1)
  rw [ez, ok_bind, hz, tally_all hN hd.2, Holds_bind]
  refine Holds_forUp (fun i (t : Arr STree) => t.lo = 0 ∧ t.hi = N ∧ ∀ c, 0 ≤ c → c < i → t.get c = outNode numMax) hN ⟨rfl, rfl, fun c c0 c1 => by omega⟩ ?_ ?_
  · rintro i t i0 i1 ⟨b1, b2, b3⟩
    rw [Arr.wr_ok _ _ (by omega) (by omega), Holds_ok]
    refine ⟨b1, b2, ?_⟩
    intro c c0 c1
    by_cases hc : c = i
    · subst hc; rw [Arr.set_get_same]
    · rw [Arr.set_get_ne _ _ hc]; exact b3 c c0 (by omega)
  rintro t ⟨b1, b2, b3⟩
  rw [Holds_bind]
  refine Holds_forUp (fun i s => KeepInv numMax N q w vnum i s) (by omega) ⟨⟨rfl, rfl⟩, ⟨b1, b2⟩, fun j j0 j1 => by omega, fun j j0 j1 => by omega, fun c c0 c1 _ => b3 c c0 c1⟩
    (fun i s i0 i1 I => keepStep_holds hL hP i0 i1 I) ?_
  rintro r I
  have F := start_forest hP I
  have hb2 : Holds (build2 mate mult junkS fuel s r.2.2 q) (fun r => ∃ t b, r = some t ∧ Rep (fun j => w (vnum.get j)) t b ∧ b.leaves.Nodup ∧ ∀ x, x ∈ b.leaves ↔ 0 ≤ x ∧ x < q) := by
    cases fuel with
    | zero => omega
    | succ fuel =>
      rcases hq with hq | ⟨rfl, h0⟩
      · have r0 := hP.range 0 (by omega) (by omega)
        have r1 := hP.range 1 (by omega) (by omega)
        have hne : vnum.get 0 ≠ vnum.get 1 := fun h => by have := hP.inj 0 1 (by omega) (by omega) (by omega) (by omega) h; omega
        have := build2_holds hM junkS (w := fun j => w (vnum.get j)) (by omega) hqm (fuel + 1) s r.2.2 N _ hf hI F
        rw [build2, if_neg (by omega)] at this ⊢
        exact this
      · have r0 := hP.range 0 (by omega) (by omega)
        rw [build2, if_pos (by omega), Arr.rd_ok _ (by have := I.tree; omega) (by have := I.tree; omega), ok_bind, Holds_pure]
        have := I.kept 0 (by omega) (by omega)
        rw [h0] at this
        rw [this]
        refine ⟨_, .leaf 0, rfl, ?_, by simp [leaves], ?_⟩
        · have := Rep.leaf (w := fun j => w (vnum.get j)) 0 0
          rw [h0] at this
          exact this
        · intro x
          simp only [leaves, List.mem_singleton]
          omega
  rw [Holds_bind]
  refine hb2.mono ?_
  rintro _ ⟨root, b, rfl, hrep, hnd, hmem⟩
  dsimp only
  have hcount : b.count = q := by
    have h1 : b.leaves.Perm (List.map (fun k : Nat => (k : Int)) (List.range q.toNat)) := by
      rw [List.perm_ext_iff_of_nodup hnd]
      · intro x
        rw [hmem, List.mem_map]
        constructor
        · rintro ⟨x0, x1⟩; exact ⟨x.toNat, by rw [List.mem_range]; omega, by omega⟩
        · rintro ⟨k, hk, rfl⟩; rw [List.mem_range] at hk; omega
      · rw [List.nodup_map_iff (fun x y h => by omega)]; exact List.nodup_range
    have := h1.length_eq
    rw [List.length_map, List.length_range] at this
    rw [b.count_length, this]
    omega
  have hnodes := b.nodes_eq
  rw [Holds_bind]
  refine (build3_holds hrep 1 0 _ r.2.1 (by show (0 : Int) ≤ 0; omega) (by show 0 + b.nodes ≤ 2 * q - 1; omega) hnd ?_).mono ?_
  · intro x hx
    rw [hmem] at hx
    have := I.ter
    omega
  rintro ⟨e, dom, ter⟩ B
  have hnx := B.next
  dsimp only at hnx ⊢
  obtain ⟨q1, q2⟩ := B.bnd
  dsimp only at q1 q2
  have := b.nodes_pos
  rw [if_neg (by omega), updD_ok _ (by omega) (by omega), ok_bind, Holds_pure]
  refine ⟨_, b, rfl, ⟨rfl, ⟨q1, by show dom.hi = _; omega⟩, ⟨by rw [← I.ter.1]; exact B.tbnd.1, by rw [← I.ter.2]; exact B.tbnd.2⟩, ?_, hnd, hmem, B.idx, ?_⟩⟩
  · refine Laid.refat B.laid ?_ ?_
    · intro j j1 j2; dsimp only; rw [Arr.set_get_ne _ _ (by omega)]
    · dsimp only; rw [Arr.set_get_same]
  · intro x x0 x1
    have := B.term x
    dsimp only at this ⊢
    rw [this]
    exact I.term x x0 x1

theorem Good.subOf {a : Arch} {q : Int} {vnum : Arr Int} {root : BT} (g : Good a q (fun j => w (vnum.get j)) vnum.get root) (hP : Picks N q vnum) : SubOf o N w q vnum a := by
  have hA : ArchLaws (ops o a) q _ _ _ := g.addLaws.laws
  exact ⟨Valid root, Has root, hA, g.inclLaw, hA.bisects, hA.numbers, fun f hf => g.distLaw hP.range hf⟩

/-- With a single terminal that is not the first one, the construction writes out of bounds. -/
theorem build_single (hL : ArchLaws o N w V H) (hN : 0 ≤ N) (mate : σ → M (Int × σ)) (mult : σ → Arr Multi)
    (junkS : Int → STree) (junkT : Int → Term) (junkD : Int → Data) {numMax : Int} (hm : 1 ≤ numMax) {vnum : Arr Int} (hP : Picks N 1 vnum) (h0 : vnum.get 0 ≠ 0) (fuel : Nat) (s : σ) :
    build numMax o mate mult junkS junkT junkD (fuel + 1) s 1 vnum = .error .oob := by
  unfold build
  obtain ⟨d, ed, hd⟩ := Holds_iff_exists.1 hL.frst
  rw [ed, ok_bind]
  obtain ⟨z, ez, hz⟩ := Holds_iff_exists.1 (hL.size d hd.1)
  rw [ez, ok_bind, hz, tally_all hN hd.2]
  have h1 : Holds (forUp 0 N (⟨0, N, junkS⟩ : Arr STree) fun i tree => tree.wr i (outNode numMax)) (fun t => t.lo = 0 ∧ t.hi = N ∧ ∀ c, 0 ≤ c → c < N → t.get c = outNode numMax) := by
    refine Holds_forUp (fun i (t : Arr STree) => t.lo = 0 ∧ t.hi = N ∧ ∀ c, 0 ≤ c → c < i → t.get c = outNode numMax) hN ⟨rfl, rfl, fun c c0 c1 => by omega⟩ ?_ (fun t ht => ht)
    rintro i t i0 i1 ⟨b1, b2, b3⟩
    rw [Arr.wr_ok _ _ (by omega) (by omega), Holds_ok]
    refine ⟨b1, b2, ?_⟩
    intro c c0 c1
    by_cases hc : c = i
    · subst hc; rw [Arr.set_get_same]
    · rw [Arr.set_get_ne _ _ hc]; exact b3 c c0 (by omega)
  obtain ⟨t, e1, b1, b2, b3⟩ := Holds_iff_exists.1 h1
  dsimp only
  rw [e1, ok_bind]
  have h2 : Holds (forUp 0 1 (d, (⟨0, 1, junkT⟩ : Arr Term), t) fun i s => keepStep o vnum i s) (KeepInv numMax N 1 w vnum 1) :=
    Holds_forUp (fun i s => KeepInv numMax N 1 w vnum i s) (by omega) ⟨⟨rfl, rfl⟩, ⟨b1, b2⟩, fun j j0 j1 => by omega, fun j j0 j1 => by omega, fun c c0 c1 _ => b3 c c0 c1⟩
      (fun i s i0 i1 I => keepStep_holds hL hP i0 i1 I) (fun s I => I)
  obtain ⟨r, e2, I⟩ := Holds_iff_exists.1 h2
  have r0 := hP.range 0 (by omega) (by omega)
  have hout : r.2.2.get 0 = outNode numMax := by
    refine I.out 0 (by omega) (by omega) ?_
    intro j j0 j1
    rw [show j = 0 by omega]; exact h0
  rw [e2, ok_bind, build2, if_pos (by omega), Arr.rd_ok _ (by have := I.tree; omega) (by have := I.tree; omega), ok_bind, hout, pure_bind]
  dsimp only
  rw [outNode, build3, if_neg (by decide), if_neg (by decide), updD_ok _ (by show (0 : Int) ≤ 0; omega) (by show (0 : Int) < 2 * 1 - 1; omega), ok_bind, if_neg (by decide),
    updD_ok _ (by show (0 : Int) ≤ 0; omega) (by show (0 : Int) < 2 * 1 - 1; omega), ok_bind]
  have : updT r.2.1 numMax (fun t => { t with idx := 0 }) = .error .oob := by
    unfold updT Arr.rd
    rw [if_neg (show ¬ r.2.1.In numMax by unfold Arr.In; have := I.ter; omega)]
    rfl
  rw [this]
  rfl

end
end Scotch.Arch.Sub
