import Verif.Kmap.LemmasMap
import Verif.Graph.Access

/-! # Static mapping: fixed vertices -/

set_option autoImplicit false
set_option linter.unusedSimpArgs false

namespace Scotch.Kmap

open Coarsen (IsMask land land_mask)
open Hash (Tab Path probe)

variable {D : Type} {o : ArchOps D} {n : Int} {w : Int → Int} {Valid : D → Prop} {Has : D → Int → Prop}

theorem nodup_bound {l : List Int} (hnd : l.Nodup) {n : Int} (h0 : 0 ≤ n) (h : ∀ k ∈ l, 0 ≤ k ∧ k < n) : (l.length : Int) ≤ n := by
  have h1 : l.toFinset.card ≤ (Finset.Ico (0 : Int) n).card := by
    refine Finset.card_le_card ?_
    intro k hk
    rw [List.mem_toFinset] at hk
    rw [Finset.mem_Ico]
    exact h k hk
  rw [Int.card_Ico, List.toFinset_card_of_nodup hnd] at h1
  omega

theorem hashSize_holds {x : Int} (h0 : 0 ≤ x) (h1 : x < 2 ^ 28) : Holds (hashSize x) fun s => IsMask (s - 1) ∧ x < s := by
  unfold hashSize
  dsimp only
  obtain ⟨k, rfl⟩ : ∃ k : Nat, x = k := ⟨x.toNat, by omega⟩
  rw [Int.toNat_natCast]
  by_cases e : k = 0
  · subst e
    rw [if_pos rfl]
    exact ⟨⟨2, by decide⟩, by decide⟩
  · rw [if_neg e]
    have hl : k.log2 < 28 := by
      rw [Nat.log2_lt e]
      omega
    rw [if_pos (by omega)]
    refine ⟨⟨_, rfl⟩, ?_⟩
    have h2 : k < 2 ^ (k.log2 + 1) := Nat.lt_log2_self
    have h3 : 2 ^ (k.log2 + 1) ≤ 2 ^ (k.log2 + 1 + 2) := Nat.pow_le_pow_right (by omega) (by omega)
    have : ((2 ^ (k.log2 + 1 + 2) : Nat) : Int) = (2 : Int) ^ (k.log2 + 1 + 2) := by push_cast; rfl
    omega

/-- A hash table of terminal numbers. -/
structure HTab (a : Arr Int) (siz : Int) (keys : List Int) : Prop where
  tab : Tab vfloPrime siz (fun h => a.get h ≠ -1) a.get keys
  lo : a.lo = 0
  hi : a.hi = siz

theorem HTab.empty {siz : Int} (h : 0 < siz) : HTab (Arr.const 0 siz (-1)) siz [] :=
  ⟨Tab.empty h (fun x x1 x2 hx => hx rfl), rfl, rfl⟩

/-- Result of a search. -/
theorem hashFind_holds {tab : Arr Int} {siz : Int} {keys : List Int} (T : HTab tab siz keys) (hm : IsMask (siz - 1)) (hlen : (keys.length : Int) < siz) {k : Int} (hk : 0 ≤ k) :
    Holds (hashFind tab siz k) fun r => 0 ≤ r.1 ∧ r.1 < siz ∧ (r.2 = false → k ∈ keys ∧ tab.get r.1 = k) ∧ (r.2 = true → k ∉ keys ∧ tab.get r.1 = -1 ∧ HTab (tab.set r.1 k) siz (keys ++ [k])) := by
  have hpos := T.tab.pos
  unfold hashFind
  have e0 : land (k * vfloPrime) (siz - 1) = probe vfloPrime siz k 0 := by
    rw [land_mask hm (by unfold vfloPrime; omega)]
    unfold probe
    rw [show siz - 1 + 1 = siz by omega]
    congr 1
    push_cast
    omega
  rw [e0]
  refine Holds.mono (Hash.find_holds T.tab hm (by omega) hlen k ?_ (siz.toNat + 1) 0 (by omega) (fun d' h => by omega)) ?_
  · intro h h1 h2
    rw [tab.rd_ok (by rw [T.lo]; exact h1) (by rw [T.hi]; exact h2)]
    show Holds (if tab.get h = k then _ else if tab.get h = -1 then _ else _) _
    by_cases c : tab.get h = k
    · rw [if_pos c]
      refine ⟨⟨(fun h => by cases h), fun h' => absurd (by omega) h'⟩, ⟨fun _ => ⟨by omega, c⟩, fun _ => rfl⟩⟩
    · rw [if_neg c]
      by_cases c1 : tab.get h = -1
      · rw [if_pos c1]
        exact ⟨⟨fun _ h' => h' c1, fun _ => rfl⟩, ⟨(fun h => by cases h), fun h' => absurd h'.2 c⟩⟩
      · rw [if_neg c1]
        exact ⟨⟨fun h => (by cases h), fun h' => absurd c1 h'⟩, ⟨(fun h => by cases h), fun h' => absurd h'.2 c⟩⟩
  · rintro ⟨r, b⟩ ⟨d, r1, r2, r3, r4⟩
    dsimp only at r1 r3 r4 ⊢
    have hin := Hash.probe_in (prime := vfloPrime) hpos k d
    rw [← r1] at hin
    refine ⟨hin.1, hin.2, ?_, ?_⟩
    · intro h
      have := r4 h
      exact ⟨(T.tab.mem k).2 ⟨r, hin.1, hin.2, this.1, this.2⟩, this.2⟩
    · intro h
      have hf := r3 h
      have hf' : tab.get r = -1 := Classical.byContradiction hf
      rw [r1] at hf
      refine ⟨T.tab.not_mem r2 hf, hf', ⟨?_, T.lo, T.hi⟩⟩
      refine T.tab.insert r2 hf ?_ ?_ ?_
      · intro x
        by_cases e : x = probe vfloPrime siz k d
        · subst e
          rw [r1, Arr.set_get_same]
          exact ⟨fun _ => Or.inr rfl, fun _ => by omega⟩
        · rw [Arr.set_get_ne _ _ (by rw [r1]; exact e)]
          exact ⟨fun h => Or.inl h, fun h => h.resolve_right e⟩
      · intro x hx
        exact Arr.set_get_ne _ _ (by rw [r1]; exact hx)
      · rw [r1]; exact Arr.set_get_same _ _ _

/-! ## Removal of the fixed vertices -/

/-- Fixed vertices before `i`. -/
def fixL (g : Graph) (pfix : Int → Int) (i : Int) : List Int := (seg id g.baseval i).filter fun v => decide (0 ≤ pfix v)

theorem fixL_succ {g : Graph} {pfix : Int → Int} {i : Int} (h : g.baseval ≤ i) : fixL g pfix (i + 1) = fixL g pfix i ++ if 0 ≤ pfix i then [i] else [] := by
  unfold fixL
  rw [seg_succ _ h, List.filter_append]
  congr 1
  by_cases e : 0 ≤ pfix i
  · rw [if_pos e]; simp [e]
  · rw [if_neg e]; simp [e]

theorem mem_fixL {g : Graph} {pfix : Int → Int} {i v : Int} : v ∈ fixL g pfix i ↔ g.baseval ≤ v ∧ v < i ∧ 0 ≤ pfix v := by
  unfold fixL
  rw [List.mem_filter, mem_seg]
  constructor
  · rintro ⟨⟨j, h1, h2, rfl⟩, h3⟩
    exact ⟨h1, h2, by simpa using h3⟩
  · rintro ⟨h1, h2, h3⟩
    exact ⟨⟨v, h1, h2, rfl⟩, by simpa using h3⟩

theorem fixL_mono {g : Graph} {pfix : Int → Int} {i j : Int} (h1 : g.baseval ≤ i) (h2 : i ≤ j) : (fixL g pfix i).length ≤ (fixL g pfix j).length := by
  unfold fixL
  rw [seg_append id h1 h2, List.filter_append, List.length_append]
  omega

/-- Terminals of the fixed vertices before `i`. -/
structure FixInv (g : Graph) (pfix : Int → Int) (siz : Int) (i : Int) (keys : List Int) (s : FixSt) : Prop where
  tab : HTab s.term siz keys
  len : keys.length ≤ (fixL g pfix i).length
  mem : ∀ k, k ∈ keys ↔ ∃ v ∈ fixL g pfix i, pfix v = k
  vlo : s.velo.lo = 0
  vhi : s.velo.hi = siz
  plo : s.part.lo = g.baseval
  phi : s.part.hi = g.baseval + g.vertnbr
  part : ∀ v, g.baseval ≤ v → v < i → s.part.get v = if 0 ≤ pfix v then 1 else 0
  msk : s.velomsk = true ↔ ∃ v ∈ fixL g pfix i, g.velo v ≠ 0

theorem fixBody_holds {g : Graph} (hc : g.Consistent) (ha : g.Allocated) {pfix : Arr Int} (p1 : pfix.lo ≤ g.baseval) (p2 : g.vertnnd ≤ pfix.hi) {siz : Int} (hm : IsMask (siz - 1))
    {i : Int} (hi : g.Vertex i) {keys : List Int} {s : FixSt} (h : FixInv g pfix.get siz i keys s) (hlen : (keys.length : Int) < siz) :
    Holds (fixBody g pfix siz i s) fun s' => ∃ keys', FixInv g pfix.get siz (i + 1) keys' s' := by
  have hnn := hc.vertnnd
  have hi1 := hi.1
  have hi2 := hi.2
  have h5 := h.plo
  have h6 := h.phi
  unfold fixBody
  rw [pfix.rd_ok (by omega) (by omega)]
  show Holds (if pfix.get i ≥ 0 then _ else _) _
  by_cases c : 0 ≤ pfix.get i
  · rw [if_pos c, Graph.rdVelo_eq ha hi]
    have hL : fixL g pfix.get (i + 1) = fixL g pfix.get i ++ [i] := by rw [fixL_succ hi1, if_pos c]
    show Holds (hashFind s.term siz (pfix.get i) >>= _) _
    rw [Holds_bind]
    refine (hashFind_holds h.tab hm hlen c).mono ?_
    rintro ⟨r, b⟩ ⟨r1, r2, r3, r4⟩
    dsimp only at r1 r2 r3 r4 ⊢
    have hx : ∃ x, (if b = true then pure 0 else s.velo.rd r : M Int) = .ok x := by
      cases b
      · exact ⟨_, s.velo.rd_ok (by rw [h.vlo]; exact r1) (by rw [h.vhi]; exact r2)⟩
      · exact ⟨0, rfl⟩
    obtain ⟨x, hx⟩ := hx
    have hterm : ∃ keys', HTab (s.term.set r (pfix.get i)) siz keys' ∧ keys'.length ≤ keys.length + 1 ∧ ∀ k, k ∈ keys' ↔ k ∈ keys ∨ k = pfix.get i := by
      cases b with
      | false =>
        obtain ⟨q1, q2⟩ := r3 rfl
        refine ⟨keys, ?_, by omega, fun k => ⟨Or.inl, fun h => h.elim id (fun e => by rw [e]; exact q1)⟩⟩
        have hg : (s.term.set r (pfix.get i)).get = s.term.get := by
          funext y
          by_cases e : y = r
          · rw [e, Arr.set_get_same, q2]
          · exact Arr.set_get_ne _ _ e
        exact ⟨by rw [hg]; exact h.tab.tab, h.tab.lo, h.tab.hi⟩
      | true =>
        obtain ⟨q1, q2, q3⟩ := r4 rfl
        exact ⟨_, q3, by simp, fun k => by simp⟩
    obtain ⟨keys', k1, k2, k3⟩ := hterm
    have hcont : Holds (do
        let y ← (pure x : M Int)
        return (⟨← s.term.wr r (pfix.get i), ← s.velo.wr r (y + g.velo i), ← s.part.wr i 1, s.velomsk || decide (g.velo i ≠ 0)⟩ : FixSt)) fun s' => ∃ keys', FixInv g pfix.get siz (i + 1) keys' s' := by
      rw [pure_bind, s.term.wr_ok _ (by rw [h.tab.lo]; exact r1) (by rw [h.tab.hi]; exact r2), ok_bind, s.velo.wr_ok _ (by rw [h.vlo]; exact r1) (by rw [h.vhi]; exact r2), ok_bind,
        s.part.wr_ok _ (by omega) (by omega), ok_bind, Holds_pure]
      refine ⟨keys', ⟨k1, ?_, ?_, h.vlo, h.vhi, h.plo, h.phi, ?_, ?_⟩⟩
      · rw [hL, List.length_append]
        have := h.len
        simp only [List.length_cons, List.length_nil]
        omega
      · intro k
        rw [k3, h.mem, hL]
        constructor
        · rintro (⟨v, v1, v2⟩ | rfl)
          · exact ⟨v, List.mem_append.2 (Or.inl v1), v2⟩
          · exact ⟨i, by simp, rfl⟩
        · rintro ⟨v, v1, v2⟩
          rcases List.mem_append.1 v1 with v1 | v1
          · exact Or.inl ⟨v, v1, v2⟩
          · rw [List.mem_singleton.1 v1] at v2; exact Or.inr v2.symm
      · intro v v1 v2
        show (s.part.set i 1).get v = _
        by_cases e : v = i
        · rw [e, Arr.set_get_same, if_pos c]
        · rw [Arr.set_get_ne _ _ e]; exact h.part v v1 (by omega)
      · rw [hL]
        show (s.velomsk || decide (g.velo i ≠ 0)) = true ↔ _
        rw [Bool.or_eq_true, h.msk, decide_eq_true_eq]
        constructor
        · rintro (⟨v, v1, v2⟩ | hv)
          · exact ⟨v, List.mem_append.2 (Or.inl v1), v2⟩
          · exact ⟨i, by simp, hv⟩
        · rintro ⟨v, v1, v2⟩
          rcases List.mem_append.1 v1 with v1 | v1
          · exact Or.inl ⟨v, v1, v2⟩
          · rw [List.mem_singleton.1 v1] at v2; exact Or.inr v2
    cases b with
    | false =>
      have hx : s.velo.rd r = .ok x := hx
      show Holds (s.velo.rd r >>= _) _
      rw [hx]
      exact hcont
    | true =>
      have hx : (pure 0 : M Int) = .ok x := hx
      show Holds ((pure 0 : M Int) >>= _) _
      rw [hx]
      exact hcont
  · rw [if_neg c]
    have hL : fixL g pfix.get (i + 1) = fixL g pfix.get i := by rw [fixL_succ hi1, if_neg c, List.append_nil]
    rw [s.part.wr_ok _ (by omega) (by omega)]
    refine ⟨keys, h.tab, by rw [hL]; exact h.len, by rw [hL]; exact h.mem, h.vlo, h.vhi, h.plo, h.phi, ?_, by rw [hL]; exact h.msk⟩
    intro v v1 v2
    show (s.part.set i 0).get v = _
    by_cases e : v = i
    · rw [e, Arr.set_get_same, if_neg c]
    · rw [Arr.set_get_ne _ _ e]; exact h.part v v1 (by omega)

/-- Number of slots in use. -/
theorem HTab.count {tab : Arr Int} {siz : Int} {keys : List Int} (T : HTab tab siz keys) : ((seg id 0 siz).filter fun h => decide (tab.get h ≠ -1)).length = keys.length := by
  have hperm : (((seg id 0 siz).filter fun h => decide (tab.get h ≠ -1)).map tab.get).Perm keys := by
    refine (List.perm_ext_iff_of_nodup ?_ T.tab.nodup).2 ?_
    · refine List.Nodup.map_on ?_ ((Graph.nodup_seg_id _ _).filter _)
      intro x hx y hy e
      rw [List.mem_filter, mem_seg] at hx hy
      obtain ⟨⟨x', x1, x2, rfl⟩, x3⟩ := hx
      obtain ⟨⟨y', y1, y2, rfl⟩, y3⟩ := hy
      exact T.tab.uniq x1 x2 y1 y2 (of_decide_eq_true x3) (of_decide_eq_true y3) e
    · intro k
      rw [T.tab.mem k, List.mem_map]
      constructor
      · rintro ⟨x, hx, e⟩
        rw [List.mem_filter, mem_seg] at hx
        obtain ⟨⟨x', x1, x2, rfl⟩, x3⟩ := hx
        exact ⟨x', x1, x2, of_decide_eq_true x3, e⟩
      · rintro ⟨x, x1, x2, x3, x4⟩
        exact ⟨x, List.mem_filter.2 ⟨(mem_seg ..).2 ⟨x, x1, x2, rfl⟩, decide_eq_true x3⟩, x4⟩
  rw [← hperm.length_eq, List.length_map]

theorem fixPack_holds {term velo : Arr Int} {siz : Int} {keys : List Int} (T : HTab term siz keys) (v1 : velo.lo = 0) (v2 : velo.hi = siz) :
    Holds (fixPack siz term velo) fun r => r.1 = keys.length := by
  have hpos := T.tab.pos
  have hlo := T.lo
  have hhi := T.hi
  unfold fixPack
  refine Holds_forUp (fun i (s : Int × Arr Int × Arr Int) => s.1 = (((seg id 0 i).filter fun h => decide (term.get h ≠ -1)).length : Int) ∧ s.1 ≤ i ∧ s.2.1.lo = 0 ∧ s.2.1.hi = siz ∧ s.2.2.lo = 0 ∧ s.2.2.hi = siz ∧
    ∀ x, i ≤ x → s.2.1.get x = term.get x) (by omega) ⟨by rw [seg_empty _ (Int.le_refl _)]; rfl, Int.le_refl 0, hlo, hhi, v1, v2, fun x _ => rfl⟩ ?_ ?_
  · rintro i ⟨c, a, b⟩ i1 i2 ⟨h1, h2, h3, h4, h5, h6, h7⟩
    dsimp only at h1 h2 h3 h4 h5 h6 h7 ⊢
    rw [a.rd_ok (by omega) (by omega), ok_bind]
    have hL : ((seg id 0 (i + 1)).filter fun h => decide (term.get h ≠ -1)) = ((seg id 0 i).filter fun h => decide (term.get h ≠ -1)) ++ if term.get i ≠ -1 then [i] else [] := by
      rw [seg_succ _ i1, List.filter_append]
      congr 1
      by_cases e : term.get i ≠ -1
      · rw [if_pos e]; simp [e]
      · rw [if_neg e]
        have : term.get i = -1 := Classical.byContradiction e
        simp [this]
    have hge : a.get i = term.get i := h7 i (Int.le_refl _)
    by_cases e : term.get i ≠ -1
    · rw [if_pos (by rw [hge]; exact e), ok_bind, a.wr_ok _ (by omega) (by omega), ok_bind, b.rd_ok (by omega) (by omega), ok_bind, b.wr_ok _ (by omega) (by omega), ok_bind, Holds_pure]
      refine ⟨?_, by show c + 1 ≤ i + 1; omega, h3, h4, h5, h6, ?_⟩
      · rw [hL, if_pos e, List.length_append]
        show c + 1 = _
        rw [h1]; push_cast; rfl
      · intro x hx
        show (a.set c _).get x = _
        rw [Arr.set_get_ne _ _ (by omega)]
        exact h7 x (by omega)
    · rw [if_neg (by rw [hge]; exact e), Holds_pure]
      refine ⟨by rw [hL, if_neg e, List.append_nil]; exact h1, by show c ≤ i + 1; omega, h3, h4, h5, h6, fun x hx => h7 x (by omega)⟩
  · rintro ⟨c, a, b⟩ ⟨h1, -⟩
    rw [h1, T.count]

/-- `kgraphMapRbVfloBuild`: subgraph of the vertices which are not fixed, and number of terminal domains to which vertices are fixed. -/
theorem vfloBuild_holds (hA : ArchLaws o n w Valid Has) (hn0 : 0 ≤ n) (hn : n < 2 ^ 28) {env : Env D} (he : env.Ok) (junk : Int → Int) {g : Graph} (hg : Proper g) {pfix : Arr Int} (p1 : pfix.lo ≤ g.baseval) (p2 : g.vertnnd ≤ pfix.hi)
    (hp : ∀ v, g.Vertex v → pfix.get v < n) {vfixnbr : Int} (hfix : vfixnbr = fixedNbr g pfix.get) :
    Holds (vfloBuild o env junk g vfixnbr pfix) fun r => Proper r.1 ∧ (∀ v, Verts r.1 v ↔ ∃ x, g.Vertex x ∧ org g x = v ∧ pfix.get x < 0) ∧ ∃ keys : List Int, keys.Nodup ∧
      (∀ k, k ∈ keys ↔ 0 ≤ k ∧ ∃ v, g.Vertex v ∧ pfix.get v = k) ∧ r.2.1 = (open Classical in if ∃ v, g.Vertex v ∧ 0 ≤ pfix.get v ∧ g.velo v ≠ 0 then (keys.length : Int) else 0) := by
  have hnn := hg.cons.vertnnd
  have hnb := hg.cons.vertnbr
  have hlen : vfixnbr = (fixL g pfix.get g.vertnnd).length := hfix
  unfold vfloBuild
  rw [Holds_bind]
  refine hA.frst.mono ?_
  rintro d ⟨d1, d2⟩
  rw [Holds_bind]
  refine (hA.size d d1).mono ?_
  rintro z hz
  have hz : z = n := by
    rw [hz]
    have : tally n (fun _ => 1) (Has d) = n := by
      rw [tally_congr (Q := fun _ => True) (fun k k1 k2 => ⟨fun _ => trivial, fun _ => d2 k k1 k2⟩)]
      unfold tally
      simp only [if_true]
      rw [sumI_const hn0]; omega
    exact this
  subst hz
  have hx0 : 0 ≤ fixHashNbr z vfixnbr ∧ fixHashNbr z vfixnbr ≤ z ∧ fixHashNbr z vfixnbr ≤ vfixnbr ∧ (fixHashNbr z vfixnbr = z ∨ fixHashNbr z vfixnbr = vfixnbr) := by
    unfold fixHashNbr
    split <;> omega
  rw [Holds_bind]
  refine (hashSize_holds hx0.1 (by omega)).mono ?_
  rintro siz ⟨s1, s2⟩
  rw [Holds_bind]
  have hspos : 0 < siz := by have := s1.nonneg; omega
  -- bound on the number of keys
  have hkl : ∀ i keys s, i ≤ g.vertnnd → g.baseval ≤ i → FixInv g pfix.get siz i keys s → (keys.length : Int) < siz := by
    intro i keys s i1 i0 hI
    have b1 : (keys.length : Int) ≤ z := by
      refine nodup_bound hI.tab.tab.nodup hn0 ?_
      intro k hk
      obtain ⟨v, v1, v2⟩ := (hI.mem k).1 hk
      rw [mem_fixL] at v1
      have := hp v ⟨v1.1, by omega⟩
      omega
    have b2 := hI.len
    have b3 := fixL_mono (g := g) (pfix := pfix.get) i0 i1
    omega
  refine Holds_forUp (fun i s => ∃ keys, FixInv g pfix.get siz i keys s) (by omega) ?_ ?_ ?_
  · refine ⟨[], HTab.empty hspos, by simp, ?_, rfl, rfl, rfl, rfl, fun v h h' => by omega, ?_⟩
    · intro k
      constructor
      · intro h; cases h
      · rintro ⟨v, v1, -⟩; rw [mem_fixL] at v1; omega
    · constructor
      · intro h; cases h
      · rintro ⟨v, v1, -⟩; rw [mem_fixL] at v1; omega
  · rintro i s i1 i2 ⟨keys, hI⟩
    exact fixBody_holds hg.cons hg.alloc p1 p2 s1 ⟨i1, i2⟩ hI (hkl i keys s (by omega) i1 hI)
  · rintro s ⟨keys, hI⟩
    have hpt : ∀ v, g.Vertex v → s.part.get v = if 0 ≤ pfix.get v then 1 else 0 := fun v hv => hI.part v hv.1 hv.2
    have hpr : s.part.lo ≤ g.baseval ∧ g.vertnnd ≤ s.part.hi := by rw [hI.plo, hI.phi]; omega
    have h01 : ∀ v, g.Vertex v → s.part.get v = 0 ∨ s.part.get v = 1 := fun v hv => by rw [hpt v hv]; split <;> simp
    have hcnt : ((ofPart g s.part 1).length : Int) = vfixnbr := by
      rw [hlen]
      have : ofPart g s.part 1 = fixL g pfix.get g.vertnnd := by
        unfold ofPart fixL
        refine List.filter_congr ?_
        intro v hv
        rw [mem_seg] at hv
        obtain ⟨v', a1, a2, rfl⟩ := hv
        have := hpt v' ⟨a1, a2⟩
        by_cases c : 0 ≤ pfix.get v'
        · rw [if_pos c] at this
          simp [this, c]
        · rw [if_neg c] at this
          simp [this, c]
      rw [this]
    have hl := ofPart_len hg.cons h01
    rw [Holds_bind]
    refine (induce_holds hg he.al _ hpr (val := 0) (by omega)).mono ?_
    rintro h ⟨h1, -, h2⟩
    have hverts : ∀ v, Verts h v ↔ ∃ x, g.Vertex x ∧ org g x = v ∧ pfix.get x < 0 := by
      intro v
      rw [h2]
      constructor
      · rintro ⟨x, x1, x2, x3⟩
        refine ⟨x, x1, x2, ?_⟩
        rw [hpt x x1] at x3
        by_cases c : 0 ≤ pfix.get x
        · rw [if_pos c] at x3; omega
        · omega
      · rintro ⟨x, x1, x2, x3⟩
        exact ⟨x, x1, x2, by rw [hpt x x1, if_neg (by omega)]⟩
    have hkeys : ∀ k, k ∈ keys ↔ 0 ≤ k ∧ ∃ v, g.Vertex v ∧ pfix.get v = k := by
      intro k
      rw [hI.mem]
      constructor
      · rintro ⟨v, v1, rfl⟩
        rw [mem_fixL] at v1
        exact ⟨v1.2.2, v, ⟨v1.1, v1.2.1⟩, rfl⟩
      · rintro ⟨k0, v, v1, rfl⟩
        exact ⟨v, mem_fixL.2 ⟨v1.1, v1.2, k0⟩, rfl⟩
    have hmsk : s.velomsk = true ↔ ∃ v, g.Vertex v ∧ 0 ≤ pfix.get v ∧ g.velo v ≠ 0 := by
      rw [hI.msk]
      constructor
      · rintro ⟨v, v1, v2⟩
        rw [mem_fixL] at v1
        exact ⟨v, ⟨v1.1, v1.2.1⟩, v1.2.2, v2⟩
      · rintro ⟨v, v1, v2, v3⟩
        exact ⟨v, mem_fixL.2 ⟨v1.1, v1.2, v2⟩, v3⟩
    by_cases c : s.velomsk = false
    · rw [if_pos c]
      refine ⟨h1, hverts, keys, hI.tab.tab.nodup, hkeys, ?_⟩
      rw [if_neg (fun hx => by rw [hmsk.2 hx] at c; cases c)]
    · rw [if_neg c, Holds_bind]
      refine (fixPack_holds hI.tab hI.vlo hI.vhi).mono ?_
      rintro ⟨c', a, b⟩ hc'
      refine ⟨h1, hverts, keys, hI.tab.tab.nodup, hkeys, ?_⟩
      rw [if_pos (hmsk.1 (by revert c; cases s.velomsk <;> simp))]
      exact hc'

end Scotch.Kmap
