import Verif.HOrder.LemmasHx4
import Verif.Seg

/-! # Traversal of elimination trees: lemmas -/

set_option autoImplicit false
set_option linter.unusedSimpArgs false
set_option linter.unusedVariables false

namespace Scotch.HOrder

/-- `x` is `j` or one of its descendants. -/
inductive Under (fa : Int → Int) (j : Int) : Int → Prop
  | refl : Under fa j j
  | step {x : Int} : fa x ≠ -1 → Under fa j (fa x) → Under fa j x

/-- Principal vertex of a vertex. -/
def prin (nv own : Int → Int) (v : Int) : Int := if 0 < nv v then v else own v

variable {b N i j x : Int} {rk : Int → Int} {nv sz fa fr ne se : Int → Int} {k root : Int} {S Q : Int → List Int} {own : Int → Int}

theorem Under.lift {s : Int} (hs : fa s ≠ -1) (h : Under fa s x) : Under fa (fa s) x := by
  induction h with
  | refl => exact .step hs .refl
  | step h1 _ ih => exact .step h1 ih

theorem Under.linear {s t : Int} (h1 : Under fa s x) : Under fa t x → Under fa s t ∨ Under fa t s := by
  induction h1 with
  | refl => exact fun h => Or.inr h
  | step h h' ih =>
    intro h2
    cases h2 with
    | refl => exact Or.inl (.step h h')
    | step _ h3 => exact ih h3

theorem Under.rank (T : HxT b N (b + N) rk nv sz fa fr ne se k root S Q own) (h : Under fa j x) : b ≤ x → x < b + N → 0 < nv x → rk x ≤ rk j := by
  induction h with
  | refl => intro _ _ _; exact Int.le_refl _
  | step h1 _ ih =>
    intro x1 x2 x3
    obtain ⟨u1, u2, u3, u4⟩ := T.up _ x1 x2 x3 h1
    have := ih u1 u2 u3
    omega

theorem Under.son (T : HxT b N (b + N) rk nv sz fa fr ne se k root S Q own) (j1 : b ≤ j) (j2 : j < b + N) (hj : 0 < nv j) (h : Under fa j x) : b ≤ x → x < b + N → 0 < nv x → x ≠ j → ∃ s ∈ S j, Under fa s x := by
  induction h with
  | refl => intro _ _ _ h; exact absurd rfl h
  | @step x h1 _ ih =>
    intro x1 x2 x3 _
    obtain ⟨u1, u2, u3, u4⟩ := T.up _ x1 x2 x3 h1
    by_cases he : fa x = j
    · exact ⟨x, ((T.sons j j1 j2 hj).2 x).2 ⟨x1, x2, x3, he⟩, .refl⟩
    · obtain ⟨s, s1, s2⟩ := ih u1 u2 u3 he
      exact ⟨s, s1, .step h1 s2⟩

theorem sons_disjoint (T : HxT b N (b + N) rk nv sz fa fr ne se k root S Q own) (j1 : b ≤ j) (j2 : j < b + N) (hj : 0 < nv j) (hb : 0 ≤ b) {s t : Int} (hs : s ∈ S j) (ht : t ∈ S j) (hne : s ≠ t) (h1 : Under fa s x) (h2 : Under fa t x) : False := by
  have key : ∀ s t, s ∈ S j → t ∈ S j → s ≠ t → Under fa s t → False := by
    intro s t hs ht hne h
    obtain ⟨s1, s2, s3, s4⟩ := ((T.sons j j1 j2 hj).2 s).1 hs
    obtain ⟨t1, t2, t3, t4⟩ := ((T.sons j j1 j2 hj).2 t).1 ht
    cases h with
    | refl => exact hne rfl
    | step h h' =>
      rw [t4] at h'
      have := h'.rank T j1 j2 hj
      have := (T.up s s1 s2 s3 (by omega)).2.2.2
      rw [s4] at this
      omega
  rcases h1.linear h2 with h | h
  · exact key s t hs ht hne h
  · exact key t s ht hs hne.symm h

theorem exists_root (T : HxT b N (b + N) rk nv sz fa fr ne se k root S Q own) : ∀ (m : Nat) (x : Int), b ≤ x → x < b + N → 0 < nv x → (N - rk x).toNat ≤ m → ∃ r, b ≤ r ∧ r < b + N ∧ 0 < nv r ∧ fa r = -1 ∧ Under fa r x := by
  intro m
  induction m with
  | zero =>
    intro x x1 x2 x3 h
    have := T.rank x x1 x2
    omega
  | succ m ih =>
    intro x x1 x2 x3 h
    by_cases hf : fa x = -1
    · exact ⟨x, x1, x2, x3, hf, .refl⟩
    · obtain ⟨u1, u2, u3, u4⟩ := T.up _ x1 x2 x3 hf
      have := T.rank x x1 x2
      obtain ⟨r, r1, r2, r3, r4, r5⟩ := ih (fa x) u1 u2 u3 (by omega)
      exact ⟨r, r1, r2, r3, r4, .step hf r5⟩

theorem prin_mem (T : HxT b N (b + N) rk nv sz fa fr ne se k root S Q own) (x1 : b ≤ x) (x2 : x < b + N) : b ≤ prin nv own x ∧ prin nv own x < b + N ∧ 0 < nv (prin nv own x) := by
  unfold prin
  by_cases h : 0 < nv x
  · rw [if_pos h]; exact ⟨x1, x2, h⟩
  · rw [if_neg h]; exact T.own x x1 x2 h

/-! ## Written cells -/

/-- The vertices of `e` have been written, from position `ord` on. -/
structure Wr (ord b N : Int) (p0 p : Arr Int) (e : List Int) : Prop where
  bnd : p.lo = p0.lo ∧ p.hi = p0.hi
  frame : ∀ i, (i < ord ∨ ord + N ≤ i) → p.get i = p0.get i
  cell : ∀ k (h : k < e.length), p.get (ord + k) = e[k]
  nodup : e.Nodup
  mem : ∀ x ∈ e, b ≤ x ∧ x < b + N

theorem Wr.push {ord v : Int} {p0 p : Arr Int} {e : List Int} (hN : 0 ≤ N) (W : Wr ord b N p0 p e) (h1 : p0.lo ≤ ord) (h2 : ord + N ≤ p0.hi) (v1 : b ≤ v) (v2 : v < b + N) (hv : v ∉ e) {n : Int} (hn : n = e.length) :
    Holds (p.wr (ord + n) v) (fun p' => Wr ord b N p0 p' (e ++ [v])) := by
  subst hn
  have hnd : (e ++ [v]).Nodup := by
    rw [List.nodup_append]
    refine ⟨W.nodup, by simp, ?_⟩
    rintro x hx y hy rfl
    rw [List.mem_singleton] at hy
    exact hv (hy ▸ hx)
  have hm : ∀ x ∈ e ++ [v], b ≤ x ∧ x < b + N := by
    intro x hx
    rw [List.mem_append, List.mem_singleton] at hx
    rcases hx with hx | hx
    · exact W.mem x hx
    · rw [hx]; exact ⟨v1, v2⟩
  have hlen := nodup_length hN hnd hm
  rw [List.length_append, List.length_singleton] at hlen
  have hb := W.bnd
  rw [Arr.wr_ok _ _ (by omega) (by omega), Holds_ok]
  refine ⟨hb, ?_, ?_, hnd, hm⟩
  · intro i hi
    rw [set_upd, upd_ne (by omega)]
    exact W.frame i hi
  · intro k hk
    rw [set_upd]
    rw [List.length_append, List.length_singleton] at hk
    by_cases hkl : k < e.length
    · rw [upd_ne (by omega), List.getElem_append_left hkl]; exact W.cell k hkl
    · have : k = e.length := by omega
      subst this
      rw [upd_same]
      simp

variable {n : Int} {s : HxS}

theorem hxTree_holds {ord : Int} {p0 : Arr Int} {lfuel : Nat} (hb0 : 0 ≤ b) (hN : 0 ≤ N) (hn : N ≤ n) (hb : HxB b n s) (T : s.Tree b N (b + N) rk S Q own) (h1 : p0.lo ≤ ord) (h2 : ord + N ≤ p0.hi) (hf : N.toNat < lfuel) :
    ∀ (fuel : Nat) (j : Int) (p : Arr Int) (e : List Int) (c : Int), b ≤ j → j < b + N → 0 < s.nvar.get j → rk j < fuel → Wr ord b N p0 p e → c = e.length → (∀ x ∈ e, ¬ Under s.fath.get j (prin s.nvar.get own x)) →
      Holds (hxTree lfuel ord s fuel (p, c) j) (fun r => ∃ l, r.2 = ((e ++ l).length : Nat) ∧ Wr ord b N p0 r.1 (e ++ l) ∧ ∀ v, v ∈ l ↔ b ≤ v ∧ v < b + N ∧ Under s.fath.get j (prin s.nvar.get own v)) := by
  intro fuel
  induction fuel with
  | zero =>
    intro j p e c j1 j2 j3 j4
    have := T.rank j j1 j2
    omega
  | succ fuel ih =>
    intro j p e c j1 j2 j3 j4 W hc he
    have B4 := hb.frst
    have B5 := hb.next
    have B6 := hb.secn
    obtain ⟨sj1, sj2⟩ := T.sons j j1 j2 j3
    obtain ⟨qj1, qj2⟩ := T.secs j j1 j2 j3
    have hlS : ((S j).length : Int) ≤ N := nodup_length (b := b) hN sj1 (fun x hx => by have := (sj2 x).1 hx; omega)
    have hlQ : ((Q j).length : Int) ≤ N := nodup_length (b := b) hN qj1 (fun x hx => by have := (qj2 x).1 hx; omega)
    have hlow : ∀ t ∈ S j, ¬ Under s.fath.get t j := by
      intro t ht h
      obtain ⟨t1, t2, t3, t4⟩ := (sj2 t).1 ht
      have a := h.rank T j1 j2 j3
      have := (T.up t t1 t2 t3 (by omega)).2.2.2
      rw [t4] at this
      omega
    have hlift : ∀ t ∈ S j, ∀ x, Under s.fath.get t x → Under s.fath.get j x := by
      intro t ht x h
      obtain ⟨t1, t2, t3, t4⟩ := (sj2 t).1 ht
      have := h.lift (by rw [t4]; omega)
      rw [t4] at this
      exact this
    unfold hxTree
    rw [Arr.rd_ok _ (by omega) (by omega), ok_bind, Holds_bind]
    refine (link_loop (f := s.next.get) (I := fun done (t : Arr Int × Int) => ∃ l, t.2 = ((e ++ l).length : Nat) ∧ Wr ord b N p0 t.1 (e ++ l) ∧ ∀ v, v ∈ l ↔ b ≤ v ∧ v < b + N ∧ ∃ x ∈ done, Under s.fath.get x (prin s.nvar.get own v))
      (-1) (S j) (Q := fun (t : Arr Int × Int) => ∃ l, t.2 = ((e ++ l).length : Nat) ∧ Wr ord b N p0 t.1 (e ++ l) ∧ ∀ v, v ∈ l ↔ b ≤ v ∧ v < b + N ∧ ∃ x ∈ S j, Under s.fath.get x (prin s.nvar.get own v)) ?_ ?_ (S j) [] (p, c) (s.frst.get j) lfuel rfl (T.link j j1 j2 j3) ?_ (by omega)).mono ?_
    · rintro done x rest ⟨p', c'⟩ hall ⟨l, l1, l2, l3⟩
      dsimp only at l1 l2
      have hxS : x ∈ S j := by rw [hall]; simp
      obtain ⟨x1, x2, x3, x4⟩ := (sj2 x).1 hxS
      have hrx := (T.up x x1 x2 x3 (by omega)).2.2.2
      rw [x4] at hrx
      unfold hxSons
      dsimp only
      rw [if_neg (by omega), Holds_bind]
      refine (ih x p' (e ++ l) c' x1 x2 x3 (by omega) l2 l1 ?_).mono ?_
      · intro y hy hu
        rw [List.mem_append] at hy
        rcases hy with hy | hy
        · exact he y hy (hlift x hxS _ hu)
        · obtain ⟨y1, y2, z, z1, z2⟩ := (l3 y).1 hy
          have hzx : z ≠ x := by
            intro h
            rw [hall] at sj1
            exact (List.nodup_append.1 sj1).2.2 z z1 x (List.mem_cons_self ..) h
          exact sons_disjoint T j1 j2 j3 hb0 (by rw [hall]; exact List.mem_append_left _ z1) hxS hzx z2 hu
      · rintro ⟨p2, c2⟩ ⟨m, m1, m2, m3⟩
        dsimp only at m1 m2
        rw [Arr.rd_ok _ (by omega) (by omega), ok_bind, Holds_pure]
        refine ⟨rfl, l ++ m, ?_, ?_, ?_⟩
        · rw [← List.append_assoc]; exact m1
        · rw [← List.append_assoc]; exact m2
        · intro v
          rw [List.mem_append, l3, m3]
          constructor
          · rintro (⟨v1, v2, z, z1, z2⟩ | ⟨v1, v2, z⟩)
            · exact ⟨v1, v2, z, List.mem_append_left _ z1, z2⟩
            · exact ⟨v1, v2, x, by simp, z⟩
          · rintro ⟨v1, v2, z, z1, z2⟩
            rw [List.mem_append, List.mem_singleton] at z1
            rcases z1 with z1 | z1
            · exact Or.inl ⟨v1, v2, z, z1, z2⟩
            · exact Or.inr ⟨v1, v2, z1 ▸ z2⟩
    · rintro ⟨p', c'⟩ hI
      unfold hxSons
      dsimp only
      rw [if_pos rfl, Holds_pure]
      exact hI
    · refine ⟨[], ?_, ?_, ?_⟩
      · rw [List.append_nil]; exact hc
      · rw [List.append_nil]; exact W
      · intro v
        constructor
        · intro h; cases h
        · rintro ⟨_, _, z, z1, _⟩; cases z1
    · rintro ⟨p', c'⟩ ⟨l, l1, l2, l3⟩
      dsimp only at l1 l2 ⊢
      have hpj : prin s.nvar.get own j = j := if_pos j3
      rw [Holds_bind]
      refine (l2.push hN h1 h2 j1 j2 ?_ l1).mono ?_
      · intro hx
        rw [List.mem_append] at hx
        rcases hx with hx | hx
        · exact he j hx (by rw [hpj]; exact .refl)
        · obtain ⟨_, _, z, z1, z2⟩ := (l3 j).1 hx
          rw [hpj] at z2
          exact hlow z z1 z2
      intro p2 W2
      rw [Holds_bind, Arr.rd_ok _ (by omega) (by omega), Holds_ok]
      refine (link_loop (f := s.secn.get) (I := fun done (t : Arr Int × Int) => t.2 = ((e ++ l ++ [j] ++ done).length : Nat) ∧ Wr ord b N p0 t.1 (e ++ l ++ [j] ++ done))
        (-1) (Q j) (Q := fun (t : Arr Int × Int) => t.2 = ((e ++ l ++ [j] ++ Q j).length : Nat) ∧ Wr ord b N p0 t.1 (e ++ l ++ [j] ++ Q j)) ?_ ?_ (Q j) [] (p2, c' + 1) (s.secn.get j) lfuel rfl (T.secn j j1 j2 j3) ?_ (by omega)).mono ?_
      · rintro done x rest ⟨p', c'⟩ hall ⟨k1, k2⟩
        dsimp only at k1 k2
        have hxQ : x ∈ Q j := by rw [hall]; simp
        obtain ⟨x1, x2, x3, x4⟩ := (qj2 x).1 hxQ
        have hpx : prin s.nvar.get own x = j := by unfold prin; rw [if_neg x3, x4]
        unfold hxSecs
        dsimp only
        rw [if_neg (by omega), Holds_bind]
        refine (k2.push hN h1 h2 x1 x2 ?_ k1).mono ?_
        · intro hx
          rw [List.mem_append, List.mem_append, List.mem_append, List.mem_singleton] at hx
          rcases hx with ((hx | hx) | hx) | hx
          · exact he x hx (by rw [hpx]; exact .refl)
          · obtain ⟨_, _, z, z1, z2⟩ := (l3 x).1 hx
            rw [hpx] at z2
            exact hlow z z1 z2
          · rw [hx] at x3; exact x3 j3
          · rw [hall] at qj1
            exact (List.nodup_append.1 qj1).2.2 x hx x (List.mem_cons_self ..) rfl
        · intro p3 W3
          rw [Arr.rd_ok _ (by omega) (by omega), ok_bind, Holds_pure]
          refine ⟨rfl, ?_, ?_⟩
          · dsimp only
            rw [← List.append_assoc, List.length_append (bs := [x]), List.length_singleton]; omega
          · rw [← List.append_assoc]; exact W3
      · rintro ⟨p', c'⟩ hI
        unfold hxSecs
        dsimp only
        rw [if_pos rfl, Holds_pure]
        exact hI
      · refine ⟨?_, ?_⟩
        · dsimp only
          rw [List.append_nil, List.length_append (bs := [j]), List.length_singleton]; omega
        · rw [List.append_nil]; exact W2
      · rintro ⟨p3, c3⟩ ⟨k1, k2⟩
        dsimp only at k1 k2 ⊢
        refine ⟨l ++ [j] ++ Q j, ?_, ?_, ?_⟩
        · rw [← List.append_assoc, ← List.append_assoc]; exact k1
        · rw [← List.append_assoc, ← List.append_assoc]; exact k2
        · intro v
          rw [List.mem_append, List.mem_append, List.mem_singleton, l3]
          constructor
          · rintro ((⟨v1, v2, z, z1, z2⟩ | hv) | hv)
            · exact ⟨v1, v2, hlift z z1 _ z2⟩
            · rw [hv, hpj]; exact ⟨j1, j2, .refl⟩
            · obtain ⟨v1, v2, v3, v4⟩ := (qj2 v).1 hv
              refine ⟨v1, v2, ?_⟩
              unfold prin
              rw [if_neg v3, v4]
              exact .refl
          · rintro ⟨v1, v2, v3⟩
            obtain ⟨w1, w2, w3⟩ := prin_mem T v1 v2
            by_cases hv : prin s.nvar.get own v = j
            · unfold prin at hv
              by_cases hp : 0 < s.nvar.get v
              · rw [if_pos hp] at hv
                exact Or.inl (Or.inr hv)
              · rw [if_neg hp] at hv
                exact Or.inr ((qj2 v).2 ⟨v1, v2, hp, hv⟩)
            · obtain ⟨z, z1, z2⟩ := v3.son T j1 j2 j3 w1 w2 w3 hv
              exact Or.inl (Or.inl ⟨v1, v2, z, z1, z2⟩)

/-- Distinct vertices of a range, in the right number, are all its vertices. -/
theorem nodup_all {l : List Int} (hN : 0 ≤ N) (hd : l.Nodup) (hl : ∀ x ∈ l, b ≤ x ∧ x < b + N) (hn : N ≤ l.length) (v1 : b ≤ x) (v2 : x < b + N) : x ∈ l := by
  have hs : l.toFinset ⊆ Finset.Ico b (b + N) := by
    intro x hx
    rw [List.mem_toFinset] at hx
    rw [Finset.mem_Ico]
    exact hl x hx
  have := Finset.eq_of_subset_of_card_le hs (by rw [List.toFinset_card_of_nodup hd, Int.card_Ico]; omega)
  rw [← List.mem_toFinset, this, Finset.mem_Ico]
  exact ⟨v1, v2⟩

/-- The traversal writes all the vertices, once each. -/
theorem hxTrees_holds {ord : Int} {p0 : Arr Int} {fuel : Nat} (hb0 : 0 ≤ b) (hN : 1 ≤ N) (hn : N ≤ n) (hb : HxB b n s) (T : s.Tree b N (b + N) rk S Q own) (h1 : p0.lo ≤ ord) (h2 : ord + N ≤ p0.hi) (hf : N.toNat < fuel) :
    Holds (hxTrees fuel b N ord s p0) (fun p => ∃ e, Wr ord b N p0 p e ∧ ∀ v, v ∈ e ↔ b ≤ v ∧ v < b + N) := by
  have B3 := hb.fath
  obtain ⟨w1, w2, w3⟩ := prin_mem T (Int.le_refl b) (by omega)
  obtain ⟨r, r1, r2, r3, r4, _⟩ := exists_root T _ _ w1 w2 w3 (Nat.le_refl _)
  obtain ⟨t1, t2, t3, t4, t5⟩ : b ≤ s.root ∧ s.root < b + N ∧ 0 < s.nvar.get s.root ∧ s.fath.get s.root = -1 ∧ ∀ x, b ≤ x → x < b + N → 0 < s.nvar.get x → s.fath.get x = -1 → x ≤ s.root := by
    rcases T.root with ⟨_, h⟩ | h
    · exact absurd r4 (h r r1 r2 r3)
    · exact h
  have hrk : ∀ x, b ≤ x → x < b + N → rk x < fuel := fun x x1 x2 => by have := T.rank x x1 x2; omega
  unfold hxTrees
  rw [Holds_bind]
  refine (hxTree_holds hb0 (by omega) hn hb T h1 h2 hf fuel s.root p0 [] 0 t1 t2 t3 (hrk _ t1 t2) ⟨⟨rfl, rfl⟩, fun _ _ => rfl, (fun k h => by simp at h), List.nodup_nil, (fun x h => by cases h)⟩ rfl (fun x h => by cases h)).mono ?_
  rintro ⟨p, c⟩ ⟨e, e1, e2, e3⟩
  rw [List.nil_append] at e1 e2
  dsimp only at e1 e2 ⊢
  by_cases hc : c < N
  · rw [if_pos hc, Holds_bind]
    refine Holds_forUp (fun i (t : Arr Int × Int) => ∃ l, t.2 = (l.length : Nat) ∧ Wr ord b N p0 t.1 l ∧ ∀ v, v ∈ l ↔ b ≤ v ∧ v < b + N ∧ ∃ r, (r = s.root ∨ (b ≤ r ∧ r < i ∧ 0 < s.nvar.get r ∧ s.fath.get r = -1)) ∧ Under s.fath.get r (prin s.nvar.get own v)) t1 ?_ ?_ ?_
    · refine ⟨e, e1, e2, fun v => ?_⟩
      rw [e3]
      constructor
      · rintro ⟨v1, v2, v3⟩
        exact ⟨v1, v2, s.root, Or.inl rfl, v3⟩
      · rintro ⟨v1, v2, r, hr | hr, v3⟩
        · exact ⟨v1, v2, hr ▸ v3⟩
        · omega
    · rintro i ⟨p', c'⟩ i1 i2 ⟨l, l1, l2, l3⟩
      dsimp only at l1 l2 ⊢
      rw [Arr.rd_ok _ (by omega) (by omega), ok_bind]
      by_cases hi : s.fath.get i = -1
      · rw [if_pos hi]
        have hip : 0 < s.nvar.get i := by
          by_cases h : 0 < s.nvar.get i
          · exact h
          · exact absurd hi (T.low i i1 (by omega) h)
        refine (hxTree_holds hb0 (by omega) hn hb T h1 h2 hf fuel i p' l c' i1 (by omega) hip (hrk _ i1 (by omega)) l2 l1 ?_).mono ?_
        · intro y hy hu
          obtain ⟨y1, y2, r, hr, ur⟩ := (l3 y).1 hy
          have hrr : s.fath.get r = -1 ∧ r ≠ i := by
            rcases hr with hr | hr
            · rw [hr]; exact ⟨t4, by omega⟩
            · exact ⟨hr.2.2.2, by omega⟩
          rcases ur.linear hu with h | h
          · cases h with
            | refl => exact hrr.2 rfl
            | step h _ => exact h hi
          · cases h with
            | refl => exact hrr.2 rfl
            | step h _ => exact h hrr.1
        · rintro ⟨p2, c2⟩ ⟨m, m1, m2, m3⟩
          refine ⟨l ++ m, m1, m2, fun v => ?_⟩
          rw [List.mem_append, l3, m3]
          constructor
          · rintro (⟨v1, v2, r, hr, ur⟩ | ⟨v1, v2, v3⟩)
            · refine ⟨v1, v2, r, ?_, ur⟩
              rcases hr with hr | hr
              · exact Or.inl hr
              · exact Or.inr ⟨hr.1, by omega, hr.2.2⟩
            · exact ⟨v1, v2, i, Or.inr ⟨i1, by omega, hip, hi⟩, v3⟩
          · rintro ⟨v1, v2, r, hr, ur⟩
            rcases hr with hr | hr
            · exact Or.inl ⟨v1, v2, r, Or.inl hr, ur⟩
            · by_cases he : r = i
              · exact Or.inr ⟨v1, v2, he ▸ ur⟩
              · exact Or.inl ⟨v1, v2, r, Or.inr ⟨hr.1, by omega, hr.2.2⟩, ur⟩
      · rw [if_neg hi, Holds_pure]
        refine ⟨l, l1, l2, fun v => ?_⟩
        rw [l3]
        constructor
        · rintro ⟨v1, v2, r, hr, ur⟩
          refine ⟨v1, v2, r, ?_, ur⟩
          rcases hr with hr | hr
          · exact Or.inl hr
          · exact Or.inr ⟨hr.1, by omega, hr.2.2⟩
        · rintro ⟨v1, v2, r, hr, ur⟩
          refine ⟨v1, v2, r, ?_, ur⟩
          rcases hr with hr | hr
          · exact Or.inl hr
          · refine Or.inr ⟨hr.1, ?_, hr.2.2⟩
            have : r ≠ i := fun he => hi (he ▸ hr.2.2.2)
            omega
    · rintro ⟨p', c'⟩ ⟨l, l1, l2, l3⟩
      rw [Holds_pure]
      refine ⟨l, l2, fun v => ?_⟩
      rw [l3]
      constructor
      · rintro ⟨v1, v2, _⟩; exact ⟨v1, v2⟩
      · rintro ⟨v1, v2⟩
        obtain ⟨w1, w2, w3⟩ := prin_mem T v1 v2
        obtain ⟨r, r1, r2, r3, r4, r5⟩ := exists_root T _ _ w1 w2 w3 (Nat.le_refl _)
        refine ⟨v1, v2, r, ?_, r5⟩
        have := t5 r r1 r2 r3 r4
        by_cases he : r = s.root
        · exact Or.inl he
        · exact Or.inr ⟨r1, by omega, r3, r4⟩
  · rw [if_neg hc, Holds_pure]
    refine ⟨e, e2, fun v => ⟨fun h => e2.mem v h, fun h => nodup_all (by omega) e2.nodup e2.mem (by omega) h.1 h.2⟩⟩

/-! ## Column blocks -/

/-- Sizes of the column blocks of some vertices. -/
def blkSizes (s : HxS) (e : List Int) : List Int := (e.filter (fun v => decide (0 < s.nvar.get v))).map s.size.get

theorem sum_perm {e : List Int} (hN : 0 ≤ N) (hd : e.Nodup) (he : ∀ v, v ∈ e ↔ b ≤ v ∧ v < b + N) (f : Int → Int) : (e.map f).sum = sumI b (b + N) f := by
  have hp : e.Perm (seg id b (b + N)) := by
    rw [List.perm_ext_iff_of_nodup hd]
    · intro v
      rw [he, mem_seg]
      constructor
      · intro h; exact ⟨v, h.1, h.2, rfl⟩
      · rintro ⟨i, h1, h2, rfl⟩; exact ⟨h1, h2⟩
    · unfold seg
      refine List.Nodup.map ?_ List.nodup_range
      intro x y h
      simp only [id] at h
      omega
  rw [(hp.map f).sum_eq, seg_map, sum_seg]
  rfl

theorem blkSizes_sum (s : HxS) : ∀ e : List Int, (blkSizes s e).sum = (e.map (fun v => if 0 < s.nvar.get v then s.size.get v else 0)).sum
  | [] => rfl
  | v :: e => by
    have := blkSizes_sum s e
    unfold blkSizes at this ⊢
    rw [List.map_cons, List.sum_cons, ← this]
    by_cases h : 0 < s.nvar.get v
    · rw [List.filter_cons_of_pos (by simpa using h), List.map_cons, List.sum_cons, if_pos h]
    · rw [List.filter_cons_of_neg (by simpa using h), if_neg h]; omega

theorem blkSizes_length (s : HxS) : ∀ e : List Int, ((blkSizes s e).length : Int) = (e.map (fun v => if 0 < s.nvar.get v then (1 : Int) else 0)).sum
  | [] => rfl
  | v :: e => by
    have := blkSizes_length s e
    unfold blkSizes at this ⊢
    rw [List.map_cons, List.sum_cons, ← this]
    by_cases h : 0 < s.nvar.get v
    · rw [List.filter_cons_of_pos (by simpa using h), List.map_cons, List.length_cons, if_pos h]; omega
    · rw [List.filter_cons_of_neg (by simpa using h), if_neg h]; omega

theorem hxBlk_holds {ord : Int} {p0 p : Arr Int} {e : List Int} (hN : 1 ≤ N) (hn : N ≤ n) (hb : HxB b n s) (T : s.Tree b N (b + N) rk S Q own) (h1 : p0.lo ≤ ord) (h2 : ord + N ≤ p0.hi) (W : Wr ord b N p0 p e) (he : ∀ v, v ∈ e ↔ b ≤ v ∧ v < b + N) :
    Holds (forUp 0 N [] (hxBlk ord s p)) (fun l => l = blkSizes s e) := by
  have hlen : (e.length : Int) = N := by
    have := sum_perm (by omega) W.nodup he (fun _ => 1)
    rw [sumI_const (by omega)] at this
    simp at this
    omega
  have hcnt : s.cblknbr = ((blkSizes s e).length : Int) := by
    rw [blkSizes_length, sum_perm (by omega) W.nodup he]; exact T.cnt
  refine Holds_forUp (fun i (l : List Int) => l = blkSizes s (e.take i.toNat)) (by omega) rfl ?_ ?_
  · rintro i l i1 i2 rfl
    obtain ⟨t, rfl⟩ : ∃ t : Nat, i = t := ⟨i.toNat, by omega⟩
    have ht : t < e.length := by omega
    have hb1 := W.bnd
    have hm := W.mem e[t] (List.getElem_mem ..)
    have B1 := hb.nvar
    have B2 := hb.size
    have hnn := T.nonneg e[t] hm.1 hm.2
    unfold hxBlk
    rw [Arr.rd_ok _ (by omega) (by omega), ok_bind, W.cell t ht, Arr.rd_ok _ (by omega) (by omega), ok_bind]
    have htk : e.take ((t : Int) + 1).toNat = e.take t ++ [e[t]] := by
      rw [show ((t : Int) + 1).toNat = t + 1 by omega, List.take_succ_eq_append_getElem ht]
    rw [htk, show ((t : Int)).toNat = t by omega]
    by_cases hz : s.nvar.get e[t] = 0
    · rw [if_pos hz, Holds_pure]
      unfold blkSizes
      rw [List.filter_append, List.filter_cons_of_neg (by simp [hz]), List.filter_nil, List.append_nil]
    · rw [if_neg hz]
      have happ : blkSizes s (e.take t ++ [e[t]]) = blkSizes s (e.take t) ++ [s.size.get e[t]] := by
        unfold blkSizes
        rw [List.filter_append, List.filter_cons_of_pos (by simp; omega), List.filter_nil, List.map_append]
        rfl
      have hle : (blkSizes s (e.take t ++ [e[t]])).length ≤ (blkSizes s e).length := by
        have hsub : (e.take t ++ [e[t]]).Sublist e := by
          rw [← List.take_succ_eq_append_getElem ht]
          exact List.take_sublist ..
        exact ((hsub.filter _).map _).length_le
      rw [happ, List.length_append, List.length_singleton] at hle
      rw [if_pos (by omega), Arr.rd_ok _ (by omega) (by omega), ok_bind, Holds_pure, happ]
  · rintro l rfl
    rw [List.take_of_length_le (by omega)]

end Scotch.HOrder
