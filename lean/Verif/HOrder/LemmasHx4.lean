import Verif.HOrder.LemmasHx3

/-! # Amalgamation of column blocks: lemmas -/

set_option autoImplicit false
set_option linter.unusedSimpArgs false
set_option linter.unusedVariables false

namespace Scotch.HOrder

variable {b N n i j : Int} {rk : Int → Int} {s : HxS} {S Q : Int → List Int} {own : Int → Int}

/-- Number of cells that are not in a list. -/
def left (X : List Int) (l : List Int) : Nat := l.countP (fun x => decide (x ∉ X))

theorem left_append (X l m : List Int) : left X (l ++ m) = left X l + left X m := List.countP_append ..

theorem left_cons_new {X l : List Int} {x : Int} (h : x ∉ X) : left X (x :: l) = left X l + 1 := by
  unfold left
  rw [List.countP_cons_of_pos (by simpa using h)]

theorem left_zero {X l : List Int} : left X l = 0 ↔ ∀ x ∈ l, x ∈ X := by
  unfold left
  rw [List.countP_eq_zero]
  simp

theorem left_snoc {X l : List Int} {x : Int} (h : x ∉ l) : left (X ++ [x]) l = left X l := by
  unfold left
  apply List.countP_congr
  intro y hy
  have : y ≠ x := fun he => h (he ▸ hy)
  simp [this]

theorem left_nil (l : List Int) : left [] l = l.length := by
  unfold left
  rw [List.countP_eq_length]
  intro x _
  simp

/-- Result of the processing of leaf `i`, whose father is `j`. -/
structure HxDone (b N n i j : Int) (rk : Int → Int) (s : HxS) (S : Int → List Int) (s' : HxS) (S' Q' : Int → List Int) (own' : Int → Int) : Prop where
  bnd : HxB b n s'
  pos : s'.Pos b N
  tree : s'.Tree b N (b + N) rk S' Q' own'
  sub : ∀ x, 0 < s'.nvar.get x → 0 < s.nvar.get x
  sup : ∀ x, 0 < s.nvar.get x → x ≠ i → 0 < s'.nvar.get x
  fath : ∀ x, s'.fath.get x = -1 ↔ s.fath.get x = -1
  desc : s'.desc = s.desc
  sons : ∀ l, l ≠ j → S' l = S l
  left : ∀ X, i ∉ X → (∀ x ∈ S i, x ∈ X) → left (X ++ [i]) (S' j) + 1 = left X (S j)

theorem hxDone_same (hb : HxB b n s) (hp : s.Pos b N) (T : s.Tree b N (b + N) rk S Q own) (hi : i ∈ S j) (hd : (S j).Nodup) : HxDone b N n i j rk s S s S Q own := by
  refine ⟨hb, hp, T, fun x h => h, fun x h _ => h, fun x => Iff.rfl, rfl, fun l _ => rfl, fun X hX _ => ?_⟩
  obtain ⟨A, B, hAB⟩ := List.append_of_mem hi
  rw [hAB] at hd ⊢
  have nd := List.nodup_append.1 hd
  have nd2 := List.nodup_cons.1 nd.2.1
  have hiA : i ∉ A := fun hx => nd.2.2 i hx i (List.mem_cons_self ..) rfl
  rw [left_append, left_append, left_cons_new hX, left_snoc hiA]
  have : left (X ++ [i]) (i :: B) = left (X ++ [i]) B := by
    unfold left
    rw [List.countP_cons_of_neg (by simp)]
  rw [this, left_snoc nd2.1]
  omega

theorem hxMerge_holds {fuel : Nat} {w : Int} (hb0 : 0 ≤ b) (hN : 0 ≤ N) (hn : N ≤ n) (hb : HxB b n s) (hp : s.Pos b N) (T : s.Tree b N (b + N) rk S Q own) (i1 : b ≤ i) (i2 : i < b + N) (hi : 0 < s.nvar.get i) (hij : s.fath.get i = j) (hj0 : j ≠ -1)
    (hw : 0 < w) (hf : N.toNat < fuel) :
    Holds (hxMerge fuel i j w s) (fun s' => ∃ S' Q' own', HxDone b N n i j rk s S s' S' Q' own') := by
  obtain ⟨j1, j2, hj, hr⟩ := T.up i i1 i2 hi (by rw [hij]; exact hj0)
  rw [hij] at j1 j2 hj hr
  have hne : i ≠ j := fun he => by rw [he] at hr; omega
  obtain ⟨si1, si2⟩ := T.sons i i1 i2 hi
  obtain ⟨sj1, sj2⟩ := T.sons j j1 j2 hj
  obtain ⟨qi1, qi2⟩ := T.secs i i1 i2 hi
  obtain ⟨qj1, qj2⟩ := T.secs j j1 j2 hj
  have hisj : i ∈ S j := (sj2 i).2 ⟨i1, i2, hi, hij⟩
  obtain ⟨A, B, hAB⟩ := List.append_of_mem hisj
  have hlj := T.link j j1 j2 hj
  have hli := T.link i i1 i2 hi
  rw [hAB] at hlj
  have hsj1 := sj1
  have hsj2 := sj2
  rw [hAB] at sj1 sj2
  have nd := List.nodup_append.1 sj1
  have nd2 := List.nodup_cons.1 nd.2.1
  have hiA : i ∉ A := fun hx => nd.2.2 i hx i (List.mem_cons_self ..) rfl
  have memA : ∀ x ∈ A, x ∈ A ++ i :: B := fun x hx => List.mem_append_left _ hx
  have memB : ∀ x ∈ B, x ∈ A ++ i :: B := fun x hx => List.mem_append_right _ (List.mem_cons_of_mem _ hx)
  have hjj : ∀ x, x ∈ A ++ i :: B → x ≠ j := fun x hx he => by
    subst he
    have h := (sj2 x).1 hx
    have := (T.up x h.1 h.2.1 h.2.2.1 (by omega)).2.2.2
    rw [h.2.2.2] at this; omega
  have hfi : ∀ x ∈ S i, x ≠ i ∧ x ≠ j := fun x hx => by
    have h := (si2 x).1 hx
    have h2 := (T.up x h.1 h.2.1 h.2.2.1 (by omega)).2.2.2
    rw [h.2.2.2] at h2
    refine ⟨fun he => ?_, fun he => ?_⟩
    · rw [he] at h2; omega
    · rw [he] at h2; omega
  have hsis : ∀ x ∈ S i, x ∉ A ++ i :: B := fun x hx hy => by
    have h1 := (si2 x).1 hx
    have h2 := (sj2 x).1 hy
    omega
  have lenA : (A.length : Int) ≤ N := nodup_length (b := b) hN nd.1 (fun x hx => by have := (sj2 x).1 (memA x hx); omega)
  have lenC : ((S i).length : Int) ≤ N := nodup_length (b := b) hN si1 (fun x hx => by have := (si2 x).1 hx; omega)
  have lenQ : ((Q i).length : Int) ≤ N := nodup_length (b := b) hN qi1 (fun x hx => by have := (qi2 x).1 hx; omega)
  obtain ⟨B1, B2, B3, B4, B5, B6, B7, B8⟩ := hb
  unfold hxMerge
  rw [Arr.wr_ok _ _ (by omega) (by omega), ok_bind, Arr.rd_ok _ (by show s.nvar.lo ≤ j; omega) (by show j < s.nvar.hi; omega), ok_bind, Arr.wr_ok _ _ (by show s.nvar.lo ≤ j; omega) (by show j < s.nvar.hi; omega), ok_bind,
    Arr.rd_ok _ (by omega) (by omega), ok_bind, Arr.rd_ok _ (by omega) (by omega), ok_bind, Arr.wr_ok _ _ (by omega) (by omega), ok_bind, Holds_bind]
  refine (cwgtAdd_holds ⟨B1, B2, B3, B4, B5, B6, B7, B8⟩ hp hn j1 j2 hw).mono ?_
  rintro c ⟨c1, c2⟩
  rw [Holds_bind]
  refine (hxMergeSecn_holds (C := Q i) (D := Q j) B6 hb0 i1 (by omega) j1 (by omega) hne (T.secn i i1 i2 hi) (T.secn j j1 j2 hj) ?_ qi1 ?_ (by omega)).mono ?_
  · rintro x (hx | hx)
    · have h := (qi2 x).1 hx
      exact ⟨h.1, by omega, fun he => h.2.2.1 (he ▸ hi), fun he => h.2.2.1 (he ▸ hj)⟩
    · have h := (qj2 x).1 hx
      exact ⟨h.1, by omega, fun he => h.2.2.1 (he ▸ hi), fun he => h.2.2.1 (he ▸ hj)⟩
  · intro x hx hy
    have h1 := (qi2 x).1 hx
    have h2 := (qj2 x).1 hy
    omega
  rintro se ⟨e1, e2, e3⟩
  rw [Holds_bind]
  refine (hxMergeSons_holds (A := A) (B := B) (C := S i) hb0 B3 B4 B5 i1 (by omega) j1 (by omega) hlj hli ?_ nd.1 si1 ?_ ?_ hne (by omega) (by omega)).mono ?_
  · rintro x (hx | hx | hx)
    · have h := (sj2 x).1 (memA x hx)
      exact ⟨h.1, by omega, fun he => hiA (he ▸ hx), hjj x (memA x hx)⟩
    · have h := (sj2 x).1 (memB x hx)
      exact ⟨h.1, by omega, fun he => nd2.1 (he ▸ hx), hjj x (memB x hx)⟩
    · have h := (si2 x).1 hx
      exact ⟨h.1, by omega, hfi x hx⟩
  · intro x hx
    exact ⟨fun hy => nd.2.2 x hx x (List.mem_cons_of_mem _ hy) rfl, fun hy => hsis x hy (memA x hx)⟩
  · intro x hx hy
    exact hsis x hx (memB x hy)
  rintro ⟨fa, fr, ne⟩ ⟨f1, f2, f3, f4, f5, f6, f7⟩
  dsimp only at f1 f2 f3 f4 f5 f6 f7 ⊢
  rw [Holds_pure]
  have hid : ∀ x, 0 < upd (upd s.nvar.get i 0) j (upd s.nvar.get i 0 j + w) x ↔ 0 < s.nvar.get x ∧ x ≠ i := fun x => by
    by_cases hx : x = j
    · rw [hx, upd_same, upd_ne hne.symm]; exact ⟨fun _ => ⟨hj, hne.symm⟩, fun _ => by omega⟩
    · rw [upd_ne hx]
      by_cases hy : x = i
      · rw [hy, upd_same]; exact ⟨fun h => by omega, fun h => absurd rfl h.2⟩
      · rw [upd_ne hy]; exact ⟨fun h => ⟨h, hy⟩, fun h => h.1⟩
  have hT := T.merge (fr' := fr.get) (ne' := ne.get) (se' := se.get) (fa' := fa.get) (w := upd s.nvar.get i 0 j + w) hb0 i1 i2 hi hij j1 j2 hj hr hAB (by rw [upd_ne hne.symm]; omega) ?_ ?_ f4
  · refine ⟨_, _, _, ⟨⟨B1, B2, ?_, ?_, ?_, ?_, B7, c1⟩, c2, hT, fun x hx => ((hid x).1 hx).1, fun x hx hy => (hid x).2 ⟨hx, hy⟩, fun x => ?_, rfl, fun l hl => upd_ne hl, fun X hX hS => ?_⟩⟩
    · show fa.lo ≤ b ∧ b + n ≤ fa.hi
      omega
    · show fr.lo ≤ b ∧ b + n ≤ fr.hi
      omega
    · show ne.lo ≤ b ∧ b + n ≤ ne.hi
      omega
    · show se.lo ≤ b ∧ b + n ≤ se.hi
      omega
    · show fa.get x = -1 ↔ _
      rw [f4]
      by_cases hx : x ∈ S i
      · rw [if_pos hx]
        have := (si2 x).1 hx
        omega
      · rw [if_neg hx]
    · rw [upd_same, hAB, left_append, left_append, left_append, left_cons_new hX, left_snoc hiA, left_snoc nd2.1, left_zero.2 (fun x hx => List.mem_append_left _ (hS x hx))]
      omega
  · intro l l1 l2 l3
    obtain ⟨l3, l4⟩ := (hid l).1 l3
    by_cases hl : l = j
    · subst hl
      rw [upd_same]
      exact f7
    · rw [upd_ne hl, f5 l hl]
      refine link_congr (fun x hx => (f6 x ?_ ?_).symm) (T.link l l1 l2 l3)
      · intro hy
        have h1 := ((T.sons l l1 l2 l3).2 x).1 hx
        have h2 := (sj2 x).1 (memA x hy)
        omega
      · intro hy
        have h1 := ((T.sons l l1 l2 l3).2 x).1 hx
        have h2 := (si2 x).1 hy
        omega
  · intro l l1 l2 l3
    obtain ⟨l3, l4⟩ := (hid l).1 l3
    have hni : l ∉ Q i := fun hx => ((qi2 l).1 hx).2.2.1 l3
    by_cases hl : l = j
    · subst hl
      rw [upd_same]
      exact e2
    · rw [upd_ne hl, e3 l l4 hl hni]
      refine link_congr (fun x hx => (e3 x ?_ ?_ ?_).symm) (T.secn l l1 l2 l3)
      · intro he
        have h1 := ((T.secs l l1 l2 l3).2 x).1 hx
        rw [he] at h1; exact h1.2.2.1 hi
      · intro he
        have h1 := ((T.secs l l1 l2 l3).2 x).1 hx
        rw [he] at h1; exact h1.2.2.1 hj
      · intro hy
        have h1 := ((T.secs l l1 l2 l3).2 x).1 hx
        have h2 := (qi2 x).1 hy
        omega

/-- Invariant of the loop on leaves: `L` has the leaves found so far. -/
structure HxI (b N n : Int) (rk : Int → Int) (q : HxQ) (S Q : Int → List Int) (own : Int → Int) (L : List Int) : Prop where
  bnd : HxB b n q.s
  pos : q.s.Pos b N
  tree : q.s.Tree b N (b + N) rk S Q own
  leaf : q.leaf.lo ≤ 0 ∧ n ≤ q.leaf.hi
  num : 0 ≤ q.num ∧ q.num ≤ q.nbr
  nbr : q.nbr = L.length
  cell : ∀ k (h : k < L.length), q.leaf.get k = L[k]
  nodup : L.Nodup
  mem : ∀ x ∈ L, b ≤ x ∧ x < b + N ∧ q.s.fath.get x ≠ -1
  prin : ∀ x ∈ L, x ∉ L.take q.num.toNat → 0 < q.s.nvar.get x
  desc : ∀ x, b ≤ x → x < b + N → 0 < q.s.nvar.get x → x ∉ L → q.s.desc.get x = left (L.take q.num.toNat) (S x)
  done : ∀ x, b ≤ x → x < b + N → 0 < q.s.nvar.get x → x ∈ L → ∀ y ∈ S x, y ∈ L.take q.num.toNat

theorem cwgtBlk_holds (hb : HxB b n s) (hp : s.Pos b N) (hn : N ≤ n) (hs : 1 ≤ s.size.get i) (h1 : b ≤ i) (h2 : i < b + N) : Holds (cwgtBlk s i) (fun w => 0 < w) := by
  unfold cwgtBlk
  cases hc : s.cwgt with
  | none =>
    have := hb.size
    dsimp only; rw [Arr.rd_ok _ (by omega) (by omega), Holds_ok]; omega
  | some a =>
    have := hb.cwgt a hc
    dsimp only
    rw [Arr.rd_ok _ (by omega) (by omega), Holds_ok]
    exact hp a hc i h1 h2

theorem hxTry_holds {p : HxPara} {fuel : Nat} (hb0 : 0 ≤ b) (hN : 0 ≤ N) (hn : N ≤ n) (hb : HxB b n s) (hp : s.Pos b N) (T : s.Tree b N (b + N) rk S Q own) (i1 : b ≤ i) (i2 : i < b + N) (hi : 0 < s.nvar.get i) (hij : s.fath.get i = j) (hj0 : j ≠ -1)
    (hf : N.toNat < fuel) :
    Holds (hxTry p fuel i j s) (fun s' => ∃ S' Q' own', HxDone b N n i j rk s S s' S' Q' own') := by
  obtain ⟨j1, j2, hj, hr⟩ := T.up i i1 i2 hi (by rw [hij]; exact hj0)
  rw [hij] at j1 j2 hj hr
  have hsj := T.sons j j1 j2 hj
  have hnv := hb.nvar
  unfold hxTry
  rw [Holds_bind]
  refine (cwgtBlk_holds hb hp hn ((T.size i i1 i2 hi).2 i2) i1 i2).mono ?_
  intro wi hwi
  rw [Holds_bind]
  refine (cwgtBlk_holds hb hp hn ((T.size j j1 j2 hj).2 j2) j1 j2).mono ?_
  intro wj _
  rw [Arr.rd_ok _ (by omega) (by omega), ok_bind, Arr.rd_ok _ (by omega) (by omega), ok_bind]
  by_cases hm : wi + wj ≤ p.colmax ∧ (wi < p.colmin ∨ p.fill wi (s.nvar.get j) (s.nvar.get i) = true)
  · rw [if_pos hm]
    exact hxMerge_holds hb0 hN hn hb hp T i1 i2 hi hij hj0 hwi hf
  · rw [if_neg hm, Holds_pure]
    exact ⟨_, _, _, hxDone_same hb hp T ((hsj.2 i).2 ⟨i1, i2, hi, hij⟩) hsj.1⟩

theorem hxStep_holds {p : HxPara} {fuel : Nat} {q : HxQ} {L : List Int} (hb0 : 0 ≤ b) (hN : 0 ≤ N) (hn : N ≤ n) (hf : N.toNat < fuel) (I : HxI b N n rk q S Q own L) :
    Holds (hxStep p fuel q) (Loop.Sat (fun q' => (∃ S' Q' own' L', HxI b N n rk q' S' Q' own' L') ∧ (N - q'.num).toNat < (N - q.num).toNat)
      (fun s' => HxB b n s' ∧ ∃ S' Q' own', s'.Tree b N (b + N) rk S' Q' own')) := by
  have hlen : (L.length : Int) ≤ N := nodup_length (b := b) hN I.nodup (fun x hx => by have := I.mem x hx; omega)
  obtain ⟨l1, l2⟩ := I.leaf
  obtain ⟨m1, m2⟩ := I.num
  have hnbr := I.nbr
  have hfa := I.bnd.fath
  have hnv := I.bnd.nvar
  unfold hxStep
  by_cases hq : q.num < q.nbr
  · rw [if_pos hq]
    obtain ⟨t, ht⟩ : ∃ t : Nat, q.num = t := ⟨q.num.toNat, by omega⟩
    have htl : t < L.length := by omega
    have hcell := I.cell t htl
    have htt : q.num.toNat = t := by omega
    have htake : L.take (t + 1) = L.take t ++ [L[t]] := by rw [List.take_succ_eq_append_getElem htl]
    rw [Arr.rd_ok _ (by omega) (by omega), ok_bind, ht, hcell]
    have hiL : L[t] ∈ L := List.getElem_mem ..
    have hiX : L[t] ∉ L.take t := by
      intro hx
      have nd := I.nodup
      rw [← List.take_append_drop t L, List.nodup_append] at nd
      refine nd.2.2 _ hx _ ?_ rfl
      rw [List.drop_eq_getElem_cons htl]
      exact List.mem_cons_self ..
    generalize hgi : L[t] = i at hcell htake hiL hiX ⊢
    obtain ⟨i1, i2, i3⟩ := I.mem i hiL
    have hi : 0 < q.s.nvar.get i := I.prin i hiL (by rw [htt]; exact hiX)
    rw [Arr.rd_ok _ (by omega) (by omega), ok_bind]
    obtain ⟨j1, j2, hj, hr⟩ := I.tree.up i i1 i2 hi i3
    generalize hgj : q.s.fath.get i = j at i3 j1 j2 hj hr ⊢
    have hsj := I.tree.sons j j1 j2 hj
    have hisj : i ∈ S j := (hsj.2 i).2 ⟨i1, i2, hi, hgj⟩
    have hjL : j ∉ L := fun hx => by
      have := I.done j j1 j2 hj hx i hisj
      rw [htt] at this
      exact hiX this
    have hdesc := I.desc j j1 j2 hj hjL
    have hsi := I.done i i1 i2 hi hiL
    rw [htt] at hdesc hsi
    rw [Holds_bind]
    refine (hxTry_holds (p := p) hb0 hN hn I.bnd I.pos I.tree i1 i2 hi hgj i3 hf).mono ?_
    rintro s' ⟨S', Q', own', D⟩
    have hB := D.bnd
    have hne : i ≠ j := fun he => by rw [he] at hr; omega
    have hj' : 0 < s'.nvar.get j := D.sup j hj hne.symm
    have hdc := hB.desc
    have hfa' := hB.fath
    have hlft := D.left (L.take t) hiX hsi
    rw [← htake] at hlft
    rw [Arr.rd_ok _ (by omega) (by omega), ok_bind]
    dsimp only
    rw [Arr.wr_ok _ _ (by omega) (by omega), ok_bind, Arr.rd_ok _ (by omega) (by omega), ok_bind]
    have hdj : s'.desc.get j - 1 = left (L.take (t + 1)) (S' j) := by
      rw [D.desc, hdesc]; omega
    have htt' : (q.num + 1).toNat = t + 1 := by omega
    have hin : ∀ x, x ∉ S' j → True := fun _ _ => trivial
    have hoth : ∀ x, b ≤ x → x < b + N → 0 < s'.nvar.get x → x ≠ j → left (L.take (t + 1)) (S' x) = left (L.take t) (S x) := by
      intro x x1 x2 x3 hx
      rw [D.sons x hx, htake, left_snoc]
      intro hy
      have := ((I.tree.sons x x1 x2 (D.sub x x3)).2 i).1 hy
      omega
    have hsub : ∀ y, y ∈ L.take t → y ∈ L.take (t + 1) := fun y hy => by rw [htake]; exact List.mem_append_left _ hy
    have hB2 : HxB b n { s' with desc := s'.desc.set j (s'.desc.get j - 1) } := ⟨hB.1, hB.2, hB.3, hB.4, hB.5, hB.6, hB.7, hB.8⟩
    have hmeas : (N - (q.num + 1)).toNat < (N - q.num).toNat := by omega
    have hiX' : i ∈ L.take (t + 1) := by rw [htake]; simp
    have hds : ∀ x, b ≤ x → x < b + N → 0 < s'.nvar.get x → x ∉ L → (s'.desc.set j (s'.desc.get j - 1)).get x = left (L.take (t + 1)) (S' x) := by
      intro x x1 x2 x3 x4
      rw [set_upd]
      by_cases hx : x = j
      · rw [hx, upd_same, hdj]
      · rw [upd_ne hx, hoth x x1 x2 x3 hx, D.desc, I.desc x x1 x2 (D.sub x x3) x4, htt]
    have hdn : ∀ x, b ≤ x → x < b + N → 0 < s'.nvar.get x → x ∈ L → ∀ y ∈ S' x, y ∈ L.take (t + 1) := by
      intro x x1 x2 x3 x4 y hy
      have hx : x ≠ j := fun he => hjL (he ▸ x4)
      rw [D.sons x hx] at hy
      have := I.done x x1 x2 (D.sub x x3) x4 y hy
      rw [htt] at this
      exact hsub y this
    have hpr : ∀ x ∈ L, x ∉ L.take (t + 1) → 0 < s'.nvar.get x := by
      intro x x1 x2
      refine D.sup x (I.prin x x1 ?_) (fun he => x2 (he ▸ hiX'))
      rw [htt]
      exact fun hx => x2 (hsub x hx)
    by_cases hpush : s'.desc.get j - 1 ≤ 0 ∧ s'.fath.get j ≠ -1
    · have hnd : (L ++ [j]).Nodup := by
        rw [List.nodup_append]
        refine ⟨I.nodup, by simp, ?_⟩
        rintro x hx y hy rfl
        rw [List.mem_singleton] at hy
        exact hjL (hy ▸ hx)
      have hlen' : ((L ++ [j]).length : Int) ≤ N := nodup_length (b := b) hN hnd (fun x hx => by
        rw [List.mem_append, List.mem_singleton] at hx
        rcases hx with hx | hx
        · have := I.mem x hx; omega
        · rw [hx]; omega)
      have hlj : ((L ++ [j]).length : Int) = L.length + 1 := by rw [List.length_append, List.length_singleton]; omega
      rw [if_pos hpush, Arr.wr_ok _ _ (by omega) (by omega), ok_bind, Holds_pure]
      refine ⟨⟨S', Q', own', L ++ [j], ?_⟩, by rw [← ht]; exact hmeas⟩
      have htk : (L ++ [j]).take (q.num + 1).toNat = L.take (t + 1) := by
        rw [htt', List.take_append_of_le_length (by omega)]
      refine ⟨hB2, D.pos, D.tree, ⟨l1, l2⟩, ?_, ?_, ?_, hnd, ?_, ?_, ?_, ?_⟩
      · dsimp only; omega
      · dsimp only; omega
      · intro k hk
        dsimp only
        rw [set_upd]
        by_cases hkl : k < L.length
        · rw [upd_ne (by omega), List.getElem_append_left hkl]; exact I.cell k hkl
        · have : k = L.length := by omega
          subst this
          rw [show ((L.length : Nat) : Int) = q.nbr from hnbr.symm, upd_same]
          simp
      · intro x hx
        rw [List.mem_append, List.mem_singleton] at hx
        rcases hx with hx | hx
        · have := I.mem x hx
          exact ⟨this.1, this.2.1, fun h => this.2.2 ((D.fath x).1 h)⟩
        · rw [hx]; exact ⟨j1, j2, hpush.2⟩
      · intro x hx hy
        dsimp only at hy ⊢
        rw [← ht, htk] at hy
        rw [List.mem_append, List.mem_singleton] at hx
        rcases hx with hx | hx
        · exact hpr x hx hy
        · rw [hx]; exact hj'
      · intro x x1 x2 x3 x4
        dsimp only at x3 ⊢
        rw [← ht, htk]
        exact hds x x1 x2 x3 (fun h => x4 (List.mem_append_left _ h))
      · intro x x1 x2 x3 x4
        dsimp only at x3 ⊢
        rw [← ht, htk]
        rw [List.mem_append, List.mem_singleton] at x4
        rcases x4 with x4 | x4
        · exact hdn x x1 x2 x3 x4
        · rw [x4]
          exact left_zero.1 (by omega)
    · rw [if_neg hpush, Holds_pure]
      refine ⟨⟨S', Q', own', L, ?_⟩, by rw [← ht]; exact hmeas⟩
      refine ⟨hB2, D.pos, D.tree, ⟨l1, l2⟩, ?_, hnbr, I.cell, I.nodup, ?_, ?_, ?_, ?_⟩
      · dsimp only; omega
      · intro x hx
        have := I.mem x hx
        exact ⟨this.1, this.2.1, fun h => this.2.2 ((D.fath x).1 h)⟩
      · intro x hx hy
        dsimp only at hy ⊢
        rw [← ht, htt'] at hy
        exact hpr x hx hy
      · intro x x1 x2 x3 x4
        dsimp only at x3 ⊢
        rw [← ht, htt']
        exact hds x x1 x2 x3 x4
      · intro x x1 x2 x3 x4
        dsimp only at x3 ⊢
        rw [← ht, htt']
        exact hdn x x1 x2 x3 x4
  · rw [if_neg hq, Holds_pure]
    exact ⟨I.bnd, _, _, _, I.tree⟩

/-- Leaves of the forest. -/
theorem hxLeaves_holds {nv0 pe0 : Int → Int} {leaf : Arr Int} (hb0 : 0 ≤ b) (hN : 0 ≤ N) (hn : N ≤ n) (P : HxP b N n (b + N) rk nv0 pe0 s S Q own) (hl : leaf.lo ≤ 0 ∧ n ≤ leaf.hi) :
    Holds (forUp b (b + N) (leaf, 0) (hxLeaf s)) (fun t => ∃ L, HxI b N n rk ⟨s, t.1, 0, t.2⟩ S Q own L) := by
  have hB1 := P.bnd.nvar
  have hB3 := P.bnd.fath
  have hB4 := P.bnd.frst
  refine Holds_forUp (fun i (t : Arr Int × Int) => ∃ L : List Int, (t.1.lo ≤ 0 ∧ n ≤ t.1.hi) ∧ t.2 = L.length ∧ (∀ k (h : k < L.length), t.1.get k = L[k]) ∧ L.Nodup ∧
    ∀ x ∈ L, b ≤ x ∧ x < i ∧ s.fath.get x ≠ -1 ∧ 0 < s.nvar.get x ∧ s.frst.get x = -1) (by omega) ?_ ?_ ?_
  · exact ⟨[], hl, rfl, (fun k h => by simp at h), List.nodup_nil, (fun x h => by cases h)⟩
  · rintro i ⟨a, c⟩ i1 i2 ⟨L, L1, L2, L3, L4, L5⟩
    dsimp only at L1 L2 L3
    have hlen : (L.length : Int) ≤ i - b := nodup_length (b := b) (by omega) L4 (fun x hx => by have := L5 x hx; omega)
    unfold hxLeaf
    rw [Arr.rd_ok _ (by omega) (by omega), ok_bind, Arr.rd_ok _ (by omega) (by omega), ok_bind, Arr.rd_ok _ (by omega) (by omega), ok_bind]
    have hnn := P.tree.nonneg i i1 i2
    by_cases hc : s.fath.get i ≠ -1 ∧ s.nvar.get i ≠ 0 ∧ s.frst.get i = -1
    · rw [if_pos hc]
      dsimp only
      rw [Arr.wr_ok _ _ (by omega) (by omega), ok_bind, Holds_pure]
      refine ⟨L ++ [i], L1, ?_, ?_, ?_, ?_⟩
      · dsimp only; rw [List.length_append, List.length_singleton]; omega
      · intro k hk
        dsimp only
        rw [set_upd]
        rw [List.length_append, List.length_singleton] at hk
        by_cases hkl : k < L.length
        · rw [upd_ne (by omega), List.getElem_append_left hkl]; exact L3 k hkl
        · have : k = L.length := by omega
          subst this
          rw [← L2, upd_same]
          simp
      · rw [List.nodup_append]
        refine ⟨L4, by simp, ?_⟩
        rintro x hx y hy rfl
        rw [List.mem_singleton] at hy
        have := L5 x hx
        omega
      · intro x hx
        rw [List.mem_append, List.mem_singleton] at hx
        rcases hx with hx | hx
        · have := L5 x hx
          exact ⟨this.1, by omega, this.2.2⟩
        · rw [hx]
          exact ⟨i1, by omega, hc.1, by omega, hc.2.2⟩
    · rw [if_neg hc, Holds_pure]
      exact ⟨L, L1, L2, L3, L4, fun x hx => by have := L5 x hx; exact ⟨this.1, by omega, this.2.2⟩⟩
  · rintro ⟨a, c⟩ ⟨L, L1, L2, L3, L4, L5⟩
    refine ⟨L, P.bnd, P.pos, P.tree, L1, ?_, L2, L3, L4, ?_, ?_, ?_, ?_⟩
    · dsimp only at L2 ⊢; omega
    · intro x hx
      have := L5 x hx
      exact ⟨this.1, this.2.1, this.2.2.1⟩
    · intro x hx _
      exact (L5 x hx).2.2.2.1
    · intro x x1 x2 x3 _
      show s.desc.get x = left (L.take 0) (S x)
      rw [List.take_zero, left_nil]
      exact P.desc x x1 x2 x3
    · intro x x1 x2 x3 x4 y hy
      exfalso
      have hlk := P.tree.link x x1 x2 x3
      rw [(L5 x x4).2.2.2.2] at hlk
      cases hSx : S x with
      | nil => rw [hSx] at hy; cases hy
      | cons z l =>
        rw [hSx] at hlk
        have := hlk.1
        have h2 := ((P.tree.sons x x1 x2 x3).2 z).1 (by rw [hSx]; exact List.mem_cons_self ..)
        omega

/-- The forest, after amalgamation. -/
theorem hxLoop_holds {p : HxPara} {fuel : Nat} {q : HxQ} {L : List Int} (hb0 : 0 ≤ b) (hN : 0 ≤ N) (hn : N ≤ n) (hf : N.toNat < fuel) (hq : q.num = 0) (I : HxI b N n rk q S Q own L) :
    Holds (loopM (hxStep p fuel) fuel q) (fun s' => HxB b n s' ∧ ∃ S' Q' own', s'.Tree b N (b + N) rk S' Q' own') := by
  refine Holds_loopM (fun q => ∃ S Q own L, HxI b N n rk q S Q own L) (fun q => (N - q.num).toNat) ?_ fuel q ⟨S, Q, own, L, I⟩ (by rw [hq]; omega)
  rintro q ⟨S, Q, own, L, I⟩
  exact hxStep_holds hb0 hN hn hf I

end Scotch.HOrder
