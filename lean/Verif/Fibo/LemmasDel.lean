import Verif.Fibo.LemmasCut

set_option autoImplicit false
set_option linter.unusedSimpArgs false

namespace Scotch.Fibo

/-- Successive nodes, up to `b`. -/
def NextTo (nx : Int → Int) : Int → List Int → Int → Prop
  | a, [], b => nx a = b
  | a, x :: l, b => nx a = x ∧ NextTo nx x l b

theorem NextTo.frame {nx nx' : Int → Int} {b : Int} : ∀ {l : List Int} {a : Int}, NextTo nx a l b → (∀ x ∈ a :: l, nx' x = nx x) → NextTo nx' a l b := by
  intro l
  induction l with
  | nil => intro a h he; exact (he a (by simp)).trans h
  | cons x l ih =>
    intro a h he
    exact ⟨(he a (by simp)).trans h.1, ih h.2 (fun y hy => he y (List.mem_cons_of_mem _ hy))⟩

theorem Seg.nextTo {nx pv : Int → Int} {b : Int} : ∀ {l : List Int} {a : Int}, Seg nx pv a l b → NextTo nx a l b := by
  intro l
  induction l with
  | nil => intro a h; exact h.1
  | cons x l ih => intro a h; exact ⟨h.1, ih h.2.2⟩

theorem cutLoop_spec : ∀ (fuel : Nat) (rest : List Int) (c cend : Int) (h : Heap) (rg : Int → List Int) (L : List Int),
    Rings h.next h.prev rg → rg rootdat = rootdat :: L → NextTo h.next c rest cend → (c :: rest).Nodup → (∀ x ∈ c :: rest, ∀ p, x ∉ rg p) →
    cend ∉ rest → (c :: rest).length ≤ fuel →
    Holds (cutLoop fuel cend c h) (fun h' => Rings h'.next h'.prev (upd rg rootdat (rootdat :: ((c :: rest).reverse ++ L))) ∧
      (∀ x, x ∈ c :: rest → h'.pare x = none) ∧ (∀ x, x ∉ c :: rest → h'.pare x = h.pare x) ∧ h'.chld = h.chld ∧ h'.defl = h.defl ∧ h'.degr = h.degr ∧
      ∀ x, x ∉ c :: rest → x ≠ rootdat → h'.next x = h.next x) := by
  intro fuel
  induction fuel with
  | zero => intro rest c cend h rg L _ _ _ _ _ _ hf; simp at hf
  | succ fuel ih =>
    intro rest c cend h rg L hr hroot hnx hnd hout hcend hf
    unfold cutLoop
    dsimp only
    obtain ⟨hr1, hr2⟩ := linkAfter_rings (h := { h with pare := upd h.pare c none }) hr hroot (hout c (by simp))
    have hcr : c ≠ rootdat := by
      intro e; subst e; exact hout rootdat (by simp) rootdat (by rw [hroot]; simp)
    cases rest with
    | nil =>
      have hnx' : h.next c = cend := hnx
      rw [if_neg (by rw [hnx']; simp), Holds_ok]
      refine ⟨?_, ?_, ?_, rfl, rfl, rfl, ?_⟩
      · simpa using hr1
      · intro x hx
        have : x = c := by simpa using hx
        show upd h.pare c none x = none
        rw [this, upd_same]
      · intro x hx
        have : x ≠ c := by simpa using hx
        show upd h.pare c none x = _
        rw [upd_ne _ _ this]
      · intro x hx hxr
        exact hr2 x hxr (by simpa using hx)
    | cons d rest =>
      obtain ⟨n1, n2⟩ := hnx
      have hnd' := List.nodup_cons.1 hnd
      have hdc : d ≠ cend := by intro e; subst e; exact hcend (by simp)
      rw [if_pos (by rw [n1]; exact hdc), n1]
      have hrd : ∀ x ∈ d :: rest, x ≠ rootdat := by
        intro x hx e; subst e; exact hout rootdat (by simp [hx]) rootdat (by rw [hroot]; simp)
      have hxc : ∀ x ∈ d :: rest, x ≠ c := by
        intro x hx e; subst e; exact hnd'.1 hx
      refine (ih rest d cend (linkAfter { h with pare := upd h.pare c none } rootdat c) (upd rg rootdat (rootdat :: c :: L)) (c :: L) hr1 (upd_same _ _ _)
        (n2.frame (fun x hx => hr2 x (hrd x hx) (hxc x hx))) hnd'.2 ?_ (fun e => hcend (by simp [e])) (by simp at hf ⊢; omega)).mono ?_
      · intro x hx p hp
        by_cases e : p = rootdat
        · subst e
          rw [upd_same] at hp
          simp only [List.mem_cons] at hp
          rcases hp with hp | hp | hp
          · exact hrd x hx hp
          · exact hxc x hx hp
          · exact hout x (List.mem_cons_of_mem _ hx) rootdat (by rw [hroot]; simp [hp])
        · rw [upd_ne _ _ e] at hp
          exact hout x (List.mem_cons_of_mem _ hx) p hp
      · rintro h' ⟨a1, a2, a3, a4, a5, a6, a7⟩
        refine ⟨?_, ?_, ?_, a4, a5, a6, ?_⟩
        · refine a1.congr ?_
          intro p
          by_cases e : p = rootdat
          · subst e; rw [upd_same, upd_same]; simp
          · rw [upd_ne _ _ e, upd_ne _ _ e, upd_ne _ _ e]
        · intro x hx
          by_cases hx2 : x ∈ d :: rest
          · exact a2 x hx2
          · rw [a3 x hx2]
            rcases List.mem_cons.1 hx with e | e
            · show upd h.pare c none x = none
              rw [e, upd_same]
            · exact absurd e hx2
        · intro x hx
          have hx' : x ≠ c ∧ x ∉ d :: rest := by
            constructor
            · intro e; exact hx (by simp [e])
            · intro e; exact hx (List.mem_cons_of_mem _ e)
          rw [a3 x hx'.2]
          show upd h.pare c none x = _
          rw [upd_ne _ _ hx'.1]
        · intro x hx hxr
          have hx' : x ≠ c ∧ x ∉ d :: rest := by
            constructor
            · intro e; exact hx (by simp [e])
            · intro e; exact hx (List.mem_cons_of_mem _ e)
          rw [a7 x hx'.2 hxr]
          exact hr2 x hxr hx'.1

/-- Update of a parent which loses a child. -/
def fix (h : Heap) (p rght : Int) : Heap :=
  { h with defl := upd h.defl p (h.defl p - 2), chld := upd h.chld p (newChld (h.defl p - 2) rght) }

section
variable {h : Heap} {key : Int → Int} {N : List Int} {K : Int → List Int} {hole : Option Int}

theorem delLoop_spec : ∀ (fuel : Nat) {h : Heap} {K : Int → List Int} {p rght : Int}, Inv (fix h p rght) key N K (some p) → p ∈ N →
    N.length < fuel + (K rootdat).length → Holds (delLoop fuel h p rght) (fun h' => (∃ K', Inv h' key N K' none) ∧ h'.degr = h.degr) := by
  intro fuel
  induction fuel with
  | zero => intro h K p rght I _ hf; have := I.roots_le; omega
  | succ fuel ih =>
    intro h K p rght I hp hf
    unfold delLoop
    dsimp only
    by_cases hfl : (h.defl p - 2) % 2 = 0
    · rw [if_pos hfl, Holds_ok]
      refine ⟨⟨K, ?_⟩, rfl⟩
      have I2 := I.flag p ((h.defl p - 2) / 2 * 2 + 1) (by
        show _ = upd h.defl p (h.defl p - 2) p / 2
        rw [upd_same]; omega) none (by
        intro q _ c _
        unfold val
        show upd h.defl p (h.defl p - 2) c / 2 + upd h.defl p (h.defl p - 2) c % 2 + _ ≤
          upd (upd h.defl p (h.defl p - 2)) p _ c / 2 + upd (upd h.defl p (h.defl p - 2)) p _ c % 2 + _
        by_cases hcp : c = p
        · subst hcp
          rw [upd_same, upd_same, if_pos rfl, if_neg (by intro e; cases e)]
          omega
        · rw [upd_ne _ _ hcp, upd_ne _ _ hcp, upd_ne _ _ hcp, if_neg (by intro e; injection e with e; exact hcp e.symm), if_neg (by intro e; cases e)]
          exact Int.le_refl _)
      refine I2.congr_heap rfl rfl rfl rfl ?_
      show upd h.defl p _ = upd (upd h.defl p _) p _
      funext x
      by_cases e : x = p
      · subst e; rw [upd_same, upd_same]
      · rw [upd_ne _ _ e, upd_ne _ _ e, upd_ne _ _ e]
    · rw [if_neg hfl]
      -- the flag is already set
      have hd : (h.defl p - 2) / 2 * 2 + 1 = h.defl p - 2 := by omega
      rw [hd]
      have hfix : ({ h with defl := upd h.defl p (h.defl p - 2), chld := upd h.chld p (newChld (h.defl p - 2) rght) } : Heap) = fix h p rght := rfl
      cases hg : h.pare p with
      | none =>
        dsimp only
        rw [Holds_ok]
        exact ⟨⟨K, I.holeRoot (I.pare_none hp hg) rfl none (Or.inl rfl)⟩, rfl⟩
      | some g =>
        dsimp only
        obtain ⟨hgN, hpg⟩ := I.pare_some hp hg
        obtain ⟨xs, ys, hk⟩ := I.split hpg
        have hpgne := I.child_ne hgN hpg
        have I2 := cut_inv I hgN hk (Or.inr rfl)
        refine (ih (K := cutK K p g (ys ++ xs)) (p := g) (rght := h.next p) ?_ hgN ?_).mono ?_
        · refine I2.congr_heap rfl rfl rfl rfl rfl
        · have : (cutK K p g (ys ++ xs) rootdat).length = (K rootdat).length + 1 := by unfold cutK; rw [upd_same]; rfl
          omega
        · rintro h' ⟨h1, h2⟩
          exact ⟨h1, h2⟩

/-- Forest without `n`, whose children become roots; `K1` is the forest after removal of `n` from the list it belongs to. -/
def delK (K K1 : Int → List Int) (n : Int) : Int → List Int := upd (upd K1 n []) rootdat ((K n).reverse ++ K1 rootdat)

theorem del_core (I : Inv h key N K none) {n q : Int} {K1 : Int → List Int} (hn : n ∈ N) (hnq : n ∈ K q)
    (h1 : ∀ p, p ≠ q → K1 p = K p) (h2 : (n :: K1 q).Perm (K q)) {h' : Heap} (hr : Rings h'.next h'.prev (rings (delK K K1 n)))
    (hp1 : ∀ x ∈ K n, h'.pare x = none) (hp2 : ∀ x, x ∉ K n → h'.pare x = h.pare x)
    (hc : ∀ p, p ≠ q → h'.chld p = h.chld p ∧ h'.defl p = h.defl p)
    (hq : q ≠ rootdat → h'.chld q = (K1 q).head? ∧ h'.defl q = h.defl q - 2) :
    Inv h' key (N.erase n) (delK K K1 n) (if q = rootdat then none else some q) := by
  have hnr := I.ne_root hn
  have hqn : q ≠ n := by
    rcases I.ownerN hnq with e | e
    · rw [e]; exact fun e => hnr e.symm
    · exact fun e2 => I.child_ne e hnq e2.symm
  have hmN : ∀ p, p ∈ N.erase n ↔ p ≠ n ∧ p ∈ N := fun p => I.forest.nodup.mem_erase_iff
  have hK1 : ∀ p c, c ∈ K1 p → c ∈ K p := by
    intro p c hcK
    by_cases e : p = q
    · subst e; exact (h2.mem_iff).1 (List.mem_cons_of_mem _ hcK)
    · rw [h1 p e] at hcK; exact hcK
  have hnd2 : (n :: K1 q).Nodup := h2.nodup_iff.2 (I.nd q)
  have hK1n : ∀ p, n ∉ K1 p := by
    intro p hp
    by_cases e : p = q
    · subst e; exact (List.nodup_cons.1 hnd2).1 hp
    · rw [h1 p e] at hp; exact e (I.owner hp hnq)
  have en : delK K K1 n n = [] := by unfold delK; rw [upd_ne _ _ hnr, upd_same]
  have er : delK K K1 n rootdat = (K n).reverse ++ K1 rootdat := by unfold delK; rw [upd_same]
  have eo : ∀ p, p ≠ n → p ≠ rootdat → delK K K1 n p = K1 p := by
    intro p a b; unfold delK; rw [upd_ne _ _ b, upd_ne _ _ a]
  have hnn : n ∉ K n := fun e => (I.child_ne hn e) rfl
  refine ⟨hr, ⟨?_, ?_, I.forest.nodup.erase n, ?_, ?_⟩, ?_, ?_, ?_, ?_, ?_, ?_⟩
  · intro p hp1 hp2
    by_cases e : p = n
    · subst e; exact en
    · rw [eo p e hp2]
      have hpN : p ∉ N := fun e2 => hp1 ((hmN p).2 ⟨e, e2⟩)
      have : p ≠ q := by
        intro e2; subst e2
        rcases I.ownerN hnq with e3 | e3
        · exact hp2 e3
        · exact hpN e3
      rw [h1 p this]
      exact I.forest.supp p hpN hp2
  · intro e; exact I.forest.root ((hmN _).1 e).2
  · intro x
    rw [hmN]
    constructor
    · rintro ⟨hx1, hx2⟩
      obtain ⟨p, hp⟩ := (I.forest.mem x).1 hx2
      by_cases e : p = n
      · subst e; exact ⟨rootdat, by rw [er]; simp [hp]⟩
      · have hp' : x ∈ K1 p := by
          by_cases e2 : p = q
          · subst e2
            rcases List.mem_cons.1 ((h2.mem_iff).2 hp) with e3 | e3
            · exact absurd e3 hx1
            · exact e3
          · rw [h1 p e2]; exact hp
        by_cases e2 : p = rootdat
        · subst e2; exact ⟨rootdat, by rw [er]; simp [hp']⟩
        · exact ⟨p, by rw [eo p e e2]; exact hp'⟩
    · rintro ⟨p, hp⟩
      by_cases e2 : p = rootdat
      · subst e2
        rw [er] at hp
        rcases List.mem_append.1 hp with e | e
        · have e := List.mem_reverse.1 e
          exact ⟨fun e3 => hnn (e3 ▸ e), I.memN e⟩
        · exact ⟨fun e3 => hK1n _ (e3 ▸ e), I.memN (hK1 _ _ e)⟩
      · by_cases e : p = n
        · subst e; rw [en] at hp; simp at hp
        · rw [eo p e e2] at hp
          exact ⟨fun e3 => hK1n _ (e3 ▸ hp), I.memN (hK1 _ _ hp)⟩
  · obtain ⟨r, hr⟩ := I.forest.rank
    refine ⟨r, ?_⟩
    intro p hp c hc
    obtain ⟨a, b⟩ := (hmN p).1 hp
    rw [eo p a (I.ne_root b)] at hc
    exact hr p b c (hK1 p c hc)
  · intro c hc
    rw [er] at hc
    rcases List.mem_append.1 hc with e | e
    · exact hp1 c (List.mem_reverse.1 e)
    · have e' := hK1 _ _ e
      rw [hp2 c (fun e3 => hnr (I.owner e3 e'))]
      exact I.pareR c e'
  · intro p hp c hc
    obtain ⟨a, b⟩ := (hmN p).1 hp
    rw [eo p a (I.ne_root b)] at hc
    have e' := hK1 _ _ hc
    rw [hp2 c (fun e3 => a (I.owner e' e3))]
    exact I.pareN p b c e'
  · intro p hp
    obtain ⟨a, b⟩ := (hmN p).1 hp
    rw [eo p a (I.ne_root b)]
    by_cases e : p = q
    · subst e; exact (hq (I.ne_root b)).1
    · rw [(hc p e).1, h1 p e]; exact I.chld p b
  · intro p hp
    obtain ⟨a, b⟩ := (hmN p).1 hp
    rw [eo p a (I.ne_root b)]
    by_cases e : p = q
    · subst e
      rw [(hq (I.ne_root b)).2]
      have h3 := I.deg p b
      have h4 := h2.length_eq
      simp only [List.length_cons] at h4
      omega
    · rw [(hc p e).2, h1 p e]; exact I.deg p b
  · intro p hp c hc
    obtain ⟨a, b⟩ := (hmN p).1 hp
    rw [eo p a (I.ne_root b)] at hc
    exact I.heap p b c (hK1 p c hc)
  · intro p hp k
    obtain ⟨a, b⟩ := (hmN p).1 hp
    rw [eo p a (I.ne_root b)]
    have hval : ∀ c ∈ K1 p, val h' (if q = rootdat then none else some q) c = val h none c := by
      intro c hcp
      unfold val
      by_cases e : c = q
      · subst e
        have hcr : c ≠ rootdat := I.ne_root (I.memN (hK1 _ _ hcp))
        rw [(hq hcr).2, if_neg hcr, if_pos rfl, if_neg (by intro e; cases e)]
        omega
      · rw [(hc c e).2]
        congr 1
        rw [if_neg, if_neg]
        · intro e; cases e
        · split
          · intro e; cases e
          · intro e2; injection e2 with e2; exact e e2.symm
    rw [low_congr hval]
    refine Nat.le_trans ?_ (I.cnt p b k)
    by_cases e : p = q
    · subst e
      unfold low
      rw [← h2.countP_eq, List.countP_cons]
      omega
    · rw [h1 p e]; exact Nat.le_refl _

theorem Inv.rings_mem (I : Inv h key N K hole) {p x : Int} (hx : x ∈ rings K p) (hxr : x ≠ rootdat) : x ∈ K p := by
  by_cases e : p = rootdat
  · subst e
    rw [rings_root] at hx
    rcases List.mem_cons.1 hx with e | e
    · exact absurd e hxr
    · exact e
  · rw [rings_ne _ e] at hx; exact hx

theorem del_spec (I : Inv h key N K none) {n : Int} (hn : n ∈ N) {fuel : Nat} (hf : N.length < fuel) :
    Holds (del fuel h n) (fun h' => (∃ K', Inv h' key (N.erase n) K' none) ∧ h'.degr = h.degr) := by
  obtain ⟨q, hnq⟩ := (I.forest.mem n).1 hn
  obtain ⟨xs, ys, hk⟩ := I.split hnq
  have hnr := I.ne_root hn
  have hqn : q ≠ n := by
    rcases I.ownerN hnq with e | e
    · rw [e]; exact fun e => hnr e.symm
    · exact fun e2 => I.child_ne e hnq e2.symm
  -- list that `n` leaves
  obtain ⟨l1, hl1, hl2, hl3⟩ : ∃ l1 : List Int, (q = rootdat → l1 = xs ++ ys) ∧ (q ≠ rootdat → l1 = ys ++ xs) ∧ (n :: l1).Perm (K q) := by
    by_cases e : q = rootdat
    · refine ⟨xs ++ ys, fun _ => rfl, fun e2 => absurd e e2, ?_⟩
      rw [hk]; exact List.perm_middle.symm
    · refine ⟨ys ++ xs, fun e2 => absurd e2 e, fun _ => rfl, ?_⟩
      rw [hk]
      have : (n :: (ys ++ xs)).Perm ((n :: ys) ++ xs) := by simp
      exact this.trans List.perm_append_comm
  have hK1q : ∀ p, p ≠ q → upd K q l1 p = K p := fun p hp => upd_ne _ _ hp
  -- rings after the unlinking
  have hr1 : Rings (unlink h n).next (unlink h n).prev (rings (upd K q l1)) := by
    by_cases e : q = rootdat
    · have := (unlink_rings I.rg (p := rootdat) (n := n) (xs := rootdat :: xs) (ys := ys) (by rw [rings_root, ← e, hk]; simp)).1
      refine this.congr ?_
      intro p
      by_cases e2 : p = rootdat
      · subst e2; rw [upd_same, rings_root, e, upd_same, hl1 e]; simp
      · rw [upd_ne _ _ e2, rings_ne _ e2, rings_ne _ e2, upd_ne]
        rw [e]; exact e2
    · have := (unlink_rings I.rg (p := q) (n := n) (xs := xs) (ys := ys) (by rw [rings_ne _ e, hk])).1
      have := this.rot (p := q) (a := xs) (b := ys) (by rw [upd_same])
      refine this.congr ?_
      intro p
      by_cases e2 : p = q
      · subst e2; rw [upd_same, rings_ne _ e, upd_same, hl2 e]
      · rw [upd_ne _ _ e2, upd_ne _ _ e2]
        by_cases e3 : p = rootdat
        · subst e3; rw [rings_root, rings_root, upd_ne _ _ e2]
        · rw [rings_ne _ e3, rings_ne _ e3, upd_ne _ _ e2]
  have hK1n : upd K q l1 n = K n := upd_ne _ _ (fun e => hqn e.symm)
  have hnx : (unlink h n).next n = h.next n := by
    by_cases e : q = rootdat
    · exact (unlink_rings I.rg (p := rootdat) (n := n) (xs := rootdat :: xs) (ys := ys) (by rw [rings_root, ← e, hk]; simp)).2
    · exact (unlink_rings I.rg (p := q) (n := n) (xs := xs) (ys := ys) (by rw [rings_ne _ e, hk])).2
  have hnn : n ∉ K n := fun e => (I.child_ne hn e) rfl
  have hKnN : ∀ x ∈ K n, x ∈ N := fun x hx => I.memN hx
  have hKnlen : (K n).length ≤ N.length := nodup_le (I.nd n) hKnN
  -- cutting of the children
  have hcut : Holds (cutChildren fuel (unlink h n) n) (fun h' => Rings h'.next h'.prev (rings (delK K (upd K q l1) n)) ∧
      (∀ x ∈ K n, h'.pare x = none) ∧ (∀ x, x ∉ K n → h'.pare x = h.pare x) ∧ h'.chld = h.chld ∧ h'.defl = h.defl ∧ h'.degr = h.degr ∧
      h'.next n = h.next n) := by
    unfold cutChildren
    have hch : (unlink h n).chld n = (K n).head? := I.chld n hn
    rw [hch]
    cases hKn : K n with
    | nil =>
      simp only [List.head?_nil]
      rw [Holds_ok]
      refine ⟨?_, fun x hx => by simp at hx, fun _ _ => rfl, rfl, rfl, rfl, hnx⟩
      refine hr1.congr ?_
      intro p
      unfold delK
      rw [hKn]
      by_cases e : p = rootdat
      · subst e; rw [rings_root, rings_root, upd_same]; simp
      · rw [rings_ne _ e, rings_ne _ e, upd_ne _ _ e]
        by_cases e2 : p = n
        · subst e2; rw [upd_same, hK1n, hKn]
        · rw [upd_ne _ _ e2]
    | cons c rest =>
      simp only [List.head?_cons]
      have hrn : rings (upd K q l1) n = c :: rest := by rw [rings_ne _ hnr, hK1n, hKn]
      have hcyc := hr1.cyc n
      rw [hrn] at hcyc
      have hndn := hr1.nodup n
      rw [hrn] at hndn
      have hr2 := drop_rings hr1 n
      have hout : ∀ x ∈ c :: rest, ∀ p, x ∉ upd (rings (upd K q l1)) n [] p := by
        intro x hx p hp
        by_cases e : p = n
        · subst e; rw [upd_same] at hp; simp at hp
        · rw [upd_ne _ _ e] at hp
          exact e (hr1.disj p n x hp (by rw [hrn]; exact hx))
      refine (cutLoop_spec fuel rest c c (unlink h n) (upd (rings (upd K q l1)) n []) (upd K q l1 rootdat) hr2
        (by rw [upd_ne _ _ (fun e => hnr e.symm), rings_root]) (Seg.nextTo hcyc) hndn hout (List.nodup_cons.1 hndn).1
        (by rw [← hKn]; omega)).mono ?_
      rintro h' ⟨a1, a2, a3, a4, a5, a6, a7⟩
      refine ⟨?_, a2, a3, a4, a5, a6, ?_⟩
      · refine a1.congr ?_
        intro p
        unfold delK
        rw [hKn]
        by_cases e : p = rootdat
        · subst e; rw [upd_same, rings_root, upd_same]
        · rw [upd_ne _ _ e, rings_ne _ e, upd_ne _ _ e]
          by_cases e2 : p = n
          · subst e2; rw [upd_same, upd_same]
          · rw [upd_ne _ _ e2, upd_ne _ _ e2, rings_ne _ e]
      · rw [a7 n (by rw [← hKn]; exact hnn) hnr, hnx]
  unfold del
  simp only
  rw [Holds_bind]
  refine hcut.mono ?_
  rintro h' ⟨c1, c2, c3, c4, c5, c6, c7⟩
  cases hpn : h.pare n with
  | none =>
    dsimp only
    rw [Holds_ok]
    have hqr : q = rootdat := (I.owner hnq (I.pare_none hn hpn))
    have := del_core I (K1 := upd K q l1) hn hnq hK1q (by rw [upd_same]; exact hl3) c1 c2 c3
      (fun p _ => ⟨by rw [c4], by rw [c5]⟩) (fun e => absurd hqr e)
    rw [if_pos hqr] at this
    exact ⟨⟨_, this⟩, c6⟩
  | some p =>
    dsimp only
    obtain ⟨hpN, hnp⟩ := I.pare_some hn hpn
    have hqp := I.owner hnq hnp
    subst hqp
    have hqr := I.ne_root hpN
    have := del_core I (K1 := upd K q l1) (h' := fix h' q (h'.next n)) hn hnq hK1q (by rw [upd_same]; exact hl3) c1 c2 c3
      (fun p hp => ⟨by
        show upd h'.chld q _ p = _
        rw [upd_ne _ _ hp, c4], by
        show upd h'.defl q _ p = _
        rw [upd_ne _ _ hp, c5]⟩)
      (fun _ => ⟨by
        show upd h'.chld q _ q = _
        rw [upd_same, upd_same, c7, c5, hl2 hqr]
        exact newChld_head (n := n) (by rw [I.deg q hpN, hk]) (fun b l hl => ring_next I.rg (by rw [rings_ne _ hqr, hk]) hl), by
        show upd h'.defl q _ q = _
        rw [upd_same, c5]⟩)
    rw [if_neg hqr] at this
    refine (delLoop_spec fuel this ?_ ?_).mono ?_
    · exact I.forest.nodup.mem_erase_iff.2 ⟨hqn, hpN⟩
    · rw [List.length_erase_of_mem hn]; omega
    · rintro h'' ⟨d1, d2⟩
      exact ⟨d1, d2.trans c6⟩

end

end Scotch.Fibo
