import Verif.Fibo.LemmasInv

set_option autoImplicit false
set_option linter.unusedSimpArgs false

namespace Scotch.Fibo

theorem ring_next {nx pv : Int → Int} {rg : Int → List Int} (hr : Rings nx pv rg) {p n a : Int} {xs ys l : List Int} (hp : rg p = xs ++ n :: ys)
    (hl : ys ++ xs = a :: l) : nx n = a := by
  have := hr.cyc p
  rw [hp] at this
  have h2 : Cyc nx pv (n :: (ys ++ xs)) := by simpa using cyc_rot this
  rw [hl] at h2
  exact h2.1

/-- Removal of child `n` of `g`, which becomes a root. -/
def cutS (h : Heap) (n g : Int) : Heap :=
  let h1 := linkAfter (unlink h n) rootdat n
  { h1 with pare := upd h.pare n none, defl := upd h.defl g (h.defl g - 2), chld := upd h.chld g (newChld (h.defl g - 2) (h.next n)) }

def cutK (K : Int → List Int) (n g : Int) (l : List Int) : Int → List Int := upd (upd K g l) rootdat (n :: K rootdat)

section
variable {h : Heap} {key : Int → Int} {N : List Int} {K : Int → List Int} {hole : Option Int}

theorem newChld_head {d a n : Int} {xs ys : List Int} (hd : d / 2 = ((xs ++ n :: ys).length : Nat)) (ha : ∀ b l, ys ++ xs = b :: l → a = b) :
    newChld (d - 2) a = (ys ++ xs).head? := by
  unfold newChld
  cases hl : ys ++ xs with
  | nil =>
    have e := List.append_eq_nil_iff.1 hl
    rw [e.1, e.2] at hd
    simp at hd
    rw [if_pos (by omega)]; rfl
  | cons b l =>
    have h1 : (ys ++ xs).length = l.length + 1 := by rw [hl]; rfl
    simp only [List.length_append, List.length_cons] at hd h1
    rw [if_neg (by omega), ha b l hl]; rfl

theorem cut_inv (I : Inv h key N K hole) {n g : Int} {xs ys : List Int} (hg : g ∈ N) (hk : K g = xs ++ n :: ys)
    (hh : hole = none ∨ hole = some n) : Inv (cutS h n g) key N (cutK K n g (ys ++ xs)) (some g) := by
  have hgr := I.ne_root hg
  have hnK : n ∈ K g := by rw [hk]; simp
  have hnN := I.memN hnK
  have hnr := I.ne_root hnN
  have hng := I.child_ne hg hnK
  have hnd := I.nd g
  rw [hk] at hnd
  have hnxy : n ∉ ys ++ xs := by
    have := (List.perm_append_comm (l₁ := xs) (l₂ := n :: ys)).nodup_iff.1 hnd
    exact (List.nodup_cons.1 (by simpa using this)).1
  have hsub : ∀ c, c ∈ ys ++ xs → c ∈ K g := by
    intro c hc
    rw [hk]
    simp only [List.mem_append, List.mem_cons] at hc ⊢
    rcases hc with hc | hc
    · exact Or.inr (Or.inr hc)
    · exact Or.inl hc
  have eg : cutK K n g (ys ++ xs) g = ys ++ xs := by
    unfold cutK; rw [upd_ne _ _ hgr, upd_same]
  have er : cutK K n g (ys ++ xs) rootdat = n :: K rootdat := by
    unfold cutK; rw [upd_same]
  have eo : ∀ p, p ≠ g → p ≠ rootdat → cutK K n g (ys ++ xs) p = K p := by
    intro p h1 h2; unfold cutK; rw [upd_ne _ _ h2, upd_ne _ _ h1]
  have hrg : rings K g = xs ++ n :: ys := by rw [rings_ne _ hgr, hk]
  -- rings
  have hr1 := (unlink_rings I.rg hrg).1
  have hr2 := hr1.rot (p := g) (a := xs) (b := ys) (by rw [upd_same])
  have hro : upd (upd (rings K) g (xs ++ ys)) g (ys ++ xs) rootdat = rootdat :: K rootdat := by
    rw [upd_ne _ _ (fun e => hgr e.symm), upd_ne _ _ (fun e => hgr e.symm), rings_root]
  have hout : ∀ p, n ∉ upd (upd (rings K) g (xs ++ ys)) g (ys ++ xs) p := by
    intro p hp
    by_cases e : p = g
    · subst e; rw [upd_same] at hp; exact hnxy hp
    · rw [upd_ne _ _ e, upd_ne _ _ e] at hp
      exact e (I.rg.disj p g n hp (by rw [hrg]; simp))
  have hr3 := (linkAfter_rings hr2 hro hout).1
  refine ⟨?_, ?_, ?_, ?_, ?_, ?_, ?_, ?_⟩
  · refine hr3.congr ?_
    intro p
    by_cases e : p = rootdat
    · subst e; rw [upd_same, rings_root, er]
    · rw [upd_ne _ _ e, rings_ne _ e]
      by_cases e2 : p = g
      · subst e2; rw [upd_same, eg]
      · rw [upd_ne _ _ e2, upd_ne _ _ e2, rings_ne _ e, eo p e2 e]
  · refine ⟨?_, I.forest.root, I.forest.nodup, ?_, ?_⟩
    · intro p hp1 hp2
      have : p ≠ g := by intro e; subst e; exact hp1 hg
      rw [eo p this hp2]
      exact I.forest.supp p hp1 hp2
    · intro x
      constructor
      · intro hx
        obtain ⟨p, hp⟩ := (I.forest.mem x).1 hx
        by_cases e : p = g
        · subst e
          by_cases ex : x = n
          · exact ⟨rootdat, by rw [er, ex]; simp⟩
          · refine ⟨p, ?_⟩
            rw [eg]
            rw [hk] at hp
            simp only [List.mem_append, List.mem_cons] at hp ⊢
            rcases hp with hp | hp | hp
            · exact Or.inr hp
            · exact absurd hp ex
            · exact Or.inl hp
        · by_cases e2 : p = rootdat
          · subst e2; exact ⟨rootdat, by rw [er]; simp [hp]⟩
          · exact ⟨p, by rw [eo p e e2]; exact hp⟩
      · rintro ⟨p, hp⟩
        by_cases e2 : p = rootdat
        · subst e2
          rw [er] at hp
          rcases List.mem_cons.1 hp with e | e
          · rw [e]; exact hnN
          · exact I.memN e
        · by_cases e : p = g
          · subst e; rw [eg] at hp; exact I.memN (hsub x hp)
          · rw [eo p e e2] at hp; exact I.memN hp
    · obtain ⟨r, hr⟩ := I.forest.rank
      refine ⟨r, ?_⟩
      intro p hp c hc
      by_cases e : p = g
      · subst e; rw [eg] at hc; exact hr p hp c (hsub c hc)
      · rw [eo p e (I.ne_root hp)] at hc; exact hr p hp c hc
  · intro c hc
    rw [er] at hc
    show upd h.pare n none c = none
    rcases List.mem_cons.1 hc with e | e
    · rw [e, upd_same]
    · by_cases e2 : c = n
      · rw [e2, upd_same]
      · rw [upd_ne _ _ e2]; exact I.pareR c e
  · intro p hp c hc
    show upd h.pare n none c = some p
    by_cases e : p = g
    · subst e
      rw [eg] at hc
      rw [upd_ne _ _ (by intro e; subst e; exact hnxy hc)]
      exact I.pareN p hp c (hsub c hc)
    · rw [eo p e (I.ne_root hp)] at hc
      rw [upd_ne _ _ (by intro e2; subst e2; exact e (I.owner hc hnK))]
      exact I.pareN p hp c hc
  · intro p hp
    show upd h.chld g _ p = _
    by_cases e : p = g
    · subst e
      rw [upd_same, eg]
      exact newChld_head (n := n) (by rw [I.deg p hp, hk]) (fun b l hl => ring_next I.rg hrg hl)
    · rw [upd_ne _ _ e, eo p e (I.ne_root hp)]; exact I.chld p hp
  · intro p hp
    show upd h.defl g _ p / 2 = _
    by_cases e : p = g
    · subst e
      rw [upd_same, eg]
      have := I.deg p hp
      rw [hk] at this
      simp only [List.length_append, List.length_cons] at this ⊢
      omega
    · rw [upd_ne _ _ e, eo p e (I.ne_root hp)]; exact I.deg p hp
  · intro p hp c hc
    by_cases e : p = g
    · subst e; rw [eg] at hc; exact I.heap p hp c (hsub c hc)
    · rw [eo p e (I.ne_root hp)] at hc; exact I.heap p hp c hc
  · intro p hp k
    have hhole : ∀ c, c ≠ n → hole ≠ some c := by
      intro c hc e
      rcases hh with e2 | e2
      · rw [e2] at e; cases e
      · rw [e2] at e; injection e with e; exact hc e.symm
    by_cases e : p = g
    · subst e
      rw [eg]
      have h1 : low (cutS h n p) (some p) (ys ++ xs) k = low h hole (ys ++ xs) k := by
        refine low_congr ?_ k
        intro c hc
        have hcp := I.child_ne hp (hsub c hc)
        have hcn : c ≠ n := by intro e; subst e; exact hnxy hc
        unfold val
        show upd h.defl p _ c / 2 + upd h.defl p _ c % 2 + _ = _
        rw [upd_ne _ _ hcp, if_neg (hhole c hcn), if_neg (by intro e; injection e with e; exact hcp e.symm)]
      have h2 := I.cnt p hp k
      rw [hk] at h2
      rw [h1]
      unfold low at h2 ⊢
      rw [List.countP_append] at h2 ⊢
      rw [List.countP_cons] at h2
      omega
    · rw [eo p e (I.ne_root hp)]
      refine Nat.le_trans (Nat.le_of_eq (low_congr ?_ k)) (I.cnt p hp k)
      intro c hc
      have hcn : c ≠ n := by intro e2; subst e2; exact e (I.owner hc hnK)
      unfold val
      show upd h.defl g _ c / 2 + upd h.defl g _ c % 2 + _ = _
      rw [if_neg (hhole c hcn)]
      by_cases ec : c = g
      · subst ec
        rw [upd_same, if_pos rfl]
        omega
      · rw [upd_ne _ _ ec, if_neg (by intro e; injection e with e; exact ec e.symm)]

theorem nodup_le : ∀ {l m : List Int}, l.Nodup → (∀ x ∈ l, x ∈ m) → l.length ≤ m.length := by
  intro l
  induction l with
  | nil => intro m _ _; simp
  | cons a l ih =>
    intro m hd hs
    have hd' := List.nodup_cons.1 hd
    have ha := hs a (by simp)
    have := ih (m := m.erase a) hd'.2 (by
      intro x hx
      have hxa : x ≠ a := by intro e; subst e; exact hd'.1 hx
      exact (List.mem_erase_of_ne hxa).2 (hs x (by simp [hx])))
    rw [List.length_erase_of_mem ha] at this
    have : 0 < m.length := List.length_pos_of_mem ha
    simp only [List.length_cons]
    omega

theorem Inv.roots_le (I : Inv h key N K hole) : (K rootdat).length ≤ N.length := by
  exact nodup_le (I.nd rootdat) (fun x hx => I.memN hx)

theorem Inv.split (I : Inv h key N K hole) {p c : Int} (hc : c ∈ K p) : ∃ xs ys, K p = xs ++ c :: ys := List.append_of_mem hc

theorem Inv.congr_heap {h' : Heap} (I : Inv h key N K hole) (e1 : h'.next = h.next) (e2 : h'.prev = h.prev) (e3 : h'.pare = h.pare)
    (e4 : h'.chld = h.chld) (e5 : h'.defl = h.defl) : Inv h' key N K hole := by
  obtain ⟨a, b, c, d, e, f⟩ := h'
  obtain ⟨a', b', c', d', e', f'⟩ := h
  simp only at e1 e2 e3 e4 e5
  subst e1; subst e2; subst e3; subst e4; subst e5
  exact ⟨I.rg, I.forest, I.pareR, I.pareN, I.chld, I.deg, I.heap, I.cnt⟩

theorem moveToRoot_inv (I : Inv h key N K hole) {n g : Int} {xs ys : List Int} (hg : g ∈ N) (hk : K g = xs ++ n :: ys)
    (hh : hole = none ∨ hole = some n) : Inv (moveToRoot h n g) key N (cutK K n g (ys ++ xs)) (some g) ∧ (moveToRoot h n g).degr = h.degr := by
  have hng := I.child_ne hg (by rw [hk]; simp : n ∈ K g)
  refine ⟨?_, rfl⟩
  have h1 := cut_inv I hg hk hh
  have h2 := h1.flagRoot (x := n) (by unfold cutK; rw [upd_same]; simp) ((cutS h n g).defl n / 2 * 2) (by omega)
  have e1 : upd h.defl g (h.defl g - 2) n = h.defl n := upd_ne _ _ hng
  have e2 : upd h.defl n (h.defl n / 2 * 2) g = h.defl g := upd_ne _ _ (fun e => hng e.symm)
  refine h2.congr_heap rfl rfl rfl ?_ ?_
  · show upd h.chld g (newChld (upd h.defl n (h.defl n / 2 * 2) g - 2) (h.next n)) = upd h.chld g (newChld (h.defl g - 2) (h.next n))
    rw [e2]
  · show upd (upd h.defl n (h.defl n / 2 * 2)) g (upd h.defl n (h.defl n / 2 * 2) g - 2) =
      upd (upd h.defl g (h.defl g - 2)) n (upd h.defl g (h.defl g - 2) n / 2 * 2)
    rw [e1, e2]
    funext x
    by_cases x1 : x = g
    · subst x1
      rw [upd_same, upd_ne _ _ (fun e => hng e.symm), upd_same]
    · rw [upd_ne _ _ x1]
      by_cases x2 : x = n
      · subst x2; rw [upd_same, upd_same]
      · rw [upd_ne _ _ x2, upd_ne _ _ x2, upd_ne _ _ x1]

theorem decreaseLoop_spec : ∀ (fuel : Nat) {h : Heap} {K : Int → List Int} {p : Int}, Inv h key N K (some p) → p ∈ N →
    N.length < fuel + (K rootdat).length → Holds (decreaseLoop fuel h p) (fun h' => (∃ K', Inv h' key N K' none) ∧ h'.degr = h.degr) := by
  intro fuel
  induction fuel with
  | zero => intro h K p I _ hf; have := I.roots_le; omega
  | succ fuel ih =>
    intro h K p I hp hf
    unfold decreaseLoop
    cases hg : h.pare p with
    | none =>
      dsimp only
      rw [Holds_ok]
      exact ⟨⟨K, I.holeRoot (I.pare_none hp hg) rfl none (Or.inl rfl)⟩, rfl⟩
    | some g =>
      dsimp only
      obtain ⟨hgN, hpg⟩ := I.pare_some hp hg
      by_cases hfl : h.defl p % 2 = 0
      · rw [if_pos hfl, Holds_ok]
        refine ⟨⟨K, I.flag p _ (by omega) none ?_⟩, rfl⟩
        intro q _ c _
        unfold val
        dsimp only
        by_cases hcp : c = p
        · subst hcp
          rw [upd_same, if_pos rfl, if_neg (by intro e; cases e)]
          omega
        · rw [upd_ne _ _ hcp, if_neg (by intro e; injection e with e; exact hcp e.symm), if_neg (by intro e; cases e)]
          exact Int.le_refl _
      · rw [if_neg hfl]
        obtain ⟨xs, ys, hk⟩ := I.split hpg
        obtain ⟨I', hd⟩ := moveToRoot_inv I hgN hk (Or.inr rfl)
        have := ih I' hgN (by
          have : (cutK K p g (ys ++ xs) rootdat).length = (K rootdat).length + 1 := by unfold cutK; rw [upd_same]; rfl
          omega)
        refine this.mono ?_
        rintro h' ⟨h1, h2⟩
        exact ⟨h1, h2.trans hd⟩

theorem Inv.key_change (I : Inv h key N K hole) {key' : Int → Int} {n : Int} (hk : ∀ x, x ≠ n → key' x = key x) (hn : key' n ≤ key n)
    (hp : ∀ p ∈ N, n ∈ K p → key' p ≤ key' n) : Inv h key' N K hole := by
  refine ⟨I.rg, I.forest, I.pareR, I.pareN, I.chld, I.deg, ?_, I.cnt⟩
  intro p hpN c hc
  have h1 := I.heap p hpN c hc
  by_cases e : c = n
  · subst e; exact hp p hpN hc
  · rw [hk c e]
    by_cases e2 : p = n
    · subst e2; omega
    · rw [hk p e2]; exact h1

theorem decrease_spec (I : Inv h key N K none) {key' : Int → Int} {n : Int} (hn : n ∈ N) (hk : ∀ x, x ≠ n → key' x = key x) (hle : key' n ≤ key n)
    {fuel : Nat} (hf : N.length ≤ fuel) : Holds (decrease fuel key' h n) (fun h' => (∃ K', Inv h' key' N K' none) ∧ h'.degr = h.degr) := by
  unfold decrease
  cases hg : h.pare n with
  | none =>
    dsimp only
    rw [Holds_ok]
    have hr := I.pare_none hn hg
    refine ⟨⟨K, I.key_change hk hle ?_⟩, rfl⟩
    intro p hp hnp
    exact absurd (I.owner hr hnp ▸ hp) I.forest.root
  | some p =>
    dsimp only
    obtain ⟨hpN, hnp⟩ := I.pare_some hn hg
    by_cases hlt : key' n < key' p
    · rw [if_pos hlt]
      obtain ⟨xs, ys, hks⟩ := I.split hnp
      obtain ⟨I', hd⟩ := moveToRoot_inv I hpN hks (Or.inl rfl)
      have hroot : n ∈ cutK K n p (ys ++ xs) rootdat := by unfold cutK; rw [upd_same]; simp
      have I'' := I'.key_change hk hle (by
        intro q hq hnq
        exact absurd (I'.owner hroot hnq ▸ hq) I'.forest.root)
      refine (decreaseLoop_spec fuel I'' hpN ?_).mono ?_
      · have : (cutK K n p (ys ++ xs) rootdat).length = (K rootdat).length + 1 := by unfold cutK; rw [upd_same]; rfl
        omega
      · rintro h' ⟨h1, h2⟩
        exact ⟨h1, h2.trans hd⟩
    · rw [if_neg hlt, Holds_ok]
      refine ⟨⟨K, I.key_change hk hle ?_⟩, rfl⟩
      intro q _ hnq
      have := I.owner hnp hnq
      subst this
      omega

/-! ## Insertion and reset -/

theorem reset_inv (h : Heap) (key : Int → Int) : Inv (free h) key [] (fun _ => []) none := by
  refine ⟨⟨?_, ?_, ?_⟩, ⟨?_, ?_, ?_, ?_, ⟨fun _ => 0, ?_⟩⟩, ?_, ?_, ?_, ?_, ?_, ?_⟩
  · intro p
    by_cases e : p = rootdat
    · subst e
      rw [rings_root]
      exact ⟨upd_same h.next rootdat rootdat, upd_same h.prev rootdat rootdat⟩
    · rw [rings_ne _ e]; trivial
  · intro p
    by_cases e : p = rootdat
    · subst e; rw [rings_root]; simp
    · rw [rings_ne _ e]; simp
  · intro p q x hp hq
    have : ∀ p, x ∈ rings (fun _ => []) p → p = rootdat := by
      intro p hp
      apply Classical.byContradiction
      intro e
      rw [rings_ne _ e] at hp
      simp at hp
    rw [this p hp, this q hq]
  all_goals simp

theorem add_inv (I : Inv h key N K none) {n : Int} (hn : n ∉ N) (hnr : n ≠ rootdat) {key' : Int → Int} (hk : ∀ x, x ≠ n → key' x = key x) :
    Inv (add h n) key' (n :: N) (upd K rootdat (n :: K rootdat)) none := by
  have hKn : K n = [] := I.forest.supp n hn hnr
  have hout : ∀ p, n ∉ K p := fun p hp => hn (I.memN hp)
  have hout' : ∀ p, n ∉ rings K p := by
    intro p hp
    by_cases e : p = rootdat
    · subst e; rw [rings_root] at hp
      rcases List.mem_cons.1 hp with e | e
      · exact hnr e
      · exact hout _ e
    · rw [rings_ne _ e] at hp; exact hout p hp
  have er : upd K rootdat (n :: K rootdat) rootdat = n :: K rootdat := upd_same _ _ _
  have eo : ∀ p, p ≠ rootdat → upd K rootdat (n :: K rootdat) p = K p := fun p hp => upd_ne _ _ hp
  have hmemne : ∀ p, ∀ c ∈ K p, c ≠ n := by intro p c hc e; subst e; exact hout p hc
  have hr := (linkAfter_rings (h := { h with pare := upd h.pare n none, chld := upd h.chld n none, defl := upd h.defl n 0 })
    I.rg (rings_root K) hout').1
  have hne : ∀ p, p ∈ n :: N → p ≠ rootdat := by
    intro p hp
    rcases List.mem_cons.1 hp with e | e
    · rw [e]; exact hnr
    · exact I.ne_root e
  refine ⟨?_, ⟨?_, ?_, ?_, ?_, ?_⟩, ?_, ?_, ?_, ?_, ?_, ?_⟩
  · refine hr.congr ?_
    intro p
    by_cases e : p = rootdat
    · subst e; rw [upd_same, rings_root, er]
    · rw [upd_ne _ _ e, rings_ne _ e, rings_ne _ e, eo p e]
  · intro p h1 h2
    rw [eo p h2]
    exact I.forest.supp p (fun e => h1 (by simp [e])) h2
  · simp only [List.mem_cons, not_or]; exact ⟨fun e => hnr e.symm, I.forest.root⟩
  · exact List.nodup_cons.2 ⟨hn, I.forest.nodup⟩
  · intro x
    constructor
    · intro hx
      rcases List.mem_cons.1 hx with e | e
      · exact ⟨rootdat, by rw [er, e]; simp⟩
      · obtain ⟨p, hp⟩ := (I.forest.mem x).1 e
        by_cases e2 : p = rootdat
        · subst e2; exact ⟨rootdat, by rw [er]; simp [hp]⟩
        · exact ⟨p, by rw [eo p e2]; exact hp⟩
    · rintro ⟨p, hp⟩
      by_cases e2 : p = rootdat
      · subst e2
        rw [er] at hp
        rcases List.mem_cons.1 hp with e | e
        · simp [e]
        · simp [I.memN e]
      · rw [eo p e2] at hp; simp [I.memN hp]
  · obtain ⟨r, hr⟩ := I.forest.rank
    refine ⟨r, ?_⟩
    intro p hp c hc
    rw [eo p (hne p hp)] at hc
    rcases List.mem_cons.1 hp with e | e
    · rw [e, hKn] at hc; simp at hc
    · exact hr p e c hc
  · intro c hc
    rw [er] at hc
    show upd h.pare n none c = none
    rcases List.mem_cons.1 hc with e | e
    · rw [e, upd_same]
    · rw [upd_ne _ _ (hmemne _ c e)]; exact I.pareR c e
  · intro p hp c hc
    rw [eo p (hne p hp)] at hc
    show upd h.pare n none c = some p
    rcases List.mem_cons.1 hp with e | e
    · rw [e, hKn] at hc; simp at hc
    · rw [upd_ne _ _ (hmemne _ c hc)]; exact I.pareN p e c hc
  · intro p hp
    rw [eo p (hne p hp)]
    show upd h.chld n none p = _
    rcases List.mem_cons.1 hp with e | e
    · rw [e, upd_same, hKn]; rfl
    · rw [upd_ne _ _ (by intro e2; subst e2; exact hn e)]; exact I.chld p e
  · intro p hp
    rw [eo p (hne p hp)]
    show upd h.defl n 0 p / 2 = _
    rcases List.mem_cons.1 hp with e | e
    · rw [e, upd_same, hKn]; rfl
    · rw [upd_ne _ _ (by intro e2; subst e2; exact hn e)]; exact I.deg p e
  · intro p hp c hc
    rw [eo p (hne p hp)] at hc
    rcases List.mem_cons.1 hp with e | e
    · rw [e, hKn] at hc; simp at hc
    · rw [hk c (hmemne _ c hc), hk p (by intro e2; subst e2; exact hn e)]; exact I.heap p e c hc
  · intro p hp k
    rw [eo p (hne p hp)]
    rcases List.mem_cons.1 hp with e | e
    · rw [e, hKn]; simp [low]
    · refine Nat.le_trans (Nat.le_of_eq (low_congr ?_ k)) (I.cnt p e k)
      intro c hc
      unfold val
      show upd h.defl n 0 c / 2 + upd h.defl n 0 c % 2 + _ = _
      rw [upd_ne _ _ (hmemne _ c hc)]

end

end Scotch.Fibo
