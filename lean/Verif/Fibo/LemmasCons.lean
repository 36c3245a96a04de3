import Verif.Fibo.LemmasDel

set_option autoImplicit false
set_option linter.unusedSimpArgs false

namespace Scotch.Fibo

/-- Insertion of a child after the first one. -/
def ins (l : List Int) (o : Int) : List Int := match l with
  | [] => [o]
  | c :: l => c :: o :: l

theorem ins_mem {l : List Int} {o x : Int} : x ∈ ins l o ↔ x = o ∨ x ∈ l := by
  cases l with
  | nil => simp [ins]
  | cons c l => simp only [ins, List.mem_cons]; constructor <;> (rintro (h | h | h) <;> simp [h])

theorem ins_perm (l : List Int) (o : Int) : (ins l o).Perm (o :: l) := by
  cases l with
  | nil => exact List.Perm.refl _
  | cons c l => exact List.Perm.swap o c l

def linkK (K : Int → List Int) (o r : Int) (l : List Int) : Int → List Int := upd (upd K r (ins (K r) o)) rootdat l

section
variable {h : Heap} {key : Int → Int} {N : List Int} {K : Int → List Int}

theorem link_inv (I : Inv h key N K none) {o r : Int} {xs ys : List Int} (hk : K rootdat = xs ++ o :: ys) (hr : r ∈ K rootdat) (hor : o ≠ r)
    (hd : h.defl o / 2 = h.defl r / 2) (hkey : key r ≤ key o) :
    Inv (link h o r) key N (linkK K o r (xs ++ ys)) none ∧ (link h o r).degr = h.degr ∧ (link h o r).defl r / 2 = h.defl r / 2 + 1 ∧
      (∀ x, x ≠ o → x ≠ r → (link h o r).defl x = h.defl x) := by
  have hoK : o ∈ K rootdat := by rw [hk]; simp
  have hoN := I.memN hoK
  have hrN := I.memN hr
  have hrr := I.ne_root hrN
  have hor' := I.ne_root hoN
  have hnd := I.nd rootdat
  rw [hk] at hnd
  have hoxy : o ∉ xs ++ ys := by
    have := (List.perm_middle (l₁ := xs) (l₂ := ys) (a := o)).nodup_iff.1 hnd
    exact (List.nodup_cons.1 this).1
  have hsub : ∀ x, x ∈ xs ++ ys → x ∈ K rootdat := by
    intro x hx
    rw [hk]
    simp only [List.mem_append, List.mem_cons] at hx ⊢
    rcases hx with hx | hx
    · exact Or.inl hx
    · exact Or.inr (Or.inr hx)
  have er : linkK K o r (xs ++ ys) rootdat = xs ++ ys := by unfold linkK; rw [upd_same]
  have ep : linkK K o r (xs ++ ys) r = ins (K r) o := by unfold linkK; rw [upd_ne _ _ hrr, upd_same]
  have eo : ∀ p, p ≠ r → p ≠ rootdat → linkK K o r (xs ++ ys) p = K p := by
    intro p a b; unfold linkK; rw [upd_ne _ _ b, upd_ne _ _ a]
  -- rings
  have hr1 := (unlink_rings I.rg (p := rootdat) (n := o) (xs := rootdat :: xs) (ys := ys) (by rw [rings_root, hk]; simp)).1
  have hout : ∀ p, o ∉ upd (rings K) rootdat (rootdat :: xs ++ ys) p := by
    intro p hp
    by_cases e : p = rootdat
    · subst e
      rw [upd_same] at hp
      simp only [List.cons_append, List.mem_cons] at hp
      rcases hp with hp | hp
      · exact hor' hp
      · exact hoxy hp
    · rw [upd_ne _ _ e, rings_ne _ e] at hp
      exact e (I.owner hp hoK)
  have hKrlen : (h.defl r / 2) = (K r).length := I.deg r hrN
  have hflag : ∀ x : Int, x / 2 * 2 / 2 = x / 2 := fun x => by omega
  -- description of the new state
  suffices hst : Rings (link h o r).next (link h o r).prev (upd (upd (rings K) rootdat (rootdat :: xs ++ ys)) r (ins (K r) o)) ∧
      (link h o r).pare = upd h.pare o (some r) ∧ (link h o r).chld r = (ins (K r) o).head? ∧ (∀ p, p ≠ r → (link h o r).chld p = h.chld p) ∧
      (link h o r).degr = h.degr ∧ (link h o r).defl r / 2 = h.defl r / 2 + 1 ∧ (link h o r).defl o = h.defl o / 2 * 2 ∧
      (∀ x, x ≠ o → x ≠ r → (link h o r).defl x = h.defl x) by
    obtain ⟨s1, s2, s3, s4, s5, s6, s7, s8⟩ := hst
    generalize link h o r = h' at s1 s2 s3 s4 s5 s6 s7 s8
    have hcne : ∀ p ∈ N, ∀ c ∈ K p, c ≠ o ∧ c ≠ r := by
      intro p hp c hc
      constructor
      · intro e; subst e; exact I.forest.root (I.owner hoK hc ▸ hp)
      · intro e; subst e; exact I.forest.root (I.owner hr hc ▸ hp)
    refine ⟨⟨?_, ⟨?_, I.forest.root, I.forest.nodup, ?_, ?_⟩, ?_, ?_, ?_, ?_, ?_, ?_⟩, s5, s6, s8⟩
    · refine s1.congr ?_
      intro p
      by_cases e : p = rootdat
      · subst e; rw [upd_ne _ _ (fun e => hrr e.symm), upd_same, rings_root, er]; simp
      · rw [rings_ne _ e]
        by_cases e2 : p = r
        · subst e2; rw [upd_same, ep]
        · rw [upd_ne _ _ e2, upd_ne _ _ e, rings_ne _ e, eo p e2 e]
    · intro p h1 h2
      rw [eo p (by intro e; subst e; exact h1 hrN) h2]
      exact I.forest.supp p h1 h2
    · intro x
      constructor
      · intro hx
        obtain ⟨p, hp⟩ := (I.forest.mem x).1 hx
        by_cases e : p = rootdat
        · subst e
          by_cases e2 : x = o
          · exact ⟨r, by rw [ep, ins_mem]; exact Or.inl e2⟩
          · refine ⟨rootdat, ?_⟩
            rw [er]
            rw [hk] at hp
            simp only [List.mem_append, List.mem_cons] at hp ⊢
            rcases hp with hp | hp | hp
            · exact Or.inl hp
            · exact absurd hp e2
            · exact Or.inr hp
        · by_cases e2 : p = r
          · subst e2; exact ⟨p, by rw [ep, ins_mem]; exact Or.inr hp⟩
          · exact ⟨p, by rw [eo p e2 e]; exact hp⟩
      · rintro ⟨p, hp⟩
        by_cases e : p = rootdat
        · subst e; rw [er] at hp; exact I.memN (hsub x hp)
        · by_cases e2 : p = r
          · subst e2
            rw [ep, ins_mem] at hp
            rcases hp with hp | hp
            · rw [hp]; exact hoN
            · exact I.memN hp
          · rw [eo p e2 e] at hp; exact I.memN hp
    · obtain ⟨rk, hrk⟩ := I.forest.rank
      refine ⟨fun x => if x = r then max (rk r) (rk o + 1) else rk x, ?_⟩
      intro p hp c hc
      dsimp only
      by_cases e2 : p = r
      · rw [if_pos e2]
        subst e2
        rw [ep, ins_mem] at hc
        rcases hc with hc | hc
        · subst hc; rw [if_neg hor]; omega
        · have := hrk p hp c hc
          rw [if_neg (hcne p hp c hc).2]; omega
      · rw [if_neg e2]
        rw [eo p e2 (I.ne_root hp)] at hc
        rw [if_neg (hcne p hp c hc).2]
        exact hrk p hp c hc
    · intro c hc
      rw [er] at hc
      rw [s2, upd_ne _ _ (by intro e; subst e; exact hoxy hc)]
      exact I.pareR c (hsub c hc)
    · intro p hp c hc
      rw [s2]
      by_cases e2 : p = r
      · subst e2
        rw [ep, ins_mem] at hc
        rcases hc with hc | hc
        · rw [hc, upd_same]
        · rw [upd_ne _ _ (hcne p hp c hc).1]; exact I.pareN p hp c hc
      · rw [eo p e2 (I.ne_root hp)] at hc
        rw [upd_ne _ _ (hcne p hp c hc).1]; exact I.pareN p hp c hc
    · intro p hp
      by_cases e2 : p = r
      · subst e2; rw [ep]; exact s3
      · rw [eo p e2 (I.ne_root hp), s4 p e2]; exact I.chld p hp
    · intro p hp
      by_cases e2 : p = r
      · subst e2
        rw [ep, s6, (ins_perm (K p) o).length_eq, List.length_cons, hKrlen]
        push_cast; rfl
      · rw [eo p e2 (I.ne_root hp)]
        by_cases e3 : p = o
        · subst e3; rw [s7, hflag]; exact I.deg p hp
        · rw [s8 p e3 e2]; exact I.deg p hp
    · intro p hp c hc
      by_cases e2 : p = r
      · subst e2
        rw [ep, ins_mem] at hc
        rcases hc with hc | hc
        · rw [hc]; exact hkey
        · exact I.heap p hp c hc
      · rw [eo p e2 (I.ne_root hp)] at hc; exact I.heap p hp c hc
    · intro p hp k
      have hval : ∀ c ∈ K p, val h' none c = val h none c := by
        intro c hc
        unfold val
        rw [s8 c (hcne p hp c hc).1 (hcne p hp c hc).2]
      by_cases e2 : p = r
      · subst e2
        rw [ep]
        unfold low
        rw [(ins_perm (K p) o).countP_eq, List.countP_cons]
        have h1 := low_congr hval k
        have h2 := I.cnt p hp k
        have h3 : (K p).countP (fun c => decide (val h' none c < k)) ≤ (K p).length := List.countP_le_length
        unfold low at h1 h2
        have h4 : val h' none o = (K p).length := by
          unfold val
          rw [s7, if_neg (by intro e; cases e)]
          omega
        rw [h4]
        by_cases hlt : ((K p).length : Int) < k
        · simp only [hlt, decide_true, if_true]; omega
        · simp only [hlt, decide_false]; simp; omega
      · rw [eo p e2 (I.ne_root hp), low_congr hval]
        exact I.cnt p hp k
  unfold link
  simp only
  have hch : (unlink h o).chld r = (K r).head? := I.chld r hrN
  rw [hch]
  have hrg : upd (rings K) rootdat (rootdat :: xs ++ ys) r = K r := by rw [upd_ne _ _ hrr, rings_ne _ hrr]
  cases hKr : K r with
  | nil =>
    simp only [List.head?_nil]
    refine ⟨?_, rfl, ?_, ?_, rfl, ?_, ?_, ?_⟩
    · exact self_rings hr1 (hrg.trans hKr) hout
    · show upd h.chld r (some o) r = _
      rw [upd_same]; rfl
    · intro p hp
      show upd h.chld r (some o) p = _
      rw [upd_ne _ _ hp]
    · show upd (upd h.defl o _) r 2 r / 2 = _
      rw [upd_same, hKrlen, hKr]; rfl
    · show upd (upd h.defl o _) r 2 o = _
      rw [upd_ne _ _ hor, upd_same]; rfl
    · intro x h1 h2
      show upd (upd h.defl o _) r 2 x = _
      rw [upd_ne _ _ h2, upd_ne _ _ h1]
  | cons c l =>
    simp only [List.head?_cons]
    have hcr := (linkAfter_rings (h := unlink h o) hr1 (hrg.trans hKr) hout).1
    refine ⟨hcr, rfl, ?_, fun _ _ => rfl, rfl, ?_, ?_, ?_⟩
    · show h.chld r = _
      rw [I.chld r hrN, hKr]; rfl
    · show upd (upd h.defl o _) r (upd h.defl o _ r + 2) r / 2 = _
      rw [upd_same, upd_ne _ _ (fun e => hor e.symm)]
      show (h.defl r + 2) / 2 = _
      omega
    · show upd (upd h.defl o _) r _ o = _
      rw [upd_ne _ _ hor, upd_same]; rfl
    · intro x h1 h2
      show upd (upd h.defl o _) r _ x = _
      rw [upd_ne _ _ h2, upd_ne _ _ h1]

def headOr (B : List Int) : Int := match B with
  | [] => rootdat
  | b :: _ => b

/-- State of the first loop. -/
structure CInv (D : Int) (h : Heap) (key : Int → Int) (N : List Int) (K : Int → List Int) (A B : List Int) (r nx dmax : Int) : Prop where
  inv : Inv h key N K none
  split : K rootdat = A ++ B
  cur : if r = rootdat then B = [] else r ∈ A ∧ nx = headOr B
  tab : ∀ d a, h.degr d = some a ↔ a ∈ A ∧ a ≠ r ∧ h.defl a / 2 = d
  dmax0 : 0 ≤ dmax
  dmaxD : dmax < D
  dmax : ∀ a ∈ A, a ≠ r → h.defl a / 2 ≤ dmax

theorem Inv.deg_lt (I : Inv h key N K none) {D : Int} (hD : 0 < D) (hN : N.length < fib (D.toNat + 2)) {x : Int} (hx : x ∈ K rootdat) :
    0 ≤ h.defl x / 2 ∧ h.defl x / 2 < D := by
  have h1 := I.degree hx
  have h2 := I.deg x (I.memN hx)
  refine ⟨by omega, ?_⟩
  apply Classical.byContradiction
  intro hc
  have := fib_mono (a := D.toNat + 2) (b := (h.defl x / 2).toNat + 2) (by omega)
  omega

theorem Inv.with_degr (I : Inv h key N K none) (f : Int → Option Int) : Inv { h with degr := f } key N K none :=
  I.congr_heap rfl rfl rfl rfl rfl

/-- Successor of a root. -/
theorem Inv.root_next (I : Inv h key N K none) {A B : List Int} {b : Int} (hs : K rootdat = A ++ b :: B) : h.next b = headOr B := by
  have hr : rings K rootdat = (rootdat :: A) ++ b :: B := by rw [rings_root, hs]; simp
  cases B with
  | nil => exact ring_next (xs := rootdat :: A) (ys := []) I.rg hr rfl
  | cons y B => exact ring_next (xs := rootdat :: A) (ys := y :: B) I.rg hr rfl

theorem erase_split {A B : List Int} {o : Int} (ho : o ∈ A) : ∃ xs ys, A ++ B = xs ++ o :: ys ∧ ∃ A', xs ++ ys = A' ++ B ∧
    A'.length + 1 = A.length ∧ (A.Nodup → ∀ x, x ∈ A' ↔ x ∈ A ∧ x ≠ o) := by
  obtain ⟨x1, x2, rfl⟩ := List.append_of_mem ho
  refine ⟨x1, x2 ++ B, by simp, x1 ++ x2, by simp, by simp; omega, ?_⟩
  intro hnd x
  have := (List.perm_middle (l₁ := x1) (l₂ := x2) (a := o)).nodup_iff.1 hnd
  have := (List.nodup_cons.1 this).1
  simp only [List.mem_append, List.mem_cons] at this ⊢
  constructor
  · rintro (h | h)
    · exact ⟨Or.inl h, fun e => this (Or.inl (e ▸ h))⟩
    · exact ⟨Or.inr (Or.inr h), fun e => this (Or.inr (e ▸ h))⟩
  · rintro ⟨h | h | h, e⟩
    · exact Or.inl h
    · exact absurd h e
    · exact Or.inr h

theorem consLoop_spec {D : Int} (hD : 0 < D) (hN : N.length < fib (D.toNat + 2)) : ∀ (fuel : Nat) {h : Heap} {K : Int → List Int} {A B : List Int} {r nx dmax : Int},
    CInv D h key N K A B r nx dmax → 2 * B.length + A.length + (if r = rootdat then 1 else 2) ≤ fuel →
    Holds (consLoop D key fuel h r nx dmax) (fun q => ∃ K', Inv q.1 key N K' none ∧ 0 ≤ q.2 ∧ q.2 < D ∧
      (∀ d a, q.1.degr d = some a ↔ a ∈ K' rootdat ∧ q.1.defl a / 2 = d) ∧ (∀ a ∈ K' rootdat, q.1.defl a / 2 ≤ q.2)) := by
  intro fuel
  induction fuel with
  | zero => intro h K A B r nx dmax _ hf; split at hf <;> omega
  | succ fuel ih =>
    intro h K A B r nx dmax C hf
    have I := C.inv
    unfold consLoop
    have hAroot : ∀ a ∈ A, a ∈ K rootdat := fun a ha => by rw [C.split]; simp [ha]
    by_cases hr : r = rootdat
    · rw [if_pos hr, Holds_ok]
      have hB : B = [] := by have := C.cur; rw [if_pos hr] at this; exact this
      have hKA : K rootdat = A := by rw [C.split, hB]; simp
      refine ⟨K, I, C.dmax0, C.dmaxD, ?_, ?_⟩
      · intro d a
        rw [C.tab, hKA]
        constructor
        · rintro ⟨a1, _, a3⟩; exact ⟨a1, a3⟩
        · rintro ⟨a1, a3⟩
          exact ⟨a1, by rw [hr]; exact I.ne_root (I.memN (hAroot a a1)), a3⟩
      · intro a ha
        rw [hKA] at ha
        exact C.dmax a ha (by rw [hr]; exact I.ne_root (I.memN (hAroot a ha)))
    · rw [if_neg hr]
      rw [if_neg hr] at hf
      have hcur := C.cur
      rw [if_neg hr] at hcur
      obtain ⟨hrA, hnx⟩ := hcur
      have hrK := hAroot r hrA
      obtain ⟨hd0, hd1⟩ := I.deg_lt hD hN hrK
      simp only
      rw [if_neg (by intro h; exact h ⟨hd0, hd1⟩)]
      have hAnd : A.Nodup := by
        have := I.nd rootdat
        rw [C.split] at this
        exact (List.nodup_append.1 this).1
      have hABdisj : ∀ x ∈ A, ∀ y ∈ B, x ≠ y := by
        have := I.nd rootdat
        rw [C.split] at this
        exact (List.nodup_append.1 this).2.2
      cases hdg : h.degr (h.defl r / 2) with
      | none =>
        dsimp only
        have I' := I.with_degr (upd h.degr (h.defl r / 2) (some r))
        -- r is now in the table
        have htab : ∀ (s : Int), (∀ a ∈ A, a ≠ s) → ∀ d a, upd h.degr (h.defl r / 2) (some r) d = some a ↔ (a ∈ A ∧ a ≠ s ∧ h.defl a / 2 = d) := by
          intro s hs d a
          by_cases e : d = h.defl r / 2
          · subst e
            rw [upd_same]
            constructor
            · intro e; injection e with e; subst e; exact ⟨hrA, hs r hrA, rfl⟩
            · rintro ⟨a1, _, a3⟩
              by_cases ea : a = r
              · rw [ea]
              · have := (C.tab (h.defl r / 2) a).2 ⟨a1, ea, a3⟩
                rw [hdg] at this; cases this
          · rw [upd_ne _ _ e, C.tab]
            constructor
            · rintro ⟨a1, a2, a3⟩; exact ⟨a1, hs a a1, a3⟩
            · rintro ⟨a1, a2, a3⟩
              refine ⟨a1, ?_, a3⟩
              intro ea; subst ea; exact e a3.symm
        have hdm : ∀ a ∈ A, h.defl a / 2 ≤ (if h.defl r / 2 > dmax then h.defl r / 2 else dmax) := by
          intro a ha
          by_cases ea : a = r
          · subst ea; split <;> omega
          · have := C.dmax a ha ea
            split <;> omega
        have hdm0 : 0 ≤ (if h.defl r / 2 > dmax then h.defl r / 2 else dmax) ∧ (if h.defl r / 2 > dmax then h.defl r / 2 else dmax) < D := by
          have := C.dmax0
          have := C.dmaxD
          split <;> omega
        cases B with
        | nil =>
          have hnr : nx = rootdat := hnx
          rw [hnr]
          refine ih (A := A) (B := []) ⟨I', C.split, by rw [if_pos rfl], htab rootdat (fun a ha => I.ne_root (I.memN (hAroot a ha))), hdm0.1, hdm0.2,
            fun a ha _ => hdm a ha⟩ (by rw [if_pos rfl]; simp at hf ⊢; omega)
        | cons b B =>
          have hnb : nx = b := hnx
          rw [hnb]
          have hbA : ∀ a ∈ A, a ≠ b := fun a ha => hABdisj a ha b (by simp)
          have hbr : b ≠ rootdat := I.ne_root (I.memN (by rw [C.split]; simp : b ∈ K rootdat))
          refine ih (A := A ++ [b]) (B := B) ⟨I', by rw [C.split]; simp, ?_, ?_, hdm0.1, hdm0.2, ?_⟩ ?_
          · rw [if_neg hbr]
            exact ⟨by simp, I.root_next C.split⟩
          · intro d a
            show upd h.degr (h.defl r / 2) (some r) d = some a ↔ _
            rw [htab b hbA d a]
            simp only [List.mem_append, List.mem_singleton]
            constructor
            · rintro ⟨a1, a2, a3⟩; exact ⟨Or.inl a1, a2, a3⟩
            · rintro ⟨a1 | a1, a2, a3⟩
              · exact ⟨a1, a2, a3⟩
              · exact absurd a1 a2
          · intro a ha hab
            simp only [List.mem_append, List.mem_singleton] at ha
            rcases ha with ha | ha
            · exact hdm a ha
            · exact absurd ha hab
          · rw [if_neg hbr]; simp at hf ⊢; omega
      | some old =>
        dsimp only
        obtain ⟨o1, o2, o3⟩ := (C.tab _ _).1 hdg
        have I' := I.with_degr (upd h.degr (h.defl r / 2) none)
        -- merge of a loser `l` into a winner `w`
        have hmerge : ∀ l w : Int, (l = r ∧ w = old ∨ l = old ∧ w = r) → key w ≤ key l →
            Holds (consLoop D key fuel (link { h with degr := upd h.degr (h.defl r / 2) none } l w) w nx dmax) (fun q => ∃ K', Inv q.1 key N K' none ∧ 0 ≤ q.2 ∧ q.2 < D ∧
              (∀ d a, q.1.degr d = some a ↔ a ∈ K' rootdat ∧ q.1.defl a / 2 = d) ∧ (∀ a ∈ K' rootdat, q.1.defl a / 2 ≤ q.2)) := by
          intro l w hlw hkey
          have hlA : l ∈ A := by rcases hlw with ⟨e, _⟩ | ⟨e, _⟩ <;> rw [e] <;> assumption
          have hwA : w ∈ A := by rcases hlw with ⟨_, e⟩ | ⟨_, e⟩ <;> rw [e] <;> assumption
          have hlwne : l ≠ w := by
            rcases hlw with ⟨e1, e2⟩ | ⟨e1, e2⟩ <;> rw [e1, e2]
            · exact fun e => o2 e.symm
            · exact o2
          have hdlw : h.defl l / 2 = h.defl w / 2 := by
            rcases hlw with ⟨e1, e2⟩ | ⟨e1, e2⟩ <;> rw [e1, e2]
            · exact o3.symm
            · exact o3
          have hdw : h.defl w / 2 = h.defl r / 2 := by
            rcases hlw with ⟨e1, e2⟩ | ⟨e1, e2⟩ <;> rw [e2]
            exact o3
          obtain ⟨xs, ys, hxy, A', hA1, hA2, hA3⟩ := erase_split (B := B) hlA
          have hA3 := hA3 hAnd
          obtain ⟨I2, l1, l2, l3⟩ := link_inv I' (C.split.trans hxy) (hAroot w hwA) hlwne hdlw hkey
          have hwr : w ≠ rootdat := I.ne_root (I.memN (hAroot w hwA))
          have hwA' : w ∈ A' := (hA3 w).2 ⟨hwA, fun e => hlwne e.symm⟩
          have hlw2 : ∀ a, a ∈ A' → a ≠ w → a ∈ A ∧ a ≠ r ∧ a ≠ old ∧ a ≠ l := by
            intro a ha haw
            obtain ⟨b1, b2⟩ := (hA3 a).1 ha
            rcases hlw with ⟨e1, e2⟩ | ⟨e1, e2⟩
            · exact ⟨b1, by rw [← e1]; exact b2, by rw [← e2]; exact haw, b2⟩
            · exact ⟨b1, by rw [← e2]; exact haw, by rw [← e1]; exact b2, b2⟩
          refine ih (A := A') (B := B) ⟨I2, ?_, ?_, ?_, C.dmax0, C.dmaxD, ?_⟩ ?_
          · show linkK K l w (xs ++ ys) rootdat = _
            unfold linkK; rw [upd_same, hA1]
          · rw [if_neg hwr]; exact ⟨hwA', hnx⟩
          · intro d a
            rw [l1]
            show upd h.degr (h.defl r / 2) none d = some a ↔ _
            constructor
            · intro hda
              by_cases e : d = h.defl r / 2
              · subst e; rw [upd_same] at hda; cases hda
              · rw [upd_ne _ _ e] at hda
                obtain ⟨b1, b2, b3⟩ := (C.tab d a).1 hda
                have b4 : a ≠ old := by intro e2; subst e2; exact e (b3.symm.trans o3)
                have b5 : a ≠ l ∧ a ≠ w := by
                  rcases hlw with ⟨e1, e2⟩ | ⟨e1, e2⟩ <;> rw [e1, e2]
                  · exact ⟨b2, b4⟩
                  · exact ⟨b4, b2⟩
                exact ⟨(hA3 a).2 ⟨b1, b5.1⟩, b5.2, by rw [l3 a b5.1 b5.2]; exact b3⟩
            · rintro ⟨b1, b2, b3⟩
              obtain ⟨c1, c2, c3, c4⟩ := hlw2 a b1 b2
              rw [l3 a c4 b2] at b3
              have b3' : h.defl a / 2 = d := b3
              have hda := (C.tab d a).2 ⟨c1, c2, b3'⟩
              rw [upd_ne]
              · exact hda
              · intro e; rw [e, hdg] at hda; injection hda with hda; exact c3 hda.symm
          · intro a ha haw
            obtain ⟨c1, c2, c3, c4⟩ := hlw2 a ha haw
            rw [l3 a c4 haw]
            exact C.dmax a c1 c2
          · rw [if_neg hwr]; omega
        by_cases hcmp : key old ≤ key r
        · rw [if_pos hcmp]
          exact hmerge r old (Or.inl ⟨rfl, rfl⟩) hcmp
        · rw [if_neg hcmp]
          exact hmerge old r (Or.inr ⟨rfl, rfl⟩) (by omega)

theorem bestLoop_spec {D : Int} : ∀ (k : Nat) (d : Int) (h : Heap) (best : Option Int), 0 ≤ d → d + k ≤ D →
    Holds (bestLoop D key k d h best) (fun q => q.1.next = h.next ∧ q.1.prev = h.prev ∧ q.1.pare = h.pare ∧ q.1.chld = h.chld ∧ q.1.defl = h.defl ∧
      (∀ i, q.1.degr i = if d ≤ i ∧ i < d + k then none else h.degr i) ∧
      (match q.2 with
        | none => best = none ∧ ∀ i, d ≤ i → i < d + k → h.degr i = none
        | some b => (best = some b ∨ ∃ i, d ≤ i ∧ i < d + k ∧ h.degr i = some b) ∧ (∀ a, best = some a → key b ≤ key a) ∧
          ∀ i a, d ≤ i → i < d + k → h.degr i = some a → key b ≤ key a)) := by
  intro k
  induction k with
  | zero =>
    intro d h best _ _
    unfold bestLoop
    rw [Holds_ok]
    refine ⟨rfl, rfl, rfl, rfl, rfl, ?_, ?_⟩
    · intro i; rw [if_neg]; omega
    · cases best with
      | none => exact ⟨rfl, fun i h1 h2 => by omega⟩
      | some b => exact ⟨Or.inl rfl, fun a e => by injection e with e; subst e; exact Int.le_refl _, fun i a h1 h2 => by omega⟩
  | succ k ih =>
    intro d h best h0 h1
    unfold bestLoop
    rw [if_neg (by intro hc; exact hc ⟨h0, by omega⟩)]
    cases hd : h.degr d with
    | none =>
      dsimp only
      refine (ih (d + 1) h best (by omega) (by omega)).mono ?_
      rintro q ⟨a1, a2, a3, a4, a5, a6, a7⟩
      refine ⟨a1, a2, a3, a4, a5, ?_, ?_⟩
      · intro i
        rw [a6 i]
        by_cases e : i = d
        · subst e; rw [hd]; simp
        · have : (d + 1 ≤ i ∧ i < d + 1 + k) ↔ (d ≤ i ∧ i < d + (k + 1 : Nat)) := by push_cast; omega
          simp only [this]
      · cases hq : q.2 with
        | none =>
          rw [hq] at a7
          refine ⟨a7.1, ?_⟩
          intro i h2 h3
          by_cases e : i = d
          · subst e; exact hd
          · exact a7.2 i (by omega) (by push_cast at h3; omega)
        | some b =>
          rw [hq] at a7
          obtain ⟨b1, b2, b3⟩ := a7
          refine ⟨?_, b2, ?_⟩
          · rcases b1 with b1 | ⟨i, c1, c2, c3⟩
            · exact Or.inl b1
            · exact Or.inr ⟨i, by omega, by push_cast; omega, c3⟩
          · intro i a h2 h3 h4
            by_cases e : i = d
            · subst e; rw [hd] at h4; cases h4
            · exact b3 i a (by omega) (by push_cast at h3; omega) h4
    | some r =>
      dsimp only
      -- new best root
      obtain ⟨nb, hnb, hn1, hn2, hn3⟩ : ∃ nb, pickBest key r best = nb ∧
          (best = some nb ∨ nb = r) ∧ key nb ≤ key r ∧ (∀ a, best = some a → key nb ≤ key a) := by
        cases best with
        | none => exact ⟨r, rfl, Or.inr rfl, Int.le_refl _, fun a e => by cases e⟩
        | some b =>
          by_cases hlt : key r < key b
          · refine ⟨r, by simp [pickBest, hlt], Or.inr rfl, Int.le_refl _, fun a e => ?_⟩
            injection e with e; subst e; omega
          · refine ⟨b, by simp [pickBest, hlt], Or.inl rfl, by omega, fun a e => ?_⟩
            injection e with e; subst e; exact Int.le_refl _
      rw [hnb]
      refine (ih (d + 1) { h with degr := upd h.degr d none } (some nb) (by omega) (by omega)).mono ?_
      rintro q ⟨a1, a2, a3, a4, a5, a6, a7⟩
      refine ⟨a1, a2, a3, a4, a5, ?_, ?_⟩
      · intro i
        rw [a6 i]
        by_cases e : i = d
        · subst e
          rw [if_neg (by omega), if_pos (by push_cast; omega)]
          show upd h.degr i none i = none
          rw [upd_same]
        · have : (d + 1 ≤ i ∧ i < d + 1 + k) ↔ (d ≤ i ∧ i < d + (k + 1 : Nat)) := by push_cast; omega
          simp only [this, upd_ne _ _ e]
      · cases hq : q.2 with
        | none => rw [hq] at a7; exact absurd a7.1 (by simp)
        | some b =>
          rw [hq] at a7
          obtain ⟨b1, b2, b3⟩ := a7
          have hbn := b2 nb rfl
          refine ⟨?_, ?_, ?_⟩
          · rcases b1 with b1 | ⟨i, c1, c2, c3⟩
            · injection b1 with b1
              rcases hn1 with e | e
              · rw [← b1]; exact Or.inl e
              · exact Or.inr ⟨d, by omega, by push_cast; omega, by rw [hd, ← b1, e]⟩
            · have c3' : upd h.degr d none i = some b := c3
              rw [upd_ne _ _ (by omega)] at c3'
              exact Or.inr ⟨i, by omega, by push_cast; omega, c3'⟩
          · intro a e
            have := hn3 a e
            omega
          · intro i a h2 h3 h4
            by_cases e : i = d
            · subst e
              rw [hd] at h4
              injection h4 with h4
              subst h4
              omega
            · refine b3 i a (by omega) (by push_cast at h3; omega) ?_
              show upd h.degr d none i = some a
              rw [upd_ne _ _ e]; exact h4

/-- The key of a node is at least the key of some root. -/
theorem Inv.above (I : Inv h key N K none) {x : Int} (hx : x ∈ N) : ∃ r ∈ K rootdat, key r ≤ key x := by
  obtain ⟨rk, hrk⟩ := I.forest.rank
  obtain ⟨R, hR⟩ : ∃ R, ∀ p ∈ N, rk p < R := ⟨(N.map rk).sum + 1, fun p hp => by have := le_sum_of_mem (f := rk) hp; omega⟩
  have : ∀ (n : Nat) (x : Int), x ∈ N → R - rk x ≤ n → ∃ r ∈ K rootdat, key r ≤ key x := by
    intro n
    induction n with
    | zero => intro x hx h; have := hR x hx; omega
    | succ n ih =>
      intro x hx h
      obtain ⟨p, hp⟩ := (I.forest.mem x).1 hx
      rcases I.ownerN hp with e | e
      · subst e; exact ⟨x, hp, Int.le_refl _⟩
      · have h1 := hrk p e x hp
        have h2 := hR p e
        obtain ⟨r, hr, h3⟩ := ih p e (by omega)
        exact ⟨r, hr, Int.le_trans h3 (I.heap p e x hp)⟩
  exact this _ x hx (Nat.le_refl _)

theorem consolidate_spec {D : Int} (hD : 0 < D) (I : Inv h key N K none) (hN : N.length < fib (D.toNat + 2)) (hdg : ∀ d, h.degr d = none) {fuel : Nat}
    (hf : 2 * N.length + 1 ≤ fuel) :
    Holds (consolidate D fuel key h) (fun q => (∃ K', Inv q.1 key N K' none) ∧ (∀ d, q.1.degr d = none) ∧
      (match q.2 with
        | none => N = []
        | some b => b ∈ N ∧ ∀ x ∈ N, key b ≤ key x)) := by
  unfold consolidate
  simp only
  rw [Holds_bind]
  have hnext : h.next rootdat = headOr (K rootdat) := by
    have hr : rings K rootdat = [] ++ rootdat :: K rootdat := by rw [rings_root]; rfl
    cases hk : K rootdat with
    | nil =>
      have hcy := I.rg.cyc rootdat
      rw [rings_root, hk] at hcy
      exact hcy.1
    | cons a l => rw [hk] at hr; exact ring_next (l := l) (xs := []) (ys := a :: l) I.rg hr (by simp [headOr])
  have hroots := I.roots_le
  have hloop : Holds (consLoop D key fuel h (h.next rootdat) (h.next (h.next rootdat)) 0) (fun q => ∃ K', Inv q.1 key N K' none ∧ 0 ≤ q.2 ∧ q.2 < D ∧
      (∀ d a, q.1.degr d = some a ↔ a ∈ K' rootdat ∧ q.1.defl a / 2 = d) ∧ (∀ a ∈ K' rootdat, q.1.defl a / 2 ≤ q.2)) := by
    rw [hnext]
    cases hk : K rootdat with
    | nil =>
      refine consLoop_spec hD hN fuel (A := []) (B := []) (K := K) ⟨I, by rw [hk]; rfl, ?_, ?_, by omega, hD, fun a ha => by simp at ha⟩ ?_
      · have : headOr [] = rootdat := rfl
        rw [if_pos this]
      · intro d a; rw [hdg]; simp
      · have : headOr [] = rootdat := rfl
        rw [if_pos this]; simp; omega
    | cons a l =>
      have har : a ≠ rootdat := I.ne_root (I.memN (by rw [hk]; simp : a ∈ K rootdat))
      rw [hk] at hroots
      refine consLoop_spec hD hN fuel (A := [a]) (B := l) (K := K) ⟨I, by rw [hk]; rfl, ?_, ?_, by omega, hD, ?_⟩ ?_
      · have : headOr (a :: l) = a := rfl
        rw [this, if_neg har]
        exact ⟨by simp, I.root_next (A := []) hk⟩
      · intro d b
        rw [hdg]
        simp only [List.mem_singleton]
        constructor
        · intro e; cases e
        · rintro ⟨e1, e2, _⟩; exact absurd e1 e2
      · intro b hb hne
        simp only [List.mem_singleton] at hb
        exact absurd hb hne
      · have : headOr (a :: l) = a := rfl
        rw [this, if_neg har]
        simp at hroots ⊢; omega
  refine hloop.mono ?_
  rintro q ⟨K', I', d0, d1, ht, hm⟩
  refine (bestLoop_spec (q.2 + 1).toNat 0 q.1 none (by omega) (by omega)).mono ?_
  rintro s ⟨a1, a2, a3, a4, a5, a6, a7⟩
  have I2 : Inv s.1 key N K' none := I'.congr_heap a1 a2 a3 a4 a5
  refine ⟨⟨K', I2⟩, ?_, ?_⟩
  · intro d
    rw [a6]
    split
    · rfl
    · cases hd : q.1.degr d with
      | none => rfl
      | some a =>
        exfalso
        obtain ⟨b1, b2⟩ := (ht d a).1 hd
        have h1 := hm a b1
        have h2 := (I'.deg_lt hD hN b1).1
        omega
  · cases hs : s.2 with
    | none =>
      rw [hs] at a7
      show N = []
      cases hNn : N with
      | nil => rfl
      | cons x N' =>
        exfalso
        obtain ⟨r, hr, _⟩ := I'.above (x := x) (by rw [hNn]; simp)
        have h1 := hm r hr
        have h2 := (I'.deg_lt hD hN hr).1
        have := a7.2 (q.1.defl r / 2) (by omega) (by omega)
        rw [(ht _ _).2 ⟨hr, rfl⟩] at this
        cases this
    | some b =>
      rw [hs] at a7
      obtain ⟨b1, _, b3⟩ := a7
      refine ⟨?_, ?_⟩
      · rcases b1 with b1 | ⟨i, _, _, c3⟩
        · cases b1
        · exact I'.memN ((ht i b).1 c3).1
      · intro x hx
        obtain ⟨r, hr, h4⟩ := I'.above hx
        have h1 := hm r hr
        have h2 := (I'.deg_lt hD hN hr).1
        exact Int.le_trans (b3 (q.1.defl r / 2) r (by omega) (by omega) ((ht _ _).2 ⟨hr, rfl⟩)) h4

end

end Scotch.Fibo
