import Verif.Fax.LemmasMerge2

/-! # Blocks of a column block -/

set_option autoImplicit false
set_option linter.unusedSimpArgs false

namespace Scotch.Fax

variable {R : Int → Int} {base k top : Int}

theorem Zip.rewind {m : Merge} {Pr Q : List Node} {F : List Int} (Z : Zip R k top m Pr Q F) : Zip R k top ⟨m.tlok, m.fre, m.frm, 0, 0⟩ [] (Pr.reverse ++ Q) F := by
  refine ⟨Z.mem, Z.fre, rfl, ?_, Z.shape, Z.frm⟩
  have h := Z.shape.head
  dsimp only
  cases hL : Pr.reverse ++ Q with
  | nil => rfl
  | cons n l =>
    rw [hL, List.head?_cons, Option.some.injEq] at h
    rw [h]
    rfl

/-- A contributing column block. -/
structure Contrib (R : Int → Int) (k top : Int) (cblk : Arr Cblk) (blok : Arr Blok) (c : Int) : Prop where
  lo : cblk.lo ≤ c
  hi : c + 1 < cblk.hi
  le : (cblk.get c).blok + 2 < (cblk.get (c + 1)).blok
  blo : blok.lo ≤ (cblk.get c).blok
  bhi : (cblk.get (c + 1)).blok ≤ blok.hi
  ok : ∀ i, (cblk.get c).blok + 2 ≤ i → i < (cblk.get (c + 1)).blok → BOk R k (top - 1) (blok.get i)
  sorted : ∀ i, (cblk.get c).blok + 2 ≤ i → i + 1 < (cblk.get (c + 1)).blok → Before (blok.get i) (blok.get (i + 1))

/-- Number of contributing blocks. -/
def ctr (cblk : Arr Cblk) (c : Int) : Int := (cblk.get (c + 1)).blok - (cblk.get c).blok - 2

/-- Rows of contributing blocks. -/
def ctrCov (cblk : Arr Cblk) (blok : Arr Blok) (c x : Int) : Prop :=
  ∃ i, (cblk.get c).blok + 2 ≤ i ∧ i < (cblk.get (c + 1)).blok ∧ (blok.get i).frow ≤ x ∧ x ≤ (blok.get i).lrow

theorem mergeCblk_may {p : Prop} (hR : Rng R base top) (hk : base ≤ k) (hkt : k < top) {cblk : Arr Cblk} {blok : Arr Blok} {c : Int} (Cc : Contrib R k top cblk blok c) {m : Merge} {L : List Node} {F : List Int}
    (Z : Zip R k top ⟨m.tlok, m.fre, m.frm, 0, 0⟩ [] L F) (hcap : ¬ p → m.frm + ctr cblk c ≤ m.tlok.hi) :
    May p (mergeCblk cblk blok c m) (fun m' => ∃ L' F', Zip R k top ⟨m'.tlok, m'.fre, m'.frm, 0, 0⟩ [] L' F' ∧ (∀ x, cov (blks L') x ↔ cov (blks L) x ∨ ctrCov cblk blok c x) ∧ m'.frm ≤ m.frm + ctr cblk c ∧ m'.tlok.hi = m.tlok.hi) := by
  have hlo := Cc.lo
  have hhi := Cc.hi
  have hle := Cc.le
  have hblo := Cc.blo
  have hbhi := Cc.bhi
  unfold mergeCblk
  rw [Arr.rd_ok _ (by omega) (by omega), ok_bind, Arr.rd_ok _ (by omega) (by omega), ok_bind]
  refine May_forUp (fun i m' => ∃ Pr Q F', Zip R k top m' Pr Q F' ∧ (i < (cblk.get (c + 1)).blok → ∀ n ∈ Pr, Before n.2 (blok.get i)) ∧
    (∀ x, cov (blks (Pr.reverse ++ Q)) x ↔ cov (blks L) x ∨ ∃ j, (cblk.get c).blok + 2 ≤ j ∧ j < i ∧ (blok.get j).frow ≤ x ∧ x ≤ (blok.get j).lrow) ∧
    m'.frm ≤ m.frm + (i - ((cblk.get c).blok + 2)) ∧ m'.tlok.hi = m.tlok.hi) (by omega) ⟨[], L, F, Z, by simp, ?_, by dsimp only; omega, rfl⟩ ?_ ?_
  · intro x
    rw [List.reverse_nil, List.nil_append]
    constructor
    · exact .inl
    · rintro (h | ⟨j, j1, j2, _⟩)
      · exact h
      · omega
  · rintro i m' i1 i2 ⟨Pr, Q, F', Z', hp, hc, hf, hh⟩
    rw [Arr.rd_ok _ (by omega) (by omega), ok_bind]
    refine May.mono (mergeBlok_may hR hk hkt Z' (Cc.ok i i1 i2) (hp i2) ?_) ?_
    · intro hnp
      have := hcap hnp
      unfold ctr at this
      rw [hh]
      omega
    · rintro m2 ⟨Pr2, Q2, F2, Z2, hp2, hc2, hf2, hh2⟩
      refine ⟨Pr2, Q2, F2, Z2, ?_, ?_, by omega, by rw [hh2, hh]⟩
      · intro hi n hn
        exact Before.trans (Cc.ok i i1 i2).rows (hp2 n hn) (Cc.sorted i i1 hi)
      · intro x
        rw [hc2, hc]
        constructor
        · rintro ((h | ⟨j, j1, j2, j3⟩) | h)
          · exact .inl h
          · exact .inr ⟨j, j1, by omega, j3⟩
          · exact .inr ⟨i, i1, by omega, h⟩
        · rintro (h | ⟨j, j1, j2, j3⟩)
          · exact .inl (.inl h)
          · by_cases e : j = i
            · rw [e] at j3; exact .inr j3
            · exact .inl (.inr ⟨j, j1, by omega, j3⟩)
  · rintro m' ⟨Pr, Q, F', Z', hp, hc, hf, hh⟩
    refine ⟨_, F', Z'.rewind, ?_, by unfold ctr; omega, hh⟩
    intro x
    rw [hc]
    rfl

/-- A chain of contributing column blocks. -/
def Chn (ctrb : Arr Int) : Int → List Int → Prop
  | h, [] => h = -1
  | h, c :: cs => h = c ∧ c ≠ -1 ∧ ctrb.lo ≤ c ∧ c < ctrb.hi ∧ Chn ctrb (ctrb.get c) cs

def ctrs (cblk : Arr Cblk) (cs : List Int) : Int := (cs.map (ctr cblk)).sum

theorem ctrs_cons (cblk : Arr Cblk) (c : Int) (cs : List Int) : ctrs cblk (c :: cs) = ctr cblk c + ctrs cblk cs := by unfold ctrs; simp

theorem ctrs_nonneg {cblk : Arr Cblk} {blok : Arr Blok} {cs : List Int} (h : ∀ c ∈ cs, Contrib R k top cblk blok c) : (cs.length : Int) ≤ ctrs cblk cs := by
  induction cs with
  | nil => simp [ctrs]
  | cons c cs ih =>
    have h1 := (h c List.mem_cons_self).le
    have h2 := ih (fun c' hc' => h c' (List.mem_cons_of_mem _ hc'))
    rw [ctrs_cons, List.length_cons]
    unfold ctr
    push_cast
    omega

theorem ctrSum_holds {ctrb : Arr Int} {cblk : Arr Cblk} : ∀ (cs : List Int) (h s : Int) (n : Nat), Chn ctrb h cs → (∀ c ∈ cs, cblk.lo ≤ c ∧ c + 1 < cblk.hi) → cs.length < n →
    Holds (loopM (fun (s : Int × Int) =>
      if s.1 = -1 then return Loop.brk s.2
      else do
        let d ← cblk.rd (s.1 + 1)
        let c ← cblk.rd s.1
        let n ← ctrb.rd s.1
        return Loop.next (n, s.2 + d.blok - c.blok - 2)) n (h, s)) (fun r => r = s + ctrs cblk cs) := by
  intro cs
  induction cs with
  | nil =>
    intro h s n hC _ hn
    obtain ⟨n, rfl⟩ : ∃ m, n = m + 1 := ⟨n - 1, by simp at hn; omega⟩
    unfold loopM
    dsimp only
    rw [if_pos (show h = -1 from hC), pure_bind]
    simp [ctrs]
  | cons c cs ih =>
    intro h s n hC hb hn
    obtain ⟨n, rfl⟩ : ∃ m, n = m + 1 := ⟨n - 1, by simp at hn; omega⟩
    obtain ⟨h1, h2, h3, h4, h5⟩ := hC
    subst h1
    have h6 := hb h List.mem_cons_self
    unfold loopM
    dsimp only
    rw [if_neg h2, Arr.rd_ok _ (by omega) (by omega), ok_bind, Arr.rd_ok _ (by omega) (by omega), ok_bind, Arr.rd_ok _ h3 h4, ok_bind, pure_bind]
    dsimp only
    refine Holds.mono (ih _ _ n h5 (fun c' hc' => hb c' (List.mem_cons_of_mem _ hc')) (by simp at hn; omega)) ?_
    intro r hr
    rw [hr, ctrs_cons]
    unfold ctr
    omega

theorem mergeAll_may {p : Prop} (hR : Rng R base top) (hk : base ≤ k) (hkt : k < top) {ctrb : Arr Int} {cblk : Arr Cblk} {blok : Arr Blok} : ∀ (cs : List Int) (h : Int) (m : Merge) (L : List Node) (F : List Int) (n : Nat), Chn ctrb h cs →
    (∀ c ∈ cs, Contrib R k top cblk blok c) → Zip R k top ⟨m.tlok, m.fre, m.frm, 0, 0⟩ [] L F → (¬ p → m.frm + ctrs cblk cs ≤ m.tlok.hi) → cs.length < n →
    May p (mergeAll ctrb cblk blok n h m) (fun m' => ∃ L' F', Zip R k top ⟨m'.tlok, m'.fre, m'.frm, 0, 0⟩ [] L' F' ∧ (∀ x, cov (blks L') x ↔ cov (blks L) x ∨ ∃ c ∈ cs, ctrCov cblk blok c x) ∧ m'.frm ≤ m.frm + ctrs cblk cs) := by
  intro cs
  induction cs with
  | nil =>
    intro h m L F n hC _ Z _ hn
    obtain ⟨n, rfl⟩ : ∃ m, n = m + 1 := ⟨n - 1, by simp at hn; omega⟩
    unfold mergeAll loopM
    dsimp only
    rw [if_pos (show h = -1 from hC), pure_bind]
    refine ⟨L, F, Z, ?_, by simp [ctrs]⟩
    intro x
    simp
  | cons c cs ih =>
    intro h m L F n hC hcs Z hcap hn
    obtain ⟨n, rfl⟩ : ∃ m, n = m + 1 := ⟨n - 1, by simp at hn; omega⟩
    obtain ⟨h1, h2, h3, h4, h5⟩ := hC
    subst h1
    have hnn := ctrs_nonneg (fun c' hc' => hcs c' (List.mem_cons_of_mem _ hc'))
    rw [ctrs_cons] at hcap
    unfold mergeAll loopM
    dsimp only
    rw [if_neg h2]
    rw [May_bind, May_bind]
    refine May.mono (mergeCblk_may hR hk hkt (hcs h List.mem_cons_self) Z (fun hp => by have := hcap hp; omega)) ?_
    rintro m1 ⟨L1, F1, Z1, c1, f1, e1⟩
    rw [Arr.rd_ok _ h3 h4, ok_bind, May_pure]
    dsimp only
    refine May.mono (ih _ m1 L1 F1 n h5 (fun c' hc' => hcs c' (List.mem_cons_of_mem _ hc')) Z1 (fun hp => by have := hcap hp; rw [e1]; omega) (by simp at hn; omega)) ?_
    rintro m2 ⟨L2, F2, Z2, c2, f2⟩
    refine ⟨L2, F2, Z2, ?_, by rw [ctrs_cons]; omega⟩
    intro x
    rw [c2, c1]
    constructor
    · rintro ((h' | h') | ⟨c, hc, h'⟩)
      · exact .inl h'
      · exact .inr ⟨h, List.mem_cons_self, h'⟩
      · exact .inr ⟨c, List.mem_cons_of_mem _ hc, h'⟩
    · rintro (h' | ⟨c, hc, h'⟩)
      · exact .inl (.inl h')
      · rcases List.mem_cons.1 hc with e | e
        · rw [e] at h'; exact .inl (.inr h')
        · exact .inr ⟨c, e, h'⟩

/-! ## Initial chain -/

/-- Blocks numbered from `i` on. -/
def num : Int → List Blok → List Node
  | _, [] => []
  | i, b :: B => (i, b) :: num (i + 1) B

theorem blks_num (i : Int) (B : List Blok) : blks (num i B) = B := by
  induction B generalizing i with
  | nil => rfl
  | cons b B ih => rw [num, blks_cons, ih]

theorem num_append (i : Int) (B B' : List Blok) : num i (B ++ B') = num i B ++ num (i + B.length) B' := by
  induction B generalizing i with
  | nil => simp [num]
  | cons b B ih =>
    rw [List.cons_append, num, num, ih, List.cons_append, List.length_cons]
    congr 3
    push_cast
    omega

theorem ids_num (i : Int) (B : List Blok) : ∀ x ∈ ids (num i B), i ≤ x ∧ x < i + B.length := by
  induction B generalizing i with
  | nil => intro x hx; cases hx
  | cons b B ih =>
    intro x hx
    rw [num, ids_cons, List.mem_cons] at hx
    rw [List.length_cons]
    push_cast
    rcases hx with hx | hx
    · dsimp only at hx; omega
    · have := ih (i + 1) x hx
      omega

theorem nodup_num (i : Int) (B : List Blok) : (ids (num i B)).Nodup := by
  induction B generalizing i with
  | nil => exact List.nodup_nil
  | cons b B ih =>
    rw [num, ids_cons, List.nodup_cons]
    refine ⟨?_, ih _⟩
    intro h
    have := ids_num (i + 1) B _ h
    dsimp only at this
    omega

/-- State of the building of the initial chain. -/
structure Ini (cap : Int) (B : List Blok) (s : Arr Tlok × Int) : Prop where
  nbr : s.2 = B.length
  links : Links s.1 (num 0 B) s.2
  lo : s.1.lo = 0
  hi : s.1.hi = cap

theorem putTlok_holds {cap : Int} {B : List Blok} {s : Arr Tlok × Int} (I : Ini cap B s) (b : Blok) (h : (B.length : Int) < cap) : Holds (putTlok b s) (Ini cap (B ++ [b])) := by
  have hn := I.nbr
  have hlo := I.lo
  have hhi := I.hi
  unfold putTlok
  rw [Arr.wr_ok _ _ (by omega) (by omega), ok_bind, Holds_pure]
  refine ⟨by simp [hn], ?_, hlo, hhi⟩
  dsimp only
  rw [num_append, num, num, Links_append, Links, Links, Links_set]
  · rw [hd, Int.zero_add, ← hn]
    refine ⟨I.links, ?_, True.intro⟩
    rw [Arr.set_get_same]
  · intro hm
    have := ids_num 0 B _ hm
    omega

theorem Ini.trail {cap : Int} {B : List Blok} {s : Arr Tlok × Int} (I : Ini cap B s) (b : Blok) : Links (s.1.set s.2 ⟨b.frow, b.lrow, b.cblk, 0⟩) (num 0 (B ++ [b])) 0 := by
  have hn := I.nbr
  rw [num_append, num, num, Links_append, Links, Links, Links_set]
  · rw [hd, Int.zero_add, ← hn]
    exact ⟨I.links, Arr.set_get_same _ _ _, True.intro⟩
  · intro hm
    have := ids_num 0 B _ hm
    omega

theorem chain_holds {g : Graph} {o : Order} (V : o.Valid g) {sort : Arr Int} {nbr : Int} (htop : top = g.baseval + o.cblknbr) (h1 : g.baseval ≤ k) (h2 : k < top) (S : SortOk sort nbr (rg g o (k + 1)) (rg g o top)) {tlok : Arr Tlok} (hlo : tlok.lo = 0)
    (hhi : nbr + 2 ≤ tlok.hi) :
    Holds (chain g o top sort nbr ⟨rg g o k, rg g o (k + 1) - 1, k⟩ tlok) (fun s => ∃ L, Zip (rg g o) k top ⟨s.1, -1, s.2, 0, 0⟩ [] L [] ∧
      (∀ x, cov (blks L) x ↔ (rg g o k ≤ x ∧ x < rg g o (k + 1)) ∨ (∃ j, 0 ≤ j ∧ j < nbr ∧ sort.get j = x) ∨ x = rg g o top) ∧ s.2 ≤ nbr + 2 ∧ s.1.hi = tlok.hi) := by
  have hR := rng V
  rw [← htop] at hR
  have hn := S.nonneg
  unfold chain
  rw [Holds_bind]
  refine Holds.mono (putTlok_holds (B := []) (s := (tlok, 0)) ⟨rfl, True.intro, hlo, rfl⟩ _ (by simp; omega)) ?_
  intro s hs
  rw [Holds_bind]
  refine Holds.mono (runs_holds V htop h1 h2 S putTlok (fun B s => Ini tlok.hi ((⟨rg g o k, rg g o (k + 1) - 1, k⟩ : Blok) :: B) s) ?_ s hs) ?_
  · intro B b st hI hl
    refine putTlok_holds hI b ?_
    rw [List.length_cons]
    push_cast
    omega
  · rintro s' ⟨B, I, hC, hcov, hlen⟩
    have hsn := I.nbr
    rw [List.length_cons] at hsn
    push_cast at hsn
    have hslo := I.lo
    have hshi := I.hi
    rw [Arr.wr_ok _ _ (by omega) (by omega), ok_bind, Holds_pure]
    dsimp only
    have htopv : rg g o top = g.vertnbr + g.baseval := by rw [htop, rg_top V]; omega
    have htop1 : rg g o (top + 1) = rg g o top + 1 := by rw [htop, rg_top V, rg_top']
    rw [← htopv]
    have hdk := hR.step k h1 (by omega)
    have hbt : ∀ b : Blok, BOk (rg g o) (k + 1) (top - 1) b → BOk (rg g o) k top b := fun b hb => ⟨by have := hb.ge; omega, by have := hb.le; omega, hb.frow, hb.rows, hb.lrow⟩
    have hdiag : BOk (rg g o) k top ⟨rg g o k, rg g o (k + 1) - 1, k⟩ := ⟨Int.le_refl _, by dsimp only; omega, Int.le_refl _, by dsimp only; omega, by dsimp only; omega⟩
    have htr : BOk (rg g o) k top ⟨rg g o top, rg g o top, top⟩ := ⟨by dsimp only; omega, Int.le_refl _, Int.le_refl _, Int.le_refl _, by dsimp only; omega⟩
    refine ⟨num 0 (((⟨rg g o k, rg g o (k + 1) - 1, k⟩ : Blok) :: B) ++ [⟨rg g o top, rg g o top, top⟩]), ⟨⟨?_, True.intro, ?_, ?_, hslo, by dsimp only; rw [Arr.set_hi]; omega⟩, rfl, rfl, rfl, ⟨⟨?_, ?_⟩, rfl, ?_⟩, by dsimp only; omega⟩, ?_, by omega, hshi⟩
    · rw [List.reverse_nil, List.nil_append]
      exact I.trail ⟨rg g o top, rg g o top, top⟩
    · rw [List.append_nil]
      exact nodup_num _ _
    · intro i hi
      rw [List.append_nil] at hi
      have := ids_num 0 _ i hi
      rw [List.length_append, List.length_cons, List.length_singleton] at this
      push_cast at this
      dsimp only
      omega
    · intro x hx
      rw [List.reverse_nil, List.nil_append, blks_num, List.mem_append, List.mem_cons, List.mem_singleton] at hx
      rcases hx with (hx | hx) | hx
      · rw [hx]; exact hdiag
      · exact hbt x (hC.ok x hx)
      · rw [hx]; exact htr
    · rw [List.reverse_nil, List.nil_append, blks_num, List.pairwise_append, List.pairwise_cons]
      refine ⟨⟨?_, hC.sorted⟩, List.pairwise_singleton _ _, ?_⟩
      · intro x hx
        exact .inl (by have := (hC.ok x hx).ge; dsimp only; omega)
      · intro a ha b hb
        rw [List.mem_singleton.1 hb]
        left
        dsimp only
        rcases List.mem_cons.1 ha with ha | ha
        · rw [ha]; exact h2
        · have := (hC.ok a ha).le
          omega
    · refine ⟨(0 + ((((⟨rg g o k, rg g o (k + 1) - 1, k⟩ : Blok) :: B).length : Nat) : Int), ⟨rg g o top, rg g o top, top⟩), ?_, rfl⟩
      rw [List.reverse_nil, List.nil_append, num_append, num, num]
      exact List.mem_append.2 (.inr List.mem_cons_self)
    · intro x
      rw [blks_num, cov_append, cov_cons, cov_cons, cov_nil, hcov]
      dsimp only
      constructor
      · rintro ((h | h) | h | h)
        · exact .inl ⟨h.1, by omega⟩
        · exact .inr (.inl h)
        · exact .inr (.inr (by omega))
        · exact h.elim
      · rintro (h | h | h)
        · exact .inl (.inl ⟨h.1, by omega⟩)
        · exact .inl (.inr h)
        · exact .inr (.inl ⟨by omega, by omega⟩)

/-! ## Array of blocks -/

/-- Blocks `B` have been written from index `frst` on. -/
structure Wrote (blok0 : Arr Blok) (frst : Int) (B : List Blok) (s : Arr Blok × Int) : Prop where
  nbr : s.2 = frst + B.length
  fit : s.2 ≤ blok0.hi
  lo : s.1.lo = blok0.lo
  hi : s.1.hi = blok0.hi
  old : ∀ i, i < frst → s.1.get i = blok0.get i
  new : ∀ j (h : j < B.length), s.1.get (frst + j) = B[j]

theorem putBlok_holds {blok0 : Arr Blok} {frst lim : Int} {B : List Blok} {s : Arr Blok × Int} (W : Wrote blok0 frst B s) (b : Blok) (h1 : 3 * ((B.length : Int) + 1) ≤ lim) (h2 : blok0.lo ≤ frst) (h3 : frst + B.length < blok0.hi) :
    Holds (putBlok lim frst b s) (Wrote blok0 frst (B ++ [b])) := by
  have hn := W.nbr
  have hlo := W.lo
  have hhi := W.hi
  unfold putBlok
  rw [if_neg (show ¬ 3 * (s.2 + 1 - frst) > lim by omega), Arr.wr_ok _ _ (by omega) (by omega), ok_bind, Holds_pure]
  refine ⟨by simp [hn]; omega, by dsimp only; omega, hlo, hhi, ?_, ?_⟩
  · intro i hi
    dsimp only
    rw [Arr.set_get_ne _ _ (by omega)]
    exact W.old i hi
  · intro j hj
    rw [List.length_append, List.length_singleton] at hj
    dsimp only
    by_cases e : j = B.length
    · subst e
      rw [← hn, Arr.set_get_same]
      simp
    · rw [Arr.set_get_ne _ _ (by omega), List.getElem_append_left (by omega)]
      exact W.new j (by omega)

theorem Wrote.start (blok0 : Arr Blok) (frst : Int) (h : frst ≤ blok0.hi) : Wrote blok0 frst [] (blok0, frst) := ⟨by simp, h, rfl, rfl, fun _ _ => rfl, fun j h => by simp at h⟩

theorem direct_holds {g : Graph} {o : Order} (V : o.Valid g) {sort : Arr Int} {nbr sortoft frst : Int} (htop : top = g.baseval + o.cblknbr) (h1 : g.baseval ≤ k) (h2 : k < top) (S : SortOk sort nbr (rg g o (k + 1)) (rg g o top)) {blok : Arr Blok}
    (hlim : 3 * (nbr + 1) ≤ sortoft) (hlo : blok.lo ≤ frst) (hhi : frst + nbr + 1 ≤ blok.hi) :
    Holds (direct o top sortoft sort nbr ⟨rg g o k, rg g o (k + 1) - 1, k⟩ blok frst) (fun s => ∃ B, Wrote blok frst (⟨rg g o k, rg g o (k + 1) - 1, k⟩ :: B) s ∧ Canon (rg g o) (k + 1) (top - 1) B ∧
      (∀ i, cov B i ↔ ∃ x, 0 ≤ x ∧ x < nbr ∧ sort.get x = i)) := by
  have hn := S.nonneg
  unfold direct
  rw [Holds_bind]
  refine Holds.mono (putBlok_holds (Wrote.start blok frst (by omega)) _ (by simp; omega) hlo (by simp; omega)) ?_
  intro s hs
  refine Holds.mono (runs_holds V htop h1 h2 S (putBlok sortoft frst) (fun B s => Wrote blok frst (⟨rg g o k, rg g o (k + 1) - 1, k⟩ :: B) s) ?_ s hs) ?_
  · intro B b st hI hl
    refine putBlok_holds hI b ?_ hlo ?_
    · rw [List.length_cons]; push_cast; omega
    · rw [List.length_cons]; push_cast; omega
  · rintro s' ⟨B, I, hC, hcov, _⟩
    exact ⟨B, I, hC, hcov⟩

theorem copy_loop {t : Arr Tlok} {blok0 : Arr Blok} {frst lim : Int} (hlo : blok0.lo ≤ frst) : ∀ (Q : List Node) (q : Node) (B : List Blok) (s : Arr Blok × Int) (n : Nat), Links t (q :: Q) 0 → (∀ i ∈ ids (q :: Q), t.lo ≤ i ∧ i < t.hi) → (∀ i ∈ ids Q, i ≠ 0) →
    Wrote blok0 frst B s → 3 * ((B.length : Int) + Q.length) ≤ lim → frst + B.length + Q.length ≤ blok0.hi → Q.length < n →
    Holds (loopM (fun (s : Int × Arr Blok × Int) => do
      let t ← t.rd s.1
      if t.next ≠ 0 then do
        let r ← putBlok lim frst ⟨t.frow, t.lrow, t.cblk⟩ s.2
        return Loop.next (t.next, r)
      else return Loop.brk s.2) n (q.1, s)) (Wrote blok0 frst (B ++ (blks (q :: Q)).dropLast)) := by
  intro Q
  induction Q with
  | nil =>
    intro q B s n hL hb _ W _ _ hn
    obtain ⟨n, rfl⟩ : ∃ m, n = m + 1 := ⟨n - 1, by simp at hn; omega⟩
    have hq := hb q.1 (by simp [ids])
    rw [Links] at hL
    unfold loopM
    dsimp only
    rw [Arr.rd_ok _ hq.1 hq.2, ok_bind, hL.1]
    dsimp only
    rw [if_neg (show ¬ hd [] 0 ≠ 0 from fun h => h rfl), pure_bind]
    simpa [blks] using W
  | cons u Q ih =>
    intro q B s n hL hb h0 W hl hh hn
    obtain ⟨n, rfl⟩ : ∃ m, n = m + 1 := ⟨n - 1, by simp at hn; omega⟩
    have hq := hb q.1 (by simp [ids])
    rw [Links] at hL
    rw [List.length_cons] at hl hh
    push_cast at hl hh
    unfold loopM
    dsimp only
    rw [Arr.rd_ok _ hq.1 hq.2, ok_bind, hL.1]
    dsimp only
    rw [if_pos (show hd (u :: Q) 0 ≠ 0 from h0 u.1 (by simp [ids]))]
    rw [Holds_bind, Holds_bind]
    refine Holds.mono (putBlok_holds W q.2 (by omega) hlo (by omega)) ?_
    intro r hr
    rw [Holds_pure]
    dsimp only
    have := ih u (B ++ [q.2]) r n hL.2 (fun i hi => hb i (by rw [ids_cons]; exact List.mem_cons_of_mem _ hi)) (fun i hi => h0 i (by rw [ids_cons]; exact List.mem_cons_of_mem _ hi)) hr
      (by rw [List.length_append, List.length_singleton]; push_cast; omega) (by rw [List.length_append, List.length_singleton]; push_cast; omega) (by simp at hn; omega)
    rw [List.append_assoc] at this
    exact this

theorem updated_may {p : Prop} {g : Graph} {o : Order} (V : o.Valid g) {sort : Arr Int} {nbr tlokoft frst h : Int} (htop : top = g.baseval + o.cblknbr) (h1 : g.baseval ≤ k) (h2 : k < top) (S : SortOk sort nbr (rg g o (k + 1)) (rg g o top))
    {ctrb : Arr Int} {cblk : Arr Cblk} {blok : Arr Blok} {cs : List Int} (hC : Chn ctrb h cs) (hcs : ∀ c ∈ cs, Contrib (rg g o) k top cblk blok c) (hfuel : cs.length ≤ o.cblknbr.toNat) {tlok : Arr Tlok} (hlo : tlok.lo = 0) (hhi : nbr + 2 ≤ tlok.hi)
    (hcap : ¬ p → nbr + 2 + ctrs cblk cs ≤ tlok.hi) (hlim : 3 * (nbr + 1 + ctrs cblk cs) ≤ tlokoft) (hblo : blok.lo ≤ frst) (hbhi : frst + nbr + 1 + ctrs cblk cs ≤ blok.hi) :
    May p (updated g o top tlokoft sort nbr ⟨rg g o k, rg g o (k + 1) - 1, k⟩ ctrb cblk h tlok blok frst) (fun s => ∃ B, Wrote blok frst (⟨rg g o k, rg g o (k + 1) - 1, k⟩ :: B) s ∧ Canon (rg g o) (k + 1) (top - 1) B ∧
      (∀ i, cov B i ↔ (rg g o (k + 1) ≤ i ∧ i < rg g o top) ∧ ((∃ x, 0 ≤ x ∧ x < nbr ∧ sort.get x = i) ∨ ∃ c ∈ cs, ctrCov cblk blok c i))) := by
  have hR := rng V
  rw [← htop] at hR
  have htop1 : rg g o (top + 1) = rg g o top + 1 := by rw [htop, rg_top V, rg_top']
  unfold updated
  rw [May_bind]
  refine May.mono (chain_holds V htop h1 h2 S hlo hhi).may ?_
  rintro s ⟨L, Z, hcov, hs2, hshi⟩
  rw [May_bind]
  refine May.mono (mergeAll_may hR h1 h2 cs h ⟨s.1, -1, s.2, 0, 0⟩ L [] (o.cblknbr.toNat + 1) hC hcs Z (fun hp => by have := hcap hp; dsimp only; rw [hshi]; omega) (by omega)) ?_
  rintro m ⟨L', F', Z', hcov', hfrm⟩
  dsimp only at hfrm
  have hsh := Z'.shape
  have hmem := Z'.mem
  rw [List.reverse_nil, List.nil_append] at hsh hmem
  dsimp only at hmem
  have hlen := hmem.length Z'.frm
  cases L' with
  | nil => exact absurd hsh.head (by simp)
  | cons q Q =>
    have hq := hsh.head
    rw [List.head?_cons, Option.some.injEq] at hq
    have hnd := (List.nodup_append.1 hmem.nodup).1
    rw [ids_cons, List.nodup_cons] at hnd
    rw [List.length_cons] at hlen
    push_cast at hlen
    have hcp := copy_loop (t := m.tlok) (blok0 := blok) (frst := frst) (lim := tlokoft) hblo Q q [] (blok, frst) (m.tlok.hi.toNat + 1) hmem.links ?_ ?_ (Wrote.start _ _ (by have := ctrs_nonneg hcs; have := S.nonneg; omega)) (by simp only [List.length_nil]; omega) (by simp only [List.length_nil]; omega) (by have := hmem.hi; omega)
    · unfold copy
      rw [hq] at hcp
      refine May.mono hcp.may ?_
      intro r hr
      rw [List.nil_append, blks_cons] at hr
      dsimp only at hr
      -- the last node is the trailing one
      obtain ⟨n0, hn0, hn0'⟩ := hsh.trail
      have hn0Q : n0 ∈ Q := by
        rcases List.mem_cons.1 hn0 with e | e
        · rw [e, hq] at hn0'; dsimp only at hn0'; omega
        · exact e
      obtain ⟨Q0, tr, rfl⟩ : ∃ Q0 tr, Q = Q0 ++ [tr] := ⟨Q.dropLast, Q.getLast (List.ne_nil_of_mem hn0Q), (List.dropLast_append_getLast _).symm⟩
      have hok := hsh.canon.ok
      have hsorted := hsh.canon.sorted
      rw [blks_cons, blks_append, List.pairwise_cons, List.pairwise_append] at hsorted
      rw [blks_cons, blks_append] at hok
      obtain ⟨s1, s2, _, s4⟩ := hsorted
      have htrok : BOk (rg g o) k top tr.2 := hok tr.2 (by simp [blks])
      have hbe : ∀ b ∈ blks Q0, Before b tr.2 := fun b hb => s4 b hb tr.2 (by simp [blks])
      have hbok : ∀ b ∈ blks Q0, BOk (rg g o) k top b := fun b hb => hok b (List.mem_cons_of_mem _ (List.mem_append.2 (.inl hb)))
      have htl := htrok.lrow
      have htf := htrok.frow
      have htr' := htrok.rows
      have htrc : tr.2.cblk = top := by
        rcases List.mem_append.1 hn0Q with e | e
        · exfalso
          have e1 := hbe n0.2 (mem_blks.2 ⟨n0, e, rfl⟩)
          have e2 := hbok n0.2 (mem_blks.2 ⟨n0, e, rfl⟩)
          have e3 := e2.frow
          have e4 := e2.rows
          have e5 := htrok.le
          unfold Before at e1
          have e6 : tr.2.cblk = top := by omega
          rw [e6] at htl
          rw [hn0'] at e3
          omega
        · rw [← List.mem_singleton.1 e]; exact hn0'
      rw [htrc] at htl htf
      have hlt : ∀ b ∈ blks Q0, b.cblk < top := by
        intro b hb
        have e1 := hbe b hb
        have e2 := hbok b hb
        have e3 := e2.frow
        have e4 := e2.rows
        have e5 := e2.le
        apply Classical.byContradiction
        intro hn
        have e6 : b.cblk = top := by omega
        rw [e6] at e3
        unfold Before at e1
        omega
      have hgt : ∀ b ∈ blks Q0, k < b.cblk := by
        intro b hb
        have e1 := s1 b (List.mem_append.2 (.inl hb))
        have e2 := hbok b hb
        have e3 := e2.lrow
        have e4 := e2.rows
        rw [hq] at e1
        unfold Before at e1
        dsimp only at e1
        rcases e1 with e | ⟨e, e'⟩
        · exact e
        · rw [← e] at e3; omega
      refine ⟨blks Q0, ?_, ⟨?_, s2⟩, ?_⟩
      · have : (({ frow := rg g o k, lrow := rg g o (k + 1) - 1, cblk := k } : Blok) :: blks (Q0 ++ [tr])).dropLast = { frow := rg g o k, lrow := rg g o (k + 1) - 1, cblk := k } :: blks Q0 := by
          rw [blks_append, ← List.cons_append]
          exact List.dropLast_concat
        rw [this] at hr
        exact hr
      · intro b hb
        have e2 := hbok b hb
        exact ⟨hgt b hb, by have := hlt b hb; omega, e2.frow, e2.rows, e2.lrow⟩
      · intro i
        have e1 := hcov' i
        rw [hcov i, blks_cons, blks_append, cov_cons, cov_append, hq] at e1
        dsimp only at e1
        constructor
        · intro hb
          obtain ⟨b, hb, hb1, hb2⟩ := hb
          have e2 := hbok b hb
          have e3 := hlt b hb
          have e4 := hgt b hb
          have e5 := hR.mono_le (a := k + 1) (b := b.cblk) (by omega) (by omega) (by omega)
          have e6 := hR.mono_le (a := b.cblk + 1) (b := top) (by omega) (by omega) (by omega)
          have e7 := e2.frow
          have e8 := e2.lrow
          refine ⟨⟨by omega, by omega⟩, ?_⟩
          rcases e1.1 (.inr (.inl ⟨b, hb, hb1, hb2⟩)) with (h' | h' | h') | h'
          · omega
          · exact .inl h'
          · omega
          · exact .inr h'
        · rintro ⟨hi, hx⟩
          have : (rg g o k ≤ i ∧ i ≤ rg g o (k + 1) - 1) ∨ cov (blks Q0) i ∨ cov (blks [tr]) i := by
            apply e1.2
            rcases hx with h' | h'
            · exact .inl (.inr (.inl h'))
            · exact .inr h'
          rcases this with h' | h' | h'
          · omega
          · exact h'
          · obtain ⟨b, hb, hb1, hb2⟩ := h'
            have : b = tr.2 := by simpa [blks] using hb
            rw [this] at hb1 hb2
            omega
    · intro i hi
      have e1 := hmem.bound i (List.mem_append.2 (.inl hi))
      have e2 := hmem.lo
      have e3 := hmem.hi
      omega
    · intro i hi e
      rw [e] at hi
      rw [hq] at hnd
      exact hnd.1 hi

end Scotch.Fax
