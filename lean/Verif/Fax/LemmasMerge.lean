import Verif.Fax.LemmasRuns
import Verif.Fax.LemmasSet
import Verif.Fax.May

/-! # Merging of blocks in a chain -/

set_option autoImplicit false
set_option linter.unusedSimpArgs false

namespace Scotch.Fax

/-- A chained block: its index, and its content. -/
abbrev Node := Int × Blok

/-- Index of the first node. -/
def hd : List Node → Int → Int
  | [], e => e
  | n :: _, _ => n.1

/-- The nodes of a list are chained; the last one refers to `e`. -/
def Links (t : Arr Tlok) : List Node → Int → Prop
  | [], _ => True
  | n :: l, e => t.get n.1 = ⟨n.2.frow, n.2.lrow, n.2.cblk, hd l e⟩ ∧ Links t l e

/-- Chain of free blocks. -/
def Free (t : Arr Tlok) : List Int → Prop
  | [] => True
  | i :: F => (t.get i).next = F.headD (-1) ∧ Free t F

def ids (l : List Node) : List Int := l.map Prod.fst
def blks (l : List Node) : List Blok := l.map Prod.snd

theorem ids_append (l l' : List Node) : ids (l ++ l') = ids l ++ ids l' := List.map_append
theorem blks_append (l l' : List Node) : blks (l ++ l') = blks l ++ blks l' := List.map_append
theorem ids_cons (n : Node) (l : List Node) : ids (n :: l) = n.1 :: ids l := rfl
theorem blks_cons (n : Node) (l : List Node) : blks (n :: l) = n.2 :: blks l := rfl
theorem ids_reverse (l : List Node) : ids l.reverse = (ids l).reverse := List.map_reverse
theorem mem_blks {l : List Node} {b : Blok} : b ∈ blks l ↔ ∃ n ∈ l, n.2 = b := List.mem_map

theorem hd_append (l l' : List Node) (e : Int) : hd (l ++ l') e = hd l (hd l' e) := by cases l <;> rfl

theorem Links_append (t : Arr Tlok) (l l' : List Node) (e : Int) : Links t (l ++ l') e ↔ Links t l (hd l' e) ∧ Links t l' e := by
  induction l with
  | nil => simp [Links]
  | cons n l ih =>
    rw [List.cons_append, Links, Links, ih, hd_append, and_assoc]

theorem Links_set {t : Arr Tlok} {l : List Node} {e i : Int} {v : Tlok} (h : i ∉ ids l) : Links (t.set i v) l e ↔ Links t l e := by
  induction l with
  | nil => simp [Links]
  | cons n l ih =>
    rw [ids_cons, List.mem_cons, not_or] at h
    rw [Links, Links, ih h.2, Arr.set_get_ne _ _ (fun e => h.1 e.symm)]

theorem Free_set {t : Arr Tlok} {F : List Int} {i : Int} {v : Tlok} (h : i ∉ F) : Free (t.set i v) F ↔ Free t F := by
  induction F with
  | nil => simp [Free]
  | cons n l ih =>
    rw [List.mem_cons, not_or] at h
    rw [Free, Free, ih h.2, Arr.set_get_ne _ _ (fun e => h.1 e.symm)]

/-- The memory of chained blocks: chain `L`, free blocks `F`. -/
structure Mem (t : Arr Tlok) (frm : Int) (L : List Node) (F : List Int) : Prop where
  links : Links t L 0
  free : Free t F
  nodup : (ids L ++ F).Nodup
  bound : ∀ i ∈ ids L ++ F, 0 ≤ i ∧ i < frm
  lo : t.lo = 0
  hi : frm ≤ t.hi

theorem Mem.length {t : Arr Tlok} {frm : Int} {L : List Node} {F : List Int} (M : Mem t frm L F) (h0 : 0 ≤ frm) : (L.length : Int) ≤ frm := by
  have h1 : (ids L).Nodup := (List.nodup_append.1 M.nodup).1
  have := nodup_le (a := 0) (b := frm) h1 h0 (fun x hx => M.bound x (List.mem_append.2 (.inl hx)))
  unfold ids at this
  rw [List.length_map] at this
  omega

/-- Content of a node. -/
theorem Mem.node {t : Arr Tlok} {frm : Int} {P : List Node} {n : Node} {Q : List Node} {F : List Int} (M : Mem t frm (P ++ n :: Q) F) :
    t.get n.1 = ⟨n.2.frow, n.2.lrow, n.2.cblk, hd Q 0⟩ ∧ t.lo ≤ n.1 ∧ n.1 < t.hi := by
  have h1 := M.links
  rw [Links_append, Links] at h1
  have h2 := M.bound n.1 (by simp [ids_append, ids_cons])
  have := M.lo
  have := M.hi
  exact ⟨h1.2.1, by omega, by omega⟩

variable {R : Int → Int} {base k top : Int}

/-- Skipped blocks are those before the block to merge. -/
theorem skip_iff (hR : Rng R base top) (hk : base ≤ k) {a b : Blok} (ha : BOk R k top a) (hb : BOk R k top b) : (a.cblk < b.cblk ∨ a.lrow < b.frow - 1) ↔ Before a b := by
  unfold Before
  constructor
  · rintro (h | h)
    · exact .inl h
    · by_cases h1 : a.cblk < b.cblk
      · exact .inl h1
      · right
        refine ⟨?_, by omega⟩
        apply Classical.byContradiction
        intro h2
        have h3 := BOk.lt_rows hR hk hb ha (by omega)
        have := ha.rows
        have := hb.rows
        omega
  · rintro (h | h)
    · exact .inl h
    · exact .inr (by omega)

theorem skip_loop (hR : Rng R base top) (hk : base ≤ k) {t : Arr Tlok} {frm : Int} {L : List Node} {F : List Int} {b : Blok} (M : Mem t frm L F) (hL : ∀ x ∈ blks L, BOk R k top x) (hb : BOk R k top b) :
    ∀ (Q Pr : List Node) (n : Nat), Pr.reverse ++ Q = L → (∀ p ∈ Pr, Before p.2 b) → (∃ q ∈ Q, ¬ Before q.2 b) → Q.length < n →
    Holds (loopM (fun (s : Int × Int) => do
      let t ← t.rd s.2
      if t.cblk < b.cblk ∨ t.lrow < b.frow - 1 then return Loop.next (s.2, t.next)
      else return Loop.brk s) n (hd Pr 0, hd Q 0)) (fun s => ∃ Pr' q Q', Pr'.reverse ++ q :: Q' = L ∧ s = (hd Pr' 0, q.1) ∧ (∀ p ∈ Pr', Before p.2 b) ∧ ¬ Before q.2 b) := by
  intro Q
  induction Q with
  | nil =>
    rintro Pr n _ _ ⟨q, hq, _⟩ _
    cases hq
  | cons q Q ih =>
    intro Pr n h1 h2 h3 h4
    obtain ⟨n, rfl⟩ : ∃ m, n = m + 1 := ⟨n - 1, by simp at h4; omega⟩
    have hq : BOk R k top q.2 := hL _ (by rw [← h1]; simp [blks_append, blks_cons])
    have M' := M
    rw [← h1] at M'
    obtain ⟨g1, g2, g3⟩ := M'.node
    unfold loopM
    dsimp only
    rw [show hd (q :: Q) 0 = q.1 from rfl, Arr.rd_ok _ g2 g3, ok_bind, g1]
    dsimp only
    by_cases hc : q.2.cblk < b.cblk ∨ q.2.lrow < b.frow - 1
    · rw [if_pos hc, pure_bind]
      dsimp only
      have hbe := (skip_iff hR hk hq hb).1 hc
      have := ih (q :: Pr) n (by rw [List.reverse_cons, List.append_assoc]; exact h1) ?_ ?_ (by simp at h4; omega)
      · exact this
      · intro p hp
        rcases List.mem_cons.1 hp with hp | hp
        · rw [hp]; exact hbe
        · exact h2 p hp
      · obtain ⟨x, hx, hx'⟩ := h3
        rcases List.mem_cons.1 hx with hx | hx
        · rw [hx] at hx'; exact absurd hbe hx'
        · exact ⟨x, hx, hx'⟩
    · rw [if_neg hc, pure_bind]
      exact ⟨Pr, q, Q, h1, rfl, h2, fun h => hc ((skip_iff hR hk hq hb).2 h)⟩

theorem skip_holds (hR : Rng R base top) (hk : base ≤ k) {t : Arr Tlok} {frm : Int} {Pr Q : List Node} {F : List Int} {b : Blok} (M : Mem t frm (Pr.reverse ++ Q) F) (h0 : 0 ≤ frm) (hL : ∀ x ∈ blks (Pr.reverse ++ Q), BOk R k top x) (hb : BOk R k top b)
    (hbt : b.cblk < top) (hp : ∀ p ∈ Pr, Before p.2 b) (ht : ∃ n ∈ Pr.reverse ++ Q, n.2.cblk = top) :
    Holds (skip t b (hd Pr 0) (hd Q 0)) (fun s => ∃ Pr' q Q', Pr'.reverse ++ q :: Q' = Pr.reverse ++ Q ∧ s = (hd Pr' 0, q.1) ∧ (∀ p ∈ Pr', Before p.2 b) ∧ ¬ Before q.2 b) := by
  have hlen := M.length h0
  have hhi := M.hi
  refine skip_loop hR hk M hL hb Q Pr _ rfl hp ?_ ?_
  · obtain ⟨n, hn, hn'⟩ := ht
    have hnb : ¬ Before n.2 b := by
      unfold Before
      omega
    rcases List.mem_append.1 hn with h | h
    · exact absurd (hp n (List.mem_reverse.1 h)) hnb
    · exact ⟨n, h, hnb⟩
  · rw [List.length_append] at hlen
    push_cast at hlen
    omega

/-! ## Insertion -/

theorem newTlok_may {p : Prop} {m : Merge} {L : List Node} {F : List Int} (M : Mem m.tlok m.frm L F) (hfre : m.fre = F.headD (-1)) (h0 : 0 ≤ m.frm) (hcap : ¬ p → m.frm < m.tlok.hi) :
    May p (newTlok m) (fun m' => ∃ f F', Mem m'.tlok m'.frm L (f :: F') ∧ m'.fre = f ∧ m'.frm ≤ m.frm + 1 ∧ m.frm ≤ m'.frm ∧ m'.tlok.hi = m.tlok.hi ∧ m'.lst = m.lst ∧ m'.num = m.num) := by
  unfold newTlok
  cases F with
  | nil =>
    rw [if_pos (show m.fre = -1 from hfre), May_bind]
    refine May_rd _ _ _ (fun h => ?_) (fun h1 h2 => ?_)
    · apply Classical.byContradiction
      intro hp
      have := hcap hp
      exact h ⟨by rw [M.lo]; omega, this⟩
    rw [May_bind]
    refine May_wr _ _ _ _ (fun h => absurd ⟨h1, h2⟩ h) (fun _ _ => ?_)
    rw [May_pure]
    have hnf : m.frm ∉ ids L := by
      intro h
      have := (M.bound m.frm (List.mem_append.2 (.inl h))).2
      omega
    refine ⟨m.frm, [], ?_, rfl, by dsimp only; omega, by dsimp only; omega, rfl, rfl, rfl⟩
    refine ⟨(Links_set hnf).2 M.links, ?_, ?_, ?_, M.lo, ?_⟩
    · refine ⟨?_, True.intro⟩
      rw [Arr.set_get_same]
      rfl
    · rw [List.nodup_append]
      refine ⟨(List.nodup_append.1 M.nodup).1, by simp, ?_⟩
      intro a ha b hb hab
      rw [List.mem_singleton] at hb
      rw [hab, hb] at ha
      exact hnf ha
    · intro i hi
      dsimp only
      rcases List.mem_append.1 hi with h | h
      · have := M.bound i (List.mem_append.2 (.inl h))
        omega
      · rw [List.mem_singleton.1 h]
        omega
    · dsimp only
      rw [Arr.set_hi]
      omega
  | cons f F =>
    have hf := M.bound f (by simp)
    have : m.fre ≠ -1 := by
      rw [hfre]
      show f ≠ -1
      omega
    rw [if_neg this, May_pure]
    exact ⟨f, F, M, hfre, by omega, Int.le_refl _, rfl, rfl, rfl⟩

/-- Insertion of a node after the first ones. -/
theorem insert_may {p : Prop} {m : Merge} {b : Blok} {q : Node} {Pr Q : List Node} {F : List Int} (M : Mem m.tlok m.frm ((q :: Pr).reverse ++ Q) F) (hfre : m.fre = F.headD (-1)) (h0 : 0 ≤ m.frm) (hcap : ¬ p → m.frm < m.tlok.hi)
    (hlst : m.lst = q.1) (hnum : m.num = hd Q 0) :
    May p (insert b m) (fun m' => ∃ f F', Mem m'.tlok m'.frm ((q :: Pr).reverse ++ (f, b) :: Q) F' ∧ m'.fre = F'.headD (-1) ∧ m'.lst = q.1 ∧ m'.num = f ∧ m'.frm ≤ m.frm + 1 ∧ m.frm ≤ m'.frm ∧ m'.tlok.hi = m.tlok.hi) := by
  unfold insert
  rw [May_bind]
  refine May.mono (newTlok_may M hfre h0 hcap) ?_
  rintro m1 ⟨f, F', M1, e1, e2, e2', e3, e4, e5⟩
  have hq : (q :: Pr).reverse ++ Q = Pr.reverse ++ q :: Q := by simp
  have M2 := M1
  rw [hq] at M2
  obtain ⟨g1, g2, g3⟩ := M2.node
  have hf := M1.bound f (by simp)
  have hlo := M1.lo
  have hhi := M1.hi
  have hnd := M1.nodup
  have hfq : f ∉ ids ((q :: Pr).reverse ++ Q) := by
    intro h
    exact (List.nodup_append.1 hnd).2.2 f h f List.mem_cons_self rfl
  have hqF : q.1 ∉ f :: F' := by
    intro h
    exact (List.nodup_append.1 hnd).2.2 q.1 (by simp [ids]) q.1 h rfl
  have hfF : f ∉ F' := (List.nodup_cons.1 (List.nodup_append.1 hnd).2.1).1
  have hqP : q.1 ∉ ids Pr.reverse ∧ q.1 ∉ ids Q := by
    have h1 := (List.nodup_append.1 hnd).1
    rw [hq, ids_append, ids_cons, List.nodup_append] at h1
    refine ⟨fun h => h1.2.2 q.1 h q.1 List.mem_cons_self rfl, (List.nodup_cons.1 h1.2.1).1⟩
  have hfne : f ≠ q.1 := by
    intro h
    rw [h] at hqF
    exact hqF List.mem_cons_self
  have hfree := M1.free
  rw [Free] at hfree
  dsimp only
  rw [e4, hlst, Arr.rd_ok _ g2 g3, ok_bind, Arr.wr_ok _ _ g2 g3, ok_bind, e1, g1]
  dsimp only
  rw [Arr.rd_ok _ (by rw [Arr.set_lo]; omega) (by rw [Arr.set_hi]; omega), ok_bind, Arr.wr_ok _ _ (by rw [Arr.set_lo]; omega) (by rw [Arr.set_hi]; omega), ok_bind,
    Arr.rd_ok _ (by rw [Arr.set_lo, Arr.set_lo]; omega) (by rw [Arr.set_hi, Arr.set_hi]; omega), ok_bind, May_pure]
  dsimp only
  rw [Arr.set_get_ne _ _ hfne, hfree.1, Arr.set_get_ne _ _ (fun e => hfne e.symm), Arr.set_get_same]
  dsimp only
  rw [ids_append] at hfq
  rw [List.mem_append, not_or] at hfq
  have hp : List.Perm (ids ((q :: Pr).reverse ++ (f, b) :: Q) ++ F') (ids ((q :: Pr).reverse ++ Q) ++ f :: F') := by
    rw [ids_append, ids_append, ids_cons, List.append_assoc, List.append_assoc]
    refine List.Perm.append_left _ ?_
    exact (List.perm_middle (a := f) (l₁ := ids Q) (l₂ := F')).symm
  refine ⟨f, F', ⟨?_, ?_, ?_, ?_, M1.lo, by rw [Arr.set_hi, Arr.set_hi]; exact hhi⟩, rfl, rfl, rfl, e2, e2', e3⟩
  · have h1 := M1.links
    rw [hq, Links_append, Links] at h1
    rw [List.reverse_cons, List.append_assoc, List.singleton_append, Links_append, Links, Links]
    have hfP : f ∉ ids Pr.reverse := by
      intro h
      apply hfq.1
      rw [List.reverse_cons, ids_append]
      exact List.mem_append.2 (.inl h)
    refine ⟨?_, ?_, ?_, ?_⟩
    · rw [Links_set hfP, Links_set hqP.1]
      exact h1.1
    · rw [Arr.set_get_ne _ _ (fun e => hfne e.symm), Arr.set_get_same]
      rfl
    · rw [Arr.set_get_same, e5, hnum]
    · rw [Links_set hfq.2, Links_set hqP.2]
      exact h1.2.2
  · rw [Free_set hfF, Free_set (fun h => hqF (List.mem_cons_of_mem _ h))]
    exact hfree.2
  · exact hp.nodup_iff.2 hnd
  · intro i hi
    exact M1.bound i (hp.mem_iff.1 hi)

/-! ## Aggregation -/

/-- Changing the content of a node. -/
theorem Mem.update {t : Arr Tlok} {frm : Int} {P Q : List Node} {i : Int} {b : Blok} {F : List Int} (M : Mem t frm (P ++ (i, b) :: Q) F) (b' : Blok) : Mem (t.set i ⟨b'.frow, b'.lrow, b'.cblk, hd Q 0⟩) frm (P ++ (i, b') :: Q) F := by
  have hnd := M.nodup
  rw [ids_append, ids_cons] at hnd
  have h1 := (List.nodup_append.1 hnd).1
  rw [List.nodup_append] at h1
  have hP : i ∉ ids P := fun h => h1.2.2 i h i List.mem_cons_self rfl
  have hQ : i ∉ ids Q := (List.nodup_cons.1 h1.2.1).1
  have hF : i ∉ F := fun h => (List.nodup_append.1 hnd).2.2 i (by simp) i h rfl
  have hl := M.links
  rw [Links_append, Links] at hl
  refine ⟨?_, (Free_set hF).2 M.free, ?_, ?_, M.lo, M.hi⟩
  · rw [Links_append, Links, Links_set hP, Links_set hQ]
    exact ⟨hl.1, Arr.set_get_same _ _ _, hl.2.2⟩
  · rw [ids_append, ids_cons]; exact hnd
  · intro j hj
    refine M.bound j ?_
    rw [ids_append, ids_cons] at hj ⊢
    exact hj

/-- Unlinking of the node after a node. -/
theorem Mem.unlink {t : Arr Tlok} {frm : Int} {P Q : List Node} {i : Int} {b : Blok} {u : Node} {F : List Int} (M : Mem t frm (P ++ (i, b) :: u :: Q) F) (b' : Blok) :
    Mem ((t.set i ⟨b'.frow, b'.lrow, b'.cblk, hd Q 0⟩).set u.1 ⟨u.2.frow, u.2.lrow, u.2.cblk, F.headD (-1)⟩) frm (P ++ (i, b') :: Q) (u.1 :: F) := by
  have hnd := M.nodup
  rw [ids_append, ids_cons, ids_cons] at hnd
  have h1 := (List.nodup_append.1 hnd).1
  rw [List.nodup_append] at h1
  have hP : i ∉ ids P := fun h => h1.2.2 i h i List.mem_cons_self rfl
  have huP : u.1 ∉ ids P := fun h => h1.2.2 u.1 h u.1 (by simp) rfl
  have h2 := List.nodup_cons.1 h1.2.1
  have hiu : i ≠ u.1 := fun e => h2.1 (by rw [e]; exact List.mem_cons_self)
  have hiQ : i ∉ ids Q := fun h => h2.1 (List.mem_cons_of_mem _ h)
  have huQ : u.1 ∉ ids Q := (List.nodup_cons.1 h2.2).1
  have hF : i ∉ F := fun h => (List.nodup_append.1 hnd).2.2 i (by simp) i h rfl
  have huF : u.1 ∉ F := fun h => (List.nodup_append.1 hnd).2.2 u.1 (by simp) u.1 h rfl
  have hl := M.links
  rw [Links_append, Links, Links] at hl
  have hp : List.Perm (ids (P ++ (i, b') :: Q) ++ u.1 :: F) (ids P ++ i :: u.1 :: ids Q ++ F) := by
    rw [ids_append, ids_cons, List.append_assoc, List.append_assoc]
    refine List.Perm.append_left _ ?_
    refine List.Perm.cons _ ?_
    exact List.perm_middle
  refine ⟨?_, ?_, ?_, ?_, M.lo, M.hi⟩
  · rw [Links_append, Links, Links_set huP, Links_set hP, Links_set huQ, Links_set hiQ, Arr.set_get_ne _ _ hiu, Arr.set_get_same]
    exact ⟨hl.1, rfl, hl.2.2.2⟩
  · refine ⟨?_, ?_⟩
    · rw [Arr.set_get_same]
    · rw [Free_set huF, Free_set hF]; exact M.free
  · exact hp.nodup_iff.2 hnd
  · intro j hj
    refine M.bound j ?_
    rw [ids_append, ids_cons, ids_cons]
    exact hp.mem_iff.1 hj

theorem absorb_loop {P : List Node} {i frm : Int} : ∀ (Q : List Node) (t : Arr Tlok) (b : Blok) (F : List Int) (n : Nat), Mem t frm (P ++ (i, b) :: Q) F → BOk R k top b → (∀ x ∈ Q, BOk R k top x.2 ∧ b.cblk ≤ x.2.cblk ∧ b.frow ≤ x.2.frow) →
    (∃ x ∈ Q, b.cblk < x.2.cblk) → Q.length < n →
    Holds (loopM (fun (s : Arr Tlok × Int) => do
      let t ← s.1.rd i
      let u ← s.1.rd t.next
      if u.cblk = t.cblk ∧ u.frow ≤ t.lrow + 1 then do
        let a ← s.1.wr i ⟨t.frow, if u.lrow > t.lrow then u.lrow else t.lrow, t.cblk, u.next⟩
        let a ← a.wr t.next { u with next := s.2 }
        return Loop.next (a, t.next)
      else return Loop.brk s) n (t, F.headD (-1)))
      (fun r => ∃ b' u Q' F', Mem r.1 frm (P ++ (i, b') :: u :: Q') F' ∧ r.2 = F'.headD (-1) ∧ r.1.hi = t.hi ∧ b'.frow = b.frow ∧ b'.cblk = b.cblk ∧ b.lrow ≤ b'.lrow ∧ BOk R k top b' ∧ List.IsSuffix (u :: Q') Q ∧
        Before b' u.2 ∧ ∀ x, cov (b' :: blks (u :: Q')) x ↔ cov (b :: blks Q) x) := by
  intro Q
  induction Q with
  | nil =>
    rintro t b F n _ _ _ ⟨x, hx, _⟩ _
    cases hx
  | cons u Q ih =>
    intro t b F n M hb hQ hex hn
    obtain ⟨n, rfl⟩ : ∃ m, n = m + 1 := ⟨n - 1, by simp at hn; omega⟩
    obtain ⟨g1, g2, g3⟩ := M.node
    have M' := M
    rw [← List.singleton_append (l := u :: Q), ← List.append_assoc] at M'
    obtain ⟨u1, u2, u3⟩ := M'.node
    obtain ⟨q1, q2, q3⟩ := hQ u List.mem_cons_self
    dsimp only at g1 g2 g3
    rw [show hd (u :: Q) 0 = u.1 from rfl] at g1
    unfold loopM
    dsimp only
    rw [Arr.rd_ok _ g2 g3, ok_bind, g1]
    dsimp only
    rw [Arr.rd_ok _ u2 u3, ok_bind, u1]
    dsimp only
    by_cases hc : u.2.cblk = b.cblk ∧ u.2.frow ≤ b.lrow + 1
    · rw [if_pos hc, Arr.wr_ok _ _ g2 g3, ok_bind, Arr.wr_ok _ _ (by rw [Arr.set_lo]; exact u2) (by rw [Arr.set_hi]; exact u3), ok_bind, pure_bind]
      dsimp only
      have hul := q1.lrow
      have hur := q1.rows
      have hbr := hb.rows
      rw [hc.1] at hul
      have M2 := M.unlink ⟨b.frow, if u.2.lrow > b.lrow then u.2.lrow else b.lrow, b.cblk⟩
      have hlr : b.lrow ≤ (if u.2.lrow > b.lrow then u.2.lrow else b.lrow) ∧ (if u.2.lrow > b.lrow then u.2.lrow else b.lrow) < R (b.cblk + 1) ∧ u.2.lrow ≤ (if u.2.lrow > b.lrow then u.2.lrow else b.lrow) ∧
          ((if u.2.lrow > b.lrow then u.2.lrow else b.lrow) = u.2.lrow ∨ (if u.2.lrow > b.lrow then u.2.lrow else b.lrow) = b.lrow) := by
        have := hb.lrow
        by_cases h : u.2.lrow > b.lrow
        · rw [if_pos h]; exact ⟨by omega, by omega, by omega, .inl rfl⟩
        · rw [if_neg h]; exact ⟨by omega, by omega, by omega, .inr rfl⟩
      have := ih _ ⟨b.frow, if u.2.lrow > b.lrow then u.2.lrow else b.lrow, b.cblk⟩ (u.1 :: F) n M2 ⟨hb.ge, hb.le, hb.frow, by dsimp only; omega, hlr.2.1⟩ (fun x hx => hQ x (List.mem_cons_of_mem _ hx)) ?_ (by simp at hn; omega)
      · refine Holds.mono this ?_
        rintro r ⟨b', u', Q', F', k1, k2, k3, k4, k5, k6, k7, k8, k9, k10⟩
        refine ⟨b', u', Q', F', k1, k2, by rw [k3]; rfl, k4, k5, by dsimp only at k6; omega, k7, k8.trans (List.suffix_cons _ _), k9, ?_⟩
        intro x
        rw [k10, cov_cons, cov_cons, blks_cons, cov_cons]
        dsimp only
        constructor
        · rintro (h | h)
          · by_cases hx : x ≤ b.lrow
            · exact .inl ⟨h.1, hx⟩
            · refine .inr (.inl ⟨by omega, ?_⟩)
              rcases hlr.2.2.2 with e | e <;> omega
          · exact .inr (.inr h)
        · rintro (h | h | h)
          · exact .inl ⟨h.1, by omega⟩
          · exact .inl ⟨by omega, by omega⟩
          · exact .inr h
      · obtain ⟨x, hx, hx'⟩ := hex
        rcases List.mem_cons.1 hx with hx | hx
        · rw [hx] at hx'; omega
        · exact ⟨x, hx, hx'⟩
    · rw [if_neg hc, pure_bind]
      refine ⟨b, u, Q, F, M, rfl, rfl, rfl, rfl, Int.le_refl _, hb, List.suffix_rfl, ?_, fun x => Iff.rfl⟩
      unfold Before
      omega

end Scotch.Fax
