import Verif.Fibo.Model

set_option autoImplicit false
set_option linter.unusedSimpArgs false

namespace Scotch.Fibo

theorem upd_same {α : Type} (f : Int → α) (p : Int) (v : α) : upd f p v p = v := by simp [upd]
theorem upd_ne {α : Type} (f : Int → α) {p q : Int} (v : α) (h : q ≠ p) : upd f p v q = f q := by simp [upd, h]

/-- Path from `a` to `b` through the nodes of `l`. -/
def Seg (nx pv : Int → Int) : Int → List Int → Int → Prop
  | a, [], b => nx a = b ∧ pv b = a
  | a, x :: l, b => nx a = x ∧ pv x = a ∧ Seg nx pv x l b

/-- Circular list. -/
def Cyc (nx pv : Int → Int) : List Int → Prop
  | [] => True
  | a :: l => Seg nx pv a l a

theorem seg_append {nx pv : Int → Int} {x : Int} {l2 : List Int} {b : Int} : ∀ {l1 : List Int} {a : Int},
    Seg nx pv a (l1 ++ x :: l2) b ↔ Seg nx pv a l1 x ∧ Seg nx pv x l2 b := by
  intro l1
  induction l1 with
  | nil => intro a; simp [Seg, and_assoc]
  | cons y l1 ih => intro a; simp only [List.cons_append, Seg, ih, and_assoc]

theorem cyc_rot {nx pv : Int → Int} {xs ys : List Int} (h : Cyc nx pv (xs ++ ys)) : Cyc nx pv (ys ++ xs) := by
  cases xs with
  | nil => simpa using h
  | cons a l1 =>
    cases ys with
    | nil => simpa using h
    | cons x l2 =>
      have h' := seg_append.1 (show Seg nx pv a (l1 ++ x :: l2) a from h)
      exact seg_append.2 ⟨h'.2, h'.1⟩

theorem seg_frame {nx pv nx' pv' : Int → Int} {b : Int} : ∀ {l : List Int} {a : Int}, Seg nx pv a l b →
    (∀ x, x = a ∨ x ∈ l → nx' x = nx x) → (∀ x, x = b ∨ x ∈ l → pv' x = pv x) → Seg nx' pv' a l b := by
  intro l
  induction l with
  | nil => intro a h hn hp; exact ⟨(hn a (Or.inl rfl)).trans h.1, (hp b (Or.inl rfl)).trans h.2⟩
  | cons x l ih =>
    intro a h hn hp
    refine ⟨(hn a (Or.inl rfl)).trans h.1, (hp x (Or.inr (by simp))).trans h.2.1, ih h.2.2 ?_ ?_⟩
    · intro y hy
      refine hn y (Or.inr ?_)
      rcases hy with rfl | hy
      · simp
      · simp [hy]
    · intro y hy
      refine hp y ?_
      rcases hy with rfl | hy
      · exact Or.inl rfl
      · exact Or.inr (by simp [hy])

theorem cyc_frame {nx pv nx' pv' : Int → Int} {l : List Int} (h : Cyc nx pv l)
    (hn : ∀ x ∈ l, nx' x = nx x) (hp : ∀ x ∈ l, pv' x = pv x) : Cyc nx' pv' l := by
  cases l with
  | nil => trivial
  | cons a l =>
    refine seg_frame h ?_ ?_
    · rintro x (rfl | hx)
      · exact hn x (by simp)
      · exact hn x (by simp [hx])
    · rintro x (rfl | hx)
      · exact hp x (by simp)
      · exact hp x (by simp [hx])

theorem seg_prev_mem {nx pv : Int → Int} {b : Int} : ∀ {l : List Int} {a : Int}, Seg nx pv a l b → pv b ∈ a :: l := by
  intro l
  induction l with
  | nil => intro a h; simp [h.2]
  | cons x l ih => intro a h; exact List.mem_cons_of_mem _ (ih h.2.2)

/-- Redirection of the last node of a path. -/
theorem seg_redirect {nx pv nx' pv' : Int → Int} {n b z : Int} (hz : pv n = z) (hnx : nx' = upd nx z b) (hpv : pv' = upd pv b z) :
    ∀ {l : List Int} {a : Int}, Seg nx pv a l n → (a :: l).Nodup → b ∉ l → Seg nx' pv' a l b := by
  intro l
  induction l with
  | nil =>
    intro a h _ _
    have e : z = a := hz.symm.trans h.2
    refine ⟨?_, ?_⟩
    · rw [hnx, e, upd_same]
    · rw [hpv, upd_same, e]
  | cons x l ih =>
    intro a h hd hb
    have hd' := List.nodup_cons.1 hd
    have hzm : z ∈ x :: l := by rw [← hz]; exact seg_prev_mem h.2.2
    refine ⟨?_, ?_, ih h.2.2 hd'.2 (fun e => hb (by simp [e]))⟩
    · rw [hnx, upd_ne]
      · exact h.1
      · intro e; subst e; exact hd'.1 hzm
    · rw [hpv, upd_ne]
      · exact h.2.1
      · intro e; subst e; exact hb (by simp)

/-- Disjoint circular lists. -/
structure Rings (nx pv : Int → Int) (rg : Int → List Int) : Prop where
  cyc : ∀ p, Cyc nx pv (rg p)
  nodup : ∀ p, (rg p).Nodup
  disj : ∀ p q x, x ∈ rg p → x ∈ rg q → p = q

theorem Rings.rot {nx pv : Int → Int} {rg : Int → List Int} (h : Rings nx pv rg) {p : Int} {a b : List Int} (hp : rg p = a ++ b) :
    Rings nx pv (upd rg p (b ++ a)) := by
  have hm : ∀ q x, x ∈ upd rg p (b ++ a) q → x ∈ rg q := by
    intro q x hx
    by_cases hq : q = p
    · subst hq
      rw [upd_same] at hx
      rw [hp]
      simp only [List.mem_append] at hx ⊢
      exact hx.symm
    · rw [upd_ne _ _ hq] at hx; exact hx
  refine ⟨?_, ?_, fun q r x h1 h2 => h.disj q r x (hm q x h1) (hm r x h2)⟩
  · intro q
    by_cases hq : q = p
    · subst hq
      rw [upd_same]
      have := h.cyc q
      rw [hp] at this
      exact cyc_rot this
    · rw [upd_ne _ _ hq]; exact h.cyc q
  · intro q
    by_cases hq : q = p
    · subst hq
      rw [upd_same]
      have := h.nodup q
      rw [hp] at this
      exact (List.perm_append_comm.nodup_iff).1 this
    · rw [upd_ne _ _ hq]; exact h.nodup q

theorem Rings.congr {nx pv : Int → Int} {rg rg' : Int → List Int} (h : Rings nx pv rg) (e : ∀ p, rg p = rg' p) : Rings nx pv rg' := by
  have : rg = rg' := funext e
  rw [← this]; exact h

/-- `fiboHeapUnlink` on a node of a ring. -/
theorem unlink_rings {h : Heap} {rg : Int → List Int} (hr : Rings h.next h.prev rg) {p n : Int} {xs ys : List Int} (hp : rg p = xs ++ n :: ys) :
    Rings (unlink h n).next (unlink h n).prev (upd rg p (xs ++ ys)) ∧ (unlink h n).next n = h.next n := by
  have hcyc : Cyc h.next h.prev (n :: (ys ++ xs)) := by
    have := hr.cyc p
    rw [hp] at this
    have := cyc_rot this
    simpa using this
  have hnd : (n :: (ys ++ xs)).Nodup := by
    have := hr.nodup p
    rw [hp] at this
    have := (List.perm_append_comm (l₁ := xs) (l₂ := n :: ys)).nodup_iff.1 this
    simpa using this
  have hn := (List.nodup_cons.1 hnd).1
  have hm : ∀ q x, x ∈ upd rg p (xs ++ ys) q → x ∈ rg q := by
    intro q x hx
    by_cases hq : q = p
    · subst hq
      rw [upd_same] at hx
      rw [hp]
      simp only [List.mem_append, List.mem_cons] at hx ⊢
      rcases hx with hx | hx
      · exact Or.inl hx
      · exact Or.inr (Or.inr hx)
    · rw [upd_ne _ _ hq] at hx; exact hx
  have hnodup : ∀ q, (upd rg p (xs ++ ys) q).Nodup := by
    intro q
    by_cases hq : q = p
    · subst hq
      rw [upd_same]
      have := hr.nodup q
      rw [hp] at this
      exact this.sublist (by simp)
    · rw [upd_ne _ _ hq]; exact hr.nodup q
  have hdisj : ∀ q r x, x ∈ upd rg p (xs ++ ys) q → x ∈ upd rg p (xs ++ ys) r → q = r :=
    fun q r x h1 h2 => hr.disj q r x (hm q x h1) (hm r x h2)
  -- only nodes of the ring are modified
  have hnp : n ∈ rg p := by rw [hp]; simp
  cases hl : ys ++ xs with
  | nil =>
    rw [hl] at hcyc
    have h1 : h.next n = n := hcyc.1
    have h2 : h.prev n = n := hcyc.2
    have hu1 : (unlink h n).next = upd h.next n n := by simp only [unlink, h1, h2]
    have hu2 : (unlink h n).prev = upd h.prev n n := by simp only [unlink, h1, h2, upd_same]
    refine ⟨⟨?_, hnodup, hdisj⟩, by rw [hu1, upd_same, h1]⟩
    intro q
    by_cases hq : q = p
    · subst hq
      rw [upd_same]
      have : xs ++ ys = [] := by
        have := List.append_eq_nil_iff.1 hl
        rw [this.1, this.2]; rfl
      rw [this]; trivial
    · rw [upd_ne _ _ hq]
      have hne : ∀ x ∈ rg q, x ≠ n := by
        intro x hx e; subst e; exact hq (hr.disj q p x hx hnp)
      refine cyc_frame (hr.cyc q) ?_ ?_
      · intro x hx; rw [hu1, upd_ne _ _ (hne x hx)]
      · intro x hx; rw [hu2, upd_ne _ _ (hne x hx)]
  | cons a l =>
    rw [hl] at hcyc hnd hn
    obtain ⟨c1, c2, c3⟩ := hcyc
    have hz := seg_prev_mem c3
    generalize hzz : h.prev n = z at hz
    have hzn : n ≠ z := by intro e; subst e; exact hn hz
    have hu1 : (unlink h n).next = upd h.next z a := by simp only [unlink, c1, hzz]
    have hu2 : (unlink h n).prev = upd h.prev a z := by
      simp only [unlink, c1, hzz, upd_ne _ _ hzn]
    have hmem : ∀ x, x ∈ a :: l → x ∈ rg p := by
      intro x hx
      rw [← hl] at hx
      rw [hp]
      simp only [List.mem_append, List.mem_cons] at hx ⊢
      rcases hx with hx | hx
      · exact Or.inr (Or.inr hx)
      · exact Or.inl hx
    refine ⟨⟨?_, hnodup, hdisj⟩, by rw [hu1, upd_ne _ _ hzn]⟩
    intro q
    by_cases hq : q = p
    · subst hq
      rw [upd_same]
      apply cyc_rot
      rw [hl]
      exact seg_redirect hzz hu1 hu2 c3 (List.nodup_cons.1 hnd).2 (List.nodup_cons.1 (List.nodup_cons.1 hnd).2).1
    · rw [upd_ne _ _ hq]
      have hne : ∀ x ∈ rg q, ∀ y ∈ a :: l, x ≠ y := by
        intro x hx y hy e; subst e; exact hq (hr.disj q p x hx (hmem x hy))
      refine cyc_frame (hr.cyc q) ?_ ?_
      · intro x hx; rw [hu1, upd_ne _ _ (hne x hx z hz)]
      · intro x hx; rw [hu2, upd_ne _ _ (hne x hx a (by simp))]

/-- `fiboHeapLinkAfter` after the first node of a ring. -/
theorem linkAfter_rings {h : Heap} {rg : Int → List Int} (hr : Rings h.next h.prev rg) {q o n : Int} {l : List Int} (hq : rg q = o :: l)
    (hn : ∀ p, n ∉ rg p) :
    Rings (linkAfter h o n).next (linkAfter h o n).prev (upd rg q (o :: n :: l)) ∧ (∀ x, x ≠ o → x ≠ n → (linkAfter h o n).next x = h.next x) := by
  have hcyc : Seg h.next h.prev o l o := by
    have := hr.cyc q
    rw [hq] at this; exact this
  have hnd := hr.nodup q
  rw [hq] at hnd
  have hno : n ≠ o := by
    intro e; subst e; exact hn q (by rw [hq]; simp)
  have hu1 : (linkAfter h o n).next = upd (upd h.next n (h.next o)) o n := rfl
  have hu2 : (linkAfter h o n).prev = upd (upd h.prev n o) (h.next o) n := rfl
  have hfr : ∀ x, x ≠ o → x ≠ n → (linkAfter h o n).next x = h.next x := by
    intro x h1 h2; rw [hu1, upd_ne _ _ h1, upd_ne _ _ h2]
  refine ⟨⟨?_, ?_, ?_⟩, hfr⟩
  · intro p
    by_cases hp : p = q
    · subst hp
      rw [upd_same]
      cases l with
      | nil =>
        have h1 : h.next o = o := hcyc.1
        rw [h1] at hu1 hu2
        refine ⟨?_, ?_, ?_, ?_⟩
        · rw [hu1, upd_same]
        · rw [hu2, upd_ne _ _ hno, upd_same]
        · rw [hu1, upd_ne _ _ hno, upd_same]
        · rw [hu2, upd_same]
      | cons y l =>
        obtain ⟨c1, c2, c3⟩ := hcyc
        rw [c1] at hu1 hu2
        have hny : n ≠ y := by intro e; subst e; exact hn p (by rw [hq]; simp)
        have hnl : ∀ x ∈ l, x ≠ n := by intro x hx e; subst e; exact hn p (by rw [hq]; simp [hx])
        have hnd1 := List.nodup_cons.1 hnd
        have hnd2 := List.nodup_cons.1 hnd1.2
        refine ⟨?_, ?_, ?_, ?_, seg_frame c3 ?_ ?_⟩
        · rw [hu1, upd_same]
        · rw [hu2, upd_ne _ _ hny, upd_same]
        · rw [hu1, upd_ne _ _ hno, upd_same]
        · rw [hu2, upd_same]
        · rintro x (rfl | hx)
          · rw [hu1, upd_ne, upd_ne _ _ (fun e => hny e.symm)]
            intro e; subst e; exact hnd1.1 (by simp)
          · rw [hu1, upd_ne, upd_ne _ _ (hnl x hx)]
            intro e; subst e; exact hnd1.1 (by simp [hx])
        · rintro x (rfl | hx)
          · rw [hu2, upd_ne, upd_ne _ _ (fun e => hno e.symm)]
            intro e; subst e; exact hnd1.1 (by simp)
          · rw [hu2, upd_ne, upd_ne _ _ (hnl x hx)]
            intro e; subst e; exact hnd2.1 hx
    · rw [upd_ne _ _ hp]
      have hnex : h.next o ∈ rg q := by
        rw [hq]
        cases l with
        | nil => rw [hcyc.1]; simp
        | cons y l => rw [hcyc.1]; simp
      refine cyc_frame (hr.cyc p) ?_ ?_
      · intro x hx
        exact hfr x (by intro e; subst e; exact hp (hr.disj p q x hx (by rw [hq]; simp))) (by intro e; subst e; exact hn p hx)
      · intro x hx
        rw [hu2, upd_ne, upd_ne _ _ (by intro e; subst e; exact hn p hx)]
        intro e; subst e; exact hp (hr.disj p q _ hx hnex)
  · intro p
    by_cases hp : p = q
    · subst hp
      rw [upd_same]
      have hnd1 := List.nodup_cons.1 hnd
      refine List.nodup_cons.2 ⟨?_, List.nodup_cons.2 ⟨?_, hnd1.2⟩⟩
      · simp only [List.mem_cons, not_or]; exact ⟨fun e => hno e.symm, hnd1.1⟩
      · intro hx; exact hn p (by rw [hq]; simp [hx])
    · rw [upd_ne _ _ hp]; exact hr.nodup p
  · intro p r x h1 h2
    have hm : ∀ p, x ∈ upd rg q (o :: n :: l) p → x ∈ rg p ∨ (p = q ∧ x = n) := by
      intro p hx
      by_cases hp : p = q
      · subst hp
        rw [upd_same] at hx
        rw [hq]
        simp only [List.mem_cons] at hx ⊢
        rcases hx with hx | hx | hx
        · exact Or.inl (Or.inl hx)
        · exact Or.inr ⟨trivial, hx⟩
        · exact Or.inl (Or.inr hx)
      · rw [upd_ne _ _ hp] at hx; exact Or.inl hx
    rcases hm p h1 with a | ⟨a, b⟩
    · rcases hm r h2 with c | ⟨c, d⟩
      · exact hr.disj p r x a c
      · exact absurd a (by rw [d]; exact hn p)
    · rcases hm r h2 with c | ⟨c, d⟩
      · exact absurd c (by rw [b]; exact hn r)
      · rw [a, c]

/-- New ring. -/
theorem self_rings {nx pv : Int → Int} {rg : Int → List Int} (hr : Rings nx pv rg) {q n : Int} (hq : rg q = []) (hn : ∀ p, n ∉ rg p) :
    Rings (upd nx n n) (upd pv n n) (upd rg q [n]) := by
  refine ⟨?_, ?_, ?_⟩
  · intro p
    by_cases hp : p = q
    · subst hp
      rw [upd_same]
      exact ⟨upd_same _ _ _, upd_same _ _ _⟩
    · rw [upd_ne _ _ hp]
      refine cyc_frame (hr.cyc p) ?_ ?_
      · intro x hx; rw [upd_ne]; intro e; subst e; exact hn p hx
      · intro x hx; rw [upd_ne]; intro e; subst e; exact hn p hx
  · intro p
    by_cases hp : p = q
    · subst hp; rw [upd_same]; simp
    · rw [upd_ne _ _ hp]; exact hr.nodup p
  · intro p r x h1 h2
    have hm : ∀ p, x ∈ upd rg q [n] p → x ∈ rg p ∨ (p = q ∧ x = n) := by
      intro p hx
      by_cases hp : p = q
      · subst hp
        rw [upd_same] at hx
        exact Or.inr ⟨rfl, by simpa using hx⟩
      · rw [upd_ne _ _ hp] at hx; exact Or.inl hx
    rcases hm p h1 with a | ⟨a, b⟩
    · rcases hm r h2 with c | ⟨c, d⟩
      · exact hr.disj p r x a c
      · exact absurd a (by rw [d]; exact hn p)
    · rcases hm r h2 with c | ⟨c, d⟩
      · exact absurd c (by rw [b]; exact hn r)
      · rw [a, c]

/-- Forgetting a ring. -/
theorem drop_rings {nx pv : Int → Int} {rg : Int → List Int} (hr : Rings nx pv rg) (q : Int) : Rings nx pv (upd rg q []) := by
  have hm : ∀ p x, x ∈ upd rg q [] p → x ∈ rg p := by
    intro p x hx
    by_cases hp : p = q
    · subst hp; rw [upd_same] at hx; simp at hx
    · rw [upd_ne _ _ hp] at hx; exact hx
  refine ⟨?_, ?_, fun p r x h1 h2 => hr.disj p r x (hm p x h1) (hm r x h2)⟩
  · intro p
    by_cases hp : p = q
    · subst hp; rw [upd_same]; trivial
    · rw [upd_ne _ _ hp]; exact hr.cyc p
  · intro p
    by_cases hp : p = q
    · subst hp; rw [upd_same]; simp
    · rw [upd_ne _ _ hp]; exact hr.nodup p

end Scotch.Fibo
