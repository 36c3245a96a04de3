import Verif.Thread.Collective

set_option autoImplicit false
set_option linter.unusedSimpArgs false

namespace Scotch.Thread

section general
variable {α : Type} {f : α → α → α} {n : Nat}

theorem exec_dst (o : Op) (m : Mem α) :
    o.exec f m o.dst = match o.b with | none => m o.a | some b => f (m o.a) (m b) := by
  unfold Op.exec
  cases o.b <;> simp

theorem exec_ne (o : Op) (m : Mem α) {x : Loc} (h : x ≠ o.dst) : o.exec f m x = m x := by
  simp [Op.exec, h]

/-- What a thread does only depends on the locations that it reads, if no other thread writes them. -/
theorem inter_local {p : Nat → List Op} {l : List Op} (h : Inter n p l) :
    ∀ (S : Loc → Prop) (t : Nat) (m m' : Mem α), t < n →
      (∀ u, u < n → u ≠ t → ∀ o ∈ p u, ¬ S o.dst) →
      (∀ o ∈ p t, ∀ x ∈ o.reads, S x) →
      (∀ x, S x → m x = m' x) →
      ∀ x, S x → execs f l m x = execs f (p t) m' x := by
  induction h with
  | done p hp =>
    intro S t m m' ht _ _ hm x hx
    rw [hp t ht]
    exact hm x hx
  | next p i o rest l hi hpi _ ih =>
    intro S t m m' ht ho hr hm x hx
    by_cases hit : i = t
    · subst hit
      rw [hpi] at hr ⊢
      simp only [execs]
      have := ih S i (o.exec f m) (o.exec f m') ht ?_ ?_ ?_ x hx
      · rw [this]; simp [setP]
      · intro u hu hui o' ho'
        simp only [setP, hui, if_false] at ho'
        exact ho u hu hui o' ho'
      · intro o' ho'
        simp only [setP, if_true] at ho'
        exact hr o' (List.mem_cons_of_mem _ ho')
      · intro y hy
        by_cases hyd : y = o.dst
        · subst hyd
          rw [exec_dst, exec_dst]
          have ha : S o.a := hr o (by simp) o.a (by simp [Op.reads])
          cases hb : o.b with
          | none => simp only [hm _ ha]
          | some b =>
            have hb' : S b := hr o (by simp) b (by simp [Op.reads, hb])
            simp only [hm _ ha, hm _ hb']
        · rw [exec_ne _ _ hyd, exec_ne _ _ hyd]; exact hm y hy
    · simp only [execs]
      have hti : t ≠ i := fun e => hit e.symm
      have := ih S t (o.exec f m) m' ht ?_ ?_ ?_ x hx
      · rw [this]; simp [setP, hti]
      · intro u hu hut o' ho'
        by_cases hui : u = i
        · subst hui
          simp only [setP, if_true] at ho'
          exact ho u hu hut o' (by rw [hpi]; exact List.mem_cons_of_mem _ ho')
        · simp only [setP, hui, if_false] at ho'
          exact ho u hu hut o' ho'
      · intro o' ho'
        simp only [setP, hti, if_false] at ho'
        exact hr o' ho'
      · intro y hy
        have hyd : y ≠ o.dst := by
          intro e
          exact ho i hi hit o (by rw [hpi]; simp) (e ▸ hy)
        rw [exec_ne _ _ hyd]; exact hm y hy

/-- Value of a location after a segment: location `x` is not written by other threads than `t`. -/
theorem seg_val {p : Nat → List Op} {l : List Op} (h : Inter n p l) (m : Mem α) {t : Nat} (ht : t < n) (x : Loc)
    (hx : ∀ u, u < n → u ≠ t → ∀ o ∈ p u, o.dst ≠ x)
    (hrace : ∀ u, u < n → u ≠ t → ∀ o ∈ p u, ∀ o' ∈ p t, o.dst ∉ o'.reads) :
    execs f l m x = execs f (p t) m x := by
  refine inter_local h (fun y => y = x ∨ ∃ o' ∈ p t, y ∈ o'.reads) t m m ht ?_ ?_ (fun _ _ => rfl) x (Or.inl rfl)
  · intro u hu hut o ho hs
    rcases hs with hs | ⟨o', ho', hs⟩
    · exact hx u hu hut o ho hs
    · exact hrace u hu hut o ho o' ho' hs
  · intro o ho y hy
    exact Or.inr ⟨o, ho, hy⟩

/-- There is always an interleaving. -/
theorem inter_exists (n : Nat) : ∀ (k : Nat) (p : Nat → List Op), (∀ i, n ≤ i → p i = []) →
    ((List.range n).map fun i => (p i).length).sum = k → ∃ l, Inter n p l := by
  intro k
  induction k with
  | zero =>
    intro p _ hk
    refine ⟨[], .done p ?_⟩
    intro i hi
    rw [List.sum_eq_zero_iff_forall_eq_nat] at hk
    have := hk (p i).length (List.mem_map.2 ⟨i, List.mem_range.2 hi, rfl⟩)
    exact List.length_eq_zero_iff.1 this
  | succ k ih =>
    intro p hp hk
    have : ∃ i, i < n ∧ p i ≠ [] := by
      apply Classical.byContradiction
      intro hc
      have : ((List.range n).map fun i => (p i).length).sum = 0 := by
        rw [List.sum_eq_zero_iff_forall_eq_nat]
        intro x hx
        obtain ⟨i, hi, rfl⟩ := List.mem_map.1 hx
        apply Classical.byContradiction
        intro hne
        exact hc ⟨i, List.mem_range.1 hi, fun e => hne (by rw [e]; rfl)⟩
      omega
    obtain ⟨i, hi, hne⟩ := this
    cases hpi : p i with
    | nil => exact absurd hpi hne
    | cons o rest =>
      suffices hx : ∃ l, Inter n (setP p i rest) l by
        obtain ⟨l, hl⟩ := hx
        exact ⟨o :: l, .next p i o rest l hi hpi hl⟩
      apply ih
      · intro j hj
        have : j ≠ i := by omega
        simp only [setP, this, if_false]
        exact hp j hj
      · have key : ∀ m, i < m → ((List.range m).map fun j => (p j).length).sum =
            ((List.range m).map fun j => (setP p i rest j).length).sum + 1 := by
          intro m
          induction m with
          | zero => intro h; omega
          | succ m ihm =>
            intro him
            rw [List.range_succ, List.map_append, List.map_append, List.sum_append, List.sum_append]
            by_cases hmi : i = m
            · subst hmi
              have : (List.range i).map (fun j => (p j).length) = (List.range i).map (fun j => (setP p i rest j).length) := by
                apply List.map_congr_left
                intro j hj
                have : j ≠ i := by have := List.mem_range.1 hj; omega
                simp [setP, this]
              rw [this]
              simp [setP, hpi]
              omega
            · have := ihm (by omega)
              have hmi' : m ≠ i := fun e => hmi e.symm
              simp only [List.map_cons, List.map_nil, List.sum_cons, List.sum_nil, setP, hmi', if_false] at this ⊢
              omega
        have := key n hi
        omega

theorem inter_congr {p q : Nat → List Op} {l : List Op} (h : Inter n p l) : (∀ i, i < n → p i = q i) → Inter n q l := by
  induction h generalizing q with
  | done p hp => intro hq; exact .done q (fun i hi => by rw [← hq i hi]; exact hp i hi)
  | next p i o rest l hi hpi _ ih =>
    intro hq
    refine .next q i o rest l hi (by rw [← hq i hi]; exact hpi) (ih ?_)
    intro j hj
    by_cases h : j = i <;> simp [setP, h, hq j hj]

/-- When all threads go through the same number of barriers, there is an execution. -/
theorem runs_exists (f : α → α → α) : ∀ (k : Nat) (p : Nat → List (List Op)) (m : Mem α), (∀ i, i < n → (p i).length = k) →
    ∃ m', Runs n f p m m' := by
  intro k
  induction k with
  | zero =>
    intro p m h
    exact ⟨m, .done p m fun i hi => List.length_eq_zero_iff.1 (h i hi)⟩
  | succ k ih =>
    intro p m h
    obtain ⟨l, hl⟩ := inter_exists n _ (fun i => if i < n then (p i).headD [] else []) (by
      intro i hi; have : ¬ i < n := by omega
      simp [this]) rfl
    have hl' : Inter n (fun i => (p i).headD []) l := inter_congr hl (by intro i hi; simp [hi])
    obtain ⟨m', hm'⟩ := ih (fun i => (p i).tail) (execs f l m) (by intro i hi; simp [h i hi])
    refine ⟨m', .seg p l m m' ?_ hl' hm'⟩
    intro i hi e
    have := h i hi
    rw [e] at this
    simp at this

theorem runs_congr {f : α → α → α} {p q : Nat → List (List Op)} {m m' : Mem α} (h : Runs n f p m m') :
    (∀ i, i < n → p i = q i) → Runs n f q m m' := by
  induction h generalizing q with
  | done p m hp => intro hq; exact .done q m (fun i hi => by rw [← hq i hi]; exact hp i hi)
  | seg p l m m' hne hint _ ih =>
    intro hq
    refine .seg q l m m' (fun i hi => by rw [← hq i hi]; exact hne i hi) (inter_congr hint ?_) (ih ?_)
    · intro i hi; simp only [hq i hi]
    · intro i hi; simp only [hq i hi]

/-- Decomposition of an execution whose threads have a first segment. -/
theorem runs_cons (hn : 0 < n) {f : α → α → α} {p : Nat → List (List Op)} {s : Nat → List Op} {q : Nat → List (List Op)} {m m' : Mem α}
    (h : Runs n f p m m') (hp : ∀ i, i < n → p i = s i :: q i) : ∃ l, Inter n s l ∧ Runs n f q (execs f l m) m' := by
  cases h with
  | done _ _ h0 => have := h0 0 hn; rw [hp 0 hn] at this; cases this
  | seg _ l _ _ hne hint hr =>
    refine ⟨l, inter_congr hint ?_, runs_congr hr ?_⟩
    · intro i hi; simp [hp i hi]
    · intro i hi; simp [hp i hi]

theorem runs_nil {f : α → α → α} {p : Nat → List (List Op)} {m m' : Mem α} (hn : 0 < n)
    (h : Runs n f p m m') (hp : ∀ i, i < n → p i = []) : m' = m := by
  cases h with
  | done _ _ _ => rfl
  | seg _ _ _ _ hne _ _ => exact absurd (hp 0 hn) (hne 0 hn)

theorem inter_empty {p : Nat → List Op} {l : List Op} (h : Inter n p l) (hp : ∀ i, i < n → p i = []) : l = [] := by
  cases h with
  | done => rfl
  | next _ i o rest l hi hpi _ => rw [hp i hi] at hpi; cases hpi

theorem foldFrom_add {op : α → α → α} (ha : ∀ x y z, op (op x y) z = op x (op y z)) (c : Nat → α) (a i : Nat) :
    ∀ j, op (foldFrom op c a i) (foldFrom op c (a + (i + 1)) j) = foldFrom op c a (i + 1 + j) := by
  intro j
  induction j with
  | zero => rfl
  | succ j ih =>
    show op _ (op _ _) = op _ _
    rw [← ha, ih]
    rw [show a + (i + 1) + (j + 1) = a + (i + 1 + j + 1) by omega]
    rfl

end general

end Scotch.Thread
