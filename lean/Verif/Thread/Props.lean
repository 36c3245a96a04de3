import Verif.Thread.LemmasBarrier
import Verif.Thread.LemmasScan

/-!
# Threads: properties C34 and C35
-/

set_option autoImplicit false
set_option linter.unusedSimpArgs false

namespace Scotch.Thread
variable {n : Nat}

/-- Execution of a list of transitions. -/
def runActs (W : Nat) (s : St n) : List (Act n) → Option (St n)
  | [] => some s
  | a :: l => match step W s a with
    | none => none
    | some s' => runActs W s' l

theorem runActs_reach {W : Nat} : ∀ (l : List (Act n)) (s s' : St n), Reach W s → runActs W s l = some s' → Reach W s' := by
  intro l
  induction l with
  | nil => intro s s' h e; cases e; exact h
  | cons a l ih =>
    intro s s' h e
    simp only [runActs] at e
    split at e
    · cases e
    · rename_i s1 h1
      exact ih s1 s' (.step s s1 a h h1) e

/-- **C34.** Whatever the interleaving of the threads and the spurious wake-ups, a thread leaves its `k`-th barrier only if all threads
have entered their own `k`-th barrier; and a thread is never more than one barrier ahead. -/
theorem C34_barrier {W : Nat} (hW : 2 ≤ W) {s : St n} (h : Reach W s) :
    (∀ i j, (s.th i).left ≤ (s.th j).ent) ∧ ∀ i, (s.th i).left ≤ (s.th i).ent ∧ (s.th i).ent ≤ (s.th i).left + 1 := by
  obtain ⟨r, hr⟩ := reach_inv hW h
  have key : ∀ i, ((s.th i).left = r ∨ (s.th i).left + 1 = r) ∧ ((s.th i).ent = r ∨ (s.th i).ent = r + 1) ∧
      (s.th i).left ≤ (s.th i).ent ∧ (s.th i).ent ≤ (s.th i).left + 1 := by
    intro i
    have hT := hr.th i
    unfold TOk at hT
    cases hp : (s.th i).pc <;> rw [hp] at hT <;> simp only at hT <;> omega
  refine ⟨?_, fun i => (key i).2.2⟩
  intro i j
  have h1 := key i
  have h2 := key j
  omega

/-- **C34.** For each barrier that has been left by all threads, exactly one thread has got `PTHREAD_BARRIER_SERIAL_THREAD`, and the others
have got 0. -/
theorem C34_serial {W : Nat} (hW : 2 ≤ W) (hn : 2 ≤ n) {s : St n} (h : Reach W s) {k : Nat} (hk : ∀ j, k < (s.th j).left) :
    ∃ i0, ∀ j, (s.th j).rets[k]? = some (if j = i0 then SERIAL else 0) := by
  obtain ⟨r, hr⟩ := reach_inv hW h
  have hkr : k < r := by
    have h0 := hk ⟨0, by omega⟩
    have hT := hr.th ⟨0, by omega⟩
    unfold TOk at hT
    cases hp : (s.th ⟨0, by omega⟩).pc <;> rw [hp] at hT <;> simp only at hT <;> omega
  obtain ⟨i0, hi0⟩ := hr.his k hkr
  refine ⟨i0, ?_⟩
  intro j
  have hj := hk j
  unfold Th.left at hj
  have := (hi0 j).1 ((s.th j).rets[k]) (List.getElem?_eq_getElem hj)
  rw [List.getElem?_eq_getElem hj, this]

/-- **C34.** No deadlock and no lost wake-up: as long as all threads are inside the barrier, or own the mutex, some
thread can execute its next statement (without any spurious wake-up). -/
theorem C34_no_deadlock {W : Nat} (hW : 2 ≤ W) (hn : 2 ≤ n) {s : St n} (h : Reach W s) (hin : ∀ i, (s.th i).pc ≠ .out) :
    ∃ i, (step W s (.run i)).isSome ∨ (step W s (.client i)).isSome := by
  obtain ⟨r, hr⟩ := reach_inv hW h
  cases hl : s.lock with
  | some i =>
    have hi := (hr.lock i).2 hl
    refine ⟨i, ?_⟩
    cases hp : (s.th i).pc <;> rw [hp] at hi <;> simp only [holder, Bool.false_eq_true] at hi
    · right; simp [step, hp]
    · left; simp [step, runTh, hp]
    · left; simp only [step, runTh, hp]; split <;> rfl
    · left; simp [step, runTh, hp]
    · left; simp [step, runTh, hp]
    · left; simp [step, runTh, hp]
    · left; simp [step, runTh, hp]
    · left; simp only [step, runTh, hp]; split <;> rfl
  | none =>
    have hfree := hr.free hl
    -- threads are all at `w1` or `w2`
    have hw : ∀ i, (s.th i).pc = .w1 ∨ (s.th i).pc = .w2 := by
      intro i
      have h1 := hfree i
      have h2 := hin i
      cases hp : (s.th i).pc <;> rw [hp] at h1 h2 <;> simp [holder] at h1 h2 ⊢
    by_cases h2 : ∃ i, (s.th i).pc = .w2
    · obtain ⟨i, hi⟩ := h2
      exact ⟨i, Or.inl (by simp [step, runTh, hi, hl])⟩
    · exfalso
      have hall : ∀ i, (s.th i).pc = .w1 := fun i => (hw i).resolve_right (fun e => h2 ⟨i, e⟩)
      have hent : ∀ i, (s.th i).ent = r + 1 := by
        intro i
        have hT := hr.th i
        unfold TOk at hT
        rw [hall i] at hT
        simp only at hT
        obtain ⟨_, _, _, h4⟩ := hT
        rcases h4 with h4 | ⟨_, j, hj⟩
        · exact h4
        · rw [hall j] at hj; cases hj
      have hcnt := hr.cnt (fun j => by rw [hall j]; simp)
      have hfull : counted r s = Finset.univ := by
        unfold counted
        apply Finset.filter_true_of_mem
        intro i _
        rw [hall i]
        exact ⟨rfl, hent i⟩
      -- the counter would be equal to the number of threads, which the last thread prevents
      rw [hfull, Finset.card_univ, Fintype.card_fin] at hcnt
      have := barr_lt hW hn h
      omega

example : ((runActs 4 (init (n := 2) fun _ => (7, 7, 7))
    [.run 0, .run 0, .run 0, .run 0, .spurious 0, .run 0, .run 0, .run 0, .run 1, .run 1, .run 1, .run 1, .run 1, .run 1, .run 0, .run 0, .run 0]).map
      fun s => ((s.th 0).rets ++ (s.th 1).rets, (s.th 0).ent)) = some ([0, -1], 1) := by decide +kernel

/-! ## Reductions and scans -/

section collective
variable {α : Type} {op : α → α → α}

/-- **C35.** Canonical reduction: each thread goes through the same number of barriers, accesses cells of the group
only, without data races. -/
theorem C35_reduce_canonical_safe {n root : Nat} (hr : root < n) :
    SameBarriers n (fun t => reduceCan n root t t) ∧ RaceFree n (fun t => reduceCan n root t t) ∧
    InCells n (fun t => reduceCan n root t t) := by
  by_cases hn : 1 < n
  · refine ⟨?_, ?_, ?_⟩
    · intro t u _ _
      dsimp only
      rw [reduceCan_eq hn, reduceCan_eq hn, List.length_cons, List.length_cons, rTail_length]
    · exact raceFree_cons (s := fun _ => []) (q := fun t => rTail n root t n (2 ^ 0) ((t + n - root) % n))
        (fun t _ => reduceCan_eq hn) (by intro t u _ _ _ o ho; simp at ho) (rTail_race hr n 0 _ (rInv_init hr))
    · exact inCells_cons (s := fun _ => []) (q := fun t => rTail n root t n (2 ^ 0) ((t + n - root) % n))
        (fun t _ => reduceCan_eq hn) (by intro t _ o ho; simp at ho) (rTail_cells hr n 0 _ (rInv_init hr))
  · have h0 : ∀ t, t < n → reduceCan n root t t = [] := by intro t _; unfold reduceCan; rw [if_pos (by omega)]
    refine ⟨?_, raceFree_nil h0, inCells_nil h0⟩
    intro t u ht hu
    dsimp only
    rw [h0 t ht, h0 u hu]

/-- **C35.** Canonical reduction: for any associative operation, any number of threads, any root and any interleaving, the root
ends with the combination of the initial values of all threads, in the order of ranks starting from the root. -/
theorem C35_reduce_canonical (ha : ∀ x y z, op (op x y) z = op x (op y z)) {n root : Nat} (hr : root < n) {m m' : Mem α}
    (h : Runs n op (fun t => reduceCan n root t t) m m') :
    m' ((root : Int), 0) = foldFrom op (fun q => m (((root + q) % n : Nat), 0)) 0 (n - 1) := by
  by_cases hn : 1 < n
  · obtain ⟨l, hl, h2⟩ := runs_cons (by omega) (s := fun _ => []) (q := fun t => rTail n root t n (2 ^ 0) ((t + n - root) % n)) h
      (fun t _ => reduceCan_eq hn)
    rw [inter_empty hl (fun _ _ => rfl)] at h2
    refine rTail_val ha hr _ n 0 _ _ m' (rInv_init hr) ?_ (by omega) h2
    intro q hq _
    simp only [execs, Nat.pow_zero]
    rw [show min 1 (n - q) - 1 = 0 by omega]
    simp only [foldFrom]
    rw [Nat.add_comm, thr_eq hr hq]
  · have h0 : ∀ t, t < n → reduceCan n root t t = [] := by intro t _; unfold reduceCan; rw [if_pos (by omega)]
    rw [runs_nil (by omega) h h0]
    rw [show n - 1 = 0 by omega]
    simp only [foldFrom]
    rw [Nat.add_zero, Nat.mod_eq_of_lt hr]

/-- **C35.** Default reduction: same properties. -/
theorem C35_reduce_default_safe {n root : Nat} (hr : root < n) :
    SameBarriers n (fun t => reduceSeq n root t t) ∧ RaceFree n (fun t => reduceSeq n root t t) ∧
    InCells n (fun t => reduceSeq n root t t) := by
  by_cases hn : 1 < n
  · have h1 : ∀ t, t < n → reduceSeq n root t t = [[], if t = root then reduceRoot n root (root : Nat) (n - 1) 1 else []] := by
      intro t _
      unfold reduceSeq
      rw [if_neg (by omega)]
      by_cases e : t = root
      · subst e; rfl
      · simp [e]
    refine ⟨?_, ?_, ?_⟩
    · intro t u ht hu
      dsimp only
      rw [h1 t ht, h1 u hu]; rfl
    · refine raceFree_cons (s := fun _ => []) (q := fun t => [if t = root then reduceRoot n root (root : Nat) (n - 1) 1 else []]) h1 ?_
        (raceFree_cons (s := fun t => if t = root then reduceRoot n root (root : Nat) (n - 1) 1 else []) (q := fun _ => []) (fun _ _ => rfl) ?_
          (raceFree_nil (fun _ _ => rfl)))
      · intro t u _ _ _ o ho; simp at ho
      · intro t u ht hu htu o ho o' ho'
        by_cases e : t = root
        · have e' : u ≠ root := by omega
          simp [e'] at ho'
        · simp [e] at ho
    · refine inCells_cons (s := fun _ => []) (q := fun t => [if t = root then reduceRoot n root (root : Nat) (n - 1) 1 else []]) h1 ?_
        (inCells_cons (s := fun t => if t = root then reduceRoot n root (root : Nat) (n - 1) 1 else []) (q := fun _ => []) (fun _ _ => rfl) ?_
          (inCells_nil (fun _ _ => rfl)))
      · intro t _ o ho; simp at ho
      · intro t ht o ho x hx
        by_cases e : t = root
        · simp only [e, if_true] at ho
          obtain ⟨j, _, _, rfl⟩ := reduceRoot_mem _ _ _ ho
          have hm : (root + j) % n < n := Nat.mod_lt _ (by omega)
          simp only [Op.reads, Option.toList, List.mem_cons, List.not_mem_nil, or_false] at hx
          rcases hx with rfl | rfl | rfl <;> simp only <;> omega
        · simp [e] at ho
  · have h0 : ∀ t, t < n → reduceSeq n root t t = [] := by intro t _; unfold reduceSeq; rw [if_pos (by omega)]
    refine ⟨?_, raceFree_nil h0, inCells_nil h0⟩
    intro t u ht hu
    dsimp only
    rw [h0 t ht, h0 u hu]

/-- **C35.** Default reduction: same result as the canonical one (even if the operation is not associative); other cells are unchanged. -/
theorem C35_reduce_default {n root : Nat} (hr : root < n) {m m' : Mem α}
    (h : Runs n op (fun t => reduceSeq n root t t) m m') :
    m' ((root : Int), 0) = foldFrom op (fun q => m (((root + q) % n : Nat), 0)) 0 (n - 1) ∧
    ∀ t : Nat, t < n → t ≠ root → m' ((t : Int), 0) = m ((t : Int), 0) := by
  by_cases hn : 1 < n
  · have h1 : ∀ t, t < n → reduceSeq n root t t = [[], if t = root then reduceRoot n root (root : Nat) (n - 1) 1 else []] := by
      intro t _
      unfold reduceSeq
      rw [if_neg (by omega)]
      by_cases e : t = root
      · subst e; rfl
      · simp [e]
    obtain ⟨l, hl, h2⟩ := runs_cons (by omega) (s := fun _ => []) (q := fun t => [if t = root then reduceRoot n root (root : Nat) (n - 1) 1 else []]) h h1
    rw [inter_empty hl (fun _ _ => rfl)] at h2
    obtain ⟨l', hl', h3⟩ := runs_cons (by omega) (s := fun t => if t = root then reduceRoot n root (root : Nat) (n - 1) 1 else [])
      (q := fun _ => []) h2 (fun _ _ => rfl)
    rw [runs_nil (by omega) h3 (fun _ _ => rfl)]
    simp only [execs]
    have hd : ∀ o ∈ reduceRoot n root (root : Nat) (n - 1) 1, o.dst = ((root : Int), 0) := by
      intro o ho
      obtain ⟨j, _, _, rfl⟩ := reduceRoot_mem _ _ _ ho
      rfl
    refine ⟨?_, ?_⟩
    · rw [seg_val hl' m hr]
      · simp only [if_true]
        rw [reduceRoot_val hr m (n - 1) 1 m (by omega) (by omega) (fun _ _ => rfl)]
        · congr 1
          omega
        · simp only [Nat.sub_self, foldFrom]; rw [Nat.add_zero, Nat.mod_eq_of_lt hr]
      · intro u _ hu o ho; simp [hu] at ho
      · intro u _ hu o ho; simp [hu] at ho
    · intro t ht htr
      have := inter_local (f := op) hl' (fun x => x = ((t : Int), 0)) t m m ht ?_ ?_ (fun _ _ => rfl) ((t : Int), 0) rfl
      · rw [this]; simp [htr, execs]
      · intro u _ _ o ho e
        by_cases hur : u = root
        · simp only [hur, if_true] at ho
          rw [hd o ho] at e
          simp only [Prod.mk.injEq] at e
          omega
        · simp [hur] at ho
      · intro o ho; simp [htr] at ho
  · have h0 : ∀ t, t < n → reduceSeq n root t t = [] := by intro t _; unfold reduceSeq; rw [if_pos (by omega)]
    rw [runs_nil (by omega) h h0]
    rw [show n - 1 = 0 by omega]
    refine ⟨?_, fun _ _ _ => rfl⟩
    simp only [foldFrom]
    rw [Nat.add_zero, Nat.mod_eq_of_lt hr]

/-- **C35.** Canonical scan: same number of barriers, accesses inside the cells, no data race — including between the last turn and the
final move of the results, which no barrier separates. -/
theorem C35_scan_canonical_safe (n : Nat) :
    SameBarriers n (fun t => scanCan n t t) ∧ RaceFree n (fun t => scanCan n t t) ∧ InCells n (fun t => scanCan n t t) := by
  by_cases hn : 1 < n
  · refine ⟨?_, ?_, ?_⟩
    · intro t u _ _
      dsimp only
      rw [scanCan_eq hn, scanCan_eq hn, List.length_cons, List.length_cons, sTail_length]
    · exact raceFree_cons (s := fun _ => []) (q := fun t => sTail n t (n + 1) 0)
        (fun t _ => scanCan_eq hn) (by intro t u _ _ _ o ho; simp at ho) (sTail_race n _ _)
    · exact inCells_cons (s := fun _ => []) (q := fun t => sTail n t (n + 1) 0)
        (fun t _ => scanCan_eq hn) (by intro t _ o ho; simp at ho) (sTail_cells n _ _)
  · have h0 : ∀ t, t < n → scanCan n t t = [] := by intro t _; unfold scanCan; rw [if_pos (by omega)]
    refine ⟨?_, raceFree_nil h0, inCells_nil h0⟩
    intro t u ht hu
    dsimp only
    rw [h0 t ht, h0 u hu]

/-- **C35.** Canonical scan: for any associative operation, any number of threads and any interleaving, each thread ends with the
combination of the initial values of the threads of rank lower than or equal to its own. The user function gets the local value first and the
remote one, of lower rank, second. -/
theorem C35_scan_canonical (ha : ∀ x y z, op (op x y) z = op x (op y z)) {n : Nat} {m m' : Mem α}
    (h : Runs n (fun a b => op b a) (fun t => scanCan n t t) m m') {t : Nat} (ht : t < n) :
    m' ((t : Int), 0) = foldFrom op (fun q => m ((q : Int), 0)) 0 t := by
  by_cases hn : 1 < n
  · obtain ⟨l, hl, h2⟩ := runs_cons (by omega) (s := fun _ => []) (q := fun t => sTail n t (n + 1) 0) h (fun t _ => scanCan_eq hn)
    rw [inter_empty hl (fun _ _ => rfl)] at h2
    refine sTail_val ha _ (n + 1) 0 _ m' ?_ (by omega) (by omega) h2 t ht
    intro u hu
    refine ⟨?_, ?_⟩
    · simp only [execs, sF, Nat.pow_zero, Nat.zero_mod]
      rw [show min 1 (u + 1) = 1 by omega]
      simp [foldFrom]
    · intro hc; exfalso; apply hc; unfold act; omega
  · have h0 : ∀ t, t < n → scanCan n t t = [] := by intro t _; unfold scanCan; rw [if_pos (by omega)]
    rw [runs_nil (by omega) h h0]
    rw [show t = 0 by omega]
    rfl

/-- **C35.** Default scan: same properties and same result, for any operation. -/
theorem C35_scan_default {n : Nat} :
    SameBarriers n (fun t => scanSeq n t t) ∧ RaceFree n (fun t => scanSeq n t t) ∧ InCells n (fun t => scanSeq n t t) ∧
    ∀ (m m' : Mem α), Runs n (fun a b => op b a) (fun t => scanSeq n t t) m m' →
      ∀ t : Nat, t < n → m' ((t : Int), 0) = foldFrom op (fun q => m ((q : Int), 0)) 0 t := by
  by_cases hn : 1 < n
  · have h1 : ∀ t, t < n → scanSeq n t t = [[], if t = 0 then scanRoot (n - 1) ((0 : Nat) : Int) else []] := by
      intro t _
      unfold scanSeq
      rw [if_neg (by omega)]
      by_cases e : t = 0
      · subst e; rfl
      · simp [e]
    refine ⟨?_, ?_, ?_, ?_⟩
    · intro t u ht hu
      dsimp only
      rw [h1 t ht, h1 u hu]; rfl
    · refine raceFree_cons (s := fun _ => []) (q := fun t => [if t = 0 then scanRoot (n - 1) ((0 : Nat) : Int) else []]) h1 ?_
        (raceFree_cons (s := fun t => if t = 0 then scanRoot (n - 1) ((0 : Nat) : Int) else []) (q := fun _ => []) (fun _ _ => rfl) ?_
          (raceFree_nil (fun _ _ => rfl)))
      · intro t u _ _ _ o ho; simp at ho
      · intro t u ht hu htu o ho o' ho'
        by_cases e : t = 0
        · have e' : u ≠ 0 := by omega
          simp [e'] at ho'
        · simp [e] at ho
    · refine inCells_cons (s := fun _ => []) (q := fun t => [if t = 0 then scanRoot (n - 1) ((0 : Nat) : Int) else []]) h1 ?_
        (inCells_cons (s := fun t => if t = 0 then scanRoot (n - 1) ((0 : Nat) : Int) else []) (q := fun _ => []) (fun _ _ => rfl) ?_
          (inCells_nil (fun _ _ => rfl)))
      · intro t _ o ho; simp at ho
      · intro t ht o ho x hx
        by_cases e : t = 0
        · simp only [e, if_true] at ho
          obtain ⟨j, _, _, rfl⟩ := scanRoot_mem _ _ _ ho
          simp only [Op.reads, Option.toList, List.mem_cons, List.not_mem_nil, or_false] at hx
          rcases hx with rfl | rfl | rfl <;> simp only <;> omega
        · simp [e] at ho
    · intro m m' h t ht
      obtain ⟨l, hl, h2⟩ := runs_cons (by omega) (s := fun _ => []) (q := fun t => [if t = 0 then scanRoot (n - 1) ((0 : Nat) : Int) else []]) h h1
      rw [inter_empty hl (fun _ _ => rfl)] at h2
      obtain ⟨l', hl', h3⟩ := runs_cons (by omega) (s := fun t => if t = 0 then scanRoot (n - 1) ((0 : Nat) : Int) else [])
        (q := fun _ => []) h2 (fun _ _ => rfl)
      rw [runs_nil (by omega) h3 (fun _ _ => rfl)]
      simp only [execs]
      rw [seg_val (t := 0) hl' m (by omega)]
      · simp only [if_true]
        apply scanRoot_val (fun q => m ((q : Int), 0)) (n - 1) 0 m
        · intro u hu
          rw [show u = 0 by omega]; rfl
        · intro u _; rfl
        · omega
      · intro u _ hu o ho; simp [hu] at ho
      · intro u _ hu o ho; simp [hu] at ho
  · have h0 : ∀ t, t < n → scanSeq n t t = [] := by intro t _; unfold scanSeq; rw [if_pos (by omega)]
    refine ⟨?_, raceFree_nil h0, inCells_nil h0, ?_⟩
    · intro t u ht hu
      dsimp only
      rw [h0 t ht, h0 u hu]
    · intro m m' h t ht
      rw [runs_nil (by omega) h h0]
      rw [show t = 0 by omega]
      rfl

end collective

/-- Executions exist: threads all go through the same number of barriers. -/
theorem C35_executions_exist {α : Type} (op : α → α → α) {n root : Nat} (hr : root < n) (m : Mem α) :
    (∃ m', Runs n op (fun t => reduceCan n root t t) m m') ∧ (∃ m', Runs n op (fun t => reduceSeq n root t t) m m') ∧
    (∃ m', Runs n op (fun t => scanCan n t t) m m') ∧ ∃ m', Runs n op (fun t => scanSeq n t t) m m' := by
  refine ⟨?_, ?_, ?_, ?_⟩
  · exact runs_exists op (reduceCan n root root root).length _ m (fun i hi => (C35_reduce_canonical_safe hr).1 i root hi hr)
  · exact runs_exists op (reduceSeq n root root root).length _ m (fun i hi => (C35_reduce_default_safe hr).1 i root hi hr)
  · exact runs_exists op (scanCan n root root).length _ m (fun i hi => (C35_scan_canonical_safe n).1 i root hi hr)
  · exact runs_exists op (scanSeq n root root).length _ m (fun i hi => (C35_scan_default (op := op)).1 i root hi hr)

-- Programs of five threads, root 3: thread 3 takes the values of thread 4, then the one of thread 0 (which has got the one of thread 1),
-- and then the one of thread 2
example : reduceCan 5 3 3 3 = [[], [⟨(3, 0), (3, 0), some (4, 0)⟩], [⟨(3, 0), (3, 0), some (0, 0)⟩], [⟨(3, 0), (3, 0), some (2, 0)⟩]] := by
  decide +kernel
example : scanCan 3 2 2 = [[], [⟨(2, 1), (2, 0), some (1, 0)⟩], [⟨(2, 0), (2, 1), some (0, 1)⟩]] := by decide +kernel

/-- Disagreement: `dgraphCoarsenBuildThr` (dgraph_coarsen.c:798) gives the address of the cell of thread 0 in all threads. With the canonical
reduction, there are data races, and some values are counted several times. -/
theorem C35_shared_cell_is_wrong :
    ¬ RaceFree 4 (fun t => reduceCan 4 0 t 0) ∧
    ∃ m m' : Mem Int, Runs 4 (· + ·) (fun t => reduceCan 4 0 t 0) m m' ∧
      m' (0, 0) ≠ foldFrom (· + ·) (fun q => m (((0 + q) % 4 : Nat), 0)) 0 (4 - 1) := by
  refine ⟨?_, ?_⟩
  · intro h
    have := h 1 0 2 (by omega) (by omega) (by omega) ⟨(0, 0), (0, 0), some (1, 0)⟩ (by decide +kernel) ⟨(0, 0), (0, 0), some (1, 0)⟩ (by decide +kernel)
    exact this (Or.inl rfl)
  · refine ⟨fun x => if x = (1, 0) then 1 else 0,
      execs (· + ·) [⟨(0, 0), (0, 0), some (2, 0)⟩] (execs (· + ·) [⟨(0, 0), (0, 0), some (1, 0)⟩, ⟨(0, 0), (0, 0), some (1, 0)⟩]
        (fun x => if x = (1, 0) then 1 else 0)), ?_, by decide +kernel⟩
    have hall : ∀ {P : Nat → Prop}, P 0 → P 1 → P 2 → P 3 → ∀ i, i < 4 → P i := by
      intro P h0 h1 h2 h3 i hi
      match i, hi with
      | 0, _ => exact h0
      | 1, _ => exact h1
      | 2, _ => exact h2
      | 3, _ => exact h3
    have e0 : reduceCan 4 0 0 0 = [[], [⟨(0, 0), (0, 0), some (1, 0)⟩], [⟨(0, 0), (0, 0), some (2, 0)⟩]] := by decide +kernel
    have e1 : reduceCan 4 0 1 0 = [[], [], []] := by decide +kernel
    have e2 : reduceCan 4 0 2 0 = [[], [⟨(0, 0), (0, 0), some (1, 0)⟩], []] := by decide +kernel
    have e3 : reduceCan 4 0 3 0 = [[], [], []] := by decide +kernel
    refine .seg _ [] _ _ ?_ (.done _ ?_) (.seg _ [⟨(0, 0), (0, 0), some (1, 0)⟩, ⟨(0, 0), (0, 0), some (1, 0)⟩] _ _ ?_ ?_
      (.seg _ [⟨(0, 0), (0, 0), some (2, 0)⟩] _ _ ?_ ?_ (.done _ _ ?_)))
    · exact hall (by simp [e0]) (by simp [e1]) (by simp [e2]) (by simp [e3])
    · exact hall (by simp [e0]) (by simp [e1]) (by simp [e2]) (by simp [e3])
    · exact hall (by simp [e0]) (by simp [e1]) (by simp [e2]) (by simp [e3])
    · refine .next _ 0 _ [] _ (by omega) (by simp [e0]) (.next _ 2 _ [] _ (by omega) (by simp [setP, e2]) (.done _ ?_))
      exact hall (by simp [setP, e0]) (by simp [setP, e1]) (by simp [setP, e2]) (by simp [setP, e3])
    · exact hall (by simp [e0]) (by simp [e1]) (by simp [e2]) (by simp [e3])
    · refine .next _ 0 _ [] _ (by omega) (by simp [e0]) (.done _ ?_)
      exact hall (by simp [setP, e0]) (by simp [setP, e1]) (by simp [setP, e2]) (by simp [setP, e3])
    · exact hall (by simp [e0]) (by simp [e1]) (by simp [e2]) (by simp [e3])

end Scotch.Thread
