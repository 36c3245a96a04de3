import Verif.Fibo.LemmasCons

/-!
# C32: the Fibonacci heap always yields a minimum

A history is any list of operations: insertion of a node with its key, removal of a node, decrease of a key, query of a minimum, reset. The specification
state is the list of the nodes present and their keys; it evolves independently of the heap structure. The theorem says that, from any initial
contents of the node structures, any history in which the operations are used as documented runs to its end (no infinite loop, no access outside
the degree table), and that each query returns a node which is present and the key of which is minimum, and no node only if there is none.

The degree table has `degrmax` entries. The code assumes that no node reaches degree `degrmax`; the theorem requires that there be fewer than
`fib (degrmax + 2)` nodes at any time, which is what is needed for that, since flags are handled such that degrees are logarithmic.
-/

set_option autoImplicit false
set_option linter.unusedSimpArgs false

namespace Scotch.Fibo

/-- Operations. -/
inductive Op where
  /-- `fiboHeapAdd`: the caller sets the key of the node, then inserts it. -/
  | add (n k : Int)
  /-- `fiboHeapDel`. -/
  | del (n : Int)
  /-- The caller sets the key of the node to a smaller value, then calls `fiboHeapDecrease`. -/
  | decrease (n k : Int)
  /-- `fiboHeapMin`. -/
  | min
  /-- `fiboHeapFree`. -/
  | free

/-- Concrete state: the heap and the keys held in the structures of the caller. -/
structure St where
  heap : Heap
  key : Int → Int

/-- One operation on the concrete state; the answer is only meaningful for queries. -/
def step (degrmax : Int) (fuel : Nat) (s : St) : Op → M (St × Option Int)
  | .add n k => .ok ({ heap := add s.heap n, key := upd s.key n k }, none)
  | .del n => do
    let h ← del fuel s.heap n
    return ({ s with heap := h }, none)
  | .decrease n k => do
    let key := upd s.key n k
    let h ← decrease fuel key s.heap n
    return ({ heap := h, key := key }, none)
  | .min => do
    let q ← consolidate degrmax fuel s.key s.heap
    return ({ s with heap := q.1 }, q.2)
  | .free => .ok ({ s with heap := free s.heap }, none)

/-- Runs a history and collects the answers to all operations. -/
def run (degrmax : Int) (fuel : Nat) : St → List Op → M (St × List (Option Int))
  | s, [] => .ok (s, [])
  | s, op :: ops => do
    let q ← step degrmax fuel s op
    let r ← run degrmax fuel q.1 ops
    return (r.1, q.2 :: r.2)

/-! ## Specification -/

/-- Nodes present, with their keys. -/
abbrev Content := List (Int × Int)

/-- Effect of an operation on the contents. -/
def Content.next (c : Content) : Op → Content
  | .add n k => (n, k) :: c
  | .del n => c.filter (fun e => e.1 ≠ n)
  | .decrease n k => c.map (fun e => if e.1 = n then (n, k) else e)
  | .min => c
  | .free => []

/-- Documented use of an operation. -/
def Content.allows (bound : Nat) (c : Content) : Op → Prop
  | .add n _ => n ≠ rootdat ∧ (∀ e ∈ c, e.1 ≠ n) ∧ c.length + 1 < bound
  | .del n => ∃ k, (n, k) ∈ c
  | .decrease n k => ∃ k', (n, k') ∈ c ∧ k ≤ k'
  | .min => True
  | .free => True

/-- Documented use of the heap along a history. -/
def Content.allowsAll (bound : Nat) : Content → List Op → Prop
  | _, [] => True
  | c, op :: ops => c.allows bound op ∧ (c.next op).allowsAll bound ops

/-- Correct answer to an operation. -/
def Content.answers (c : Content) (op : Op) (a : Option Int) : Prop := match op with
  | .min => match a with
    | none => c = []
    | some n => ∃ k, (n, k) ∈ c ∧ ∀ e ∈ c, k ≤ e.2
  | _ => True

/-- Correct answers along a history. -/
def Content.answersAll : Content → List Op → List (Option Int) → Prop
  | _, [], as => as = []
  | c, op :: ops, a :: as => c.answers op a ∧ (c.next op).answersAll ops as
  | _, _ :: _, [] => False

/-! ## Proof -/

/-- Agreement of the heap and of the contents. -/
structure Rel (s : St) (c : Content) : Prop where
  inv : ∃ K, Inv s.heap s.key (c.map (·.1)) K none
  keys : ∀ e ∈ c, s.key e.1 = e.2
  degr : ∀ d, s.heap.degr d = none

theorem Rel.nodup {s : St} {c : Content} (R : Rel s c) : (c.map (·.1)).Nodup := by
  obtain ⟨K, I⟩ := R.inv
  exact I.forest.nodup

theorem Rel.key_unique {s : St} {c : Content} (R : Rel s c) {n k k' : Int} (h : (n, k) ∈ c) (h' : (n, k') ∈ c) : k = k' :=
  (R.keys _ h).symm.trans (R.keys _ h')

theorem map_filter_ne (n : Int) : ∀ (c : Content), (c.map (·.1)).Nodup → (c.filter (fun e => e.1 ≠ n)).map (·.1) = (c.map (·.1)).erase n := by
  intro c
  induction c with
  | nil => intro _; rfl
  | cons e c ih =>
    intro hnd
    simp only [List.map_cons, List.nodup_cons] at hnd
    by_cases h : e.1 = n
    · have h1 : ∀ e' ∈ c, e'.1 ≠ n := by
        intro e' he' h2
        exact hnd.1 (List.mem_map.2 ⟨e', he', h2.trans h.symm⟩)
      rw [List.filter_cons_of_neg (by simp [h]), List.map_cons, h, List.erase_cons_head, List.filter_eq_self.2 (by simpa using h1)]
    · rw [List.filter_cons_of_pos (by simp [h]), List.map_cons, List.map_cons, List.erase_cons_tail (by simpa using h), ih hnd.2]

theorem map_decrease (n k : Int) (c : Content) : (c.map (fun e => if e.1 = n then (n, k) else e)).map (·.1) = c.map (·.1) := by
  rw [List.map_map]
  apply List.map_congr_left
  intro e _
  simp only [Function.comp]
  split
  · rename_i h; exact h.symm
  · rfl

theorem step_spec {D : Int} (hD : 0 < D) {s : St} {c : Content} (R : Rel s c) (op : Op) (hok : c.allows (fib (D.toNat + 2)) op)
    (hb : c.length < fib (D.toNat + 2)) {fuel : Nat} (hf : 2 * c.length + 1 ≤ fuel) :
    Holds (step D fuel s op) (fun q => Rel q.1 (c.next op) ∧ c.answers op q.2) := by
  obtain ⟨K, I⟩ := R.inv
  have hlen : (c.map (·.1)).length = c.length := by simp
  cases op with
  | add n k =>
    obtain ⟨h1, h2, _⟩ := hok
    unfold step
    rw [Holds_ok]
    have hn : n ∉ c.map (·.1) := by
      intro h
      obtain ⟨e, he, h3⟩ := List.mem_map.1 h
      exact h2 e he h3
    refine ⟨⟨⟨_, add_inv I hn h1 (key' := upd s.key n k) (fun x hx => upd_ne _ _ hx)⟩, ?_, R.degr⟩, trivial⟩
    intro e he
    rcases List.mem_cons.1 he with e1 | e1
    · subst e1; exact upd_same _ _ _
    · exact (upd_ne _ _ (h2 e e1)).trans (R.keys e e1)
  | del n =>
    obtain ⟨k, hk⟩ := hok
    unfold step
    rw [Holds_bind]
    refine (del_spec I (List.mem_map.2 ⟨_, hk, rfl⟩) (by omega)).mono ?_
    rintro h' ⟨⟨K', I'⟩, hd⟩
    show Holds (Except.ok _) _
    rw [Holds_ok]
    refine ⟨⟨⟨K', ?_⟩, ?_, fun d => by show h'.degr d = none; rw [hd]; exact R.degr d⟩, trivial⟩
    · show Inv h' s.key ((c.filter (fun e => e.1 ≠ n)).map (·.1)) K' none
      rw [map_filter_ne n c R.nodup]; exact I'
    · intro e he
      exact R.keys e (List.mem_filter.1 he).1
  | decrease n k =>
    obtain ⟨k', hk, hle⟩ := hok
    unfold step
    simp only
    rw [Holds_bind]
    have hkn : s.key n = k' := R.keys _ hk
    refine (decrease_spec I (key' := upd s.key n k) (List.mem_map.2 ⟨_, hk, rfl⟩) (fun x hx => upd_ne _ _ hx)
      (by rw [upd_same]; show k ≤ s.key n; omega) (by omega)).mono ?_
    rintro h' ⟨⟨K', I'⟩, hd⟩
    show Holds (Except.ok _) _
    rw [Holds_ok]
    refine ⟨⟨⟨K', ?_⟩, ?_, fun d => by show h'.degr d = none; rw [hd]; exact R.degr d⟩, trivial⟩
    · show Inv h' (upd s.key n k) ((c.map (fun e => if e.1 = n then (n, k) else e)).map (·.1)) K' none
      rw [map_decrease]; exact I'
    · intro e he
      obtain ⟨e0, h0, h1⟩ := List.mem_map.1 he
      by_cases hn : e0.1 = n
      · rw [if_pos hn] at h1; subst h1; exact upd_same _ _ _
      · rw [if_neg hn] at h1; subst h1
        exact (upd_ne _ _ hn).trans (R.keys e0 h0)
  | min =>
    unfold step
    rw [Holds_bind]
    refine (consolidate_spec hD I (by omega) R.degr (by omega)).mono ?_
    rintro q ⟨⟨K', I'⟩, hd, ha⟩
    show Holds (Except.ok _) _
    rw [Holds_ok]
    refine ⟨⟨⟨K', I'⟩, R.keys, hd⟩, ?_⟩
    show match q.2 with
      | none => c = []
      | some n => ∃ k, (n, k) ∈ c ∧ ∀ e ∈ c, k ≤ e.2
    cases hq : q.2 with
    | none =>
      rw [hq] at ha
      exact List.map_eq_nil_iff.1 ha
    | some n =>
      rw [hq] at ha
      obtain ⟨h1, h2⟩ := ha
      obtain ⟨e, he, h3⟩ := List.mem_map.1 h1
      refine ⟨e.2, by rw [← h3]; exact he, ?_⟩
      intro e' he'
      have := h2 e'.1 (List.mem_map.2 ⟨e', he', rfl⟩)
      rw [R.keys e' he', ← h3, R.keys e he] at this
      exact this
  | free =>
    unfold step
    rw [Holds_ok]
    exact ⟨⟨⟨_, reset_inv s.heap s.key⟩, fun e he => absurd he (by show e ∉ []; simp), R.degr⟩, trivial⟩

theorem Content.next_length {bound : Nat} {c : Content} {op : Op} (h : c.allows bound op) (hb : c.length < bound) :
    (c.next op).length < bound ∧ (c.next op).length ≤ c.length + 1 := by
  cases op with
  | add n k =>
    have := h.2.2
    constructor
    · show c.length + 1 < bound; omega
    · exact Nat.le_refl _
  | del n =>
    have : (c.filter (fun e => e.1 ≠ n)).length ≤ c.length := List.length_filter_le _ _
    exact ⟨Nat.lt_of_le_of_lt this hb, Nat.le_succ_of_le this⟩
  | decrease n k =>
    show (c.map _).length < bound ∧ (c.map _).length ≤ _
    rw [List.length_map]; exact ⟨hb, by omega⟩
  | min => exact ⟨hb, Nat.le_succ _⟩
  | free => exact ⟨by show 0 < bound; omega, by show 0 ≤ _; omega⟩

theorem run_spec {D : Int} (hD : 0 < D) {fuel : Nat} : ∀ (ops : List Op) {s : St} {c : Content}, Rel s c → c.allowsAll (fib (D.toNat + 2)) ops →
    c.length < fib (D.toNat + 2) → 2 * (c.length + ops.length) + 1 ≤ fuel → Holds (run D fuel s ops) (fun q => c.answersAll ops q.2) := by
  intro ops
  induction ops with
  | nil => intro s c _ _ _ _; unfold run; rw [Holds_ok]; rfl
  | cons op ops ih =>
    intro s c R hok hb hf
    simp only [List.length_cons] at hf
    unfold run
    rw [Holds_bind]
    refine (step_spec hD R op hok.1 hb (fuel := fuel) (by omega)).mono ?_
    rintro q ⟨R', ha⟩
    obtain ⟨l1, l2⟩ := Content.next_length hok.1 hb
    rw [Holds_bind]
    refine (ih R' hok.2 l1 (by omega)).mono ?_
    intro r hr
    show Holds (Except.ok _) _
    rw [Holds_ok]
    exact ⟨ha, hr⟩

/-- C32: whatever the initial contents of memory, any history of documented uses of a newly initialised heap terminates without any access out of the degree
table, and all its queries return a minimum of the nodes present. -/
theorem C32_history {degrmax : Int} (hD : 0 < degrmax) (junk : Heap) (key : Int → Int) (ops : List Op)
    (hok : Content.allowsAll (fib (degrmax.toNat + 2)) [] ops) {fuel : Nat} (hf : 2 * ops.length + 1 ≤ fuel) :
    ∃ s as, run degrmax fuel { heap := init junk, key := key } ops = .ok (s, as) ∧ Content.answersAll [] ops as := by
  have R : Rel { heap := init junk, key := key } [] :=
    ⟨⟨_, (reset_inv junk key).congr_heap rfl rfl rfl rfl rfl⟩, fun e he => absurd he (by simp), fun _ => rfl⟩
  have hpos : 0 < fib (degrmax.toNat + 2) := by
    have := fib_mono (a := 2) (b := degrmax.toNat + 2) (by omega)
    have : fib 2 = 1 := rfl
    omega
  obtain ⟨q, hq, ha⟩ := Holds_iff_exists.1 (run_spec hD ops R hok hpos (fuel := fuel) (by simp; omega))
  exact ⟨q.1, q.2, hq, ha⟩

/-- Bound for 64-bit integers (`FIBO_DEGRMAX` = 64): more than 44 · 10¹² nodes. Bound for 32-bit integers: 5702886 nodes. -/
example : fib (64 + 2) = 27777890035288 ∧ fib (32 + 2) = 5702887 := by
  constructor <;> decide +kernel

/-- Non-vacuity: a history which builds trees, cuts one of them, and empties the heap. -/
def sampleOps : List Op :=
  [.add 10 5, .add 11 3, .add 12 8, .add 13 4, .add 14 9, .min, .decrease 12 2, .min, .del 12, .del 11, .min, .decrease 14 4, .del 13, .min, .del 10, .del 14, .min]

def zeroHeap : Heap := { next := fun _ => 7, prev := fun _ => 7, pare := fun _ => some 7, chld := fun _ => some 7, defl := fun _ => 7, degr := fun _ => some 7 }

example : (run 32 35 { heap := init zeroHeap, key := fun _ => 0 } sampleOps).toOption.map (·.2) =
    some [none, none, none, none, none, some 11, none, some 12, none, none, some 13, none, none, some 14, none, none, none] := by decide +kernel

example : Content.allowsAll (fib ((32 : Int).toNat + 2)) [] sampleOps := by
  have hf : fib ((32 : Int).toNat + 2) = 5702887 := by decide +kernel
  rw [hf]
  simp [sampleOps, Content.allowsAll, Content.allows, Content.next, rootdat]

/-! ## The size of the degree table matters -/

/-- The degree bound is a precondition the code does not check: a table with a single entry is overrun as soon as two nodes are merged. -/
theorem C32_degree_bound_needed : run 1 100 { heap := init zeroHeap, key := fun _ => 0 } [.add 10 5, .add 11 3, .min] matches .error .oob := by decide +kernel

end Scotch.Fibo
