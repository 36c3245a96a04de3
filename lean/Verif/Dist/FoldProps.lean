import Verif.Dist.FoldWhere

/-!
# C43 — folding of distributed graphs

When a distributed graph is folded onto half of the processes, all processes decide on the same plan; each vertex goes to exactly one of the active processes; the sender and the receiver of a message agree on it; vertices are renumbered contiguously, without collision; and the search that renumbers arc ends gives, for each vertex, its new number.

The plan may tell a process to send an empty message to itself, although this process does not expect to receive anything (`C43_self_message`).
-/

set_option autoImplicit false
set_option linter.unusedSimpArgs false

namespace Scotch.Fold

/-- The plan: it does not depend on the former contents of memory, so that all processes find the same one; each process that leaves sends all its vertices, in order, and each process that stays either sends its last vertices or receives; no process takes part in more than `cm` messages, and messages are ranked. -/
theorem C43_plan (f : FoldIn) (hf : f.Ok) : ∃ cm L, (∀ junk, foldPlan f junk = .ok (cm, L)) ∧ f.Good cm L := by
  obtain ⟨⟨cm, L⟩, e, h0, h⟩ := Holds_iff_exists.1 (foldPlan_holds hf (fun _ => (0, 0)))
  exact ⟨cm, L, fun junk => (foldPlan_same hf junk _).trans e, h⟩

/-- Every vertex of every process is held by exactly one process after folding, at exactly one place. -/
theorem C43_every_vertex (f : FoldIn) (hf : f.Ok) (cm : Int) (L : List Move) (h : f.Good cm L) (p v : Int) (p0 : 0 ≤ p) (p1 : p < f.procglbnbr)
    (v0 : f.vrt p ≤ v) (v1 : v < f.vrt p + f.cnt p) :
    ∃ q, f.Rcv q ∧ ∃ (o : Nat) (pc : Int × Int), (f.pieces L q)[o]? = some pc ∧ (pc.1 ≤ v ∧ v < pc.1 + pc.2) ∧
      ∀ (q' : Int) (o' : Nat) (pc' : Int × Int), f.Rcv q' → (f.pieces L q')[o']? = some pc' → pc'.1 ≤ v → v < pc'.1 + pc'.2 → q' = q ∧ o' = o := by
  obtain ⟨q, hq, o, pc, hpc, w0, w1⟩ := where_exists hf h p0 p1 v0 v1
  exact ⟨q, hq, o, pc, hpc, ⟨w0, w1⟩, fun q' o' pc' hq' hpc' w0' w1' => where_unique hf h hq' hq hpc' hpc w0' w1' w0 w1⟩

/-- Table of messages of each process: those that it sends or, for a process that stays and sends nothing, those that it receives, as numbers of vertices and remote processes; the first vertex of each message; and the type of the process. -/
theorem C43_messages (f : FoldIn) (hf : f.Ok) (cm : Int) (hcm : 0 ≤ cm) (L : List Move) (h : f.Good cm L) (me : Int) (m0 : 0 ≤ me) (m1 : me < f.procglbnbr) (j1 j2 : Int → Int) :
    Holds (foldTables f me (cm, L) j1 j2) (fun t =>
      (∀ k : Nat, k < cm →
        match (if f.Rcv me ∧ sends L me = [] then (recvs L me).map (fun m => (m.num, m.snd, m.adj)) else (sends L me).map (fun m => (m.num, m.rcv, m.adj)))[k]? with
        | some x => t.commdattab.get k = (x.1, x.2.1) ∧ t.commvrttab.get k = x.2.2
        | none => t.commdattab.get k = (0, -1)) ∧
      t.commtypval = if f.Rcv me then (if sends L me = [] then 2 else 3) else 1) := by
  refine (foldTables_holds (me := me) hf hcm h j1 j2).mono ?_
  intro t ht
  refine ⟨?_, ht.typ⟩
  intro k hk
  by_cases c : f.Rcv me ∧ sends L me = []
  · rw [if_pos c, List.getElem?_map]
    cases hm : (recvs L me)[k]? with
    | some m =>
      have hmem := mem_recvs.1 (List.mem_of_getElem? hm)
      have hi := row_at (h.rcv_row c.1).1 hm
      have := ht.crcv c.1 m hmem.1 hmem.2
      rw [hi, Int.zero_add] at this
      exact this
    | none =>
      refine ht.cnon k (by omega) hk (fun m hm' hs => ?_) (fun _ m hm' hs => ?_)
      · have := mem_sends.2 ⟨hm', hs⟩
        rw [c.2] at this
        cases this
      · obtain ⟨i, i1, i2, i3⟩ := row_get (h.rcv_row c.1).1 (mem_recvs.2 ⟨hm', hs⟩)
        have := List.getElem?_eq_none_iff.1 hm
        omega
  · rw [if_neg c, List.getElem?_map]
    have hrow := (h.snd_row hf m0 m1).1
    cases hm : (sends L me)[k]? with
    | some m =>
      have hmem := mem_sends.1 (List.mem_of_getElem? hm)
      have hi := row_at hrow hm
      have := ht.csnd m hmem.1 hmem.2
      rw [hi, Int.zero_add] at this
      exact this
    | none =>
      have hl := List.getElem?_eq_none_iff.1 hm
      refine ht.cnon k (by omega) hk (fun m hm' hs => ?_) (fun hr m hm' hs => ?_)
      · obtain ⟨i, i1, i2, i3⟩ := row_get hrow (mem_sends.2 ⟨hm', hs⟩)
        omega
      · have hne : sends L me ≠ [] := fun e => c ⟨hr, e⟩
        obtain ⟨m', hm2⟩ := List.exists_mem_of_ne_nil _ hne
        obtain ⟨e1, e2⟩ := mem_sends.1 hm2
        have mx := h.mix hr e1 hm' e2 hs
        obtain ⟨i, i1, i2, i3⟩ := row_get hrow hm2
        have : m.ridx = 0 := mx.1 ▸ mx.2.2.1
        omega

/-- Sizes of the new ranges, as known by any process that stays: no vertex is lost. -/
theorem C43_ranges (f : FoldIn) (hf : f.Ok) (cm : Int) (hcm : 0 ≤ cm) (L : List Move) (h : f.Good cm L) (me : Int) (hme : f.Rcv me) (j1 j2 j3 : Int → Int) :
    Holds (do
      let t ← foldTables f me (cm, L) j1 j2
      foldFinish f cm t j3) (fun o =>
        (∀ q, f.Rcv q → o.fldproccnttab.get (q - f.procrcvbas) = FoldIn.size (f.pieces L q)) ∧
        sumI f.procrcvbas f.procrcvnnd (fun q => o.fldproccnttab.get (q - f.procrcvbas)) = f.vertglbnbr) := by
  rw [Holds_bind]
  refine (foldTables_holds (me := me) hf hcm h j1 j2).mono ?_
  intro t ht
  refine (foldFinish_holds hf hcm (ht.tab hf h hcm hme) j3).mono ?_
  rintro o ⟨_, ho⟩
  refine ⟨ho.cnt, ?_⟩
  rw [sumI_congr (g := fun q => FoldIn.size (f.pieces L q)) (fun q q0 q1 => ho.cnt q ⟨q0, q1⟩)]
  exact sum_size hf h

/-- Renumbering of arc ends by any process that stays: each vertex `v` gets the number of its place, the `v - pc.1`-th after the start of its piece. New numbers lie in the range of the folded graph, and distinct vertices get distinct numbers. -/
theorem C43_renumber (f : FoldIn) (hf : f.Ok) (cm : Int) (hcm : 0 ≤ cm) (L : List Move) (h : f.Good cm L) (me : Int) (hme : f.Rcv me) (j1 j2 j3 : Int → Int) :
    Holds (do
      let t ← foldTables f me (cm, L) j1 j2
      foldFinish f cm t j3) (fun o => ∃ num : Int → Int,
        (∀ p v, 0 ≤ p → p < f.procglbnbr → f.vrt p ≤ v → v < f.vrt p + f.cnt p → renum o v = .ok (num v) ∧ f.baseval ≤ num v ∧ num v < f.baseval + f.vertglbnbr) ∧
        (∀ (q : Int) (k : Nat) (pc : Int × Int) v, f.Rcv q → (f.pieces L q)[k]? = some pc → pc.1 ≤ v → v < pc.1 + pc.2 → num v = f.start L q k + (v - pc.1)) ∧
        (∀ p v p' v', 0 ≤ p → p < f.procglbnbr → f.vrt p ≤ v → v < f.vrt p + f.cnt p →
          0 ≤ p' → p' < f.procglbnbr → f.vrt p' ≤ v' → v' < f.vrt p' + f.cnt p' → num v = num v' → v = v')) := by
  rw [Holds_bind]
  refine (foldTables_holds (me := me) hf hcm h j1 j2).mono ?_
  intro t ht
  refine (foldFinish_holds hf hcm (ht.tab hf h hcm hme) j3).mono ?_
  rintro o ⟨_, ho⟩
  have num2 : ∀ q (k : Nat) pc v, f.Rcv q → (f.pieces L q)[k]? = some pc → pc.1 ≤ v → v < pc.1 + pc.2 → renum o v = .ok (f.start L q k + (v - pc.1)) := by
    intro q k pc v hq hpc v0 v1
    obtain ⟨w, e, hw⟩ := Holds_iff_exists.1 (renum_holds ho hq hpc v0 v1)
    rw [← hw]
    exact e
  have num3 : ∀ q (k : Nat) pc v, f.Rcv q → (f.pieces L q)[k]? = some pc → pc.1 ≤ v → v < pc.1 + pc.2 →
      (match renum o v with | .ok w => w | .error _ => 0) = f.start L q k + (v - pc.1) := by
    intro q k pc v hq hpc v0 v1
    rw [num2 q k pc v hq hpc v0 v1]
  refine ⟨fun v => match renum o v with | .ok w => w | .error _ => 0, ?_, num3, ?_⟩
  · intro p v p0 p1 v0 v1
    obtain ⟨q, hq, k, pc, hpc, w0, w1⟩ := where_exists hf h p0 p1 v0 v1
    dsimp only
    rw [num2 q k pc v hq hpc w0 w1]
    have := start_range hf h hq hpc
    refine ⟨rfl, ?_, ?_⟩ <;> dsimp only <;> omega
  · intro p v p' v' p0 p1 v0 v1 p0' p1' v0' v1' e
    obtain ⟨q, hq, k, pc, hpc, w0, w1⟩ := where_exists hf h p0 p1 v0 v1
    obtain ⟨q', hq', k', pc', hpc', w0', w1'⟩ := where_exists hf h p0' p1' v0' v1'
    dsimp only at e
    rw [num3 q k pc v hq hpc w0 w1, num3 q' k' pc' v' hq' hpc' w0' w1'] at e
    by_cases c : q < q' ∨ (q = q' ∧ k < k')
    · have := start_lt hf h hq hq' hpc c
      omega
    · by_cases c' : q' < q ∨ (q' = q ∧ k' < k)
      · have := start_lt hf h hq' hq hpc' c'
        omega
      · have e1 : q = q' := by omega
        have e2 : k = k' := by omega
        subst e1 e2
        rw [hpc] at hpc'
        obtain rfl := Option.some.inj hpc'
        omega

/-! ## Examples -/

/-- Ranges without holes. -/
def foldOf (cnt : List Int) (partval : Int) : FoldIn :=
  ⟨cnt.length, 0, cnt.sum, ⟨0, cnt.length + 1, fun p => (cnt.take p.toNat).sum⟩, ⟨0, cnt.length, fun p => cnt.getD p.toNat 0⟩, partval⟩

theorem foldOf_ok {cnt : List Int} {partval : Int} (h2 : 2 ≤ cnt.length) (hm : cnt.length < 2 ^ 31) (h : ∀ x ∈ cnt, 0 ≤ x) : (foldOf cnt partval).Ok := by
  have take_succ : ∀ (l : List Int) (n : Nat), (l.take (n + 1)).sum = (l.take n).sum + l.getD n 0 := by
    intro l
    induction l with
    | nil => intro n; simp
    | cons x l ih =>
      intro n
      cases n with
      | zero => simp
      | succ n =>
        rw [List.take_succ_cons, List.take_succ_cons, List.sum_cons, List.sum_cons, ih n, List.getD_cons_succ]
        omega
  have hsum : ∀ n : Nat, sumI 0 n (fun p => cnt.getD p.toNat 0) = (cnt.take n).sum := by
    intro n
    induction n with
    | zero => simp [sumI_empty]
    | succ n ih =>
      rw [show ((n + 1 : Nat) : Int) = (n : Int) + 1 by omega, sumI_succ (by omega), ih, take_succ]
      simp
  refine { two := by unfold foldOf; dsimp only; omega, max := by unfold foldOf; dsimp only; omega, base0 := Int.le_refl _, vlo := Int.le_refl _, vhi := by unfold foldOf; dsimp only; omega, clo := Int.le_refl _, chi := Int.le_refl _, first := by unfold foldOf FoldIn.vrt; simp, cnt0 := ?_, step := ?_, sum := ?_ }
  · intro p p0 p1
    unfold foldOf at p1 ⊢
    unfold FoldIn.cnt
    dsimp only at p1 ⊢
    rw [List.getD_eq_getElem?_getD, List.getElem?_eq_getElem (by omega), Option.getD_some]
    exact h _ (List.getElem_mem _)
  · intro p p0 p1
    unfold foldOf FoldIn.cnt FoldIn.vrt
    dsimp only
    rw [show (p + 1).toNat = p.toNat + 1 by omega, take_succ]
  · show cnt.sum = sumI 0 cnt.length (fun p => cnt.getD p.toNat 0)
    rw [hsum, List.take_length]

/-- A distribution on six processes meets the hypotheses. -/
example : (foldOf [3, 9, 0, 4, 5, 6] 1).Ok := foldOf_ok (by decide) (by decide) (by decide)

/-- Its plan: processes 0 to 2 leave. -/
example : foldPlan (foldOf [3, 9, 0, 4, 5, 6] 1) (fun k => (k, 77)) =
    .ok (4, [⟨1, 3, 5, 3, 0, 0, false⟩, ⟨1, 8, 4, 4, 1, 0, false⟩, ⟨0, 0, 3, 5, 0, 0, false⟩]) := by decide +kernel

def isOk {α : Type} (m : M α) (p : α → Bool) : Bool :=
  match m with
  | .ok a => p a
  | .error _ => false

/-- New sizes and new numbers on process 4: vertex 9, the second one of its message from process 1, becomes vertex 15. -/
example : isOk (do
    let t ← foldTables (foldOf [3, 9, 0, 4, 5, 6] 1) 4 (4, [⟨1, 3, 5, 3, 0, 0, false⟩, ⟨1, 8, 4, 4, 1, 0, false⟩, ⟨0, 0, 3, 5, 0, 0, false⟩]) (fun _ => 5) (fun _ => 6)
    let o ← foldFinish (foldOf [3, 9, 0, 4, 5, 6] 1) 4 t (fun _ => 7)
    let l ← [0, 2, 3, 8, 9, 12, 16, 21].mapM (renum o)
    return (o.fldproccnttab.toList, l)) (fun r => r == ([9, 9, 9], [24, 26, 4, 14, 15, 0, 9, 18])) = true := by decide +kernel

/-- The plan may contain a message of a process to itself: its type announces that it sends, and process 0 has vertices in excess, but there remains no other process to send them to. The message is empty, and nothing is received for it. -/
theorem C43_self_message : ∃ f : FoldIn, f.Ok ∧ ∃ cm L, (∀ junk, foldPlan f junk = .ok (cm, L)) ∧ ∃ m ∈ L, m.snd = m.rcv ∧ m.num = 0 ∧ m.both = true := by
  have hf : (foldOf [7, 1, 7, 1, 1, 1] 0).Ok := foldOf_ok (by decide) (by decide) (by decide)
  refine ⟨_, hf, ?_⟩
  obtain ⟨cm, L, e, h⟩ := C43_plan _ hf
  refine ⟨cm, L, e, ?_⟩
  have : isOk (foldPlan (foldOf [7, 1, 7, 1, 1, 1] 0) (fun _ => (0, 0))) (fun r => r.2.any (fun m => m.snd == m.rcv && (m.num == 0 && m.both))) = true := by decide +kernel
  rw [e] at this
  obtain ⟨m, hm, hp⟩ := List.any_eq_true.1 this
  simp only [Bool.and_eq_true, beq_iff_eq] at hp
  exact ⟨m, hm, hp.1, hp.2.1, hp.2.2⟩

end Scotch.Fold
