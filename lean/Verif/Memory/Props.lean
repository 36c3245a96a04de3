import Verif.Memory.Spec
import Verif.TextIO.Pairs

/-!
# C49 — grouped allocation, and accounting of memory
-/

set_option autoImplicit false
set_option linter.unusedSimpArgs false

namespace Scotch.Memory

/-! ## Groups -/

theorem align_eq {W off : Nat} (h : off + 7 < W) : align W off = up8 off := by
  unfold align up8
  rw [Nat.mod_eq_of_lt h]
  omega

/-- Sum of padded sizes: none of the computations wraps around below this bound. -/
def room : List Nat → Nat
  | [] => 0
  | s :: l => up8 s + room l

theorem up8_le (n : Nat) : n ≤ up8 n ∧ up8 n ≤ n + 7 ∧ up8 n % 8 = 0 := by
  unfold up8
  omega

theorem up8_add {a b : Nat} (h : a % 8 = 0) : up8 (a + b) = a + up8 b := by
  unfold up8
  omega

theorem total_eq (W : Nat) : ∀ (l : List Nat) (off : Nat), up8 off + room l + 7 < W → l ≠ [] → total W off l = up8 off + need l := by
  intro l
  induction l with
  | nil => intro off _ h; exact absurd rfl h
  | cons s l ih =>
    intro off h _
    unfold room at h
    have a := up8_le off
    have b := up8_le s
    unfold total
    rw [align_eq (by omega), Nat.mod_eq_of_lt (by omega)]
    cases l with
    | nil => unfold total need; rfl
    | cons t l =>
      have : need (s :: t :: l) = up8 s + need (t :: l) := rfl
      rw [ih (up8 off + s) (by rw [up8_add a.2.2]; omega) (by simp), up8_add a.2.2, this]
      omega

theorem place_snd (W : Nat) : ∀ (l : List Nat) (off : Nat), (place W off l).2 = total W off l := by
  intro l
  induction l with
  | nil => intro off; rfl
  | cons s l ih => intro off; unfold place total; exact ih _

theorem place_layout (W : Nat) : ∀ (l : List Nat) (off : Nat), up8 off + room l + 7 < W →
    Layout l (place W off l).1 (total W off l) ∧ (∀ o ∈ (place W off l).1, off ≤ o) ∧ off ≤ total W off l := by
  intro l
  induction l with
  | nil =>
    intro off h
    unfold place total
    refine ⟨⟨rfl, by simp, by simp, by simp⟩, by simp, Nat.le_refl _⟩
  | cons s l ih =>
    intro off h
    unfold room at h
    have a := up8_le off
    have b := up8_le s
    unfold place total
    dsimp only
    rw [align_eq (by omega), Nat.mod_eq_of_lt (by omega)]
    obtain ⟨⟨i1, i2, i3, i4⟩, i5, i6⟩ := ih (up8 off + s) (by rw [up8_add a.2.2]; omega)
    refine ⟨⟨by simp [i1], ?_, ?_, ?_⟩, ?_, by omega⟩
    · intro o ho
      rcases List.mem_cons.1 ho with e | ho
      · rw [e]; exact a.2.2
      · exact i2 o ho
    · intro i o t h1 h2
      cases i with
      | zero =>
        simp only [List.getElem?_cons_zero, Option.some.injEq] at h1 h2
        omega
      | succ i =>
        rw [List.getElem?_cons_succ] at h1 h2
        exact i3 i o t h1 h2
    · intro i j o t o' hij h1 h2 h3
      cases j with
      | zero => omega
      | succ j =>
        rw [List.getElem?_cons_succ] at h3
        cases i with
        | zero =>
          simp only [List.getElem?_cons_zero, Option.some.injEq] at h1 h2
          have := i5 o' (List.mem_of_getElem? h3)
          omega
        | succ i =>
          rw [List.getElem?_cons_succ] at h1 h2
          exact i4 i j o t o' (by omega) h1 h2 h3
    · intro o ho
      rcases List.mem_cons.1 ho with e | ho
      · omega
      · have := i5 o ho
        omega

/-- **C49** (groups). When sizes, padded to multiples of 8, can be added without overflow, the block has exactly the size needed by the arrays, which are aligned, disjoint, and inside the block. -/
theorem C49_group (W : Nat) (sizes : List Nat) (hne : sizes ≠ []) (hW : room sizes + 7 < W) :
    (allocGroup W sizes).1 = need sizes ∧ Layout sizes (allocGroup W sizes).2 (allocGroup W sizes).1 := by
  have h0 : up8 0 = 0 := rfl
  refine ⟨?_, (place_layout W sizes 0 (by rw [h0]; omega)).1⟩
  show total W 0 sizes = _
  rw [total_eq W sizes 0 (by rw [h0]; omega) hne, h0, Nat.zero_add]

/-- **C49** (offsets). The end of the block that is returned is where the block must end: the layout is the same as that of grouped allocation. -/
theorem C49_offset (W : Nat) (sizes : List Nat) : offset W sizes = ((allocGroup W sizes).2, (allocGroup W sizes).1) := by
  unfold offset allocGroup
  rw [← place_snd]

example : room [5, 16, 0, 3] + 7 < 2 ^ 64 := by decide
example : allocGroup (2 ^ 64) [5, 16, 0, 3] = (27, [0, 8, 24, 24]) := by decide +kernel

/-- Overflow of `size_t` is not detected: the block may be smaller than each of the arrays it should contain. -/
theorem C49_group_wraps : ∃ sizes, (∀ s ∈ sizes, s < 2 ^ 64) ∧ ∀ s ∈ sizes, (allocGroup (2 ^ 64) sizes).1 < s :=
  ⟨[2 ^ 64 - 8, 16], by decide +kernel, by decide +kernel⟩

/-! ## Accounting -/

/-- The state agrees with the blocks in use, and the sizes of blocks of the past. -/
structure Agrees (s : State) (L : List (Int × Int)) (H : List (List (Int × Int))) : Prop where
  blocks : s.blocks = L
  distinct : (L.map Prod.fst).Nodup
  sizes : ∀ b ∈ L, 0 ≤ b.2
  siz : s.siz = bytes L
  ge : ∀ K ∈ H, bytes K ≤ s.max
  is : (s.max = 0 ∧ ∀ K ∈ H, bytes K ≤ 0) ∨ ∃ K ∈ H, s.max = bytes K
  cur : L ∈ H

theorem bytes_filter : ∀ {L : List (Int × Int)} {b : Int × Int}, (L.map Prod.fst).Nodup → b ∈ L → bytes (L.filter (fun c => c.1 ≠ b.1)) = bytes L - b.2 := by
  intro L
  induction L with
  | nil => intro b _ h; cases h
  | cons c L ih =>
    intro b hn hb
    rw [List.map_cons, List.nodup_cons] at hn
    have hcons : ∀ K, bytes (c :: K) = c.2 + bytes K := by
      intro K
      unfold bytes
      rw [List.map_cons, List.sum_cons]
    rcases List.mem_cons.1 hb with e | hb
    · subst e
      rw [List.filter_cons_of_neg (by simp), hcons, List.filter_eq_self.2]
      · omega
      · intro d hd
        simp only [decide_eq_true_eq]
        intro e
        exact hn.1 (List.mem_map.2 ⟨d, hd, e⟩)
    · have hne : c.1 ≠ b.1 := fun e => hn.1 (List.mem_map.2 ⟨b, hb, e.symm⟩)
      rw [List.filter_cons_of_pos (by simpa using hne), hcons, hcons, ih hn.2 hb]
      omega

theorem header_ok {s : State} {p : Int} (hp : p ∈ s.blocks.map Prod.fst) : ∃ b ∈ s.blocks, b.1 = p ∧ s.header p = .ok b.2 := by
  unfold State.header
  cases h : s.blocks.find? (fun b => b.1 = p) with
  | none =>
    rw [List.find?_eq_none] at h
    obtain ⟨b, hb, e⟩ := List.mem_map.1 hp
    exact absurd e (by simpa using h b hb)
  | some b => exact ⟨b, List.mem_of_find?_eq_some h, by simpa using List.find?_some h, rfl⟩

/-- Maximum after a count. -/
theorem count_max {s : State} {L : List (Int × Int)} {H : List (List (Int × Int))} {n : Int} (h : s.siz + n = bytes L)
    (hge : ∀ K ∈ H, bytes K ≤ s.max) (his : (s.max = 0 ∧ ∀ K ∈ H, bytes K ≤ 0) ∨ ∃ K ∈ H, s.max = bytes K) :
    (∀ K ∈ L :: H, bytes K ≤ (s.count n).max) ∧ (((s.count n).max = 0 ∧ ∀ K ∈ L :: H, bytes K ≤ 0) ∨ ∃ K ∈ L :: H, (s.count n).max = bytes K) := by
  unfold State.count
  dsimp only
  split
  · refine ⟨?_, Or.inr ⟨L, by simp, h⟩⟩
    intro K hK
    rcases List.mem_cons.1 hK with e | hK
    · rw [e]; omega
    · have := hge K hK
      omega
  · refine ⟨?_, ?_⟩
    · intro K hK
      rcases List.mem_cons.1 hK with e | hK
      · rw [e]; omega
      · exact hge K hK
    · rcases his with ⟨a, b⟩ | ⟨K, hK, e⟩
      · refine Or.inl ⟨a, ?_⟩
        intro K hK
        rcases List.mem_cons.1 hK with e | hK
        · rw [e]; omega
        · exact b K hK
      · exact Or.inr ⟨K, by simp [hK], e⟩

/-- Maximum when blocks are given back. -/
theorem less_max {m : Int} {L L' : List (Int × Int)} {H : List (List (Int × Int))} (hL : L' ∈ H) (h : bytes L ≤ bytes L')
    (hge : ∀ K ∈ H, bytes K ≤ m) (his : (m = 0 ∧ ∀ K ∈ H, bytes K ≤ 0) ∨ ∃ K ∈ H, m = bytes K) :
    (∀ K ∈ L :: H, bytes K ≤ m) ∧ ((m = 0 ∧ ∀ K ∈ L :: H, bytes K ≤ 0) ∨ ∃ K ∈ L :: H, m = bytes K) := by
  refine ⟨?_, ?_⟩
  · intro K hK
    rcases List.mem_cons.1 hK with e | hK
    · rw [e]
      have := hge L' hL
      omega
    · exact hge K hK
  · rcases his with ⟨a, b⟩ | ⟨K, hK, e⟩
    · refine Or.inl ⟨a, ?_⟩
      intro K hK
      rcases List.mem_cons.1 hK with e | hK
      · rw [e]
        have := b L' hL
        omega
      · exact b K hK
    · exact Or.inr ⟨K, by simp [hK], e⟩

theorem Agrees.step {s : State} {L : List (Int × Int)} {H : List (List (Int × Int))} (h : Agrees s L H) {o : Op} (ho : Legal L o) :
    Holds (s.step o) (fun s' => Agrees s' (live L o) (live L o :: H)) := by
  obtain ⟨h1, h2, h3, h4, h5, h6, h7⟩ := h
  cases o with
  | alloc n a =>
    obtain ⟨ho1, ho2⟩ := ho
    unfold State.step State.alloc live
    cases a with
    | none =>
      dsimp only
      rw [Holds_pure]
      have := less_max h7 (Int.le_refl _) h5 h6
      exact ⟨h1, h2, h3, h4, this.1, this.2, by simp⟩
    | some p =>
      dsimp only
      rw [Holds_pure]
      have hs : s.siz + n = bytes ((p, n) :: L) := by
        unfold bytes at h4 ⊢
        rw [List.map_cons, List.sum_cons]
        omega
      have := count_max hs h5 h6
      refine ⟨?_, ?_, ?_, hs, this.1, this.2, by simp⟩
      · show (p, n) :: s.blocks = _
        rw [h1]
      · rw [List.map_cons, List.nodup_cons]
        exact ⟨ho2 p rfl, h2⟩
      · intro b hb
        rcases List.mem_cons.1 hb with e | hb
        · rw [e]; exact ho1
        · exact h3 b hb
  | realloc p n a =>
    obtain ⟨ho1, ho2, ho3⟩ := ho
    unfold State.step State.realloc live
    dsimp only
    obtain ⟨b, hb, e1, e2⟩ := header_ok (s := s) (p := p) (h1 ▸ ho2)
    rw [e2, ok_bind]
    rw [h1] at hb
    have hf := bytes_filter h2 hb
    rw [e1] at hf
    cases a with
    | none =>
      dsimp only
      rw [pure_bind, Holds_pure]
      have := less_max h7 (Int.le_refl _) h5 h6
      exact ⟨h1, h2, h3, h4, this.1, this.2, by simp⟩
    | some q =>
      dsimp only
      rw [pure_bind, Holds_pure]
      have hs : (s.siz - b.2) + n = bytes ((q, n) :: L.filter (fun b => b.1 ≠ p)) := by
        unfold bytes at h4 hf ⊢
        rw [List.map_cons, List.sum_cons]
        omega
      have := count_max (s := { s with siz := s.siz - b.2 }) hs h5 h6
      refine ⟨?_, ?_, ?_, hs, this.1, this.2, by simp⟩
      · show (q, n) :: s.blocks.filter (fun b => b.1 ≠ p) = _
        rw [h1]
      · rw [List.map_cons, List.nodup_cons]
        exact ⟨ho3 q rfl, List.Nodup.sublist (List.Sublist.map _ List.filter_sublist) h2⟩
      · intro b hb
        rcases List.mem_cons.1 hb with e | hb
        · rw [e]; exact ho1
        · exact h3 b (List.mem_filter.1 hb).1
  | free p =>
    unfold State.step State.free live
    dsimp only
    obtain ⟨b, hb, e1, e2⟩ := header_ok (s := s) (p := p) (h1 ▸ ho)
    rw [e2, ok_bind, Holds_pure]
    rw [h1] at hb
    have hf := bytes_filter h2 hb
    rw [e1] at hf
    have hb0 := h3 b hb
    have := less_max (L := L.filter (fun b => b.1 ≠ p)) h7 (by omega) h5 h6
    refine ⟨?_, ?_, ?_, ?_, this.1, this.2, by simp⟩
    · show s.blocks.filter (fun b => b.1 ≠ p) = _
      rw [h1]
    · exact List.Nodup.sublist (List.Sublist.map _ List.filter_sublist) h2
    · intro b hb
      exact h3 b (List.mem_filter.1 hb).1
    · show s.siz - b.2 = _
      omega

theorem Agrees.congr {s : State} {L : List (Int × Int)} {H H' : List (List (Int × Int))} (h : Agrees s L H) (e : ∀ K, K ∈ H ↔ K ∈ H') : Agrees s L H' := by
  obtain ⟨h1, h2, h3, h4, h5, h6, h7⟩ := h
  refine ⟨h1, h2, h3, h4, fun K hK => h5 K ((e K).2 hK), ?_, (e L).1 h7⟩
  rcases h6 with ⟨a, b⟩ | ⟨K, hK, c⟩
  · exact Or.inl ⟨a, fun K hK => b K ((e K).2 hK)⟩
  · exact Or.inr ⟨K, (e K).1 hK, c⟩

theorem Agrees.run : ∀ (ops : List Op) {s : State} {L : List (Int × Int)} {H : List (List (Int × Int))}, Agrees s L H → LegalAll L ops →
    Holds (s.run ops) (fun s' => ∃ L', (history L ops).getLast? = some L' ∧ Agrees s' L' (H ++ history L ops)) := by
  intro ops
  induction ops with
  | nil =>
    intro s L H h _
    unfold State.run history
    rw [Holds_pure]
    refine ⟨L, rfl, h.congr ?_⟩
    intro K
    have := h.cur
    constructor
    · intro hK
      exact List.mem_append_left _ hK
    · intro hK
      rcases List.mem_append.1 hK with hK | hK
      · exact hK
      · rw [List.mem_singleton.1 hK]; exact this
  | cons o ops ih =>
    intro s L H h hl
    unfold State.run history
    rw [Holds_bind]
    refine (h.step hl.1).mono ?_
    intro s' h'
    refine (ih h' hl.2).mono ?_
    rintro s2 ⟨L2, e2, h2⟩
    refine ⟨L2, ?_, h2.congr ?_⟩
    · rw [List.getLast?_cons, e2]
      rfl
    · intro K
      have hc := h.cur
      have hh : live L o ∈ history (live L o) ops := by
        cases ops <;> (unfold history; simp)
      simp only [List.mem_append, List.mem_cons]
      constructor
      · rintro ((e | a) | a)
        · exact Or.inr (Or.inr (e ▸ hh))
        · exact Or.inl a
        · exact Or.inr (Or.inr a)
      · rintro (a | e | a)
        · exact Or.inl (Or.inr a)
        · exact Or.inl (Or.inr (e ▸ hc))
        · exact Or.inr a

/-- **C49** (accounting). After any legal sequence of allocations, reallocations and releases, some of which may fail for lack of memory, the amount of memory in use is the sum of the sizes of the blocks in use, and the peak is the largest amount in use at any time. -/
theorem C49_accounting (ops : List Op) (h : LegalAll [] ops) : ∃ s, State.init.run ops = .ok s ∧
    (∀ L, (history [] ops).getLast? = some L → s.memCur = bytes L) ∧
    (∀ K ∈ history [] ops, bytes K ≤ s.memMax) ∧ ∃ K ∈ history [] ops, s.memMax = bytes K := by
  have h0 : Agrees State.init [] [[]] := ⟨rfl, by simp, by simp, rfl, by simp [bytes, State.init], Or.inr ⟨[], by simp, rfl⟩, by simp⟩
  obtain ⟨s, e, L, hL, ha⟩ := Holds_iff_exists.1 (h0.run ops h)
  have hmem : [] ∈ history [] ops := by cases ops <;> (unfold history; simp)
  refine ⟨s, e, ?_, fun K hK => ha.ge K (by simp [hK]), ?_⟩
  · intro L' hL'
    rw [hL] at hL'
    obtain rfl := Option.some.inj hL'
    exact ha.siz
  · rcases ha.is with ⟨a, b⟩ | ⟨K, hK, c⟩
    · exact ⟨[], hmem, a.trans rfl⟩
    · rcases List.mem_append.1 hK with hK | hK
      · rw [List.mem_singleton.1 hK] at c
        exact ⟨[], hmem, c⟩
      · exact ⟨K, hK, c⟩

/-- A legal sequence, with a reallocation that moves its block, another one that fails, and a release. -/
def exOps : List Op := [.alloc 10 (some 100), .alloc 20 (some 200), .realloc 100 50 (some 300), .realloc 200 1000 none, .free 300]

example : LegalAll [] exOps := by
  unfold exOps
  simp [LegalAll, Legal, live]

example : (State.init.run exOps).map (fun s => (s.memCur, s.memMax)) = .ok (20, 70) := by decide +kernel

end Scotch.Memory
