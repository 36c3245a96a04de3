import Verif.Fax.LemmasT
import Verif.Graph.Access
import Mathlib.Data.Finset.Card
import Mathlib.Order.Interval.Finset.Basic
import Mathlib.Data.Int.Interval

/-! # Neighbours of a column block -/

set_option autoImplicit false
set_option linter.unusedSimpArgs false

namespace Scotch.Fax

variable {g : Graph} {o : Order}

/-! ## Sizes -/

/-- Degree of a column. -/
def deg (g : Graph) (o : Order) (c : Int) : Int := g.vend (o.peri.get c) - g.vert (o.peri.get c)

theorem deg_nonneg (C : g.Consistent) (V : o.Valid g) {c : Int} (hc : g.Vertex c) : 0 ≤ deg g o c := by
  have := (C.range _ (V.peri c hc).1).2
  unfold deg
  omega

theorem degrMax_holds (C : g.Consistent) (A : g.Allocated) (V : o.Valid g) {a b : Int} (ha : g.baseval ≤ a) (hab : a ≤ b) (hb : b ≤ g.vertnnd) :
    Holds (degrMax g o a b) (fun d => 0 ≤ d ∧ d ≤ g.vertnbr ∧ (d = g.vertnbr ∨ d = sumI a b (deg g o))) := by
  unfold degrMax
  rw [Holds_bind]
  refine Holds_forUp (fun c d => d = sumI a c (deg g o)) hab (sumI_empty (Int.le_refl _) _).symm ?_ ?_
  · intro c d c1 c2 hd
    have hv : g.Vertex c := ⟨by omega, by omega⟩
    have hp := (V.peri c hv).1
    have hpi := V.periIn
    rw [Arr.rd_ok _ (by omega) (by omega), ok_bind, Graph.rdVend_eq A hp, ok_bind, Graph.rdVert_eq A hp, ok_bind, Holds_pure, sumI_succ c1, hd]
    rfl
  · intro d hd
    have hn : 0 ≤ sumI a b (deg g o) := sumI_nonneg (fun i h1 h2 => deg_nonneg C V ⟨by omega, by omega⟩)
    have := C.vertnbr
    rw [Holds_pure]
    by_cases h : d > g.vertnbr
    · rw [if_pos h]; exact ⟨this, Int.le_refl _, .inl rfl⟩
    · rw [if_neg h]; exact ⟨by omega, by omega, .inr hd⟩

theorem hashMax_holds (d : Int) : Holds (hashMax d) (fun h => 256 ≤ h ∧ d ≤ h) := by
  unfold hashMax
  refine Holds_loopM (Q := fun h => 256 ≤ h ∧ d ≤ h) (fun h : Int => 256 ≤ h) (fun h => (d - h).toNat) ?_ _ _ (Int.le_refl _) (by omega)
  intro h hI
  by_cases hd : h < d
  · rw [if_pos hd, Holds_pure]
    exact ⟨by omega, by omega⟩
  · rw [if_neg hd, Holds_pure]
    exact ⟨hI, by omega⟩

theorem grow_holds (need blokmax : Int) (h0 : 0 ≤ blokmax) : Holds (grow need blokmax) (fun b => blokmax ≤ b ∧ need ≤ 3 * b) := by
  unfold grow
  refine Holds_loopM (Q := fun b => blokmax ≤ b ∧ need ≤ 3 * b) (fun b : Int => blokmax ≤ b) (fun b => (need - 3 * b).toNat) ?_ _ _ (Int.le_refl _) (by omega)
  intro b hI
  by_cases hd : need > 3 * b
  · rw [if_pos hd, Holds_pure]
    exact ⟨by omega, by omega⟩
  · rw [if_neg hd, Holds_pure]
    exact ⟨hI, by omega⟩

/-! ## Hash table -/

/-- Slot of key `k` after `d` steps. -/
def probe (size k : Int) (d : Nat) : Int := (k * hashPrime + d) % size

theorem probe_in {size : Int} (h : 0 < size) (k : Int) (d : Nat) : 0 ≤ probe size k d ∧ probe size k d < size :=
  ⟨Int.emod_nonneg _ (by omega), Int.emod_lt_of_pos _ h⟩

theorem probe_succ {size : Int} (k : Int) (d : Nat) : (probe size k d + 1) % size = probe size k (d + 1) := by
  unfold probe
  rw [Int.emod_add_emod]
  congr 1
  push_cast
  omega

theorem probe_surj {size : Int} (h : 0 < size) (k x : Int) (h1 : 0 ≤ x) (h2 : x < size) : ∃ d : Nat, (d : Int) < size ∧ probe size k d = x := by
  refine ⟨((x - k * hashPrime) % size).toNat, ?_, ?_⟩
  · have := Int.emod_lt_of_pos (x - k * hashPrime) h
    have := Int.emod_nonneg (x - k * hashPrime) (by omega : size ≠ 0)
    omega
  · unfold probe
    rw [Int.toNat_of_nonneg (Int.emod_nonneg _ (by omega)), Int.add_emod_emod, show k * hashPrime + (x - k * hashPrime) = x by omega]
    exact Int.emod_eq_of_lt h1 h2

/-- The keys of a list are stored in the hash table. -/
structure HTab (tab : Arr Int) (size : Int) (keys : List Int) : Prop where
  lo : tab.lo = 0
  hi : tab.hi = size
  pos : 0 < size
  key : ∀ k ∈ keys, ∃ d : Nat, tab.get (probe size k d) = k ∧ ∀ d' < d, tab.get (probe size k d') ≠ -1
  used : ∀ x, 0 ≤ x → x < size → tab.get x ≠ -1 → tab.get x ∈ keys
  uniq : ∀ x y, 0 ≤ x → x < size → 0 ≤ y → y < size → tab.get x ≠ -1 → tab.get x = tab.get y → x = y
  valid : -1 ∉ keys

theorem HTab.free {tab : Arr Int} {size : Int} {keys : List Int} (H : HTab tab size keys) (h : (keys.length : Int) < size) : ∃ x, 0 ≤ x ∧ x < size ∧ tab.get x = -1 := by
  apply Classical.byContradiction
  intro hn
  have hall : ∀ x, 0 ≤ x → x < size → tab.get x ≠ -1 := fun x h1 h2 h3 => hn ⟨x, h1, h2, h3⟩
  have hcard : (Finset.Ico (0 : Int) size).card ≤ keys.toFinset.card := by
    refine Finset.card_le_card_of_injOn (fun x => tab.get x) ?_ ?_
    · intro x hx
      rw [Finset.mem_coe, Finset.mem_Ico] at hx
      rw [Finset.mem_coe, List.mem_toFinset]
      exact H.used x hx.1 hx.2 (hall x hx.1 hx.2)
    · intro x hx y hy hxy
      rw [Finset.mem_coe, Finset.mem_Ico] at hx hy
      exact H.uniq x y hx.1 hx.2 hy.1 hy.2 (hall x hx.1 hx.2) hxy
  have h2 := List.toFinset_card_le keys
  rw [Int.card_Ico] at hcard
  have := H.pos
  omega

/-- Addition of a key. -/
theorem HTab.add {tab : Arr Int} {size : Int} {keys : List Int} (H : HTab tab size keys) {k : Int} {d : Nat} (hk : k ∉ keys) (hk' : k ≠ -1) (hd : tab.get (probe size k d) = -1)
    (hb : ∀ d' < d, tab.get (probe size k d') ≠ -1) : HTab (tab.set (probe size k d) k) size (keys ++ [k]) := by
  have hp := probe_in H.pos k d
  have hne : ∀ x, tab.get x ≠ -1 → (tab.set (probe size k d) k).get x = tab.get x := by
    intro x hx
    apply Arr.set_get_ne
    intro e
    rw [e] at hx
    exact hx hd
  refine ⟨H.lo, H.hi, H.pos, ?_, ?_, ?_, ?_⟩
  · intro k' hk1
    rw [List.mem_append, List.mem_singleton] at hk1
    rcases hk1 with h | h
    · obtain ⟨d', h1, h2⟩ := H.key k' h
      have hv : k' ≠ -1 := fun e => H.valid (e ▸ h)
      refine ⟨d', ?_, ?_⟩
      · rw [hne _ (by rw [h1]; exact hv), h1]
      · intro d'' hd''
        rw [hne _ (h2 d'' hd'')]
        exact h2 d'' hd''
    · subst h
      refine ⟨d, Arr.set_get_same _ _ _, ?_⟩
      intro d'' hd''
      rw [hne _ (hb d'' hd'')]
      exact hb d'' hd''
  · intro x x1 x2 hx
    rw [List.mem_append, List.mem_singleton]
    by_cases e : x = probe size k d
    · right; rw [e]; exact Arr.set_get_same _ _ _
    · left
      rw [Arr.set_get_ne _ _ e] at hx ⊢
      exact H.used x x1 x2 hx
  · intro x y x1 x2 y1 y2 hx hxy
    by_cases e : x = probe size k d
    · by_cases e' : y = probe size k d
      · rw [e, e']
      · exfalso
        rw [e, Arr.set_get_same, Arr.set_get_ne _ _ e'] at hxy
        exact hk (hxy ▸ H.used y y1 y2 (hxy ▸ hk'))
    · by_cases e' : y = probe size k d
      · exfalso
        rw [e', Arr.set_get_same, Arr.set_get_ne _ _ e] at hxy
        rw [Arr.set_get_ne _ _ e] at hx
        exact hk (hxy ▸ H.used x x1 x2 hx)
      · rw [Arr.set_get_ne _ _ e] at hx
        rw [Arr.set_get_ne _ _ e, Arr.set_get_ne _ _ e'] at hxy
        exact H.uniq x y x1 x2 y1 y2 hx hxy
  · rw [List.mem_append, List.mem_singleton]
    intro h
    rcases h with h | h
    · exact H.valid h
    · exact hk' h.symm

/-- State of collection: the keys are in the hash table and, in order, in the sort array. -/
structure Col (size cap : Int) (s : Arr Int × Arr Int × Int) (keys : List Int) : Prop where
  tab : HTab s.1 size keys
  nbr : s.2.2 = keys.length
  lo : s.2.1.lo = 0
  hi : s.2.1.hi = cap
  get : ∀ i (h : i < keys.length), s.2.1.get i = keys[i]
  nodup : keys.Nodup
  cap : (keys.length : Int) ≤ cap

theorem hashPut_holds {size cap : Int} {s : Arr Int × Arr Int × Int} {keys : List Int} (S : Col size cap s keys) {k : Int} (hk : k ≠ -1) (hlen : (keys.length : Int) < size) (hcap : k ∉ keys → (keys.length : Int) < cap) :
    Holds (hashPut size k s) (fun s' => ∃ keys', Col size cap s' keys' ∧ (∀ x, x ∈ keys' ↔ x ∈ keys ∨ x = k) ∧ keys'.length ≤ keys.length + 1) := by
  obtain ⟨x, x1, x2, x3⟩ := S.tab.free hlen
  obtain ⟨dx, dx1, dx2⟩ := probe_surj S.tab.pos k x x1 x2
  have hpos := S.tab.pos
  have key : ∀ (n d : Nat), size + 1 ≤ d + n → (∀ d' < d, s.1.get (probe size k d') ≠ -1 ∧ s.1.get (probe size k d') ≠ k) →
      Holds (loopM (fun h => do
        let x ← s.1.rd h
        if x = k then return Loop.brk s
        else if x = -1 then do
          let hash ← s.1.wr h k
          let sort ← s.2.1.wr s.2.2 k
          return Loop.brk (hash, sort, s.2.2 + 1)
        else return Loop.next ((h + 1) % size)) n (probe size k d)) (fun s' => ∃ keys', Col size cap s' keys' ∧ (∀ x, x ∈ keys' ↔ x ∈ keys ∨ x = k) ∧ keys'.length ≤ keys.length + 1) := by
    intro n
    induction n with
    | zero =>
      intro d h1 h2
      exfalso
      have := (h2 dx (by omega)).1
      rw [dx2] at this
      exact this x3
    | succ n ih =>
      intro d h1 h2
      have hp := probe_in S.tab.pos k d
      have hlo := S.tab.lo
      have hhi := S.tab.hi
      unfold loopM
      rw [Arr.rd_ok _ (by omega) (by omega), ok_bind]
      by_cases e : s.1.get (probe size k d) = k
      · rw [if_pos e, pure_bind]
        refine ⟨keys, S, ?_, by omega⟩
        have hm := S.tab.used _ hp.1 hp.2 (by rw [e]; exact hk)
        rw [e] at hm
        intro y
        constructor
        · exact .inl
        · intro hy
          rcases hy with hy | hy
          · exact hy
          · rw [hy]; exact hm
      · rw [if_neg e]
        by_cases e' : s.1.get (probe size k d) = -1
        · rw [if_pos e']
          have hnk : k ∉ keys := by
            intro hm
            obtain ⟨d', d1, d2⟩ := S.tab.key k hm
            rcases Nat.lt_trichotomy d' d with h | h | h
            · exact (h2 d' h).2 d1
            · rw [h] at d1; exact e d1
            · exact d2 d h e'
          have hc := hcap hnk
          have hslo := S.lo
          have hshi := S.hi
          have hnb := S.nbr
          rw [Arr.wr_ok _ _ (by omega) (by omega), ok_bind, Arr.wr_ok _ _ (by omega) (by omega), ok_bind, pure_bind]
          refine ⟨keys ++ [k], ?_, ?_, by simp⟩
          · refine ⟨S.tab.add hnk hk e' (fun d' hd' => (h2 d' hd').1), ?_, S.lo, S.hi, ?_, ?_, ?_⟩
            · simp [hnb]
            · intro i hi
              rw [List.length_append, List.length_singleton] at hi
              dsimp only
              by_cases ei : i = keys.length
              · subst ei
                rw [hnb, Arr.set_get_same]
                simp
              · rw [Arr.set_get_ne _ _ (by rw [hnb]; omega), List.getElem_append_left (by omega)]
                exact S.get i (by omega)
            · rw [List.nodup_append]
              refine ⟨S.nodup, by simp, ?_⟩
              intro a ha b hb hab
              rw [List.mem_singleton] at hb
              rw [hab, hb] at ha
              exact hnk ha
            · simp; omega
          · intro y
            rw [List.mem_append, List.mem_singleton]
        · rw [if_neg e', pure_bind]
          dsimp only
          rw [probe_succ]
          refine ih (d + 1) (by push_cast at *; omega) ?_
          intro d' hd'
          by_cases ed : d' = d
          · rw [ed]; exact ⟨e', e⟩
          · exact h2 d' (by omega)
  unfold hashPut
  have := key (size.toNat + 1) 0 (by push_cast; omega) (fun d' hd' => by omega)
  unfold probe at this
  rw [show k * hashPrime + ((0 : Nat) : Int) = k * hashPrime by simp] at this
  exact this

/-! ## Collection -/

/-- Distinct values of an interval. -/
theorem nodup_le {l : List Int} {a b : Int} (hn : l.Nodup) (hab : a ≤ b) (h : ∀ x ∈ l, a ≤ x ∧ x < b) : (l.length : Int) ≤ b - a := by
  have h1 : l.toFinset ⊆ Finset.Ico a b := by
    intro x hx
    rw [List.mem_toFinset] at hx
    rw [Finset.mem_Ico]
    exact h x hx
  have h2 := Finset.card_le_card h1
  rw [List.toFinset_card_of_nodup hn, Int.card_Ico] at h2
  omega

/-- Arc form of entries. -/
theorem entry_iff (g : Graph) (o : Order) (c x : Int) : Entry g o c x ↔ g.Vertex c ∧ ∃ e, g.vert (o.peri.get c) ≤ e ∧ e < g.vend (o.peri.get c) ∧ o.perm.get (g.dest e) = x := by
  unfold Entry
  constructor
  · rintro ⟨h1, p, hp, hx⟩
    obtain ⟨e, e1, e2, e3⟩ := (Graph.mem_nbrs g _ p).1 hp
    exact ⟨h1, e, e1, e2, by rw [← hx, e3.1]⟩
  · rintro ⟨h1, e, e1, e2, e3⟩
    exact ⟨h1, (g.dest e, g.edlo e), (Graph.mem_nbrs g _ _).2 ⟨e, e1, e2, rfl, rfl⟩, e3⟩

/-- Facts on the keys collected so far: `P` tells which entries have been met, `n` is the number of arcs met. -/
structure Got (colmax n : Int) (P : Int → Prop) (keys : List Int) : Prop where
  mem : ∀ x, x ∈ keys ↔ P x ∧ colmax ≤ x
  len : (keys.length : Int) ≤ n
  less : (∃ p, P p ∧ p < colmax) → (keys.length : Int) ≤ n - 1

theorem Got.congr {colmax n n' : Int} {P P' : Int → Prop} {keys : List Int} (G : Got colmax n P keys) (hn : n = n') (h : ∀ x, P x ↔ P' x) : Got colmax n' P' keys := by
  subst hn
  exact ⟨fun x => by rw [G.mem, h], G.len, fun ⟨p, h1, h2⟩ => G.less ⟨p, (h p).2 h1, h2⟩⟩

theorem collect_holds (C : g.Consistent) (A : g.Allocated) (V : o.Valid g) (hb : 0 ≤ g.baseval) {a b size cap : Int} (ha : g.baseval ≤ a) (hab : a < b) (hbn : b ≤ g.vertnnd)
    (hcap : cap = g.vertnbr ∨ cap = sumI a b (deg g o)) (hc0 : 0 ≤ cap) (hsize : cap < size) {s : Arr Int × Arr Int × Int} (S : Col size cap s []) :
    Holds (collect g o a b size s) (fun s' => ∃ keys, Col size cap s' keys ∧ (∀ x, x ∈ keys ↔ (∃ c, a ≤ c ∧ c < b ∧ Entry g o c x) ∧ b ≤ x) ∧
      ((∃ c p, a ≤ c ∧ c < b ∧ Entry g o c p ∧ p < b) → (keys.length : Int) ≤ cap - 1)) := by
  have hnnd := C.vertnnd
  have hdeg : ∀ c, a ≤ c → c < b → 0 ≤ deg g o c := fun c h1 h2 => deg_nonneg C V ⟨by omega, by omega⟩
  unfold collect
  refine Holds_forUp (fun c s => ∃ keys, Col size cap s keys ∧ Got b (sumI a c (deg g o)) (fun x => ∃ c', a ≤ c' ∧ c' < c ∧ Entry g o c' x) keys) (by omega) ⟨[], S, ?_⟩ ?_ ?_
  · rw [sumI_empty (Int.le_refl _)]
    refine ⟨?_, by simp, ?_⟩
    · intro x
      simp only [List.not_mem_nil, false_iff]
      rintro ⟨⟨c, c1, c2, _⟩, _⟩
      omega
    · rintro ⟨p, ⟨c, c1, c2, _⟩, _⟩
      omega
  · rintro c s c1 c2 ⟨keys, S, G⟩
    have hv : g.Vertex c := ⟨by omega, by omega⟩
    have hp := (V.peri c hv).1
    have hpi := V.periIn
    have hpm := V.permIn
    have hrg := (C.range _ hp).2
    rw [Arr.rd_ok _ (by omega) (by omega), ok_bind]
    refine Graph.Holds_forArcs A hp hrg (fun e s => ∃ keys, Col size cap s keys ∧ Got b (sumI a c (deg g o) + (e - g.vert (o.peri.get c)))
      (fun x => (∃ c', a ≤ c' ∧ c' < c ∧ Entry g o c' x) ∨ ∃ e', g.vert (o.peri.get c) ≤ e' ∧ e' < e ∧ o.perm.get (g.dest e') = x) keys) ⟨keys, S, ?_⟩ ?_ ?_
    · refine G.congr (by omega) ?_
      intro x
      constructor
      · exact .inl
      · rintro (h | ⟨e, e1, e2, _⟩)
        · exact h
        · omega
    · rintro e s e1 e2 ⟨keys, S, G⟩
      have hm : (g.dest e, g.edlo e) ∈ g.nbrs (o.peri.get c) := (Graph.mem_nbrs g _ _).2 ⟨e, e1, e2, rfl, rfl⟩
      have hw := (C.inside _ _ hp hm).1
      have hw1 := hw.1
      have hw2 := hw.2
      dsimp only at hw hw1 hw2
      have hx := (V.perm _ hw).1
      have hx1 := hx.1
      have hx2 := hx.2
      rw [Arr.rd_ok _ (by omega) (by omega), ok_bind]
      by_cases hlt : o.perm.get (g.dest e) < b
      · rw [if_pos hlt, Holds_pure]
        refine ⟨keys, S, ?_, ?_, ?_⟩
        · intro x
          rw [G.mem]
          constructor
          · rintro ⟨h | ⟨e', h1, h2, h3⟩, hb⟩
            · exact ⟨.inl h, hb⟩
            · exact ⟨.inr ⟨e', h1, by omega, h3⟩, hb⟩
          · rintro ⟨h | ⟨e', h1, h2, h3⟩, hb⟩
            · exact ⟨.inl h, hb⟩
            · refine ⟨.inr ⟨e', h1, ?_, h3⟩, hb⟩
              have : e' ≠ e := by intro e''; rw [e''] at h3; omega
              omega
        · have := G.len; omega
        · intro _
          have := G.len; omega
      · rw [if_neg hlt]
        have hins : ∀ x ∈ keys, b ≤ x ∧ x < g.vertnnd := by
          intro x hx
          obtain ⟨h1, h2⟩ := (G.mem x).1 hx
          refine ⟨h2, ?_⟩
          rcases h1 with ⟨c', _, _, h⟩ | ⟨e', h1, h2, h3⟩
          · obtain ⟨hc', e', q1, q2, q3⟩ := (entry_iff g o c' x).1 h
            have hw := (C.inside _ (g.dest e', g.edlo e') (V.peri c' hc').1 ((Graph.mem_nbrs g _ _).2 ⟨e', q1, q2, rfl, rfl⟩)).1
            rw [← q3]
            exact (V.perm _ hw).1.2
          · have hw := (C.inside _ (g.dest e', g.edlo e') hp ((Graph.mem_nbrs g _ _).2 ⟨e', h1, by omega, rfl, rfl⟩)).1
            rw [← h3]
            exact (V.perm _ hw).1.2
        refine Holds.mono (hashPut_holds S (k := o.perm.get (g.dest e)) (by omega) (by have := S.cap; omega) ?_) ?_
        · intro hnk
          rcases hcap with h | h
          · have := nodup_le (l := o.perm.get (g.dest e) :: keys) (a := b) (b := g.vertnnd) (List.nodup_cons.2 ⟨hnk, S.nodup⟩) hbn ?_
            · rw [List.length_cons] at this
              push_cast at this
              omega
            · intro x hx
              rw [List.mem_cons] at hx
              rcases hx with hx | hx
              · rw [hx]; exact ⟨by omega, hx2⟩
              · exact hins x hx
          · have h1 := G.len
            have h2 : sumI a b (deg g o) = sumI a (c + 1) (deg g o) + sumI (c + 1) b (deg g o) := sumI_split (by omega) (by omega) _
            have h3 : 0 ≤ sumI (c + 1) b (deg g o) := sumI_nonneg (fun i h1 h2 => hdeg i (by omega) h2)
            rw [sumI_succ c1] at h2
            have h4 : deg g o c = g.vend (o.peri.get c) - g.vert (o.peri.get c) := rfl
            omega
        · rintro s' ⟨keys', S', hm', hl'⟩
          refine ⟨keys', S', ?_, ?_, ?_⟩
          · intro x
            rw [hm', G.mem]
            constructor
            · rintro (⟨h | ⟨e', h1, h2, h3⟩, hb⟩ | h)
              · exact ⟨.inl h, hb⟩
              · exact ⟨.inr ⟨e', h1, by omega, h3⟩, hb⟩
              · exact ⟨.inr ⟨e, e1, by omega, h.symm⟩, by omega⟩
            · rintro ⟨h | ⟨e', h1, h2, h3⟩, hb⟩
              · exact .inl ⟨.inl h, hb⟩
              · by_cases ee : e' = e
                · rw [ee] at h3; exact .inr h3.symm
                · exact .inl ⟨.inr ⟨e', h1, by omega, h3⟩, hb⟩
          · have := G.len; omega
          · rintro ⟨p, hP, hpb⟩
            have := G.less ⟨p, ?_, hpb⟩
            · omega
            · rcases hP with h | ⟨e', h1, h2, h3⟩
              · exact .inl h
              · refine .inr ⟨e', h1, ?_, h3⟩
                have : e' ≠ e := by intro e''; rw [e''] at h3; omega
                omega
    · rintro s ⟨keys, S, G⟩
      refine ⟨keys, S, G.congr ?_ ?_⟩
      · rw [sumI_succ c1]; rfl
      · intro x
        constructor
        · rintro (⟨c', h1, h2, h3⟩ | ⟨e', h1, h2, h3⟩)
          · exact ⟨c', h1, by omega, h3⟩
          · exact ⟨c, c1, by omega, (entry_iff g o c x).2 ⟨hv, e', h1, h2, h3⟩⟩
        · rintro ⟨c', h1, h2, h3⟩
          by_cases ec : c' = c
          · rw [ec] at h3
            exact .inr ((entry_iff g o c x).1 h3).2
          · exact .inl ⟨c', h1, by omega, h3⟩
  · rintro s ⟨keys, S, G⟩
    refine ⟨keys, S, G.mem, ?_⟩
    rintro ⟨c, p, h1, h2, h3, h4⟩
    have hl := G.less ⟨p, ⟨c, h1, h2, h3⟩, h4⟩
    rcases hcap with h | h
    · have := nodup_le S.nodup hbn ?_
      · omega
      · intro x hx
        obtain ⟨⟨c', _, _, hq⟩, hq2⟩ := (G.mem x).1 hx
        obtain ⟨hc', e', q1, q2, q3⟩ := (entry_iff g o c' x).1 hq
        have hw := (C.inside _ (g.dest e', g.edlo e') (V.peri c' hc').1 ((Graph.mem_nbrs g _ _).2 ⟨e', q1, q2, rfl, rfl⟩)).1
        rw [← q3]
        exact ⟨by omega, (V.perm _ hw).1.2⟩
    · omega

end Scotch.Fax
