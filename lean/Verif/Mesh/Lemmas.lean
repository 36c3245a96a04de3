import Verif.Mesh.Spec
import Verif.Graph.OfLists

set_option autoImplicit false
set_option linter.unusedSimpArgs false

namespace Scotch.Mesh

open Coarsen (IsMask land land_mask)
open Hash (Tab Path probe ins)

variable {numMax : Int} {m : Mesh}

/-- What is assumed. -/
structure Pre (numMax : Int) (m : Mesh) : Prop where
  cons : m.Consistent
  alloc : m.Allocated
  base : 0 ≤ m.baseval
  deg : m.degrmax * m.degrmax * 4 ≤ numMax
  prime : ∀ v, m.Elem v ∨ m.Node v → v * hashPrime ≤ numMax

/-! ## Table size -/

theorem sizeLoop_holds (numMax hashnbr : Int) (h : hashnbr * 2 ≤ numMax) : ∀ (n : Nat) (siz : Int), IsMask (siz - 1) → 32 ≤ siz → 1 ≤ n → hashnbr ≤ siz + n - 1 →
    Holds (sizeLoop numMax hashnbr n siz) (fun s => IsMask (s - 1) ∧ 32 ≤ s ∧ hashnbr ≤ s) := by
  intro n
  induction n with
  | zero => intro siz _ _ h; omega
  | succ n ih =>
    intro siz h1 h2 h3 h4
    unfold sizeLoop
    by_cases hlt : siz < hashnbr
    · rw [if_pos hlt, if_pos (by omega)]
      refine ih _ ?_ (by omega) (by omega) (by omega)
      have := h1.double
      rwa [show (siz - 1) * 2 + 1 = siz * 2 - 1 by omega] at this
    · rw [if_neg hlt, Holds_ok]
      exact ⟨h1, h2, by omega⟩

theorem hashSize_holds (P : Pre numMax m) : Holds (hashSize numMax m.degrmax) (fun s => IsMask (s - 1) ∧ 32 ≤ s ∧ m.degrmax * m.degrmax * 2 ≤ s) := by
  have h := P.deg
  have h0 : 0 ≤ m.degrmax * m.degrmax := Int.mul_nonneg P.cons.degrmax.1 P.cons.degrmax.1
  unfold hashSize mulChk
  rw [Holds_bind, if_pos (by omega), Holds_ok, Holds_bind, if_pos (by omega), Holds_ok]
  exact sizeLoop_holds numMax _ (by omega) _ 32 ⟨5, by decide⟩ (by omega) (by omega) (by omega)

theorem hashStart_ok (P : Pre numMax m) {msk : Int} (hm : IsMask msk) {v : Int} (hv : m.Elem v ∨ m.Node v) : hashStart numMax msk v = .ok (probe hashPrime (msk + 1) v 0) := by
  have hp := P.prime v hv
  have h0 : 0 ≤ v := by
    have := P.base
    have := P.cons.order
    have := P.cons.velmnnd
    have := P.cons.vnodnnd
    have := P.cons.velmnbr
    have := P.cons.vnodnbr
    rcases hv with h | h <;> have := h.1 <;> omega
  unfold hashStart mulChk
  rw [if_pos hp]
  show Except.ok _ = Except.ok _
  congr 1
  rw [land_mask hm (by unfold hashPrime; omega)]
  unfold probe
  simp

/-! ## Access -/

theorem in_range (C : m.Consistent) {v : Int} (hv : m.Elem v ∨ m.Node v) : m.baseval ≤ v ∧ v < m.baseval + m.velmnbr + m.vnodnbr := by
  have := C.order
  have := C.velmnnd
  have := C.vnodnnd
  have := C.velmnbr
  have := C.vnodnbr
  rcases hv with h | h <;> have := h.1 <;> have := h.2 <;> omega

theorem verttax_ok (P : Pre numMax m) {v : Int} (hv : m.Elem v ∨ m.Node v) : m.verttax.rd v = .ok (m.vert v) := by
  have := in_range P.cons hv
  have := P.alloc.vlo
  have := P.alloc.vhi
  exact Arr.rd_ok _ (by omega) (by omega)

theorem vendtax_ok (P : Pre numMax m) {v : Int} (hv : m.Elem v ∨ m.Node v) : m.rdVend v = .ok (m.vend v) := by
  have h := in_range P.cons hv
  have := P.alloc.vlo
  unfold rdVend vend
  cases hx : m.vendtax with
  | none => dsimp only; have := P.alloc.vhi' hx; exact Arr.rd_ok _ (by omega) (by omega)
  | some a => dsimp only; have := P.alloc.ends a hx; exact Arr.rd_ok _ (by omega) (by omega)

theorem edgetax_ok (P : Pre numMax m) {v e : Int} (hv : m.Elem v ∨ m.Node v) (h1 : m.vert v ≤ e) (h2 : e < m.vend v) : m.edgetax.rd e = .ok (m.edgetax.get e) ∧ m.edgetax.get e ∈ m.nbr v := by
  have := P.alloc.edge v hv (by omega)
  exact ⟨Arr.rd_ok _ (by omega) (by omega), (mem_seg _ _ _ _).2 ⟨e, h1, h2, rfl⟩⟩

theorem nbr_length (C : m.Consistent) {v : Int} (hv : m.Elem v ∨ m.Node v) : ((m.nbr v).length : Int) = m.vend v - m.vert v := seg_length _ (C.range v hv).2

theorem single_le {lo hi v : Int} (h1 : lo ≤ v) (h2 : v < hi) {f : Int → Int} (hf : ∀ i, lo ≤ i → i < hi → 0 ≤ f i) : f v ≤ sumI lo hi f := by
  rw [sumI_split h1 (by omega : v ≤ hi), sumI_split (by omega : v ≤ v + 1) (by omega) f, sumI_succ (Int.le_refl v), sumI_empty (Int.le_refl v)]
  have := sumI_nonneg (lo := lo) (hi := v) (f := f) (fun i i1 i2 => hf i i1 (by omega))
  have := sumI_nonneg (lo := v + 1) (hi := hi) (f := f) (fun i i1 i2 => hf i (by omega) i2)
  omega

/-- A mesh that has an element with a node has at least two arcs. -/
theorem two_le_edgenbr (C : m.Consistent) {v w : Int} (hv : m.Elem v) (hw : w ∈ m.nbr v) : 2 ≤ m.edgenbr := by
  obtain ⟨w1, w2⟩ := C.nodes v hv w hw
  have h1 := single_le hv.1 hv.2 (f := fun v => ((m.nbr v).length : Int)) (fun i _ _ => by omega)
  have h2 := single_le w1.1 w1.2 (f := fun v => ((m.nbr v).length : Int)) (fun i _ _ => by omega)
  have := List.length_pos_of_mem hw
  have := List.length_pos_of_mem w2
  have := C.edgenbr
  omega

/-! ## Growth -/

theorem grow_cases (base : Int) (edge : Arr Int) (num : Int) (h : num ≤ edge.hi) (h4 : 4 ≤ edge.hi - base) : (grow base edge num).lo = edge.lo ∧ num < (grow base edge num).hi ∧ edge.hi ≤ (grow base edge num).hi ∧
    (grow base edge num).get = edge.get := by
  unfold grow
  split
  · exact ⟨rfl, by dsimp only; omega, by dsimp only; omega, rfl⟩
  · exact ⟨rfl, by omega, Int.le_refl _, rfl⟩

/-! ## Nodes -/

/-- Offset of nodes. -/
def noff (m : Mesh) : Int := m.vnodbas - m.baseval

/-- State when keys `keys` have been found for node `n`. -/
structure Acc (m : Mesh) (msk n : Int) (edge0 : Int → Int) (start : Int) (keys : List Int) (s : EState) : Prop where
  lo : s.tab.lo = 0
  hi : s.tab.hi = msk + 1
  tab : Tab hashPrime (msk + 1) (fun x => (s.tab.get x).num = n) (fun x => (s.tab.get x).vend) keys
  old : ∀ x, 0 ≤ x → x < msk + 1 → (s.tab.get x).num ≤ n
  elo : s.edge.lo = m.baseval
  low : m.baseval ≤ start
  pos : s.num = start + keys.length - 1 ∧ 1 ≤ keys.length
  cap : s.num ≤ s.edge.hi ∧ 2 * m.edgenbr + m.baseval ≤ s.edge.hi
  out : seg s.edge.get start s.num = keys.tail.map (· - noff m)
  kept : ∀ x, x < start → s.edge.get x = edge0 x

theorem nodeBody_holds (P : Pre numMax m) {msk n : Int} (hm : IsMask msk) {edge0 : Int → Int} {start : Int} {keys : List Int} {s : EState} (S : Acc m msk n edge0 start keys s)
    (hlen : (keys.length : Int) < msk + 1) {v e : Int} (hv : m.Elem v) (h1 : m.vert v ≤ e) (h2 : e < m.vend v) :
    Holds (nodeBody numMax m msk n e s) (Acc m msk n edge0 start (if m.edgetax.get e ∈ keys then keys else keys ++ [m.edgetax.get e])) := by
  obtain ⟨r1, r2⟩ := edgetax_ok P (Or.inl hv) h1 h2
  obtain ⟨w1, -⟩ := P.cons.nodes v hv _ r2
  have h4 := two_le_edgenbr P.cons hv r2
  generalize m.edgetax.get e = w at *
  have hmn := hm.nonneg
  unfold nodeBody
  rw [r1, Holds_bind, Holds_ok, Holds_bind, hashStart_ok P hm (Or.inr w1), Holds_ok, Holds_bind]
  refine (Hash.find_holds S.tab hm rfl hlen w (test := testSlot s.tab n w) ?_ (msk.toNat + 2) 0 (by omega) (fun d' h => by omega)).mono ?_
  · intro h x1 x2
    unfold testSlot
    rw [Holds_bind, Arr.rd_ok _ (by rw [S.lo]; omega) (by rw [S.hi]; omega), Holds_ok]
    by_cases hn : (s.tab.get h).num = n
    · rw [if_neg (by omega)]
      by_cases hw : (s.tab.get h).vend = w
      · rw [if_pos hw, Holds_pure]; simp [hn, hw]
      · rw [if_neg hw, Holds_pure]; simp [hn, hw]
    · rw [if_pos hn, Holds_pure]; simp [hn]
  · rintro ⟨x, b⟩ ⟨d, d1, d2, d3, d4⟩
    dsimp only at d1 d3 d4 ⊢
    have hin := Hash.probe_in (prime := hashPrime) S.tab.pos w d
    have c1 := S.cap.1
    have c2 := S.cap.2
    have hlow := S.low
    have hp1 := S.pos.1
    have hp2 := S.pos.2
    match b with
    | true =>
      have hf := d3 rfl
      rw [d1] at hf
      have hk := S.tab.not_mem d2 hf
      obtain ⟨g1, g2, g3, g4⟩ := grow_cases m.baseval s.edge s.num c1 (by omega)
      rw [if_pos rfl, if_neg hk, Holds_bind, d1, Arr.wr_ok _ _ (by rw [S.lo]; omega) (by rw [S.hi]; omega), Holds_ok, Holds_bind, Arr.wr_ok _ _ (by rw [g1, S.elo]; omega) g2, Holds_ok, Holds_pure]
      have hlen' : (keys ++ [w]).length = keys.length + 1 := by simp
      refine ⟨S.lo, S.hi, ?_, ?_, g1.trans S.elo, S.low, ?_, ?_, ?_, ?_⟩
      · refine S.tab.insert d2 hf ?_ ?_ ?_
        · intro y
          dsimp only
          rw [Arr.set_get]
          by_cases ey : y = probe hashPrime (msk + 1) w d
          · rw [if_pos ey]; simp [ey]
          · rw [if_neg ey]; simp [ey]
        · intro y ey
          dsimp only
          rw [Arr.set_get_ne _ _ ey]
        · dsimp only
          rw [Arr.set_get, if_pos rfl]
      · intro y y1 y2
        dsimp only
        rw [Arr.set_get]
        split
        · exact Int.le_refl _
        · exact S.old y y1 y2
      · dsimp only; rw [hlen']; omega
      · dsimp only [Arr.set]; omega
      · dsimp only
        rw [seg_succ _ (by omega)]
        have htail : (keys ++ [w]).tail = keys.tail ++ [w] := by
          cases keys with
          | nil => simp at hp2
          | cons a l => rfl
        rw [htail, List.map_append, ← S.out]
        congr 1
        · refine seg_congr ?_
          intro i _ i2
          rw [Arr.set_get_ne _ _ (by omega), g4]
        · rw [Arr.set_get, if_pos rfl]; rfl
      · intro y hy
        dsimp only
        rw [Arr.set_get_ne _ _ (by omega), g4]
        exact S.kept y hy
    | false =>
      obtain ⟨o1, o2⟩ := d4 rfl
      have hk : w ∈ keys := (S.tab.mem w).2 ⟨x, by rw [d1]; exact hin.1, by rw [d1]; exact hin.2, o1, o2⟩
      rw [if_pos hk, if_neg (by simp), Holds_pure]
      exact S

theorem elemBody_holds (P : Pre numMax m) {msk n : Int} (hm : IsMask msk) {edge0 : Int → Int} {start : Int} {keys : List Int} {s : EState} (S : Acc m msk n edge0 start keys s) (hn : m.Node n)
    {e : Int} (h1 : m.vert n ≤ e) (h2 : e < m.vend n) (hlen : (keys.length : Int) + m.degrmax < msk + 1) :
    Holds (elemBody numMax m msk n e s) (Acc m msk n edge0 start (ins keys (m.nbr (m.edgetax.get e)))) := by
  obtain ⟨r1, r2⟩ := edgetax_ok P (Or.inr hn) h1 h2
  obtain ⟨v1, -⟩ := P.cons.elems n hn _ r2
  generalize m.edgetax.get e = v at *
  unfold elemBody
  rw [r1, Holds_bind, Holds_ok, Holds_bind, verttax_ok P (Or.inl v1), Holds_ok, Holds_bind, vendtax_ok P (Or.inl v1), Holds_ok]
  have hl := nbr_length P.cons (Or.inl v1)
  have hd := P.cons.degrmax.2 v (Or.inl v1)
  refine Holds_forUp (fun x s => Acc m msk n edge0 start (ins keys (seg m.edgetax.get (m.vert v) x)) s) (P.cons.range v (Or.inl v1)).2 ?_ ?_ (fun _ h => h)
  · rw [seg_empty _ (Int.le_refl _), Hash.ins_nil]; exact S
  · intro x s' x1 x2 S'
    rw [seg_succ _ x1, Hash.ins_snoc]
    refine nodeBody_holds P hm S' ?_ v1 x1 x2
    have := Hash.ins_length keys (seg m.edgetax.get (m.vert v) x)
    have := seg_length m.edgetax.get x1
    omega

/-- Keys of a node. -/
def nodeKeys (m : Mesh) (n : Int) : List Int := ins [n] ((m.nbr n).flatMap m.nbr)

/-- Neighbours of the vertex of a node. -/
def nodeList (m : Mesh) (v : Int) : List Int := (nodeKeys m (v + noff m)).tail.map (· - noff m)

theorem node_holds (P : Pre numMax m) {msk n : Int} (hm : IsMask msk) (hs1 : 32 ≤ msk + 1) (hs2 : m.degrmax * m.degrmax * 2 ≤ msk + 1) {edge0 : Int → Int} {start : Int} {s : EState} (S : Acc m msk n edge0 start [n] s)
    (hn : m.Node n) : Holds (forUp (m.vert n) (m.vend n) s (elemBody numMax m msk n)) (Acc m msk n edge0 start (nodeKeys m n)) := by
  refine Holds_forUp (fun x s => Acc m msk n edge0 start (ins [n] ((seg m.edgetax.get (m.vert n) x).flatMap m.nbr)) s) (P.cons.range n (Or.inr hn)).2 ?_ ?_ (fun _ h => h)
  · rw [seg_empty _ (Int.le_refl _)]; exact S
  · intro x s' x1 x2 S'
    rw [seg_succ _ x1, List.flatMap_append, Hash.ins_append]
    have : [m.edgetax.get x].flatMap m.nbr = m.nbr (m.edgetax.get x) := by simp
    rw [this]
    refine elemBody_holds P hm S' hn x1 x2 ?_
    have hd0 := P.cons.degrmax.1
    have hd := P.cons.degrmax.2 n (Or.inr hn)
    have hl := nbr_length P.cons (Or.inr hn)
    have hsl := seg_length m.edgetax.get x1
    have a1 := Hash.ins_length [n] ((seg m.edgetax.get (m.vert n) x).flatMap m.nbr)
    have a2 := Hash.flatMap_length_le (seg m.edgetax.get (m.vert n) x) m.nbr m.degrmax.toNat (by
      intro v hv
      obtain ⟨i, i1, i2, i3⟩ := (mem_seg _ _ _ _).1 hv
      have hv' : v ∈ m.nbr n := (mem_seg _ _ _ _).2 ⟨i, i1, by omega, i3⟩
      have := P.cons.degrmax.2 v (Or.inl (P.cons.elems n hn v hv').1)
      omega)
    simp only [List.length_singleton] at a1
    have a3 : (seg m.edgetax.get (m.vert n) x).length * m.degrmax.toNat + m.degrmax.toNat ≤ m.degrmax.toNat * m.degrmax.toNat := by
      rw [← Nat.succ_mul]
      exact Nat.mul_le_mul_right _ (by omega)
    have a4 : ((m.degrmax.toNat * m.degrmax.toNat : Nat) : Int) = m.degrmax * m.degrmax := by
      rw [Nat.cast_mul, Int.toNat_of_nonneg hd0]
    omega

theorem Acc.start (P : Pre numMax m) {msk n start : Int} (hm : IsMask msk) {s : EState} (h1 : s.tab.lo = 0) (h2 : s.tab.hi = msk + 1) (h3 : ∀ x, 0 ≤ x → x < msk + 1 → (s.tab.get x).num < n)
    (h4 : s.edge.lo = m.baseval) (h5 : m.baseval ≤ start) (h6 : s.num = start) (h7 : s.num ≤ s.edge.hi ∧ 2 * m.edgenbr + m.baseval ≤ s.edge.hi) :
    Acc m msk n s.edge.get start [n] { s with tab := s.tab.set (probe hashPrime (msk + 1) n 0) ⟨n, n⟩ } := by
  have hmn := hm.nonneg
  have T0 : Tab hashPrime (msk + 1) (fun x => (s.tab.get x).num = n) (fun x => (s.tab.get x).vend) [] :=
    Tab.empty (by omega) (fun x x1 x2 h => by have := h3 x x1 x2; omega)
  have hin := Hash.probe_in (prime := hashPrime) T0.pos n 0
  refine ⟨h1, h2, ?_, ?_, h4, h5, ⟨by simp; omega, by simp⟩, h7, ?_, fun x _ => rfl⟩
  · refine T0.insert (d := 0) (fun d' h => by omega) ?_ ?_ ?_ ?_
    · have := h3 _ hin.1 hin.2; omega
    · intro y
      dsimp only
      rw [Arr.set_get]
      by_cases ey : y = probe hashPrime (msk + 1) n 0
      · rw [if_pos ey]; simp [ey]
      · rw [if_neg ey]; simp [ey]
    · intro y ey
      dsimp only
      rw [Arr.set_get_ne _ _ ey]
    · dsimp only
      rw [Arr.set_get, if_pos rfl]
  · intro y y1 y2
    dsimp only
    rw [Arr.set_get]
    split
    · exact Int.le_refl _
    · have := h3 y y1 y2; omega
  · dsimp only
    rw [seg_empty _ (by omega)]
    rfl

/-! ## Membership -/

theorem mem_nodeKeys (m : Mesh) (n w : Int) : w ∈ nodeKeys m n ↔ w = n ∨ ∃ v ∈ m.nbr n, w ∈ m.nbr v := by
  unfold nodeKeys
  rw [Hash.mem_ins, List.mem_singleton, List.mem_flatMap]

theorem nodeKeys_cons (m : Mesh) (n : Int) : nodeKeys m n = n :: (nodeKeys m n).tail := by
  obtain ⟨t, ht⟩ := Hash.ins_head n [] ((m.nbr n).flatMap m.nbr)
  unfold nodeKeys
  rw [ht]; rfl

theorem ins_nodup (ks l : List Int) (h : ks.Nodup) : (ins ks l).Nodup := by
  induction l generalizing ks with
  | nil => exact h
  | cons a l ih =>
    rw [show a :: l = [a] ++ l from rfl, Hash.ins_append]
    apply ih
    rw [show [a] = [] ++ [a] from rfl, Hash.ins_snoc, Hash.ins_nil]
    split
    · exact h
    · rename_i hn
      rw [List.nodup_append]
      refine ⟨h, by simp, ?_⟩
      intro x hx y hy
      rw [List.mem_singleton] at hy
      rintro rfl
      rw [hy] at hx
      exact hn hx

theorem nodeKeys_nodup (m : Mesh) (n : Int) : (nodeKeys m n).Nodup := ins_nodup _ _ (by simp)

theorem mem_nodeList (m : Mesh) (v w : Int) : w ∈ nodeList m v ↔ w ≠ v ∧ ∃ e ∈ m.nbr (v + noff m), w + noff m ∈ m.nbr e := by
  have hn := nodeKeys_nodup m (v + noff m)
  rw [nodeKeys_cons, List.nodup_cons] at hn
  have hmem := mem_nodeKeys m (v + noff m) (w + noff m)
  rw [nodeKeys_cons, List.mem_cons] at hmem
  have hw : w ∈ nodeList m v ↔ w + noff m ∈ (nodeKeys m (v + noff m)).tail := by
    unfold nodeList
    rw [List.mem_map]
    constructor
    · rintro ⟨x, x1, x2⟩
      rwa [show w + noff m = x by omega]
    · intro h
      exact ⟨_, h, by omega⟩
  rw [hw]
  constructor
  · intro h
    refine ⟨?_, ?_⟩
    · rintro rfl
      exact hn.1 h
    · rcases hmem.1 (Or.inr h) with h' | h'
      · rw [h'] at h; exact absurd h hn.1
      · exact h'
  · rintro ⟨h1, h2⟩
    rcases hmem.2 (Or.inr h2) with h' | h'
    · omega
    · exact h'

theorem nodeList_nodup (m : Mesh) (v : Int) : (nodeList m v).Nodup := by
  have hn := nodeKeys_nodup m (v + noff m)
  rw [nodeKeys_cons, List.nodup_cons] at hn
  unfold nodeList
  exact hn.2.map (fun a b h => by have h' : a - noff m = b - noff m := h; omega)

/-! ## Loop on vertices -/

/-- State before vertex `v`. -/
structure VInv (m : Mesh) (msk : Int) (v : Int) (s : VState) : Prop where
  vlo : s.vert.lo = m.baseval
  vhi : s.vert.hi = m.vnodnbr + m.baseval + 1
  tlo : s.es.tab.lo = 0
  thi : s.es.tab.hi = msk + 1
  old : ∀ x, 0 ≤ x → x < msk + 1 → (s.es.tab.get x).num < v + noff m
  elo : s.es.edge.lo = m.baseval
  cap : s.es.num ≤ s.es.edge.hi ∧ 2 * m.edgenbr + m.baseval ≤ s.es.edge.hi
  lists : Graph.Lists m.baseval v (nodeList m) s.vert.get s.es.edge.get s.es.num
  deg : 0 ≤ s.degrmax ∧ ∀ u, m.baseval ≤ u → u < v → ((nodeList m u).length : Int) ≤ s.degrmax

theorem vertBody_holds (P : Pre numMax m) {msk : Int} (hm : IsMask msk) (hs1 : 32 ≤ msk + 1) (hs2 : m.degrmax * m.degrmax * 2 ≤ msk + 1) {v : Int} (h1 : m.baseval ≤ v) (h2 : v < m.vnodnbr + m.baseval)
    {s : VState} (S : VInv m msk v s) : Holds (vertBody numMax m msk v s) (VInv m msk (v + 1)) := by
  have hn : m.Node (v + noff m) := by
    have := P.cons.vnodnnd
    exact ⟨by unfold noff; omega, by unfold noff; omega⟩
  have hmn := hm.nonneg
  have hin := Hash.probe_in (prime := hashPrime) (show 0 < msk + 1 by omega) (v + noff m) 0
  have hnum := S.lists.next
  have hsum := Graph.len_nonneg (base := m.baseval) (adj := nodeList m) v
  unfold vertBody
  rw [Holds_bind, Arr.wr_ok _ _ (by rw [S.vlo]; omega) (by rw [S.vhi]; omega), Holds_ok]
  dsimp only
  rw [show v + (m.vnodbas - m.baseval) = v + noff m from rfl, Holds_bind, hashStart_ok P hm (Or.inr hn), Holds_ok, Holds_bind, Arr.wr_ok _ _ (by rw [S.tlo]; exact hin.1) (by rw [S.thi]; exact hin.2), Holds_ok,
    Holds_bind, verttax_ok P (Or.inr hn), Holds_ok, Holds_bind, vendtax_ok P (Or.inr hn), Holds_ok, Holds_bind]
  refine (node_holds P hm hs1 hs2 (Acc.start P hm (start := s.es.num) S.tlo S.thi S.old S.elo (by omega) rfl S.cap) hn).mono ?_
  intro es A
  rw [Holds_pure]
  have hpos := A.pos
  have hout : seg es.edge.get s.es.num es.num = nodeList m v := A.out
  have hlen : ((nodeList m v).length : Int) = es.num - s.es.num := by
    rw [← hout]; exact seg_length _ (by omega)
  refine ⟨S.vlo, S.vhi, A.lo, A.hi, ?_, A.elo, A.cap, ?_, ?_⟩
  · intro x x1 x2
    have := A.old x x1 x2
    dsimp only
    omega
  · refine S.lists.step h1 ?_ ?_ A.kept (by dsimp only; omega) hout
    · intro u hu
      dsimp only
      rw [Arr.set_get_ne _ _ hu]
    · dsimp only
      rw [Arr.set_get, if_pos rfl]
  · have hd := S.deg.1
    refine ⟨by dsimp only; omega, ?_⟩
    intro u u1 u2
    dsimp only
    by_cases e : u = v
    · rw [e]; omega
    · have := S.deg.2 u u1 (by omega); omega

theorem mkGraph_lists {base nbr num degrmax velosum : Int} {velotax : Option (Arr Int)} {vert edge : Arr Int} {adj : Int → List Int} (h0 : 0 ≤ nbr) (L : Graph.Lists base (nbr + base) adj vert.get edge.get num)
    (hd : 0 ≤ degrmax ∧ ∀ u, base ≤ u → u < nbr + base → ((adj u).length : Int) ≤ degrmax) :
    Graph.IsLists (mkGraph base nbr velotax velosum (vert.set (nbr + base) num) edge num degrmax) adj := by
  refine ⟨h0, Int.add_comm _ _, rfl, rfl, ?_, ?_, rfl, hd.1, fun v hv => hd.2 v hv.1 hv.2⟩
  · dsimp only [mkGraph]
    rw [show base + (num - base) = num by omega]
    refine ⟨L.next, fun u u1 u2 => ?_, fun u u1 u2 => ?_⟩
    · rw [Arr.set_get_ne _ _ (by omega)]; exact L.start u u1 u2
    · rw [Arr.set_get_ne _ _ (by omega)]; exact L.lists u u1 u2
  · dsimp only [mkGraph]
    rw [Arr.set_get, if_pos rfl]; omega

theorem toGraph_holds (P : Pre numMax m) (J : Junk) : Holds (toGraph numMax m J) (NodeGraph m) := by
  unfold toGraph
  rw [Holds_bind]
  refine (hashSize_holds P).mono ?_
  rintro siz ⟨s1, s2, s3⟩
  have hb := P.base
  have hle : m.baseval ≤ m.vnodnbr + m.baseval := by have := P.cons.vnodnbr; omega
  have hbas : m.baseval ≤ m.vnodbas := by have := P.cons.order; have := P.cons.velmnnd; have := P.cons.velmnbr; omega
  have he0 : 0 ≤ m.edgenbr := by
    rw [P.cons.edgenbr]
    have := sumI_nonneg (lo := m.velmbas) (hi := m.velmnnd) (f := fun v => ((m.nbr v).length : Int)) (fun i _ _ => by omega)
    have := sumI_nonneg (lo := m.vnodbas) (hi := m.vnodnnd) (f := fun v => ((m.nbr v).length : Int)) (fun i _ _ => by omega)
    omega
  dsimp only
  rw [Holds_bind]
  have hst := Holds_forUp (s := (⟨⟨m.baseval, m.vnodnbr + m.baseval + 1, J.vert⟩, ⟨Arr.const 0 siz ⟨-1, -1⟩, ⟨m.baseval, 2 * m.edgenbr + m.baseval, J.edge⟩, m.baseval⟩, 0⟩ : VState)) (VInv m (siz - 1)) hle ?_
    (fun v s v1 v2 S => vertBody_holds P s1 (by omega) (by omega) v1 v2 S) (fun _ h => h)
  · refine hst.mono ?_
    intro s S
    rw [Holds_bind, Arr.wr_ok _ _ (by rw [S.vlo]; omega) (by rw [S.vhi]; omega), Holds_ok, Holds_pure]
    have hnum := S.lists.next
    have L := mkGraph_lists (velotax := m.vnlotax.map fun a => a.shift (m.baseval - m.vnodbas)) (velosum := m.vnlosum) P.cons.vnodnbr S.lists S.deg
    generalize hg : mkGraph m.baseval m.vnodnbr (m.vnlotax.map fun a => a.shift (m.baseval - m.vnodbas)) m.vnlosum (s.vert.set (m.vnodnbr + m.baseval) s.es.num) s.es.edge s.es.num s.degrmax = g at *
    have gb : g.baseval = m.baseval := by rw [← hg]; rfl
    have gn : g.vertnnd = m.vnodnbr + m.baseval := by rw [← hg]; rfl
    have gv : g.velotax = m.vnlotax.map fun a => a.shift (m.baseval - m.vnodbas) := by rw [← hg]; rfl
    have hnode : ∀ v, g.Vertex v ↔ m.Node (v + noff m) := by
      intro v
      have := P.cons.vnodnnd
      unfold Graph.Vertex Node noff
      omega
    have hvelo : ∀ v, g.velo v = m.vnlo (v + noff m) := by
      intro v
      unfold Graph.velo vnlo
      rw [gv]
      cases m.vnlotax with
      | none => rfl
      | some a => show a.get (v - (m.baseval - m.vnodbas)) = a.get (v + noff m); congr 1; unfold noff; omega
    have hin : ∀ v, g.Vertex v → ∀ w, w ∈ nodeList m v ↔ g.Vertex w ∧ w ≠ v ∧ ∃ e, m.Elem e ∧ v + noff m ∈ m.nbr e ∧ w + noff m ∈ m.nbr e := by
      intro v hv w
      rw [mem_nodeList]
      constructor
      · rintro ⟨a1, e, e1, e2⟩
        obtain ⟨b1, b2⟩ := P.cons.elems _ ((hnode v).1 hv) e e1
        exact ⟨(hnode w).2 (P.cons.nodes e b1 _ e2).1, a1, e, b1, b2, e2⟩
      · rintro ⟨-, a1, e, e1, e2, e3⟩
        exact ⟨a1, e, (P.cons.nodes e e1 _ e2).2, e3⟩
    refine ⟨?_, ?_, gb, by rw [← hg]; rfl, ?_, fun v _ => hvelo v, fun v p hv hp => ((L.mem hv p.1 p.2).1 hp).2⟩
    · refine L.consistent ?_ (fun v _ => nodeList_nodup m v) ?_ ?_
      · intro v hv w hw
        obtain ⟨a1, a2, e, e1, e2, e3⟩ := (hin v hv w).1 hw
        exact ⟨a1, a2, (hin w a1 v).2 ⟨hv, fun h => a2 h.symm, e, e1, e3, e2⟩⟩
      · intro v hv
        rw [hvelo]
        have := P.cons.vnlo _ ((hnode v).1 hv)
        omega
      · have : g.velosum = m.vnlosum := by rw [← hg]; rfl
        rw [this, P.cons.vnlosum]
        have hsh : sumI m.vnodbas m.vnodnnd m.vnlo = sumI (g.baseval + noff m) (g.vertnnd + noff m) m.vnlo := by
          rw [gb, gn, P.cons.vnodnnd]; congr 1 <;> unfold noff <;> omega
        rw [hsh, ← sum_seg, seg_shift, sum_seg]
        exact sumI_congr fun i _ _ => (hvelo i).symm
    · have hnum' := L.lists.next
      refine L.allocated ?_ ?_ ?_ ?_ ?_ (by rw [← hg]; rfl) (by rw [← hg]; rfl)
      · rw [← hg]; exact Int.le_of_eq S.vlo
      · rw [← hg]; exact Int.le_of_eq S.vhi.symm
      · rw [← hg]; exact Int.le_of_eq S.elo
      · rw [← hg]; dsimp only [mkGraph]; have := S.cap.1; omega
      · intro a ha
        rw [gv, Option.map_eq_some_iff] at ha
        obtain ⟨b, b1, b2⟩ := ha
        have := P.alloc.vnlo b b1
        have := P.cons.vnodnnd
        rw [← b2, gb, gn]
        unfold Arr.shift
        dsimp only
        omega
    · intro v w hv
      rw [L.mem hv w 1]
      constructor
      · rintro ⟨h, -⟩; exact (hin v hv w).1 h
      · intro h; exact ⟨(hin v hv w).2 h, rfl⟩
  · refine ⟨rfl, rfl, rfl, by show siz = siz - 1 + 1; omega, ?_, rfl, ⟨by show m.baseval ≤ 2 * m.edgenbr + m.baseval; omega, Int.le_refl _⟩, Graph.Lists.init _ _ _ _, ⟨Int.le_refl _, fun u u1 u2 => by omega⟩⟩
    intro x _ _
    show (-1 : Int) < m.baseval + noff m
    unfold noff
    omega

end Scotch.Mesh
