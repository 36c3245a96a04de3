import Verif.HOrder.LemmasCp6
import Verif.HOrder.LemmasChunks

/-! # Compressed graphs: block trees -/

set_option autoImplicit false
set_option linter.unusedSimpArgs false

namespace Scotch.HOrder
open Graph Cblk

/-- Position `i` of the compressed ordering stands for positions `[S i, S (i + 1))`; neighbours at different positions are neighbours in the compressed graph. -/
def Fine (S : Int → Int) (n : Int) (A A' : Int → Int → Prop) : Prop :=
  ∀ i j a b, 0 ≤ a → a < n → 0 ≤ b → b < n → S a ≤ i → i < S (a + 1) → S b ≤ j → j < S (b + 1) → a ≠ b → A' i j → A a b

theorem locate {S : Int → Int} {a b i : Int} (hab : a ≤ b) (h1 : S a ≤ i) (h2 : i < S b) : ∃ k, a ≤ k ∧ k < b ∧ S k ≤ i ∧ i < S (k + 1) := by
  obtain ⟨n, rfl⟩ : ∃ n : Nat, b = a + n := ⟨(b - a).toNat, by omega⟩
  clear hab
  induction n with
  | zero => simp at h2; omega
  | succ n ih =>
    by_cases hi : i < S (a + n)
    · obtain ⟨k, k1, k2, k3⟩ := ih hi
      exact ⟨k, k1, by omega, k3⟩
    · exact ⟨a + n, by omega, by omega, by omega, by rw [show a + (n : Int) + 1 = a + ((n + 1 : Nat) : Int) by omega]; exact h2⟩

theorem apart_map {S : Int → Int} {n : Int} {A A' : Int → Int → Prop} (F : Fine S n A A') {p q : Int × Int} (h1 : 0 ≤ p.1) (h2 : p.1 ≤ p.2) (h3 : p.2 ≤ q.1) (h4 : q.1 ≤ q.2) (h5 : q.2 ≤ n) (ha : Apart A p q) :
    Apart A' (S p.1, S p.2) (S q.1, S q.2) := by
  intro i j i1 i2 j1 j2
  obtain ⟨a, a1, a2, a3, a4⟩ := locate h2 i1 i2
  obtain ⟨b, b1, b2, b3, b4⟩ := locate h4 j1 j2
  have := ha a b a1 a2 b1 b2
  exact ⟨fun x => this.1 (F i j a b (by omega) (by omega) (by omega) (by omega) a3 a4 b3 b4 (by omega) x), fun x => this.2 (F j i b a (by omega) (by omega) (by omega) (by omega) b3 b4 a3 a4 (by omega) x)⟩

theorem coherent_vnod : ∀ c : Cblk, c.Coherent → 1 ≤ c.vnodnbr
  | .leaf _ _ _, h => by unfold Coherent at h; exact h.2.1
  | .node _ _ _ _, h => by unfold Coherent at h; exact h.2.1

theorem vnodsum_nonneg : ∀ l : List Cblk, CoherentL l → 0 ≤ vnodsum l
  | [], _ => by unfold vnodsum; decide
  | s :: r, h => by
    unfold CoherentL at h
    have := coherent_vnod s h.1
    have := vnodsum_nonneg r h.2
    unfold vnodsum
    omega

theorem spans_in : ∀ (l : List Cblk) (off : Int), CoherentL l → ∀ p ∈ spans l off, off ≤ p.1 ∧ p.1 ≤ p.2 ∧ p.2 ≤ off + vnodsum l
  | [], _, _, p, hp => by unfold spans at hp; simp at hp
  | s :: r, off, h, p, hp => by
    unfold CoherentL at h
    unfold spans at hp
    have h1 := coherent_vnod s h.1
    have h2 := vnodsum_nonneg r h.2
    unfold vnodsum
    rcases List.mem_cons.1 hp with rfl | hp
    · dsimp only; omega
    · have := spans_in r _ h.2 p hp
      omega

theorem spans_sorted : ∀ (l : List Cblk) (off : Int), CoherentL l → (spans l off).Pairwise (fun p q => p.2 ≤ q.1)
  | [], _, _ => by unfold spans; exact List.Pairwise.nil
  | s :: r, off, h => by
    unfold CoherentL at h
    unfold spans
    rw [List.pairwise_cons]
    exact ⟨fun q hq => (spans_in r _ h.2 q hq).1, spans_sorted r _ h.2⟩

/-- Spans of the blocks of the compressed graph, and of those of the graph. -/
theorem pairwise_map {S : Int → Int} {n : Int} {A A' : Int → Int → Prop} (F : Fine S n A A') {l : List (Int × Int)} (h1 : ∀ p ∈ l, 0 ≤ p.1 ∧ p.1 ≤ p.2 ∧ p.2 ≤ n) (h2 : l.Pairwise (fun p q => p.2 ≤ q.1)) (h3 : l.Pairwise (Apart A)) :
    (l.map (fun p => (S p.1, S p.2))).Pairwise (Apart A') := by
  rw [List.pairwise_map]
  refine List.Pairwise.imp_of_mem ?_ (h2.and h3)
  rintro p q hp hq ⟨a, b⟩
  have := h1 p hp
  have := h1 q hq
  exact apart_map F (by omega) (by omega) a (by omega) (by omega) b

/-- The block tree of the graph. -/
structure Sized (S : Int → Int) (n : Int) (c : Cblk) (off : Int) (c' : Cblk) : Prop where
  size : c'.vnodnbr = S (off + c.vnodnbr) - S off
  coherent : c'.Coherent
  alloc : c'.Alloc
  nodes : c'.nodes = c.nodes
  width : c'.width = c.width
  separates : ∀ A A', Fine S n A A' → c.Separates A off → c'.Separates A' (S off)

structure SizedL (S : Int → Int) (n : Int) (l : List Cblk) (off : Int) (l' : List Cblk) : Prop where
  size : vnodsum l' = S (off + vnodsum l) - S off
  length : l'.length = l.length
  coherent : CoherentL l'
  alloc : AllocL l'
  nodes : nodesL l' = nodesL l
  width : widthL l' = widthL l
  spans : spans l' (S off) = (spans l off).map (fun p => (S p.1, S p.2))
  separates : ∀ A A', Fine S n A A' → SeparatesL A l off → SeparatesL A' l' (S off)

theorem mono_le {S : Int → Int} {n : Int} (hS : ∀ i, 0 ≤ i → i < n → S i < S (i + 1)) {a b : Int} (h1 : 0 ≤ a) (h2 : a ≤ b) (h3 : b ≤ n) : S a + (b - a) ≤ S b := by
  obtain ⟨k, rfl⟩ : ∃ k : Nat, b = a + k := ⟨(b - a).toNat, by omega⟩
  clear h2
  induction k with
  | zero => simp
  | succ k ih =>
    have := ih (by omega)
    have := hS (a + k) (by omega) (by omega)
    rw [show a + (k : Int) + 1 = a + ((k + 1 : Nat) : Int) by omega] at this
    omega

mutual
theorem cpTree_holds {S : Int → Int} {n : Int} (hS : ∀ i, 0 ≤ i → i < n → S i < S (i + 1)) {peri vsiz : Arr Int} (hr : ∀ i, 0 ≤ i → i < n → ∃ q, peri.rd i = .ok q ∧ vsiz.rd q = .ok (S (i + 1) - S i)) :
    ∀ (c : Cblk) (off : Int), c.Coherent → c.Alloc → 0 ≤ off → off + c.vnodnbr ≤ n → Holds (cpTree peri vsiz c off) (Sized S n c off)
  | .leaf t v k, off, hc, ha, h0, hn => by
    unfold Coherent at hc
    have hn : off + v ≤ n := hn
    unfold cpTree
    rw [Holds_bind]
    refine Holds_forUp (fun i m => m = S i - S off) (by omega) (by omega) ?_ ?_
    · intro i m i1 i2 hm
      obtain ⟨q, q1, q2⟩ := hr i (by omega) (by omega)
      rw [q1, ok_bind, q2, ok_bind, Holds_pure]
      omega
    · intro m hm
      rw [Holds_pure]
      have := mono_le hS h0 (show off ≤ off + v by omega) hn
      refine ⟨hm, ?_, ?_, ?_, ?_, ?_⟩
      · unfold Coherent; exact ⟨hc.1, by omega, hc.2.2⟩
      · unfold Alloc; trivial
      · unfold Cblk.nodes; rfl
      · rfl
      · intro A A' _ _; unfold Separates; trivial
  | .node t v k sons, off, hc, ha, h0, hn => by
    unfold Coherent at hc
    unfold Alloc at ha
    obtain ⟨c1, c2, c3, c4, c5, c6⟩ := hc
    have hn : off + v ≤ n := hn
    unfold cpTree
    rw [Holds_bind, show k.toNat = sons.length by omega]
    refine (cpTrees_holds hS hr sons off c6 ha.2 h0 (by omega)).mono ?_
    rintro ⟨m, l⟩ ⟨hm, R⟩
    dsimp only at hm R ⊢
    rw [Holds_pure]
    have := mono_le hS h0 (show off ≤ off + v by omega) hn
    have hsz := R.size
    rw [← c5] at hsz
    refine ⟨?_, ?_, ?_, ?_, ?_, ?_⟩
    · show m = S (off + v) - S off
      omega
    · unfold Coherent
      exact ⟨c1, by omega, c3, c4, hm, R.coherent⟩
    · unfold Alloc
      exact ⟨by rw [R.length]; exact ha.1, R.alloc⟩
    · rw [nodes_node, nodes_node, R.nodes]
    · rw [HOrder.width_node, HOrder.width_node, R.width]
    · intro A A' F hs
      unfold Separates at hs ⊢
      have hin : ∀ p ∈ spans sons off, 0 ≤ p.1 ∧ p.1 ≤ p.2 ∧ p.2 ≤ n := by
        intro p hp
        have := spans_in sons off c6 p hp
        omega
      have hso := spans_sorted sons off c6
      refine ⟨?_, ?_, R.separates A A' F hs.2.2⟩
      · intro ht
        rw [R.spans]
        exact pairwise_map F hin hso (hs.1 ht)
      · intro ht
        rw [R.spans, ← List.map_take]
        exact pairwise_map F (fun p hp => hin p (List.mem_of_mem_take hp)) (hso.sublist (List.take_sublist _ _)) (hs.2.1 ht)
theorem cpTrees_holds {S : Int → Int} {n : Int} (hS : ∀ i, 0 ≤ i → i < n → S i < S (i + 1)) {peri vsiz : Arr Int} (hr : ∀ i, 0 ≤ i → i < n → ∃ q, peri.rd i = .ok q ∧ vsiz.rd q = .ok (S (i + 1) - S i)) :
    ∀ (l : List Cblk) (off : Int), CoherentL l → AllocL l → 0 ≤ off → off + vnodsum l ≤ n → Holds (cpTrees peri vsiz l l.length off) (fun r => r.1 = vnodsum r.2 ∧ SizedL S n l off r.2)
  | [], off, hc, ha, h0, hn => by
    show Holds (cpTrees peri vsiz [] 0 off) _
    rw [cpTrees, Holds_pure]
    refine ⟨rfl, ⟨?_, rfl, hc, ha, rfl, rfl, rfl, ?_⟩⟩
    · unfold vnodsum; simp
    · intro A A' _ _; unfold SeparatesL; trivial
  | s :: r, off, hc, ha, h0, hn => by
    unfold CoherentL at hc
    unfold AllocL at ha
    unfold vnodsum at hn
    have h1 := coherent_vnod s hc.1
    have h2 := vnodsum_nonneg r hc.2
    rw [List.length_cons]
    unfold cpTrees
    rw [Holds_bind]
    refine (cpTree_holds hS hr s off hc.1 ha.1 h0 (by omega)).mono ?_
    intro s' R
    rw [Holds_bind]
    refine (cpTrees_holds hS hr r (off + s.vnodnbr) hc.2 ha.2 (by omega) (by omega)).mono ?_
    rintro ⟨m, l⟩ ⟨hm, L⟩
    dsimp only at hm L ⊢
    rw [Holds_pure]
    have e1 := R.size
    have e2 := L.size
    have e3 : S off + s'.vnodnbr = S (off + s.vnodnbr) := by omega
    refine ⟨?_, ⟨?_, ?_, ?_, ?_, ?_, ?_, ?_, ?_⟩⟩
    · show s'.vnodnbr + m = vnodsum (s' :: l)
      unfold vnodsum; omega
    · show vnodsum (s' :: l) = _
      unfold vnodsum
      rw [← Int.add_assoc]
      omega
    · show (s' :: l).length = _
      rw [List.length_cons, List.length_cons, L.length]
    · show CoherentL (s' :: l)
      unfold CoherentL; exact ⟨R.coherent, L.coherent⟩
    · show AllocL (s' :: l)
      unfold AllocL; exact ⟨R.alloc, L.alloc⟩
    · show nodesL (s' :: l) = _
      unfold nodesL; rw [R.nodes, L.nodes]
    · show HOrder.widthL (s' :: l) = _
      rw [HOrder.widthL_cons, HOrder.widthL_cons, R.width, L.width]
    · show spans (s' :: l) _ = _
      unfold spans
      rw [List.map_cons, e3, L.spans]
    · intro A A' F hs
      show SeparatesL A' (s' :: l) _
      unfold SeparatesL at hs ⊢
      rw [e3]
      exact ⟨R.separates A A' F hs.1, L.separates A A' F hs.2⟩
end

end Scotch.HOrder
