import Verif.HOrder.LemmasPlaced

/-! # Ordering of graphs: lists of blocks -/

set_option autoImplicit false
set_option linter.unusedSimpArgs false

namespace Scotch.HOrder
open Graph Cblk
variable {h : Hgraph}

/-- Consecutive blocks, from position `a` on. -/
def Chunks (h : Hgraph) (per π : Int → Int) : List (List Int) → List Cblk → Int → Prop
  | [], [], _ => True
  | l :: ls, c :: cs, a => Chunk h l a per c π ∧ Chunks h per π ls cs (a + l.length)
  | _, _, _ => False

/-- Facts on consecutive blocks. -/
structure ChunksOk (h : Hgraph) (per π : Int → Int) (ls : List (List Int)) (cs : List Cblk) (a : Int) : Prop where
  mem : ∀ i, a ≤ i → i < a + ls.flatten.length → π i ∈ ls.flatten
  inj : ls.flatten.Nodup → ∀ i j, a ≤ i → i < a + ls.flatten.length → a ≤ j → j < a + ls.flatten.length → π i = π j → i = j
  peri : ∀ i, a ≤ i → i < a + ls.flatten.length → per i = onum h.s (π i)
  coherent : CoherentL cs
  alloc : AllocL cs
  size : vnodsum cs = ls.flatten.length
  length : cs.length = ls.length
  separates : SeparatesL (fun i j => Adj h.s (π i) (π j)) cs a
  apart : ls.Pairwise (Unlinked h) → (spans cs a).Pairwise (Apart (fun i j => Adj h.s (π i) (π j)))

theorem chunks_apart {per π : Int → Int} {l : List Int} {a : Int} {c : Cblk} (H : Chunk h l a per c π) : ∀ (ls : List (List Int)) (cs : List Cblk) (b : Int), Chunks h per π ls cs b → (∀ m ∈ ls, Unlinked h l m) →
    ∀ p ∈ spans cs b, Apart (fun i j => Adj h.s (π i) (π j)) (a, a + c.vnodnbr) p
  | [], [], _, _, _, p, hp => by unfold spans at hp; cases hp
  | [], _ :: _, _, hch, _, _, _ => by unfold Chunks at hch; exact hch.elim
  | _ :: _, [], _, hch, _, _, _ => by unfold Chunks at hch; exact hch.elim
  | m :: ls, d :: cs, b, hch, hu, p, hp => by
    unfold Chunks at hch
    unfold spans at hp
    rcases List.mem_cons.1 hp with rfl | hp
    · exact H.apart hch.1 (hu m (List.mem_cons_self ..))
    · rw [hch.1.size] at hp
      exact chunks_apart H ls cs _ hch.2 (fun x hx => hu x (List.mem_cons_of_mem _ hx)) p hp

theorem chunks_ok {per π : Int → Int} : ∀ (ls : List (List Int)) (cs : List Cblk) (a : Int), Chunks h per π ls cs a → ChunksOk h per π ls cs a
  | [], [], a, _ => by
    refine ⟨?_, ?_, ?_, ?_, ?_, rfl, rfl, ?_, ?_⟩
    · intro i i1 i2; rw [List.flatten_nil, List.length_nil] at i2; omega
    · intro _ i j i1 i2; rw [List.flatten_nil, List.length_nil] at i2; omega
    · intro i i1 i2; rw [List.flatten_nil, List.length_nil] at i2; omega
    · unfold CoherentL; trivial
    · unfold AllocL; trivial
    · unfold SeparatesL; trivial
    · intro _; unfold spans; exact List.Pairwise.nil
  | [], _ :: _, _, hch => by unfold Chunks at hch; exact hch.elim
  | _ :: _, [], _, hch => by unfold Chunks at hch; exact hch.elim
  | l :: ls, c :: cs, a, hch => by
    unfold Chunks at hch
    obtain ⟨H, hch⟩ := hch
    have K := chunks_ok ls cs _ hch
    have hlen : ((l :: ls).flatten.length : Int) = l.length + ls.flatten.length := by rw [List.flatten_cons, List.length_append]; omega
    refine ⟨?_, ?_, ?_, ?_, ?_, ?_, ?_, ?_, ?_⟩
    · intro i i1 i2
      rw [List.flatten_cons, List.mem_append]
      by_cases hi : i < a + l.length
      · exact Or.inl (H.mem i i1 hi)
      · exact Or.inr (K.mem i (by omega) (by omega))
    · intro hnd i j i1 i2 j1 j2 he
      rw [List.flatten_cons, List.nodup_append] at hnd
      by_cases hi : i < a + l.length
      · by_cases hj : j < a + l.length
        · exact H.inj i j i1 hi j1 hj he
        · exact absurd he (hnd.2.2 _ (H.mem i i1 hi) _ (K.mem j (by omega) (by omega)))
      · by_cases hj : j < a + l.length
        · exact absurd he.symm (hnd.2.2 _ (H.mem j j1 hj) _ (K.mem i (by omega) (by omega)))
        · exact K.inj hnd.2.1 i j (by omega) (by omega) (by omega) (by omega) he
    · intro i i1 i2
      by_cases hi : i < a + l.length
      · exact H.peri i i1 hi
      · exact K.peri i (by omega) (by omega)
    · unfold CoherentL; exact ⟨H.coherent, K.coherent⟩
    · unfold AllocL; exact ⟨H.alloc, K.alloc⟩
    · unfold vnodsum; rw [H.size, K.size, hlen]
    · rw [List.length_cons, List.length_cons, K.length]
    · unfold SeparatesL; rw [H.size]; exact ⟨H.separates, K.separates⟩
    · intro hp
      rw [List.pairwise_cons] at hp
      unfold spans
      rw [List.pairwise_cons]
      refine ⟨?_, ?_⟩
      · have := chunks_apart H ls cs _ hch hp.1
        rw [H.size] at this ⊢
        exact this
      · rw [H.size]; exact K.apart hp.2

theorem Chunks.congr {per per' π π' : Int → Int} : ∀ (ls : List (List Int)) (cs : List Cblk) (a : Int), Chunks h per π ls cs a → (∀ i, a ≤ i → i < a + ls.flatten.length → per' i = per i) →
    (∀ i, a ≤ i → i < a + ls.flatten.length → π' i = π i) → Chunks h per' π' ls cs a
  | [], [], _, _, _, _ => by unfold Chunks; trivial
  | [], _ :: _, _, hch, _, _ => by unfold Chunks at hch; exact hch.elim
  | _ :: _, [], _, hch, _, _ => by unfold Chunks at hch; exact hch.elim
  | l :: ls, c :: cs, a, hch, h1, h2 => by
    have hlen : ((l :: ls).flatten.length : Int) = l.length + ls.flatten.length := by rw [List.flatten_cons, List.length_append]; omega
    unfold Chunks at hch ⊢
    exact ⟨hch.1.congr (fun i i1 i2 => h1 i i1 (by omega)) (fun i i1 i2 => h2 i i1 (by omega)), Chunks.congr ls cs _ hch.2 (fun i i1 i2 => h1 i (by omega) (by omega)) (fun i i1 i2 => h2 i (by omega) (by omega))⟩

/-- Sum of numbers of nodes. -/
theorem nodesL_append (a b : List Cblk) : nodesL (a ++ b) = nodesL a + nodesL b := by
  induction a with
  | nil => simp [nodesL]
  | cons s r ih => rw [List.cons_append, nodesL, nodesL, ih]; omega

theorem leavesL_append (a b : List Cblk) : leavesL (a ++ b) = leavesL a ++ leavesL b := by
  induction a with
  | nil => simp [leavesL]
  | cons s r ih => rw [List.cons_append, leavesL, leavesL, ih, List.append_assoc]

/-- Number of column blocks of a list of blocks. -/
def widthL (l : List Cblk) : Int := (leavesL l).length

theorem widthL_cons (s : Cblk) (r : List Cblk) : widthL (s :: r) = s.width + widthL r := by
  unfold widthL width; rw [leavesL, List.length_append]; omega

theorem width_node (t v k : Int) (sons : List Cblk) : (Cblk.node t v k sons).width = widthL sons := by
  unfold width leaves widthL; rfl

theorem nodes_node (t v k : Int) (sons : List Cblk) : (Cblk.node t v k sons).nodes = 1 + nodesL sons := by
  conv => lhs; unfold nodes

/-- Blocks that hold all vertices make an ordering of the graph. -/
theorem placed_of_chunks {ordenum : Int} {o o' : Ord} {π : Int → Int} {ls : List (List Int)} {cs : List Cblk} {t : Int} (hch : Chunks h (fun i => o'.peritab.get (ordenum + i)) π ls cs 0)
    (hbnd : o'.peritab.lo = o.peritab.lo ∧ o'.peritab.hi = o.peritab.hi) (hframe : ∀ i, (i < ordenum ∨ ordenum + h.vnohnbr ≤ i) → o'.peritab.get i = o.peritab.get i)
    (hn : 1 ≤ h.vnohnbr) (hlen : (ls.flatten.length : Int) = h.vnohnbr) (hnd : ls.flatten.Nodup) (hv : ∀ v ∈ ls.flatten, (unhalo h).Vertex v)
    (ht : t = ORDERCBLKNEDI ∨ t = ORDERCBLKDICO) (hk : 1 ≤ ls.length) (hN : t = ORDERCBLKNEDI → (ls.length = 2 ∨ ls.length = 3) ∧ (ls.take 2).Pairwise (Unlinked h)) (hD : t = ORDERCBLKDICO → ls.Pairwise (Unlinked h))
    (htree : o'.treenbr = o.treenbr + nodesL cs) (hcblk : o'.cblknbr = o.cblknbr + widthL cs - 1) : Placed h ordenum o o' (.node t h.vnohnbr cs.length cs) π := by
  have K := chunks_ok _ _ _ hch
  have hl := K.length
  refine ⟨hbnd, hframe, ?_, ?_, ?_, rfl, ?_, ?_, ?_, ?_, ?_⟩
  · intro i i1 i2; exact hv _ (K.mem i (by omega) (by omega))
  · intro i j i1 i2 j1 j2; exact K.inj hnd i j (by omega) (by omega) (by omega) (by omega)
  · intro i i1 i2; exact K.peri i (by omega) (by omega)
  · unfold Coherent
    refine ⟨by rcases ht with h | h <;> simp [h], hn, by omega, ?_, ?_, K.coherent⟩
    · intro h; have := (hN h).1; omega
    · rw [K.size, hlen]
  · unfold Alloc; exact ⟨rfl, K.alloc⟩
  · rw [nodes_node]; omega
  · rw [width_node]; exact hcblk
  · unfold Separates
    refine ⟨fun h => K.apart (hD h), ?_, K.separates⟩
    intro h
    have h2 := (hN h).2
    match ls, cs, hch, hl, hk, h2 with
    | l :: [], c :: [], hch, _, _, _ => unfold spans spans; exact List.pairwise_singleton _ _
    | l :: m :: ls, c :: d :: cs, hch, _, _, h2 =>
      unfold Chunks Chunks at hch
      unfold spans spans
      rw [show List.take 2 (l :: m :: ls) = [l, m] from rfl, List.pairwise_cons] at h2
      rw [show ∀ (x y : Int × Int) (z : List (Int × Int)), List.take 2 (x :: y :: z) = [x, y] from fun _ _ _ => rfl, List.pairwise_cons]
      refine ⟨?_, List.pairwise_singleton _ _⟩
      intro p hp
      rw [List.mem_singleton] at hp
      subst hp
      have := hch.1.apart hch.2.1 (h2.1 m (List.mem_singleton.2 rfl))
      rw [hch.1.size] at this ⊢
      exact this

end Scotch.HOrder
