import Verif.HOrder.SpecOrder
import Verif.HOrder.LemmasHind
import Verif.Order.Lemmas

/-! # Ordering of graphs: placing the vertices of an induced graph -/

set_option autoImplicit false
set_option linter.unusedSimpArgs false

namespace Scotch
namespace Cblk

theorem vnod_pos : ∀ {c : Cblk}, c.Coherent → 1 ≤ c.vnodnbr
  | .leaf _ _ _, h => by unfold Coherent at h; exact h.2.1
  | .node _ _ _ _, h => by unfold Coherent at h; exact h.2.1

theorem vnodsum_nonneg : ∀ {l : List Cblk}, CoherentL l → 0 ≤ vnodsum l
  | [], _ => by unfold vnodsum; omega
  | s :: r, h => by
    unfold CoherentL at h
    have h1 := vnod_pos h.1
    have h2 := vnodsum_nonneg h.2
    unfold vnodsum
    omega

theorem spans_mem : ∀ {l : List Cblk} {off : Int} {p : Int × Int}, CoherentL l → p ∈ spans l off → off ≤ p.1 ∧ p.2 ≤ off + vnodsum l
  | [], _, _, _, hp => by unfold spans at hp; cases hp
  | s :: r, off, p, h, hp => by
    unfold CoherentL at h
    have h1 := vnod_pos h.1
    have h2 := vnodsum_nonneg h.2
    unfold spans at hp
    unfold vnodsum
    rcases List.mem_cons.1 hp with rfl | hp
    · dsimp only; omega
    · have := spans_mem h.2 hp; omega

theorem spans_shift (d : Int) : ∀ (l : List Cblk) (off : Int), spans l (off + d) = (spans l off).map (fun p => (p.1 + d, p.2 + d))
  | [], _ => by unfold spans; rfl
  | s :: r, off => by
    unfold spans
    rw [List.map_cons, ← spans_shift d r, show off + d + s.vnodnbr = off + s.vnodnbr + d by omega]

variable {A A' : Int → Int → Prop}

theorem apart_shift {l : List Cblk} {off d : Int} {m : List (Int × Int)} (hc : CoherentL l) (hm : ∀ p ∈ m, p ∈ spans l off)
    (hA : ∀ i j, off ≤ i → i < off + vnodsum l → off ≤ j → j < off + vnodsum l → A' (i + d) (j + d) → A i j) (h : m.Pairwise (Apart A)) :
    (m.map (fun p => (p.1 + d, p.2 + d))).Pairwise (Apart A') := by
  rw [List.pairwise_map]
  refine h.imp_of_mem ?_
  intro p q hp hq hpq i j i1 i2 j1 j2
  have h1 := spans_mem hc (hm p hp)
  have h2 := spans_mem hc (hm q hq)
  dsimp only at i1 i2 j1 j2
  have := hpq (i - d) (j - d) (by omega) (by omega) (by omega) (by omega)
  constructor
  · intro hx; exact this.1 (hA _ _ (by omega) (by omega) (by omega) (by omega) (by rw [show i - d + d = i by omega, show j - d + d = j by omega]; exact hx))
  · intro hx; exact this.2 (hA _ _ (by omega) (by omega) (by omega) (by omega) (by rw [show i - d + d = i by omega, show j - d + d = j by omega]; exact hx))

mutual
theorem sep_shift (d : Int) : ∀ (c : Cblk) (off : Int), c.Coherent → (∀ i j, off ≤ i → i < off + c.vnodnbr → off ≤ j → j < off + c.vnodnbr → A' (i + d) (j + d) → A i j) →
    c.Separates A off → c.Separates A' (off + d)
  | .leaf _ _ _, _, _, _, _ => by unfold Separates; trivial
  | .node t v k sons, off, hc, hA, hs => by
    unfold Coherent at hc
    obtain ⟨_, _, _, _, hv, hcl⟩ := hc
    unfold Separates at hs ⊢
    have hA' : ∀ i j, off ≤ i → i < off + vnodsum sons → off ≤ j → j < off + vnodsum sons → A' (i + d) (j + d) → A i j := by
      rw [← hv]; exact hA
    refine ⟨?_, ?_, sepL_shift d sons off hcl hA' hs.2.2⟩
    · intro ht
      rw [spans_shift]
      exact apart_shift hcl (fun p hp => hp) hA' (hs.1 ht)
    · intro ht
      rw [spans_shift, ← List.map_take]
      exact apart_shift hcl (fun p hp => List.mem_of_mem_take hp) hA' (hs.2.1 ht)
theorem sepL_shift (d : Int) : ∀ (l : List Cblk) (off : Int), CoherentL l → (∀ i j, off ≤ i → i < off + vnodsum l → off ≤ j → j < off + vnodsum l → A' (i + d) (j + d) → A i j) →
    SeparatesL A l off → SeparatesL A' l (off + d)
  | [], _, _, _, _ => by unfold SeparatesL; trivial
  | s :: r, off, hc, hA, hs => by
    unfold CoherentL at hc
    unfold vnodsum at hA
    unfold SeparatesL at hs ⊢
    have h1 := vnod_pos hc.1
    have h2 := vnodsum_nonneg hc.2
    refine ⟨sep_shift d s off hc.1 (fun i j i1 i2 j1 j2 => hA i j i1 (by omega) j1 (by omega)) hs.1, ?_⟩
    rw [show off + d + s.vnodnbr = off + s.vnodnbr + d by omega]
    exact sepL_shift d r _ hc.2 (fun i j i1 i2 j1 j2 => hA i j (by omega) (by omega) (by omega) (by omega)) hs.2
end

end Cblk

namespace HOrder
open Graph Cblk
variable {h h' : Hgraph} {l : List Int} {f : Int → Int}

/-- What is needed of an induced graph. -/
structure SubOf (h : Hgraph) (l : List Int) (h' : Hgraph) (f : Int → Int) : Prop where
  size : h'.vnohnbr = l.length
  list : ∀ v, (unhalo h').Vertex v → f v ∈ l
  inj : ∀ v w, (unhalo h').Vertex v → (unhalo h').Vertex w → f v = f w → v = w
  adj : ∀ v w, (unhalo h').Vertex v → (unhalo h').Vertex w → (Adj h'.s v w ↔ Adj h.s (f v) (f w))
  onum : ∀ v, (unhalo h').Vertex v → onum h'.s v = onum h.s (f v)

theorem vertex_of_unhalo (hc : HCons h) {v : Int} (hv : (unhalo h).Vertex v) : h.s.Vertex v := by
  have h1 : h.vnohnnd = h.s.baseval + h.vnohnbr := hc.part.vertnnd
  have h2 := hc.whole.vertnnd
  have h3 := hc.nbr
  have h4 : h.s.baseval ≤ v := hv.1
  have h5 : v < h.vnohnnd := hv.2
  exact ⟨h4, by omega⟩

theorem HInduced.sub (hi : HInduced h l h' f) (hc' : HCons h') : SubOf h l h' f := by
  have h1 : h'.vnohnnd = h'.s.baseval + h'.vnohnbr := hc'.part.vertnnd
  refine ⟨hi.size, ?_, ?_, ?_, ?_⟩
  · rintro v ⟨v1, v2⟩
    replace v1 : h'.s.baseval ≤ v := v1
    replace v2 : v < h'.vnohnnd := v2
    have h2 := hi.size
    have h3 := hi.baseval
    have := hi.list (v - h.s.baseval).toNat (by omega)
    rw [show h.s.baseval + ((v - h.s.baseval).toNat : Int) = v by omega] at this
    rw [this]
    exact List.getElem_mem _
  · intro v w hv hw; exact hi.inj v w (vertex_of_unhalo hc' hv) (vertex_of_unhalo hc' hw)
  · intro v w hv hw
    rw [hi.adj v w (vertex_of_unhalo hc' hv) (vertex_of_unhalo hc' hw)]
    exact ⟨fun h => h.1, fun h => ⟨h, Or.inl hv.2⟩⟩
  · intro v hv; exact hi.onum v (vertex_of_unhalo hc' hv)

/-- Positions `a` to `a + l.length` of the ordering of `h` hold the vertices of a list. -/
structure Chunk (h : Hgraph) (l : List Int) (a : Int) (per : Int → Int) (c : Cblk) (π : Int → Int) : Prop where
  mem : ∀ i, a ≤ i → i < a + l.length → π i ∈ l
  inj : ∀ i j, a ≤ i → i < a + l.length → a ≤ j → j < a + l.length → π i = π j → i = j
  peri : ∀ i, a ≤ i → i < a + l.length → per i = onum h.s (π i)
  size : c.vnodnbr = l.length
  coherent : c.Coherent
  alloc : c.Alloc
  separates : c.Separates (fun i j => Adj h.s (π i) (π j)) a

theorem Chunk.congr {a : Int} {per per' π π' : Int → Int} {c : Cblk} (H : Chunk h l a per c π) (hp : ∀ i, a ≤ i → i < a + l.length → per' i = per i) (hπ : ∀ i, a ≤ i → i < a + l.length → π' i = π i) :
    Chunk h l a per' c π' := by
  obtain ⟨h1, h2, h3, h4, h5, h6, h7⟩ := H
  refine ⟨?_, ?_, ?_, h4, h5, h6, ?_⟩
  · intro i i1 i2; rw [hπ i i1 i2]; exact h1 i i1 i2
  · intro i j i1 i2 j1 j2 he; rw [hπ i i1 i2, hπ j j1 j2] at he; exact h2 i j i1 i2 j1 j2 he
  · intro i i1 i2; rw [hp i i1 i2, hπ i i1 i2]; exact h3 i i1 i2
  · have := sep_shift (A := fun i j => Adj h.s (π i) (π j)) (A' := fun i j => Adj h.s (π' i) (π' j)) 0 c a h5 (fun i j i1 i2 j1 j2 hx => by
      rw [h4] at i2 j2
      rw [Int.add_zero, Int.add_zero, hπ i i1 i2, hπ j j1 j2] at hx
      exact hx) h7
    rw [Int.add_zero] at this
    exact this

theorem Chunk.congr' {a a' : Int} {per per' π π' : Int → Int} {c : Cblk} (H : Chunk h l a per c π) (ha : a' = a) (hp : ∀ i, a ≤ i → i < a + l.length → per' i = per i)
    (hπ : ∀ i, a ≤ i → i < a + l.length → π' i = π i) : Chunk h l a' per' c π' := by
  subst ha
  exact H.congr hp hπ

/-- The vertices of an induced graph are placed where the ordering of that graph says. -/
theorem Placed.chunk {a x : Int} {o o' : Ord} {c : Cblk} {π' : Int → Int} (hs : SubOf h l h' f) (hp : Placed h' (x + a) o o' c π') : Chunk h l a (fun i => o'.peritab.get (x + i)) c (fun i => f (π' (i - a))) := by
  have hz := hs.size
  refine ⟨?_, ?_, ?_, hp.size.trans hz, hp.coherent, hp.alloc, ?_⟩
  · intro i i1 i2; exact hs.list _ (hp.vertex _ (by omega) (by omega))
  · intro i j i1 i2 j1 j2 he
    have := hs.inj _ _ (hp.vertex _ (by omega) (by omega)) (hp.vertex _ (by omega) (by omega)) he
    have := hp.inj _ _ (by omega) (by omega) (by omega) (by omega) this
    omega
  · intro i i1 i2
    have := hp.peri (i - a) (by omega) (by omega)
    rw [show x + i = x + a + (i - a) by omega, this, hs.onum _ (hp.vertex _ (by omega) (by omega))]
  · have := sep_shift (A := fun i j => Adj h'.s (π' i) (π' j)) (A' := fun i j => Adj h.s (f (π' (i - a))) (f (π' (j - a)))) a c 0 hp.coherent (fun i j i1 i2 j1 j2 hx => by
      have hsz := hp.size
      rw [show i + a - a = i by omega, show j + a - a = j by omega] at hx
      exact (hs.adj _ _ (hp.vertex _ (by omega) (by omega)) (hp.vertex _ (by omega) (by omega))).2 hx) hp.separates
    rw [Int.zero_add] at this
    exact this

/-- Two lists of vertices are not connected. -/
def Unlinked (h : Hgraph) (l m : List Int) : Prop := ∀ v ∈ l, ∀ w ∈ m, ¬ Adj h.s v w ∧ ¬ Adj h.s w v

theorem Chunk.apart {a b : Int} {l m : List Int} {per : Int → Int} {c d : Cblk} {π : Int → Int} (H : Chunk h l a per c π) (K : Chunk h m b per d π) (hu : Unlinked h l m) :
    Apart (fun i j => Adj h.s (π i) (π j)) (a, a + c.vnodnbr) (b, b + d.vnodnbr) := by
  intro i j i1 i2 j1 j2
  have h1 := H.size
  have h2 := K.size
  dsimp only at i1 i2 j1 j2
  exact hu _ (H.mem i i1 (by omega)) _ (K.mem j j1 (by omega))

theorem HInduced.within {h h' : Hgraph} {l : List Int} {f : Int → Int} (hi : HInduced h l h' f) (hc' : HCons h') (hlen : (l.length : Int) ≤ h.vnohnbr) (hl : ∀ v ∈ l, (unhalo h).Vertex v) : Within (unhalo h) (unhalo h') := by
  have sb := hi.sub hc'
  refine ⟨hi.baseval, hc'.part.vertnnd, ?_, ?_, hi.loads⟩
  · show h'.vnohnbr ≤ h.vnohnbr
    rw [hi.size]; exact hlen
  · intro hp v hv
    have := hp _ (hl _ (sb.list v hv))
    rw [show (unhalo h').velo v = h'.s.velo v from rfl, hi.velo v (vertex_of_unhalo hc' hv)]
    exact this

end HOrder
end Scotch
