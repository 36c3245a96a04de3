import Verif.Separ.LemmasEs5

/-! # Bipartite graph of the cut edges -/

set_option autoImplicit false
set_option linter.unusedSimpArgs false

namespace Scotch.Separ
open Graph Bipart

/-- Bipartition whose cut edges are covered. -/
structure EsCtx (g : Graph) (part fron : Arr Int) (n : Int) : Prop where
  cons : ConsE g
  alloc : g.Allocated
  parts : Parts g part.get
  pbounds : part.lo ≤ g.baseval ∧ g.vertnnd ≤ part.hi
  fbounds : fron.lo ≤ 0 ∧ g.vertnbr ≤ fron.hi
  enum : Enum fron n (Frontier g part.get)

variable {g : Graph} {part fron : Arr Int} {n : Int}

theorem EsCtx.vertex (h : EsCtx g part fron n) {i : Int} (h1 : 0 ≤ i) (h2 : i < n) : g.Vertex (fron.get i) := (h.enum.mem h1 h2).1

theorem EsCtx.le (h : EsCtx g part fron n) : n ≤ g.vertnbr := by
  have h1 := h.cons.vertnnd
  have h2 := h.cons.vertnbr
  have := h.enum.le (lo := g.baseval) (hi := g.vertnnd) (by omega) (fun v hv => hv.1)
  omega

theorem EsCtx.rdFron (h : EsCtx g part fron n) {i : Int} (h1 : 0 ≤ i) (h2 : i < n) : fron.rd i = .ok (fron.get i) := by
  have := h.le
  have := h.fbounds
  exact Arr.rd_ok _ (by omega) (by omega)

theorem EsCtx.rdPart (h : EsCtx g part fron n) {v : Int} (hv : g.Vertex v) : part.rd v = .ok (part.get v) := by
  have := h.pbounds
  have h1 := hv.1
  have h2 := hv.2
  exact Arr.rd_ok _ (by omega) (by omega)

theorem EsCtx.inj (h : EsCtx g part fron n) {i j : Int} (h1 : 0 ≤ i) (h2 : i < n) (h3 : 0 ≤ j) (h4 : j < n) (he : fron.get i = fron.get j) : i = j :=
  h.enum.2.1 i j h1 h2 h3 h4 he

theorem esDegree_holds (h : EsCtx g part fron n) {v : Int} (hv : g.Vertex v) (m : Int) :
    Holds (esDegree g part v (part.get v) m) (fun r => r = m + if part.get v = 0 then cutDeg g part.get v else 0) := by
  unfold esDegree
  rw [Holds_ite]
  constructor
  · intro h0
    rw [if_pos h0]
    refine Holds_forArcs h.alloc hv (h.cons.range v hv).2
      (fun e r => r = m + sumI (g.vert v) e (fun e => if part.get (g.dest e) = part.get v then 0 else 1)) ?_ ?_ ?_
    · rw [sumI_empty (Int.le_refl _)]; omega
    · rintro e s e1 e2 rfl
      have hw := (h.cons.inside v e hv e1 e2).1
      rw [h.rdPart hw, ok_bind, Holds_pure, sumI_succ e1, xorP_eq (h.parts v hv) (h.parts _ hw)]
      by_cases hh : part.get v = part.get (g.dest e)
      · rw [if_pos hh, if_pos hh.symm]; omega
      · rw [if_neg hh, if_neg (fun k => hh k.symm)]; omega
    · rintro s rfl; rfl
  · intro h0
    rw [if_neg h0, Holds_pure]; omega

/-- Numbering of the frontier. -/
structure NumInv (g : Graph) (part fron : Arr Int) (i : Int) (s : EsNum) : Prop where
  bounds : s.vnum.lo = g.baseval ∧ s.vnum.hi = g.vertnnd
  vnum : ∀ j, 0 ≤ j → j < i → s.vnum.get (fron.get j) = cnt part.get fron.get (part.get (fron.get j)) j
  edges : s.edgenbr = eds g part.get fron.get 0 i
  nbr0 : s.nbr0 = cnt part.get fron.get 0 i
  nbr1 : s.nbr1 = cnt part.get fron.get 1 i

theorem esNumber_holds (h : EsCtx g part fron n) {i : Int} (h1 : 0 ≤ i) (h2 : i < n) {s : EsNum} (I : NumInv g part fron i s) :
    Holds (esNumber g part fron i s) (NumInv g part fron (i + 1)) := by
  have hv := h.vertex h1 h2
  obtain ⟨b1, b2⟩ := I.bounds
  unfold esNumber
  rw [h.rdFron h1 h2, ok_bind, h.rdPart hv, ok_bind, Holds_bind]
  refine (esDegree_holds h hv _).mono ?_
  rintro d rfl
  have hv1 := hv.1
  have hv2 := hv.2
  rw [Arr.wr_ok s.vnum _ (by omega) (by omega), ok_bind, Holds_pure]
  refine ⟨⟨b1, b2⟩, ?_, ?_, ?_, ?_⟩
  · intro j j1 j2
    dsimp only
    by_cases hj : j = i
    · rw [hj, Arr.set_get_same]
      rcases h.parts _ hv with hp | hp <;> rw [hp, I.nbr0, I.nbr1] <;> omega
    · rw [Arr.set_get_ne _ _ (fun he => hj (h.inj j1 (by omega) h1 h2 he))]
      exact I.vnum j j1 (by omega)
  · dsimp only; rw [eds_succ h1, I.edges]
  · dsimp only; rw [cnt_succ h1, I.nbr0]
    rcases h.parts _ hv with hp | hp <;> rw [hp] <;> rfl
  · dsimp only; rw [cnt_succ h1, I.nbr1]
    rcases h.parts _ hv with hp | hp <;> rw [hp] <;> rfl

/-! ## Layout -/

/-- First number of the vertices of a part. -/
def esBase (part fron : Arr Int) (n pv k : Int) : Int := if k = pv then 0 else cnt part.get fron.get pv n

/-- First index of the arcs of the vertices of a part. -/
def esEdge (g : Graph) (part fron : Arr Int) (n pv k : Int) : Int := if k = pv then 0 else eds g part.get fron.get 0 n

/-- Number of a vertex of the frontier, in the bipartite graph. -/
def esN (part fron : Arr Int) (n pv j : Int) : Int :=
  esBase part fron n pv (part.get (fron.get j)) + cnt part.get fron.get (part.get (fron.get j)) j

/-- First index of its arcs. -/
def esS (g : Graph) (part fron : Arr Int) (n pv j : Int) : Int :=
  esEdge g part fron n pv (part.get (fron.get j)) + eds g part.get fron.get (part.get (fron.get j)) j

variable {pv : Int}

theorem EsCtx.total (h : EsCtx g part fron n) : cnt part.get fron.get 0 n + cnt part.get fron.get 1 n = n :=
  cnt_add h.enum.1 fun _ h1 h2 => h.parts _ (h.vertex h1 h2)

theorem EsCtx.part01 (h : EsCtx g part fron n) {j : Int} (h1 : 0 ≤ j) (h2 : j < n) : part.get (fron.get j) = 0 ∨ part.get (fron.get j) = 1 :=
  h.parts _ (h.vertex h1 h2)

theorem esN_side (h : EsCtx g part fron n) (hpv : pv = 0 ∨ pv = 1) {j : Int} (h1 : 0 ≤ j) (h2 : j < n) :
    0 ≤ esN part fron n pv j ∧ esN part fron n pv j < n ∧ (esN part fron n pv j < cnt part.get fron.get pv n ↔ part.get (fron.get j) = pv) := by
  have ht := h.total
  have hlt := cnt_lt (p := part.get) (F := fron.get) (k := part.get (fron.get j)) h1 h2 rfl
  have h0 := cnt_nonneg (p := part.get) (F := fron.get) (k := part.get (fron.get j)) h1
  have ha := cnt_nonneg (p := part.get) (F := fron.get) (k := 0) h.enum.1
  have hb := cnt_nonneg (p := part.get) (F := fron.get) (k := 1) h.enum.1
  unfold esN esBase
  by_cases hk : part.get (fron.get j) = pv
  · rw [if_pos hk]
    rw [hk] at hlt h0 ⊢
    refine ⟨by omega, ?_, by simp; omega⟩
    rcases hpv with rfl | rfl <;> omega
  · rw [if_neg hk]
    refine ⟨?_, ?_, ⟨fun h => ?_, fun h => absurd h hk⟩⟩
    · rcases hpv with rfl | rfl <;> omega
    · rcases h.part01 h1 h2 with k | k <;> rcases hpv with rfl | rfl <;> first | (exact absurd k hk) | (rw [k] at hlt h0 ⊢; omega)
    · omega

theorem esN_inj (h : EsCtx g part fron n) (hpv : pv = 0 ∨ pv = 1) {i j : Int} (h1 : 0 ≤ i) (h2 : i < n) (h3 : 0 ≤ j) (h4 : j < n)
    (he : esN part fron n pv i = esN part fron n pv j) : i = j := by
  have hi := (esN_side h hpv h1 h2).2.2
  have hj := (esN_side h hpv h3 h4).2.2
  have hk : part.get (fron.get i) = part.get (fron.get j) := by
    rw [he] at hi
    have : part.get (fron.get i) = pv ↔ part.get (fron.get j) = pv := hi.symm.trans hj
    rcases h.part01 h1 h2 with a | a <;> rcases h.part01 h3 h4 with b | b <;> rcases hpv with rfl | rfl <;> rw [a, b] at this <;> simp at this <;> omega
  unfold esN at he
  rw [hk] at he
  rcases Int.lt_trichotomy i j with hlt | heq | hgt
  · have := cnt_lt (p := part.get) (F := fron.get) (k := part.get (fron.get j)) h1 hlt hk
    omega
  · exact heq
  · have := cnt_lt (p := part.get) (F := fron.get) (k := part.get (fron.get j)) h3 hgt rfl
    omega

/-- Ranges of arcs are in order, in each part. -/
theorem esS_range (h : EsCtx g part fron n) (hpv : pv = 0 ∨ pv = 1) {j : Int} (h1 : 0 ≤ j) (h2 : j < n) :
    esEdge g part fron n pv (part.get (fron.get j)) ≤ esS g part fron n pv j ∧
    esS g part fron n pv j + cutDeg g part.get (fron.get j) ≤ esEdge g part fron n pv (part.get (fron.get j)) + eds g part.get fron.get 0 n := by
  have h0 := eds_nonneg (g := g) (p := part.get) (F := fron.get) (k := part.get (fron.get j)) h1
  have hs := eds_succ (g := g) (p := part.get) (F := fron.get) (k := part.get (fron.get j)) h1
  rw [if_pos rfl] at hs
  have hm := eds_mono (g := g) (p := part.get) (F := fron.get) (k := part.get (fron.get j)) (i := j + 1) (j := n) (by omega) (by omega)
  have ht : eds g part.get fron.get (part.get (fron.get j)) n = eds g part.get fron.get 0 n := by
    rcases h.part01 h1 h2 with k | k <;> rw [k]
    exact (eds_total h.cons h.parts h.enum).symm
  unfold esS
  constructor <;> omega

theorem esS_order {i j : Int} (h1 : 0 ≤ i) (h2 : i < j) (hk : part.get (fron.get i) = part.get (fron.get j)) :
    esS g part fron n pv i + cutDeg g part.get (fron.get i) ≤ esS g part fron n pv j := by
  have hs := eds_succ (g := g) (p := part.get) (F := fron.get) (k := part.get (fron.get i)) h1
  rw [if_pos rfl] at hs
  have hm := eds_mono (g := g) (p := part.get) (F := fron.get) (k := part.get (fron.get i)) (i := i + 1) (j := j) (by omega) (by omega)
  unfold esS
  rw [← hk]
  omega

/-- Ranges of arcs of different vertices do not meet. -/
theorem esS_disjoint (h : EsCtx g part fron n) (hpv : pv = 0 ∨ pv = 1) {i j : Int} (h1 : 0 ≤ i) (h2 : i < n) (h3 : 0 ≤ j) (h4 : j < n) (hne : i < j) {x : Int}
    (x1 : esS g part fron n pv i ≤ x) (x2 : x < esS g part fron n pv i + cutDeg g part.get (fron.get i)) :
    ¬ (esS g part fron n pv j ≤ x ∧ x < esS g part fron n pv j + cutDeg g part.get (fron.get j)) := by
  rintro ⟨y1, y2⟩
  by_cases hk : part.get (fron.get i) = part.get (fron.get j)
  · have := esS_order (g := g) (n := n) (pv := pv) h1 hne hk
    omega
  · have hi := esS_range h hpv h1 h2
    have hj := esS_range h hpv h3 h4
    unfold esEdge at hi hj
    rcases h.part01 h1 h2 with a | a <;> rcases h.part01 h3 h4 with b | b <;> rcases hpv with rfl | rfl <;> rw [a, b] at hk <;> rw [a] at hi <;> rw [b] at hj <;>
      simp at hk hi hj <;> omega

end Scotch.Separ
