import Verif.Dist.Lemmas

/-! # Distributed graphs: vertices to send -/

set_option autoImplicit false
set_option linter.unusedSimpArgs false

namespace Scotch.Dist

/-! ## Encoding of send lists -/

/-- Pairs (vertex, process) described by an array `procsidtab`: negative values are jumps. -/
def decode : Int → List Int → List (Int × Int)
  | _, [] => []
  | u, x :: l => if x < 0 then decode (u - x) l else (u, x) :: decode u l

/-- Vertex reached at the end of the array. -/
def endPos : Int → List Int → Int
  | u, [] => u
  | u, x :: l => if x < 0 then endPos (u - x) l else endPos u l

theorem endPos_append (u : Int) (l : List Int) (x : Int) :
    endPos u (l ++ [x]) = if x < 0 then endPos u l - x else endPos u l := by
  induction l generalizing u with
  | nil => rfl
  | cons y l ih =>
    simp only [List.cons_append, endPos]
    split
    · exact ih _
    · exact ih _

theorem decode_append (u : Int) (l : List Int) (x : Int) :
    decode u (l ++ [x]) = if x < 0 then decode u l else decode u l ++ [(endPos u l, x)] := by
  induction l generalizing u with
  | nil => rfl
  | cons y l ih =>
    simp only [List.cons_append, decode, endPos]
    split
    · exact ih _
    · rw [ih]
      split
      · rfl
      · rfl

/-- Vertices sent to process `q`. -/
def pick (q : Int) (l : List (Int × Int)) : List Int := (l.filter fun c => c.2 = q).map fun c => c.1

theorem pick_append (q : Int) (l : List (Int × Int)) (u x : Int) : pick q (l ++ [(u, x)]) = pick q l ++ if x = q then [u] else [] := by
  unfold pick
  rw [List.filter_append, List.map_append]
  congr 1
  by_cases h : x = q
  · simp [h]
  · simp [h]

/-! ## Arcs to other processes -/

namespace Local

/-- Number of a process that does not own `w`. -/
def Remote (L : Local) (w : Int) : Prop := ¬ (L.procvrttab.get L.proclocnum ≤ w ∧ w < L.procvrttab.get (L.proclocnum + 1))

/-- Vertex `u` has an arc of index less than `m` to process `q`, which is not the local one. -/
def To (L : Local) (u m q : Int) : Prop :=
  ∃ e, L.g.vert u ≤ e ∧ e < m ∧ L.Remote (L.g.dest e) ∧ Own L.procvrttab L.procglbnbr q (L.g.dest e)

open Classical in
/-- Vertices before `v` that have an arc to process `q`, in ascending order. -/
noncomputable def sends (L : Local) (q v : Int) : List Int :=
  (seg (fun u => u) L.g.baseval v).filter fun u => decide (L.To u (L.g.vend u) q)

/-- What the routine expects. -/
structure Ok (L : Local) : Prop where
  pos : 0 < L.procglbnbr
  me : 0 ≤ L.proclocnum ∧ L.proclocnum < L.procglbnbr
  vlo : L.procvrttab.lo ≤ 0
  vhi : L.procglbnbr + 1 ≤ L.procvrttab.hi
  mono : ∀ p q, 0 ≤ p → p ≤ q → q ≤ L.procglbnbr → L.procvrttab.get p ≤ L.procvrttab.get q
  base0 : 0 ≤ L.g.baseval
  alloc : L.g.Allocated
  nbr0 : 0 ≤ L.g.vertnbr
  nnd : L.g.vertnnd = L.g.baseval + L.g.vertnbr
  ord : ∀ u, L.g.Vertex u → L.g.vert u ≤ L.g.vend u
  edge : sumI L.g.baseval L.g.vertnnd (fun u => L.g.vend u - L.g.vert u) ≤ L.g.edgenbr
  dest : ∀ u e, L.g.Vertex u → L.g.vert u ≤ e → e < L.g.vend u → L.procvrttab.get 0 ≤ L.g.dest e ∧ L.g.dest e < L.procvrttab.get L.procglbnbr

end Local

open Local

theorem Own.unique {L : Local} (h : L.Ok) {p q w : Int} (h1 : Own L.procvrttab L.procglbnbr p w) (h2 : Own L.procvrttab L.procglbnbr q w) : p = q := by
  obtain ⟨⟨a1, a2⟩, a3, a4⟩ := h1
  obtain ⟨⟨b1, b2⟩, b3, b4⟩ := h2
  by_cases h1 : p < q
  · have := h.mono (p + 1) q (by omega) (by omega) (by omega); omega
  · by_cases h2 : q < p
    · have := h.mono (q + 1) p (by omega) (by omega) (by omega); omega
    · omega

/-- Arc `a` of vertex `u` comes before arc `e` of vertex `v`. -/
def Done (L : Local) (v e u a : Int) : Prop := L.g.Vertex u ∧ L.g.vert u ≤ a ∧ a < L.g.vend u ∧ (u < v ∨ u = v ∧ a < e)

/-- The array of send data describes the list `l`. -/
structure Sid (L : Local) (s : Ghst1) (l : List (Int × Int)) : Prop where
  lo : s.procsidtab.lo = 0
  hi : s.procsidtab.hi = L.g.edgenbr + L.g.vertnbr
  n0 : 0 ≤ s.procsidnbr
  dec : decode L.g.baseval (seg s.procsidtab.get 0 s.procsidnbr) = l
  fin : endPos L.g.baseval (seg s.procsidtab.get 0 s.procsidnbr) = s.vertsidnum
  base : L.g.baseval ≤ s.vertsidnum
  size : s.procsidnbr ≤ l.length + (s.vertsidnum - L.g.baseval)

theorem seg_push (a : Arr Int) {n : Int} (h : 0 ≤ n) (x : Int) : seg (a.set n x).get 0 (n + 1) = seg a.get 0 n ++ [x] := by
  rw [seg_succ _ h, Arr.set_get_same]
  congr 1
  exact seg_congr fun i h1 h2 => Arr.set_get_ne _ _ (by omega)

theorem Sid.jump {L : Local} {s : Ghst1} {l : List (Int × Int)} (h : Sid L s l) {x : Int} (hx : 0 < x) :
    Sid L { s with procsidtab := s.procsidtab.set s.procsidnbr (- x), procsidnbr := s.procsidnbr + 1, vertsidnum := s.vertsidnum + x } l where
  lo := h.lo
  hi := h.hi
  n0 := by have := h.n0; dsimp only; omega
  dec := by
    dsimp only
    rw [seg_push _ h.n0, decode_append, if_pos (by omega)]
    exact h.dec
  fin := by
    dsimp only
    rw [seg_push _ h.n0, endPos_append, if_pos (by omega), h.fin]
    omega
  base := by have := h.base; dsimp only; omega
  size := by have := h.size; dsimp only; omega

theorem Sid.push {L : Local} {s : Ghst1} {l : List (Int × Int)} (h : Sid L s l) {q : Int} (hq : 0 ≤ q) :
    Sid L { s with procsidtab := s.procsidtab.set s.procsidnbr q, procsidnbr := s.procsidnbr + 1 } (l ++ [(s.vertsidnum, q)]) where
  lo := h.lo
  hi := h.hi
  n0 := by have := h.n0; dsimp only; omega
  dec := by
    dsimp only
    rw [seg_push _ h.n0, decode_append, if_neg (by omega), h.fin, h.dec]
  fin := by
    dsimp only
    rw [seg_push _ h.n0, endPos_append, if_neg (by omega), h.fin]
  base := h.base
  size := by
    have := h.size
    simp only [List.length_append, List.length_cons, List.length_nil]
    omega

/-- Everything but the send data is the same. -/
def SameBut (s t : Ghst1) : Prop :=
  t.edgegsttax = s.edgegsttax ∧ t.sortloctab = s.sortloctab ∧ t.sortlocnbr = s.sortlocnbr ∧ t.procsndtab = s.procsndtab ∧ t.vertsidtab = s.vertsidtab

theorem ghstJump_holds {L : Local} {s : Ghst1} {l : List (Int × Int)} {v : Int} {fuel : Nat} (h : Sid L s l) (hv : s.vertsidnum ≤ v)
    (hv2 : v < L.g.baseval + L.g.vertnbr) (hl : (l.length : Int) < L.g.edgenbr) (hf : v - s.vertsidnum < fuel) :
    Holds (ghstJump v fuel s) (fun t => Sid L t l ∧ SameBut s t ∧ t.vertsidnum ≤ v) := by
  unfold ghstJump
  refine Holds_loopM (I := fun t => Sid L t l ∧ SameBut s t ∧ t.vertsidnum ≤ v) (μ := fun t => (v - t.vertsidnum).toNat) ?_ _ _ ⟨h, ⟨rfl, rfl, rfl, rfl, rfl⟩, hv⟩ (by omega)
  rintro t ⟨i1, i2, i3⟩
  rw [Holds_ite]
  refine ⟨fun _ => ?_, fun hc => ?_⟩
  · rw [Holds_pure]
    exact ⟨i1, i2, i3⟩
  · have := i1.size
    have := i1.n0
    have hm : sidMax = 2147483646 := rfl
    simp only [Holds_bind, Holds_wr, i1.lo, i1.hi, Holds_pure]
    refine ⟨by omega, ⟨i1.jump (by omega), i2, by dsimp only; omega⟩, ?_⟩
    dsimp only
    omega

theorem ghstLast_holds {L : Local} {s : Ghst1} {l : List (Int × Int)} {v : Int} (h : Sid L s l) (hv : s.vertsidnum ≤ v)
    (hv2 : v < L.g.baseval + L.g.vertnbr) (hl : (l.length : Int) < L.g.edgenbr) :
    Holds (ghstLast v s) (fun t => Sid L t l ∧ SameBut s t ∧ t.vertsidnum = v) := by
  unfold ghstLast
  rw [Holds_ite]
  refine ⟨fun hc => ?_, fun hc => ?_⟩
  · have := h.size
    have := h.n0
    simp only [Holds_bind, Holds_wr, h.lo, h.hi, Holds_pure]
    have hj := h.jump (x := v - s.vertsidnum) (by omega)
    rw [show s.vertsidnum + (v - s.vertsidnum) = v by omega] at hj
    exact ⟨by omega, hj, ⟨rfl, rfl, rfl, rfl, rfl⟩, trivial⟩
  · rw [Holds_pure]
    exact ⟨h, ⟨rfl, rfl, rfl, rfl, rfl⟩, by omega⟩

open Classical in
/-- State of the loop on local vertices, before arc `e` of vertex `v`. -/
structure Inv1 (L : Local) (gl gh v e : Int) (s : Ghst1) : Prop where
  glo : s.edgegsttax.lo = gl
  ghi : s.edgegsttax.hi = gh
  loc : ∀ u a, Done L v e u a → ¬ L.Remote (L.g.dest a) → s.edgegsttax.get a = L.g.dest a - (L.procvrttab.get L.proclocnum - L.g.baseval)
  slo : s.sortloctab.lo = 0
  shi : s.sortloctab.hi = L.g.edgenbr + 1
  sn0 : 0 ≤ s.sortlocnbr
  snb : s.sortlocnbr ≤ sumI L.g.baseval v (fun u => L.g.vend u - L.g.vert u) + (e - L.g.vert v)
  cell : ∀ j, 0 ≤ j → j < s.sortlocnbr → (s.sortloctab.get j).1 = L.g.dest (s.sortloctab.get j).2 ∧ L.Remote (s.sortloctab.get j).1 ∧
    ∃ u, Done L v e u (s.sortloctab.get j).2
  cover : ∀ u a, Done L v e u a → L.Remote (L.g.dest a) → ∃ j, 0 ≤ j ∧ j < s.sortlocnbr ∧ (s.sortloctab.get j).2 = a
  dlo : s.procsndtab.lo = 0 ∧ s.procsndtab.hi = L.procglbnbr
  vlo : s.vertsidtab.lo = 0 ∧ s.vertsidtab.hi = L.procglbnbr
  sid : ∃ l, Sid L s l ∧ (l.length : Int) ≤ s.sortlocnbr ∧ (∀ c ∈ l, 0 ≤ c.2 ∧ c.2 < L.procglbnbr) ∧
    ∀ q, 0 ≤ q → q < L.procglbnbr → pick q l = L.sends q v ++ (if L.To v e q then [v] else []) ∧ s.procsndtab.get q = (pick q l).length
  cur : s.vertsidnum ≤ v
  mark : ∀ q, 0 ≤ q → q < L.procglbnbr → s.vertsidtab.get q ≤ v ∧ (s.vertsidtab.get q = v ↔ L.To v e q)

theorem to_succ_local {L : Local} {v e q : Int} (h : ¬ L.Remote (L.g.dest e)) : L.To v (e + 1) q ↔ L.To v e q := by
  constructor
  · rintro ⟨a, a1, a2, a3, a4⟩
    by_cases hae : a = e
    · subst hae; exact absurd a3 h
    · exact ⟨a, a1, by omega, a3, a4⟩
  · rintro ⟨a, a1, a2, a3, a4⟩
    exact ⟨a, a1, by omega, a3, a4⟩

theorem to_succ_remote {L : Local} (hL : L.Ok) {v e q q' : Int} (hv : L.g.vert v ≤ e) (h : L.Remote (L.g.dest e)) (ho : Own L.procvrttab L.procglbnbr q (L.g.dest e)) :
    L.To v (e + 1) q' ↔ L.To v e q' ∨ q' = q := by
  constructor
  · rintro ⟨a, a1, a2, a3, a4⟩
    by_cases hae : a = e
    · subst hae; exact Or.inr (Own.unique hL a4 ho)
    · exact Or.inl ⟨a, a1, by omega, a3, a4⟩
  · rintro (⟨a, a1, a2, a3, a4⟩ | h')
    · exact ⟨a, a1, by omega, a3, a4⟩
    · subst h'; exact ⟨e, hv, by omega, h, ho⟩

theorem done_succ {L : Local} {v e u a : Int} (h : Done L v (e + 1) u a) : Done L v e u a ∨ u = v ∧ a = e := by
  obtain ⟨h1, h2, h3, h4⟩ := h
  rcases h4 with h4 | ⟨h4, h5⟩
  · exact Or.inl ⟨h1, h2, h3, Or.inl h4⟩
  · by_cases hae : a = e
    · exact Or.inr ⟨h4, hae⟩
    · exact Or.inl ⟨h1, h2, h3, Or.inr ⟨h4, by omega⟩⟩

theorem Done.up {L : Local} {v e u a : Int} (h : Done L v e u a) : Done L v (e + 1) u a := by
  obtain ⟨h1, h2, h3, h4⟩ := h
  refine ⟨h1, h2, h3, ?_⟩
  rcases h4 with h4 | ⟨h4, h5⟩
  · exact Or.inl h4
  · exact Or.inr ⟨h4, by omega⟩

end Scotch.Dist
