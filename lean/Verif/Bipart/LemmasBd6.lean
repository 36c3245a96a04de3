import Verif.Bipart.LemmasBd5
import Verif.Bipart.LemmasBasic

/-! # Bipartition of band graphs: bipartition of the band graph -/

set_option autoImplicit false
set_option linter.unusedSimpArgs false

namespace Scotch.Bipart
open Graph

/-! ## Bipartitions of merged vertices -/

section
variable {g g' : Graph} {φ : Int → Int}

theorem over_quot (K : Coarsen.Quot g φ g') {q : Int → Int} (k : Int) {f f' : Int → Int} (hf : ∀ c, g'.Vertex c → f' c = sumI g.baseval g.vertnnd (fun v => if φ v = c then f v else 0)) :
    over g' q k f' = over g (fun v => q (φ v)) k f := by
  unfold over
  have h := K.push_sum f (fun c => if q c = k then 1 else 0)
  have e1 : sumI g.baseval g.vertnnd (fun v => if q (φ v) = k then f v else 0) = sumI g.baseval g.vertnnd (fun v => f v * (fun c => if q c = k then (1 : Int) else 0) (φ v)) := by
    apply sumI_congr
    intro v _ _
    dsimp only
    split <;> simp
  rw [e1, ← h]
  apply sumI_congr
  intro c c1 c2
  rw [← hf c ⟨c1, c2⟩]
  split <;> simp

theorem cut_quot (C : g.Consistent) (K : Coarsen.Quot g φ g') {q : Int → Int} (hq : Parts g' q) : cut g' q = cut g (fun v => q (φ v)) := by
  have hq' : Parts g (fun v => q (φ v)) := fun v hv => hq _ (K.inside v hv)
  rw [cut_sum (consE_iff.2 K.consistent) hq, cut_sum (consE_iff.2 C) hq']
  have e1 : ∀ c, g'.Vertex c → ∀ d, g'.Vertex d → (1 - q c) * q d = if q c = 0 ∧ q d = 1 then 1 else 0 := by
    intro c hc d hd
    rcases hq c hc with h | h <;> rcases hq d hd with h' | h' <;> rw [h, h'] <;> rfl
  have h := K.push_wgt C (fun c d => if q c = 0 ∧ q d = 1 then 1 else 0) (fun c => if_neg (by omega))
  rw [sumI_congr (fun c c1 c2 => sumI_congr (fun d d1 d2 => by rw [e1 c ⟨c1, c2⟩ d ⟨d1, d2⟩])), h]
  apply sumI_congr
  intro v v1 v2
  apply sumI_congr
  intro w w1 w2
  rw [e1 _ (K.inside v ⟨v1, v2⟩) _ (K.inside w ⟨w1, w2⟩)]

/-- A vertex of the frontier comes from a vertex of the frontier. -/
theorem frontier_quot (C : g.Consistent) (K : Coarsen.Quot g φ g') {q : Int → Int} {c : Int} : Frontier g' q c ↔ ∃ v, g.Vertex v ∧ φ v = c ∧ Frontier g (fun v => q (φ v)) v := by
  constructor
  · rintro ⟨hc, ⟨d, l⟩, hp, hne⟩
    obtain ⟨h1, ⟨v, p, hv, v1, p1, p2⟩, h3⟩ := (K.merged.nbrs c d l hc).1 hp
    exact ⟨v, hv, v1, hv, p, p1, by dsimp only at hne ⊢; rw [p2, v1]; exact hne⟩
  · rintro ⟨v, hv, rfl, -, p, hp, hne⟩
    have hc := K.inside v hv
    refine ⟨hc, (φ p.1, Coarsen.arcLoad g φ (φ v) (φ p.1)), (K.merged.nbrs _ _ _ hc).2 ⟨?_, ⟨v, p, hv, rfl, hp, rfl⟩, rfl⟩, hne⟩
    intro e
    dsimp only at hne
    rw [e] at hne
    exact hne rfl
end

variable {b : Bgraph} {s : BdSt} {vlvl : Int} {queu : Arr Int}

/-- Abbreviation: the band graph. -/
abbrev BdB (b : Bgraph) (s : BdSt) (r : BdBnd) : Prop := BdBand b s (fib b s b.s.velo (bN b s)) (fib b s b.s.velo (bN b s + 1)) r

theorem BdCtx.parts' (C : BdCtx b vlvl s) {r : BdBnd} (B : BdB b s r) {v : Int} (hv : b.s.Vertex v) : r.part.get (bφ b s v) = b.part v := by
  by_cases h : s.idx.get v = -1
  · rw [C.φ_out h]
    rcases C.valid.parts v hv with k | k
    · rw [k, Int.add_zero, B.panc.1]
    · rw [k, B.panc.2]
  · obtain ⟨h1, h2, h3⟩ := C.idx_in hv h
    rw [C.φ_in h, B.part _ h1 h2, h3]

theorem BdCtx.vx (_C : BdCtx b vlvl s) {r : BdBnd} (B : BdB b s r) (v : Int) : r.graf.Vertex v ↔ b.s.baseval ≤ v ∧ v < bN b s + 2 := by
  obtain ⟨e1, e2, e3, e4⟩ := B.shape
  unfold Graph.Vertex; rw [e1, e3]

theorem BdCtx.parts (C : BdCtx b vlvl s) {r : BdBnd} (B : BdB b s r) : Parts r.graf r.part.get := by
  intro v hv
  obtain ⟨v1, v2⟩ := (C.vx B v).1 hv
  by_cases h : v < bN b s
  · rw [B.part v v1 h]; exact C.part v1 h
  · by_cases h2 : v = bN b s
    · left; rw [h2]; exact B.panc.1
    · right; rw [show v = bN b s + 1 by omega]; exact B.panc.2

/-- Frontier of the band graph. -/
theorem BdCtx.fron (C : BdCtx b vlvl s) {r : BdBnd} (B : BdB b s r) (c : Int) : Frontier r.graf r.part.get c ↔ b.s.baseval ≤ c ∧ c < b.s.baseval + b.fronnbr := by
  have hl := C.found.lvl
  have hh := C.head_le
  rw [frontier_quot (consE_iff.1 C.cons) (C.quot B)]
  have hcg : ∀ v, Frontier b.s (fun v => r.part.get (bφ b s v)) v ↔ Frontier b.s b.part v := fun v => Frontier_congr C.cons (fun v hv => C.parts' B hv) v
  constructor
  · rintro ⟨v, hv, rfl, h⟩
    obtain ⟨i, i1, i2, i3⟩ := (C.valid.fron.2.2 v).1 ((hcg v).1 h)
    have e := C.found.fron i i1 i2
    have e2 := C.found.num i i1 (by omega)
    rw [e, i3] at e2
    have := C.base
    rw [C.φ_in (by omega), e2]
    omega
  · rintro ⟨h1, h2⟩
    refine ⟨bq b s c, (C.bq_mem h1 (by omega)).1, C.φ_bq h1 (by omega), (hcg _).2 ?_⟩
    have := C.valid.fron.mem (i := c - b.s.baseval) (by omega) (by omega)
    rw [← C.found.fron _ (by omega) (by omega)] at this
    exact this

/-- Load of the edges between the two parts. -/
theorem BdCtx.intn (C : BdCtx b vlvl s) {r : BdBnd} (B : BdB b s r) : Holds (bdIntn b r) (fun x => x = cut b.s b.part) := by
  have hl := C.found.lvl
  have hh := C.head_le
  have hf := C.valid.fron.1
  have hE := consE_iff.2 (C.consistent B)
  have hP := C.parts B
  obtain ⟨e1, e2, e3, e4⟩ := B.shape
  have hbd := B.bnd
  unfold bdIntn
  refine Holds_forUp (fun u x => x = sumI b.s.baseval u (fun u => if r.part.get u = 0 then linkTo r.graf r.part.get 1 u else 0)) (by omega) ?_ ?_ ?_
  · rw [sumI_empty (Int.le_refl _)]
  · rintro u x u1 u2 rfl
    have hu := (C.vx B u).2 ⟨u1, by omega⟩
    rw [Arr.rd_ok _ (by omega) (by omega), ok_bind]
    rw [sumI_succ u1]
    by_cases hp : r.part.get u ≠ 0
    · rw [if_pos hp, if_neg hp, Holds_pure]; omega
    · rw [if_neg hp, if_pos (Classical.byContradiction hp)]
      rw [linkTo_one hE hP hu, ← arc_sum hE hu r.part.get]
      generalize sumI b.s.baseval u _ = x0
      refine Holds_forArcs B.alloc hu (hE.range u hu).2 (fun e x => x = x0 + sumI (r.graf.vert u) e (fun e => r.graf.edlo e * r.part.get (r.graf.dest e))) ?_ ?_ ?_
      · rw [sumI_empty (Int.le_refl _)]; omega
      · rintro e x k1 k2 rfl
        have hw := (hE.inside u e hu k1 k2).1
        obtain ⟨w1, w2⟩ := (C.vx B _).1 hw
        rw [rdEdlo_eq B.alloc hu k1 k2, ok_bind, Arr.rd_ok _ (by omega) (by omega), ok_bind, Holds_pure, sumI_succ k1]
        omega
      · rintro x rfl; rfl
  · rintro x rfl
    rw [← cut_congr C.cons (fun v hv => C.parts' B hv), ← cut_quot (consE_iff.1 C.cons) (C.quot B) hP]
    unfold cut over
    rw [e1, e3, sumI_split (lo := b.s.baseval) (mid := b.s.baseval + b.fronnbr) (hi := bN b s + 2) (by omega) (by omega)]
    have : sumI (b.s.baseval + b.fronnbr) (bN b s + 2) (fun u => if r.part.get u = 0 then linkTo r.graf r.part.get 1 u else 0) = 0 := by
      refine sumI_eq_zero fun u u1 u2 => ?_
      by_cases hp : r.part.get u = 0
      · rw [if_pos hp]
        have hn : ¬ Frontier r.graf r.part.get u := fun h => by have := (C.fron B u).1 h; omega
        unfold linkTo
        refine List.sum_eq_zero ?_
        intro x hx
        obtain ⟨p, p1, rfl⟩ := List.mem_map.1 hx
        refine if_neg fun k => hn ⟨(C.vx B u).2 ⟨by omega, by omega⟩, p, p1, by omega⟩
      · rw [if_neg hp]
    omega

/-- The band graph and its bipartition. -/
structure BdBip (b : Bgraph) (vlvl : Int) (s : BdSt) (cb : Bgraph) : Prop where
  ctx : BdCtx b vlvl s
  room : s.head + 2 ≤ b.s.vertnbr
  shape : cb.s.baseval = b.s.baseval ∧ cb.s.vertnbr = s.head + 2 ∧ cb.s.vertnnd = bN b s + 2
  quot : Coarsen.Quot b.s (bφ b s) cb.s
  adj : ∀ c d, cb.s.Vertex c → (cb.s.Adj c d ↔ ∃ l, (d, l) ∈ bAdj b s c)
  alloc : Alloc cb
  valid : Valid cb
  loaded : Loaded cb.s
  veex : ∀ c, cb.s.Vertex c → cb.veex c = fib b s b.veex c
  limits : cb.compload0avg = b.compload0avg
  extn : cb.commloadextn0 = b.commloadextn0 ∧ cb.commgainextn0 = b.commgainextn0
  domn : cb.domndist = b.domndist
  vfix : cb.vfixload0 = b.vfixload0

/-- Value of an optional array. -/
def optG (o : Option (Arr Int)) (c : Int) : Int := match o with | none => 0 | some a => a.get c

theorem BdCtx.fill (C : BdCtx b vlvl s) (hroom : s.head + 2 ≤ b.s.vertnbr) {r : BdBnd} (B : BdB b s r) {a0 a1 : Int} {t : BdGr} (I : BdGrI b s a0 a1 (bN b s) t) (junk : BdJunk) : Holds (bdFill junk b s t r) (BdBip b vlvl s) := by
  have hl := C.found.lvl
  have hh := C.head_le
  have hf := C.valid.fron.1
  have hP := C.parts B
  have hcons := C.consistent B
  have K := C.quot B
  have hE := consE_iff.2 hcons
  have V := C.valid
  obtain ⟨e1, e2, e3, e4⟩ := B.shape
  have hbd := B.bnd
  have ho : ∀ k f, over b.s (fun v => r.part.get (bφ b s v)) k f = over b.s b.part k f := fun k f => over_congr k (fun v hv => C.parts' B hv) (fun _ _ => rfl)
  unfold bdFill
  dsimp only
  rw [Holds_bind]
  refine Holds_forUp (fun i (a : Arr Int) => a.lo = 0 ∧ a.hi = s.head + 2 ∧ ∀ j, 0 ≤ j → j < i → a.get j = b.s.baseval + j) hf ⟨rfl, rfl, fun j j1 j2 => by omega⟩ ?_ ?_
  · rintro i a i1 i2 ⟨b1, b2, b3⟩
    rw [Arr.wr_ok _ _ (by omega) (by omega), Holds_ok]
    refine ⟨b1, b2, fun j j1 j2 => ?_⟩
    by_cases e : j = i
    · rw [e, Arr.set_get_same]
    · rw [Arr.set_get_ne _ _ e]; exact b3 j j1 (by omega)
  rintro fron ⟨b1, b2, b3⟩
  rw [Holds_bind]
  have hex : Holds (bdExtn b (b.s.baseval + s.head) t r) (fun o => (∀ a, o = some a → a.lo = b.s.baseval ∧ a.hi = b.s.baseval + (s.head + 2)) ∧
      ∀ c, b.s.baseval ≤ c → c < bN b s + 2 → optG o c = fib b s b.veex c) := by
    unfold bdExtn
    cases ht : t.veex with
    | none =>
      have hn := I.veex.none.1 ht
      have hz : ∀ v, b.veex v = 0 := fun v => by unfold Bgraph.veex; rw [hn]
      dsimp only
      rw [Holds_pure]
      refine ⟨(fun a h => by cases h), fun c _ _ => ?_⟩
      unfold optG fib
      dsimp only
      rw [sumI_eq_zero]
      intro v _ _
      rw [hz]; split <;> rfl
    | some a =>
      obtain ⟨ha, hg⟩ := I.veex.some a ht
      dsimp only
      rw [Holds_bind]
      refine (C.intn B).mono ?_
      rintro x rfl
      rw [← hh.2.2.2.2.2, Arr.wr_ok _ _ (by omega) (by omega), ok_bind, Arr.wr_ok _ _ (by dsimp only [Arr.set]; omega) (by dsimp only [Arr.set]; omega), ok_bind, Holds_pure]
      refine ⟨(fun a' h => by cases h; exact ha), fun c c1 c2 => ?_⟩
      unfold optG
      dsimp only
      have z0 := C.fib_zero b.veex
      have z1 := C.fib_one b.veex
      have x0 := I.extn
      rw [sumI_sub_dist, ← x0.1, ← x0.2] at z0
      rw [← x0.2] at z1
      have hcm := V.comm
      have hgn := V.gain
      by_cases h : c < bN b s
      · rw [Arr.set_get_ne _ _ (by omega), Arr.set_get_ne _ _ (by omega), hg c c1 h, C.fib_in _ c1 h]
      · by_cases h0 : c = bN b s
        · rw [h0, Arr.set_get_same]; omega
        · rw [show c = bN b s + 1 by omega, Arr.set_get_ne _ _ (by omega), Arr.set_get_same]; omega
  refine hex.mono ?_
  rintro veex ⟨x1, x2⟩
  rw [Holds_pure]
  have hvx : ∀ c, r.graf.Vertex c → optG veex c = fib b s b.veex c := fun c hc => x2 c ((C.vx B c).1 hc).1 ((C.vx B c).1 hc).2
  have hovx : ∀ k, over r.graf r.part.get k (optG veex) = over b.s b.part k b.veex := fun k => by rw [over_quot K k hvx, ho]
  refine ⟨C, hroom, ⟨e1, e2, e3⟩, K, ?_, ⟨B.alloc, ?_, ?_, ?_⟩, ⟨hP, ?_, V.delta, ?_, ?_, ?_, ?_⟩, C.loaded' B, hvx, rfl, ⟨rfl, rfl⟩, rfl, rfl⟩
  · intro c d hc
    obtain ⟨lo, L⟩ := B.lists
    show r.graf.Adj c d ↔ _
    rw [adj_iff, L.nbrs hc]
    constructor
    · rintro ⟨⟨x, l⟩, p1, rfl⟩; exact ⟨l, p1⟩
    · rintro ⟨l, h⟩; exact ⟨_, h, rfl⟩
  · dsimp only; omega
  · dsimp only; omega
  · intro a ha
    have := x1 a ha
    dsimp only; omega
  · show b.compload0 = over r.graf r.part.get 0 r.graf.velo
    rw [over_quot K 0 (f := b.s.velo) (fun c hc => K.merged.velo c hc), ho]
    exact V.load
  · show s.head + 2 - s.size1 - 1 = over r.graf r.part.get 0 (fun _ => 1)
    unfold over
    rw [e1, e3, show bN b s + 2 = bN b s + 1 + 1 by omega, sumI_succ (by omega), sumI_succ (by omega), B.panc.1, B.panc.2, if_pos rfl, if_neg (by decide)]
    have : sumI b.s.baseval (bN b s) (fun v => if r.part.get v = 0 then (1 : Int) else 0) = sumI b.s.baseval (bN b s) (fun u => 1 - b.part (bq b s u)) := by
      refine sumI_congr fun u u1 u2 => ?_
      rw [B.part u u1 u2]
      rcases C.part u1 u2 with h | h
      · rw [if_pos h, h]; rfl
      · rw [if_neg (by omega), h]; rfl
    rw [this, sumI_sub_dist, sumI_const (by omega), sum_bq b s b.part, ← C.found.size]
    dsimp only
    omega
  · show b.commload = cut r.graf r.part.get * b.domndist + b.commloadextn0 + over r.graf r.part.get 1 (optG veex)
    rw [hovx, cut_quot (consE_iff.1 C.cons) K hP, cut_congr C.cons (fun v hv => C.parts' B hv)]
    exact V.comm
  · show b.commgainextn = over r.graf r.part.get 0 (optG veex) - over r.graf r.part.get 1 (optG veex)
    rw [hovx, hovx]
    exact V.gain
  · show Enum fron b.fronnbr (Frontier r.graf r.part.get)
    refine ⟨hf, ?_, ?_⟩
    · intro i j i1 i2 j1 j2 e
      rw [b3 i i1 i2, b3 j j1 j2] at e
      omega
    · intro v
      rw [C.fron B v]
      constructor
      · rintro ⟨h1, h2⟩
        exact ⟨v - b.s.baseval, by omega, by omega, by rw [b3 _ (by omega) (by omega)]; omega⟩
      · rintro ⟨i, i1, i2, rfl⟩
        rw [b3 i i1 i2]; omega

/-- The band graph is built, unless an anchor vertex is isolated. -/
theorem BdCtx.build (C : BdCtx b vlvl s) (h1 : s.size1 < b.s.vertnbr - b.compsize0) (h0 : s.head - s.size1 < b.compsize0) (junk : BdJunk) :
    Holds (bdBuild junk b vlvl s) (fun o => ∀ cb queu, o = some (cb, queu) → BdBip b vlvl s cb ∧ BdQueu b s queu) := by
  have hh := C.head_le
  have hb := C.found.bnd
  obtain ⟨o1, o2, o3, o4⟩ := C.outer
  have hroom : s.head + 2 ≤ b.s.vertnbr := by omega
  unfold bdBuild
  rw [Arr.wr_ok _ _ (by omega) (by omega), ok_bind, Arr.wr_ok _ _ (by dsimp only [Arr.set]; omega) (by dsimp only [Arr.set]; omega), ok_bind, Holds_bind]
  have Q : BdQueu b s ((s.queu.set (s.head + 1) (-1)).set s.head (-1)) := by
    refine ⟨⟨by dsimp only [Arr.set]; omega, by dsimp only [Arr.set]; omega⟩, ?_, ?_, ?_⟩
    · intro i i1 i2
      rw [Arr.set_get_ne _ _ (by omega), Arr.set_get_ne _ _ (by omega)]
    · rw [Arr.set_get_same]
    · rw [Arr.set_get_ne _ _ (by omega), Arr.set_get_same]
  generalize (s.queu.set (s.head + 1) (-1)).set s.head (-1) = queu at Q ⊢
  refine (C.verts Q junk).mono ?_
  intro t I
  rw [o1, o2] at I
  rw [Holds_bind]
  refine (C.close Q hroom I).mono ?_
  intro r B
  by_cases hn : r.num1 = r.num0 ∨ r.num1 = r.num2
  · rw [if_pos hn, Holds_pure]
    intro cb q h; cases h
  · rw [if_neg hn, Holds_bind]
    refine (C.fill hroom B I junk).mono ?_
    intro cb D
    rw [Holds_pure]
    intro cb' q h
    cases h
    exact ⟨D, Q⟩

end Scotch.Bipart
