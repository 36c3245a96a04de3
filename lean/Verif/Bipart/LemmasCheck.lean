import Verif.Bipart.LemmasBasic

/-! # Bipartition graphs: checking and saving -/

set_option autoImplicit false
set_option linter.unusedSimpArgs false

namespace Scotch.Bipart
open Graph
variable {b : Bgraph}

theorem orP_one {a : Int} (h : 0 ≤ a) : orP a 1 ≠ 1 ↔ ¬ (a = 0 ∨ a = 1) := by
  obtain ⟨n, rfl⟩ : ∃ n : Nat, a = n := ⟨a.toNat, by omega⟩
  unfold orP
  rw [Int.toNat_natCast]
  have h1 : (n ||| 1) = 1 ↔ n ≤ 1 := by
    constructor
    · intro h
      have := Nat.left_le_or (n := n) (m := 1)
      omega
    · intro h
      have : n = 0 ∨ n = 1 := by omega
      rcases this with rfl | rfl <;> rfl
  constructor
  · intro hx hy
    apply hx
    have : (n ||| 1) = 1 := h1.2 (by omega)
    rw [show (1 : Int).toNat = 1 from rfl, this]; rfl
  · intro hx hy
    apply hx
    rw [show (1 : Int).toNat = 1 from rfl] at hy
    have := h1.1 (by omega)
    omega

theorem checkParts_holds (hc : ConsE b.s) (ha : Alloc b) (h0 : ∀ v, b.s.Vertex v → 0 ≤ b.part v) :
    Holds (checkParts b) (fun l => match l with | .next _ => Parts b.s b.part | .brk _ => ¬ Parts b.s b.part) := by
  unfold checkParts
  have hn := hc.vertnbr
  have hnn := hc.vertnnd
  have hb := ha.part
  refine Holds_forUpB (fun i _ => ∀ v, b.s.baseval ≤ v → v < i → b.part v = 0 ∨ b.part v = 1) (fun _ => ¬ Parts b.s b.part) (by omega) ?_ ?_ ?_ ?_
  · intro v h1 h2; omega
  · intro i _ h1 h2 hI
    rw [Arr.rd_ok _ (by omega) (by omega), ok_bind]
    have hv : b.s.Vertex i := ⟨h1, h2⟩
    have ho := orP_one (h0 i hv)
    change orP (b.parttax.get i) 1 ≠ 1 ↔ _ at ho
    by_cases hx : orP (b.parttax.get i) 1 ≠ 1
    · rw [if_pos hx, Holds_pure, Loop.Sat_brk]
      intro hp
      exact ho.1 hx (hp i hv)
    · rw [if_neg hx, Holds_pure, Loop.Sat_next]
      intro v v1 v2
      by_cases hvi : v = i
      · rw [hvi]
        exact Classical.byContradiction (fun h => hx (ho.2 h))
      · exact hI v v1 (by omega)
  · intro _ hI v hv; exact hI v hv.1 hv.2
  · intro _ h; exact h

theorem checkFlag_holds (hc : ConsE b.s) (ha : Alloc b) (hp : Parts b.s b.part) {v : Int} (hv : b.s.Vertex v) :
    Holds (checkFlag b v (b.part v)) (fun r => r ≠ 0 ↔ Frontier b.s b.part v) := by
  unfold checkFlag
  have hr := (hc.range v hv).2
  have hb := ha.part
  refine Holds_forArcs ha.graph hv hr (fun i (r : Int) =>
      (r = 0 ∨ r = 1) ∧ (r ≠ 0 ↔ ∃ e, b.s.vert v ≤ e ∧ e < i ∧ b.part (b.s.dest e) ≠ b.part v)) ?_ ?_ ?_
  · refine ⟨Or.inl rfl, ?_⟩
    constructor
    · intro h; exact absurd rfl h
    · rintro ⟨e, h1, h2, _⟩; omega
  · rintro e r h1 h2 ⟨i2, i3⟩
    have hw := (hc.inside v e hv h1 h2).1
    rw [Arr.rd_ok _ (by have := hw.1; omega) (by have := hw.2; omega), ok_bind]
    rw [show b.parttax.get (b.s.dest e) = b.part (b.s.dest e) from rfl, xorP_eq (hp _ hw) (hp v hv), Holds_pure]
    by_cases he : b.part (b.s.dest e) = b.part v
    · rw [if_pos he]
      rw [orP_eq i2 (Or.inl rfl)]
      refine ⟨?_, ?_⟩
      · rcases i2 with h | h <;> rw [h] <;> simp
      · have : (if r = 0 ∧ (0:Int) = 0 then (0:Int) else 1) ≠ 0 ↔ r ≠ 0 := by
          rcases i2 with h | h <;> rw [h] <;> simp
        rw [this, i3]
        constructor
        · rintro ⟨x, x1, x2, x3⟩; exact ⟨x, x1, by omega, x3⟩
        · rintro ⟨x, x1, x2, x3⟩
          refine ⟨x, x1, ?_, x3⟩
          rcases Int.lt_or_le x e with h | h
          · exact h
          · have : x = e := by omega
            rw [this] at x3
            exact absurd he x3
    · rw [if_neg he]
      rw [orP_eq i2 (Or.inr rfl), if_neg (by rintro ⟨_, h⟩; exact absurd h (by decide))]
      refine ⟨Or.inr rfl, ?_⟩
      constructor
      · intro _; exact ⟨e, h1, by omega, he⟩
      · intro _; decide
  · rintro r ⟨i2, i3⟩
    rw [i3, frontier_adj]
    constructor
    · rintro ⟨e, h1, h2, h3⟩
      exact ⟨hv, _, ⟨e, h1, h2, rfl⟩, h3⟩
    · rintro ⟨_, w, ⟨e, h1, h2, rfl⟩, h3⟩
      exact ⟨e, h1, h2, h3⟩

theorem checkFron_holds (hc : ConsE b.s) (ha : Alloc b) (hp : Parts b.s b.part) (h0 : 0 ≤ b.fronnbr) (h1 : b.fronnbr ≤ b.s.vertnbr) :
    Holds (checkFron b) (fun l => match l with
      | .next f => f.lo = b.s.baseval ∧ f.hi = b.s.vertnnd ∧ (∀ v, f.get v = 0 → Frontier b.s b.part v) ∧ Enum b.frontab b.fronnbr (fun v => f.get v = 0)
      | .brk _ => ¬ Enum b.frontab b.fronnbr (Frontier b.s b.part)) := by
  unfold checkFron
  have hn := hc.vertnbr
  have hnn := hc.vertnnd
  have hb := ha.part
  have hf := ha.fron
  refine Holds_forUpB (fun i (f : Arr Int) => f.lo = b.s.baseval ∧ f.hi = b.s.vertnnd ∧ (∀ v, f.get v = 0 → Frontier b.s b.part v) ∧
    (∀ v, f.get v = 0 ∨ f.get v = -1) ∧ Enum b.frontab i (fun v => f.get v = 0)) (fun _ => ¬ Enum b.frontab b.fronnbr (Frontier b.s b.part)) (by omega) ?_ ?_ ?_ ?_
  · refine ⟨rfl, by change b.s.baseval + b.s.vertnbr = _; omega, ?_, fun v => Or.inr rfl, ?_⟩
    · intro v hv; exact absurd hv (by change ¬ (-1 : Int) = 0; decide)
    · refine (Enum.empty b.frontab).congr ?_
      intro v
      exact ⟨False.elim, fun hv => absurd hv (by change ¬ (-1 : Int) = 0; decide)⟩
  · rintro i f i1 i2 ⟨e1, e2, e3, e4, e5⟩
    rw [Arr.rd_ok _ (by omega) (by omega), ok_bind]
    by_cases hr : b.frontab.get i < b.s.baseval ∨ b.frontab.get i ≥ b.s.vertnnd
    · rw [if_pos hr, Holds_pure, Loop.Sat_brk]
      intro he
      have hm := (he.mem i1 i2).1
      have m1 := hm.1; have m2 := hm.2
      omega
    · rw [if_neg hr]
      have hv : b.s.Vertex (b.frontab.get i) := ⟨by omega, by omega⟩
      generalize hx : b.frontab.get i = x at *
      rw [Arr.rd_ok _ (by omega) (by omega), ok_bind]
      by_cases hz : f.get x ≠ -1
      · rw [if_pos hz, Holds_pure, Loop.Sat_brk]
        intro he
        have hz : f.get x = 0 := by rcases e4 x with h | h <;> omega
        obtain ⟨j, j1, j2, j3⟩ := (e5.2.2 x).1 hz
        have := he.2.1 j i j1 (by omega) i1 i2 (by rw [j3, hx])
        omega
      · rw [if_neg hz]
        have hz : f.get x = -1 := by rcases e4 x with h | h <;> omega
        rw [Arr.wr_ok _ _ (by omega) (by omega), ok_bind, Arr.rd_ok _ (by omega) (by omega), ok_bind, Holds_bind]
        refine (checkFlag_holds hc ha hp hv).mono ?_
        intro r hr
        by_cases h0 : r = 0
        · rw [if_pos h0, Holds_pure, Loop.Sat_brk]
          intro he
          have := he.mem i1 i2
          rw [hx] at this
          exact absurd h0 (hr.2 this)
        · rw [if_neg h0, Holds_pure, Loop.Sat_next]
          refine ⟨e1, e2, ?_, ?_, ?_⟩
          · intro v hv
            by_cases hvx : v = x
            · rw [hvx]; exact hr.1 h0
            · rw [Arr.set_get_ne _ _ hvx] at hv
              exact e3 v hv
          · intro v
            by_cases hvx : v = x
            · rw [hvx, Arr.set_get_same]; exact Or.inl rfl
            · rw [Arr.set_get_ne _ _ hvx]; exact e4 v
          · have hxs : b.frontab = b.frontab.set i x := by
              cases hft : b.frontab with
              | mk lo hi get =>
                unfold Arr.set
                congr 1
                funext j
                by_cases hj : j = i
                · rw [if_pos hj, hj, ← hx, hft]
                · rw [if_neg hj]
            rw [hxs]
            refine (e5.push (x := x) (by rw [hz]; decide)).congr ?_
            intro v
            by_cases hvx : v = x
            · rw [hvx, Arr.set_get_same]; exact ⟨fun _ => rfl, fun _ => Or.inr rfl⟩
            · rw [Arr.set_get_ne _ _ hvx]
              exact ⟨fun h => h.elim id (fun h => absurd h hvx), Or.inl⟩
  · rintro f ⟨e1, e2, e3, e4, e5⟩
    exact ⟨e1, e2, e3, e5⟩
  · intro _ h; exact h

theorem checkMissing_holds (hc : ConsE b.s) (ha : Alloc b) (hp : Parts b.s b.part) {f : Arr Int} (e1 : f.lo = b.s.baseval) (e2 : f.hi = b.s.vertnnd) :
    Holds (checkMissing b f) (fun l => match l with
      | .next _ => ∀ v, Frontier b.s b.part v → f.get v = 0
      | .brk _ => ∃ v, Frontier b.s b.part v ∧ f.get v ≠ 0) := by
  unfold checkMissing
  have hn := hc.vertnbr
  have hnn := hc.vertnnd
  have hb := ha.part
  refine Holds_forUpB (fun i _ => ∀ v, v < i → Frontier b.s b.part v → f.get v = 0) (fun _ => ∃ v, Frontier b.s b.part v ∧ f.get v ≠ 0) (by omega) ?_ ?_ ?_ ?_
  · intro v h hv
    have := hv.1.1
    omega
  · intro i _ i1 i2 hI
    rw [Arr.rd_ok _ (by omega) (by omega), ok_bind, Holds_bind]
    refine (checkFlag_holds hc ha hp ⟨i1, i2⟩).mono ?_
    intro r hr
    rw [Arr.rd_ok _ (by omega) (by omega), ok_bind]
    by_cases hx : r ≠ 0 ∧ f.get i ≠ 0
    · rw [if_pos hx, Holds_pure, Loop.Sat_brk]
      exact ⟨i, hr.1 hx.1, hx.2⟩
    · rw [if_neg hx, Holds_pure, Loop.Sat_next]
      intro v v1 v2
      by_cases hv : v = i
      · rw [hv] at v2 ⊢
        have := hr.2 v2
        exact Classical.byContradiction (fun h => hx ⟨this, h⟩)
      · exact hI v (by omega) v2
  · intro _ hI v hv
    exact hI v hv.1.2 hv
  · intro _ h; exact h

/-- The checker accepts exactly the valid bipartitions. -/
theorem check_spec (avgOf : Int → Int → Int → Int) (hc : ConsE b.s) (ha : Alloc b) (h0 : ∀ v, b.s.Vertex v → 0 ≤ b.part v) :
    Holds (check avgOf b) (fun r => r = true ↔ Valid b ∧
      b.compload0avg = avgOf (b.s.velosum + b.vfixload0 + b.vfixload1) b.domnwght0 b.domnwght1 - b.vfixload0) := by
  unfold check
  have hn := hc.vertnbr
  have hnn := hc.vertnnd
  have bad : ∀ {P : Prop}, ¬ P → (false = true ↔ P) := fun h => ⟨fun hx => (by cases hx), fun hp => absurd hp h⟩
  by_cases h1 : b.compload0avg ≠ avgOf (b.s.velosum + b.vfixload0 + b.vfixload1) b.domnwght0 b.domnwght1 - b.vfixload0
  · rw [if_pos h1, Holds_pure]
    exact bad (fun h => h1 h.2)
  rw [if_neg h1]
  by_cases h2 : b.compload0 ≠ b.compload0avg + b.compload0dlt
  · rw [if_pos h2, Holds_pure]
    refine bad (fun h => h2 ?_)
    have := h.1.delta
    omega
  rw [if_neg h2, Holds_bind]
  refine (checkParts_holds hc ha h0).mono ?_
  rintro (_ | _) hl
  swap
  · dsimp only at hl ⊢
    rw [Holds_pure]
    exact bad (fun h => hl h.1.parts)
  dsimp only at hl ⊢
  by_cases h3 : b.fronnbr < 0 ∨ b.fronnbr > b.s.vertnbr
  · rw [if_pos h3, Holds_pure]
    refine bad (fun h => ?_)
    have e1 := h.1.fron.1
    have e2 := h.1.fron.le (lo := b.s.baseval) (hi := b.s.vertnnd) (by omega) (fun v hv => hv.1)
    omega
  rw [if_neg h3, Holds_bind]
  refine (checkFron_holds hc ha hl (by omega) (by omega)).mono ?_
  rintro (f | _) hl2
  swap
  · dsimp only at hl2 ⊢
    rw [Holds_pure]
    exact bad (fun h => hl2 h.1.fron)
  dsimp only at hl2 ⊢
  obtain ⟨f1, f2, f3, f4⟩ := hl2
  rw [Holds_bind]
  refine (checkMissing_holds hc ha hl f1 f2).mono ?_
  rintro (_ | _) hl3
  swap
  · dsimp only at hl3 ⊢
    rw [Holds_pure]
    refine bad (fun h => ?_)
    obtain ⟨v, v1, v2⟩ := hl3
    exact v2 ((f4.2.2 v).2 ((h.1.fron.2.2 v).1 v1))
  dsimp only at hl3 ⊢
  have hE : Enum b.frontab b.fronnbr (Frontier b.s b.part) := f4.congr (fun v => ⟨f3 v, hl3 v⟩)
  unfold checkCost
  rw [Holds_bind]
  refine (cost2_holds hc ha ha.part hl (fron := none) (fun a h => by cases h)).mono ?_
  rintro c ⟨c1, c2, c3, c4, c5, -, -⟩
  rw [Holds_pure, decide_eq_true_eq]
  have o1 := over_add hl b.s.velo
  have o2 := over_add hl (fun _ => 1)
  rw [size_eq hc] at o2
  rw [← hc.velosum] at o1
  change c.cpl1sum = over b.s b.part 1 b.s.velo at c2
  change c.ver1nbr = over b.s b.part 1 (fun _ => 1) at c1
  change c.cmlisum = cut b.s b.part at c3
  change c.cmlesum = b.commloadextn0 + over b.s b.part 1 b.veex at c4
  change c.cmgesum = over b.s b.part 0 b.veex - over b.s b.part 1 b.veex at c5
  rw [c3]
  constructor
  · rintro ⟨a1, a2, a3, a4⟩
    exact ⟨⟨hl, by omega, by omega, by omega, by omega, by omega, hE⟩, Classical.byContradiction h1⟩
  · rintro ⟨hv, -⟩
    have := hv.load; have := hv.size; have := hv.comm; have := hv.gain
    exact ⟨by omega, by omega, by omega, by omega⟩

theorem copyN_holds {dst src : Arr Int} {d s n : Int} (hn : 0 ≤ n) (h1 : dst.lo ≤ d) (h2 : d + n ≤ dst.hi) (h3 : src.lo ≤ s) (h4 : s + n ≤ src.hi) :
    Holds (copyN dst src d s n) (fun a => a.lo = dst.lo ∧ a.hi = dst.hi ∧ ∀ i, 0 ≤ i → i < n → a.get (d + i) = src.get (s + i)) := by
  unfold copyN
  refine Holds_forUp (fun k (a : Arr Int) => a.lo = dst.lo ∧ a.hi = dst.hi ∧ ∀ i, 0 ≤ i → i < k → a.get (d + i) = src.get (s + i)) hn ?_ ?_ ?_
  · exact ⟨rfl, rfl, fun i h1 h2 => by omega⟩
  · rintro k a k1 k2 ⟨e1, e2, e3⟩
    rw [Arr.rd_ok _ (by omega) (by omega), ok_bind, Arr.wr_ok _ _ (by omega) (by omega), Holds_ok]
    refine ⟨e1, e2, ?_⟩
    intro i i1 i2
    by_cases hi : i = k
    · rw [hi, Arr.set_get_same]
    · rw [Arr.set_get_ne _ _ (by omega), e3 i i1 (by omega)]
  · exact fun a h => h

/-- What a store holds after a bipartition was saved to it. -/
structure Saved (b : Bgraph) (st : Store) : Prop where
  vals : st.fronnbr = b.fronnbr ∧ st.compload0dlt = b.compload0dlt ∧ st.compsize0 = b.compsize0 ∧ st.commload = b.commload ∧ st.commgainextn = b.commgainextn
  fron : st.frontab.lo ≤ 0 ∧ b.s.vertnbr ≤ st.frontab.hi ∧ ∀ i, 0 ≤ i → i < b.fronnbr → st.frontab.get i = b.frontab.get i
  part : st.parttab.lo ≤ 0 ∧ b.s.vertnbr ≤ st.parttab.hi ∧ ∀ v, b.s.Vertex v → st.parttab.get (v - b.s.baseval) = b.part v

theorem storeSave_holds (hc : ConsE b.s) (ha : Alloc b) (hv : Valid b) {st : Store} (h1 : st.frontab.lo ≤ 0 ∧ b.s.vertnbr ≤ st.frontab.hi)
    (h2 : st.parttab.lo ≤ 0 ∧ b.s.vertnbr ≤ st.parttab.hi) : Holds (storeSave b st) (Saved b) := by
  have hn := hc.vertnbr
  have hnn := hc.vertnnd
  have hb := ha.part
  have hf := ha.fron
  have e1 := hv.fron.1
  have e2 := hv.fron.le (lo := b.s.baseval) (hi := b.s.vertnnd) (by omega) (fun v hv => hv.1)
  unfold storeSave
  rw [Holds_bind]
  refine (copyN_holds e1 (by omega) (by omega) (by omega) (by omega)).mono ?_
  rintro f ⟨f1, f2, f3⟩
  rw [Holds_bind]
  refine (copyN_holds (by omega) (by omega) (by omega) (by omega) (by omega)).mono ?_
  rintro p ⟨p1, p2, p3⟩
  rw [Holds_pure]
  refine ⟨⟨rfl, rfl, rfl, rfl, rfl⟩, ⟨by dsimp only; omega, by dsimp only; omega, ?_⟩, ⟨by dsimp only; omega, by dsimp only; omega, ?_⟩⟩
  · intro i i1 i2
    have := f3 i i1 i2
    rw [Int.zero_add] at this
    exact this
  · intro v hv
    have := p3 (v - b.s.baseval) (by have := hv.1; omega) (by have := hv.2; omega)
    rw [Int.zero_add] at this
    dsimp only
    rw [this]
    unfold Bgraph.part
    congr 1
    omega

theorem storeUpdt_holds (hc : ConsE b.s) (ha : Alloc b) (hv : Valid b) {st : Store} (hs : Saved b st) {c : Bgraph} (hsame : SameProblem b c) :
    Holds (storeUpdt c st) (fun c' => Valid c' ∧ SameProblem b c' ∧ ∀ v, b.s.Vertex v → c'.part v = b.part v) := by
  have hn := hc.vertnbr
  have hnn := hc.vertnnd
  have ha' := hsame.alloc ha
  have hb := ha'.part
  have hf := ha'.fron
  have e1 := hv.fron.1
  have e2 := hv.fron.le (lo := b.s.baseval) (hi := b.s.vertnnd) (by omega) (fun v hv => hv.1)
  obtain ⟨⟨v1, v2, v3, v4, v5⟩, ⟨s1, s2, s3⟩, ⟨s4, s5, s6⟩⟩ := hs
  have g1 : c.s.baseval = b.s.baseval := by rw [hsame.s]
  have g2 : c.s.vertnnd = b.s.vertnnd := by rw [hsame.s]
  have g3 : c.s.vertnbr = b.s.vertnbr := by rw [hsame.s]
  unfold storeUpdt
  rw [Holds_bind]
  refine (copyN_holds (by omega) (by omega) (by omega) (by omega) (by omega)).mono ?_
  rintro f ⟨f1, f2, f3⟩
  rw [Holds_bind]
  refine (copyN_holds (by omega) (by omega) (by omega) (by omega) (by omega)).mono ?_
  rintro p ⟨p1, p2, p3⟩
  rw [Holds_pure]
  have hp : ∀ v, b.s.Vertex v → p.get v = b.part v := by
    intro v hv
    have := p3 (v - b.s.baseval) (by have := hv.1; omega) (by have := hv.2; omega)
    rw [Int.zero_add, s6 v hv, g1, show b.s.baseval + (v - b.s.baseval) = v by omega] at this
    exact this
  have ex : ∀ v, c.veex v = b.veex v := by intro v; unfold Bgraph.veex; rw [hsame.veextax]
  have ex' : ∀ v, Bgraph.veex { c with
    fronnbr := st.fronnbr, compload0 := st.compload0dlt + c.compload0avg, compload0dlt := st.compload0dlt,
    compsize0 := st.compsize0, commload := st.commload, commgainextn := st.commgainextn, frontab := f,
    parttax := p } v = b.veex v := ex
  have ov : ∀ k fn, over c.s p.get k fn = over b.s b.part k fn := by
    intro k fn; rw [hsame.s]; exact over_congr k hp (fun _ _ => rfl)
  refine ⟨⟨?_, ?_, ?_, ?_, ?_, ?_, ?_⟩, ⟨hsame.s, hsame.veextax, ?_, hsame.limits, hsame.extn, hsame.domn, hsame.vfix⟩, hp⟩
  · change Parts c.s p.get
    rw [hsame.s]
    intro v hx
    rw [hp v hx]; exact hv.parts v hx
  · change st.compload0dlt + c.compload0avg = over c.s p.get 0 c.s.velo
    rw [ov, hsame.limits.2.2, hsame.s, ← hv.load]
    have := hv.delta
    omega
  · change st.compload0dlt = st.compload0dlt + c.compload0avg - c.compload0avg
    omega
  · change st.compsize0 = over c.s p.get 0 (fun _ => 1)
    rw [ov, v3]; exact hv.size
  · change st.commload = cut c.s p.get * c.domndist + c.commloadextn0 + over c.s p.get 1 c.veex
    rw [ov, hsame.s, cut_congr hc hp, hsame.domn.1, hsame.extn.1, v4, show c.veex = b.veex from funext ex]
    exact hv.comm
  · change st.commgainextn = over c.s p.get 0 c.veex - over c.s p.get 1 c.veex
    rw [ov, ov, v5, show c.veex = b.veex from funext ex]
    exact hv.gain
  · change Enum f st.fronnbr (Frontier c.s p.get)
    rw [v1, hsame.s]
    refine (hv.fron.agree ?_).congr (fun v => (Frontier_congr hc hp v).symm)
    intro i i1 i2
    have := f3 i i1 (by omega)
    rw [Int.zero_add] at this
    rw [this, s3 i i1 i2]
  · have := hsame.bounds
    dsimp only
    omega

end Scotch.Bipart
