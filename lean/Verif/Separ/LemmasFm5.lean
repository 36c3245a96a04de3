import Verif.Separ.LemmasFm4
import Verif.Bipart.LemmasFmResize
import Verif.OrFuel

/-! # Fiduccia-Mattheyses refinement of separators: loop on moves -/

set_option autoImplicit false
set_option linter.unusedSimpArgs false

namespace Scotch.Separ
open Graph
open Bipart (FmVals FmSlot FmSave FmSt FmCur Fm FmOwn FmKey FmTab fmFree fmSearch fmPrime FmOwn_set FmKey_set over fmEqual fmBetter fmResize fmResize_gen)
open Hash (Tab probe probe_in)

variable {b : Vgraph} {g : Graph} {c : Int} {keys : List Int} {s s0 : Fm} {h hv : Int} {R : Int → FmVals → Prop} {P P0 pb : Int → Int} {F Fb : Int → Int → Int} {ch : List Int}

/-- Size of the table: there is room for all vertices, or less than a quarter of the table is used. -/
def Fit (b : Vgraph) (keys : List Int) (s : Fm) : Prop := b.s.vertnbr < s.msk + 1 ∨ (4 * (keys.length : Int) < s.msk + 1 ∧ 16 * b.s.degrmax < s.msk + 1)

/-- Best separator. -/
structure SBst (b : Vgraph) (pb : Int → Int) (c : FmCur) : Prop where
  parts : Parts b.s pb
  sep : Separated b.s pb
  cur : SCur b pb c

theorem SInv.frame (I : SInv b c keys pb P s) (bst : FmCur) (dltmax movenbr : Int) (moveflag : Bool) (clock : Nat) :
    SInv b c keys pb P { s with bst := bst, dltmax := dltmax, moveflag := moveflag, movenbr := movenbr, clock := clock } :=
  ⟨⟨I.geo.mask, I.geo.max, I.geo.hlo, I.geo.hhi, I.geo.slo, I.geo.shi, I.geo.tab, I.geo.vert, I.geo.fit, I.geo.cpos, I.geo.nbr, I.geo.mswp, I.geo.mpos, I.geo.nodup, I.geo.lock⟩,
    ⟨I.sv.vals, I.sv.nonneg, I.sv.sv, I.sv.inj, I.sv.all⟩, I.vl, I.such, I.parts, I.sep, I.out, I.cur⟩

/-- The current separator becomes the best one. -/
theorem SInv.equal (I : SInv b c keys pb P s) : SInv b c keys P P (fmEqual s) := by
  have hlt : ∀ y, 0 ≤ y → y < s.msk + 1 → (s.hash.get y).mswp ≠ s.mswp + 1 := by
    intro y y1 y2
    have := (I.geo.mswp y y1 y2).1
    omega
  refine ⟨⟨I.geo.mask, I.geo.max, I.geo.hlo, I.geo.hhi, I.geo.slo, I.geo.shi, I.geo.tab, I.geo.vert, I.geo.fit, I.geo.cpos, I.geo.nbr, ?_, ?_, I.geo.nodup, I.geo.lock⟩,
    ⟨?_, Int.le_refl _, ?_, ?_, ?_⟩, I.vl, I.such, I.parts, I.sep, fun x hx hk => ⟨(I.out x hx hk).1, (I.out x hx hk).1, (I.out x hx hk).2.2⟩, I.cur⟩
  · intro y y1 y2
    obtain ⟨a1, a2⟩ := I.geo.mswp y y1 y2
    exact ⟨by show _ ≤ s.mswp + 1; exact Int.le_trans a1 (by omega), a2⟩
  · have := I.geo.mpos
    show 0 ≤ s.mswp + 1
    omega
  · intro y y1 y2 hy _
    exact (I.vl y y1 y2 hy).1
  · intro i i1 i2
    have : i < 0 := i2
    omega
  · intro i j i1 i2
    have : i < 0 := i2
    omega
  · intro y y1 y2 _ hm
    exact absurd hm (hlt y y1 y2)

theorem SInv.bst (I : SInv b c keys pb P s) : SBst b P s.cur := ⟨I.parts, I.sep, I.cur⟩

/-- A larger table. -/
theorem sfResize_holds (hc : ConsE b.s) (hb : 0 ≤ b.s.baseval) (junk : Int → FmSave) (I : SInv b 0 keys pb P s) (hdeg : 0 ≤ b.s.degrmax) (hf : b.s.vertnbr < 2 * (s.msk + 1) ∨ (4 * (keys.length : Int) < 2 * (s.msk + 1) ∧ 16 * b.s.degrmax < 2 * (s.msk + 1))) :
    Holds (fmResize junk s) (fun s' => SInv b b.s.degrmax keys pb P s' ∧ Fit b keys s' ∧ s'.mswp = s.mswp ∧ s'.cur = s.cur ∧ s'.bst = s.bst ∧ s'.dltmax = s.dltmax ∧ s'.moveflag = s.moveflag ∧ s'.movenbr = s.movenbr ∧ s'.clock = s.clock) := by
  have G := I.geo
  have S := I.sv
  have hkv : ∀ k ∈ keys, 0 ≤ k := by
    intro k hk
    have := (G.vert k hk).1
    omega
  have hlk : ∀ h, h ∈ s.lock ↔ (0 ≤ h ∧ h < s.msk + 1) ∧ FmOwn s.hash h ∧ (s.hash.get h).st = .used := by
    intro y
    rw [G.lock]
    constructor
    · rintro ⟨z1, z2, z3⟩
      exact ⟨z1, z2, z3.resolve_right (I.such y z1.1 z1.2 z2)⟩
    · rintro ⟨z1, z2, z3⟩
      exact ⟨z1, z2, Or.inl z3⟩
  refine (fmResize_gen junk G.mask G.max G.hlo G.hhi G.slo G.shi G.tab hkv (fun y y1 y2 => (G.mswp y y1 y2).2) G.nodup hlk S.nonneg (fun i i1 i2 => ⟨(S.sv i i1 i2).1, (S.sv i i1 i2).2.1⟩) S.inj (G.room hc)).mono ?_
  intro s' R
  have hpos := G.tab.pos
  have hms := R.msk
  have back := R.back
  have w3 := R.sv
  have hT := G.tab
  have hT' := R.tab
  have e : s' = { s with hash := s'.hash, msk := s'.msk, max := s'.max, save := s'.save, lock := s'.lock } := R.eq
  have e1 : s'.mswp = s.mswp := by rw [e]
  have e2 : s'.savenbr = s.savenbr := by rw [e]
  have e3 : s'.cur = s.cur := by rw [e]
  have e4 : s'.bst = s.bst := by rw [e]
  have e5 : s'.nbr = s.nbr := by rw [e]
  have hnn := S.nonneg
  have hmask := Bipart.IsMask.half G.mask
  rw [← hms] at hmask
  have hfit : b.s.vertnbr < s'.msk + 1 ∨ (4 * (keys.length : Int) < s'.msk + 1 ∧ 16 * b.s.degrmax < s'.msk + 1) := by
    rw [hms]
    omega
  refine ⟨⟨⟨hmask, R.max, R.hlo, R.hhi, R.slo, R.shi, R.tab, G.vert, by omega, hdeg, by rw [e5]; exact G.nbr, ?_, by rw [e1]; exact G.mpos, R.nodup, ?_⟩, ⟨?_, by rw [e2]; exact hnn, ?_, ?_, ?_⟩, ?_, ?_, I.parts, I.sep, I.out, by rw [e3]; exact I.cur⟩,
    hfit, e1, e3, e4, by rw [e], by rw [e], by rw [e], by rw [e]⟩
  · intro y y1 y2
    refine ⟨?_, R.mswp y y1 y2⟩
    by_cases hy : FmOwn s'.hash y
    · obtain ⟨z, z1, z2, z3, z4, _⟩ := back y y1 y2 hy
      rw [← z3, e1]
      exact (G.mswp z z1 z2).1
    · rw [R.mswp y y1 y2 hy, e1]
      have := G.mpos
      omega
  · intro y
    rw [R.lock]
    constructor
    · rintro ⟨z1, z2, z3⟩
      exact ⟨z1, z2, Or.inl z3⟩
    · rintro ⟨z1, z2, z3⟩
      refine ⟨z1, z2, z3.resolve_right ?_⟩
      obtain ⟨z, q1, q2, q3, q4, _⟩ := back y z1.1 z1.2 z2
      rw [← q3]
      exact I.such z q1 q2 q4
  · intro y y1 y2 hy
    obtain ⟨z, z1, z2, z3, z4, z5⟩ := back y y1 y2 hy
    rw [← z3, ← z5, e1]
    exact S.vals z z1 z2 z4
  · intro i i1 i2
    rw [e2] at i2
    obtain ⟨a1, a2, a3, a4⟩ := w3 i i1 i2
    obtain ⟨c1, c2, c3, c4⟩ := S.sv i i1 i2
    obtain ⟨z, z1, z2, z3, z4, z5⟩ := back _ a1.1 a1.2 a2
    refine ⟨a1, a2, ?_, ?_⟩
    · have : z = (s.save.get i).hashnum := hT.uniq z1 z2 c1.1 c1.2 z4 c2 (by rw [z5, a3])
      rw [← z3, this, e1]
      exact c3
    · rw [a4, a3]; exact c4
  · intro i j i1 i2 j1 j2 hij
    rw [e2] at i2 j2
    obtain ⟨_, _, a3, _⟩ := w3 i i1 i2
    obtain ⟨_, _, a3', _⟩ := w3 j j1 j2
    obtain ⟨c1, c2, c3, c4⟩ := S.sv i i1 i2
    obtain ⟨c1', c2', c3', c4'⟩ := S.sv j j1 j2
    refine S.inj i j i1 i2 j1 j2 (hT.uniq c1.1 c1.2 c1'.1 c1'.2 c2 c2' ?_)
    rw [← a3, ← a3', hij]
  · intro y y1 y2 hy hm
    obtain ⟨z, z1, z2, z3, z4, z5⟩ := back y y1 y2 hy
    rw [← z3, e1] at hm
    obtain ⟨i, i1, i2, i3⟩ := S.all z z1 z2 z4 hm
    refine ⟨i, i1, by rw [e2]; exact i2, ?_⟩
    obtain ⟨a1, a2, a3, a4⟩ := w3 i i1 i2
    exact hT'.uniq a1.1 a1.2 y1 y2 a2 hy (by rw [a3, i3, z5])
  · intro y y1 y2 hy
    obtain ⟨z, z1, z2, z3, z4, z5⟩ := back y y1 y2 hy
    rw [← z3, ← z5]
    exact I.vl z z1 z2 z4
  · intro y y1 y2 hy
    obtain ⟨z, z1, z2, z3, z4, z5⟩ := back y y1 y2 hy
    rw [← z3]
    exact I.such z z1 z2 z4

/-- Content of the gain table: links of slots that are in the table. -/
def SOrder.Ok (o : SOrder) : Prop := ∀ k (hash : Arr FmSlot), ∀ x ∈ o k hash, (hash.lo ≤ x.2.1 ∧ x.2.1 < hash.hi) ∧ FmOwn hash x.2.1 ∧ (hash.get x.2.1).st = .link ∧ (x.2.2 = 0 ∨ x.2.2 = 1)

/-- Link of a slot. -/
theorem linkSide_eq {hash : Arr FmSlot} {i : Int} (h1 : hash.lo ≤ h ∧ h < hash.hi) (hi : i = 0 ∨ i = 1) (hc : (hash.get h).v.cut < 0) (hp : 0 ≤ (hash.get h).v.part) : linkSide hash h i = .ok i := by
  unfold linkSide
  rw [Arr.rd_ok _ h1.1 h1.2, ok_bind]
  rcases hi with rfl | rfl
  · rw [if_pos rfl, if_neg (by omega)]; rfl
  · rw [if_neg (by omega), if_pos hp]; rfl

theorem sfTabl_holds (absI : Int → Int) {hash : Arr FmSlot} (dlt dltmax partval : Int) (hs : ∀ h, hash.lo ≤ h → h < hash.hi → FmOwn hash h → (hash.get h).v.cut < 0 ∧ 0 ≤ (hash.get h).v.part) (S : Int × Int → Prop) :
    ∀ (l : List (Int × Int × Int)) (t : SBest), (∀ x ∈ l, ((hash.lo ≤ x.2.1 ∧ x.2.1 < hash.hi) ∧ FmOwn hash x.2.1 ∧ (x.2.2 = 0 ∨ x.2.2 = 1)) ∧ S x.2) → (∀ x, t.link = some x → S x) →
    Holds (sfTabl absI b hash dlt dltmax partval l t) (fun r => ∀ x, r = some x → S x) := by
  intro l
  induction l with
  | nil =>
    intro t _ ht
    rw [sfTabl, Holds_pure]
    exact ht
  | cons x l ih =>
    obtain ⟨r, h, i⟩ := x
    intro t hl ht
    obtain ⟨⟨h1, h2, h3⟩, h4⟩ := hl _ List.mem_cons_self
    dsimp only at h1 h2 h3 h4
    have hl' : ∀ x ∈ l, ((hash.lo ≤ x.2.1 ∧ x.2.1 < hash.hi) ∧ FmOwn hash x.2.1 ∧ (x.2.2 = 0 ∨ x.2.2 = 1)) ∧ S x.2 := fun x hx => hl x (List.mem_cons_of_mem _ hx)
    obtain ⟨a1, a2⟩ := hs h h1.1 h1.2 h2
    rw [sfTabl]
    by_cases c1 : leTop r t.tabl = true
    · rw [if_pos c1, linkSide_eq h1 h3 a1 a2, ok_bind, Arr.rd_ok _ h1.1 h1.2, ok_bind]
      dsimp only
      by_cases c2 : sgGet (hash.get h).v i = (hash.get h).v.cut
      · rw [if_pos c2, Holds_pure]
        intro x hx
        cases hx
        exact h4
      · rw [if_neg c2]
        split
        · refine ih _ hl' ?_
          intro x hx
          cases hx
          exact h4
        · exact ih _ hl' ht
    · rw [if_neg c1, Holds_pure]
      exact ht

/-! ## Comparisons -/

/-- A smaller separator, or a separator of the same load that is better balanced. -/
def SLt (a c : FmCur) : Prop := a.comm < c.comm ∨ (a.comm = c.comm ∧ |a.dlt| < |c.dlt|)

/-- Same load and same imbalance. -/
def SSame (a c : FmCur) : Prop := a.comm = c.comm ∧ |a.dlt| = |c.dlt|

/-- If the best separator is balanced, it is replaced by better separators only. -/
def STrk (absI : Int → Int) (mat : Int) (s s' : Fm) : Prop :=
  (∀ x, absI x = |x|) → |s.bst.dlt| ≤ mat → |s'.bst.dlt| ≤ mat ∧ ((SLt s'.bst s.bst ∧ s'.movenbr = 0) ∨ (SSame s'.bst s.bst ∧ s'.moveflag = s.moveflag ∧ s'.movenbr = s.movenbr + 1))

/-- State between moves. -/
structure SOk (b : Vgraph) (keys : List Int) (pb P : Int → Int) (s : Fm) : Prop where
  inv : SInv b b.s.degrmax keys pb P s
  fit : Fit b keys s
  bst : SBst b pb s.bst

theorem sfCompare_ok (absI : Int → Int) (mat : Int) (O : SOk b keys pb P s) : ∃ pb', SOk b keys pb' P (sfCompare absI mat s) := by
  have hE : SOk b keys P P (fmEqual s) := ⟨O.inv.equal, O.fit, O.inv.bst⟩
  have hB : SOk b keys P P (fmBetter s) := ⟨(O.inv.equal).frame _ _ _ _ _, O.fit, O.inv.bst⟩
  unfold sfCompare
  repeat' split
  all_goals first | exact ⟨P, hE⟩ | exact ⟨P, hB⟩ | exact ⟨pb, O⟩

theorem sfRange_ok (absI : Int → Int) (mat absbst : Int) (O : SOk b keys pb P s) : ∃ pb', SOk b keys pb' P (sfRange absI mat absbst s) := by
  unfold sfRange
  dsimp only
  repeat' split
  · exact ⟨pb, O.inv.frame _ _ _ _ _, O.fit, O.bst⟩
  · exact ⟨P, (O.inv.equal).frame _ _ _ _ _, O.fit, O.inv.bst⟩
  · exact ⟨pb, O.inv.frame _ _ _ _ _, O.fit, O.bst⟩
  · exact ⟨pb, O⟩

theorem sf_trk (absI : Int → Int) (mat : Int) {s s1 : Fm} (hb : s1.bst = s.bst) (hf : s1.moveflag = s.moveflag) (hm : s1.movenbr = s.movenbr + 1) :
    STrk absI mat s (sfRange absI mat (absI s1.bst.dlt) (sfCompare absI mat s1)) := by
  intro habs hbal
  have hab : ¬ (absI s1.bst.dlt > mat) := by rw [habs, hb]; omega
  have h2 : ∀ t : Fm, (sfRange absI mat (absI s1.bst.dlt) t).bst = t.bst ∧ (sfRange absI mat (absI s1.bst.dlt) t).moveflag = t.moveflag ∧ (sfRange absI mat (absI s1.bst.dlt) t).movenbr = t.movenbr := by
    intro t
    unfold sfRange
    dsimp only
    split
    · exact ⟨rfl, rfl, rfl⟩
    · split
      · rw [if_neg (fun z => hab z.1)]
        exact ⟨rfl, rfl, rfl⟩
      · exact ⟨rfl, rfl, rfl⟩
  obtain ⟨e1, e2, e3⟩ := h2 (sfCompare absI mat s1)
  rw [e1, e2, e3]
  have same : |s1.bst.dlt| ≤ mat ∧ ((SLt s1.bst s.bst ∧ s1.movenbr = 0) ∨ (SSame s1.bst s.bst ∧ s1.moveflag = s.moveflag ∧ s1.movenbr = s.movenbr + 1)) := by
    rw [hb]
    exact ⟨hbal, Or.inr ⟨⟨rfl, rfl⟩, hf, hm⟩⟩
  unfold sfCompare
  simp only [habs, hb]
  by_cases c0 : |s1.cur.dlt| < mat ∨ |s.bst.dlt| > mat
  · rw [if_pos c0]
    have c0' : |s1.cur.dlt| < mat := by omega
    by_cases c1 : s1.cur.comm < s.bst.comm
    · rw [if_pos c1]
      exact ⟨Int.le_of_lt c0', Or.inl ⟨Or.inl c1, rfl⟩⟩
    · rw [if_neg c1]
      by_cases c2 : s1.cur.comm = s.bst.comm
      · rw [if_pos c2]
        by_cases c3 : |s1.cur.dlt| < |s.bst.dlt|
        · rw [if_pos c3]
          exact ⟨Int.le_of_lt c0', Or.inl ⟨Or.inr ⟨c2, c3⟩, rfl⟩⟩
        · rw [if_neg c3]
          by_cases c4 : |s1.cur.dlt| = |s.bst.dlt|
          · rw [if_pos c4]
            exact ⟨Int.le_of_lt c0', Or.inr ⟨⟨c2, c4⟩, hf, hm⟩⟩
          · rw [if_neg c4]; exact same
      · rw [if_neg c2]; exact same
  · rw [if_neg c0]; exact same

theorem sfStep_holds (hc : ConsE b.s) (ha : Alloc b) (hb : 0 ≤ b.s.baseval) (hdeg : ∀ v, b.s.Vertex v → b.s.vend v - b.s.vert v ≤ b.s.degrmax) (hd0 : 0 ≤ b.s.degrmax) (hpos : ∀ v, b.s.Vertex v → 0 < b.s.velo v) {env : SfEnv} (hord : env.order.Ok)
    (movemax mat passnbr : Int) (O : SOk b keys pb P s) :
    Holds (sfStep env b movemax mat passnbr s) (Loop.Sat (fun s' => (∃ keys' pb' P', SOk b keys' pb' P' s') ∧ STrk env.absI mat s s' ∧ s.movenbr < movemax) (fun s' => (∃ keys' pb' P', SOk b keys' pb' P' s') ∧ s'.bst = s.bst ∧ s'.moveflag = s.moveflag)) := by
  have I := O.inv
  have hlo := I.geo.hlo
  have hhi := I.geo.hhi
  unfold sfStep
  by_cases hmv : s.movenbr < movemax
  · rw [if_pos hmv]
    dsimp only
    rw [Holds_bind]
    have hcp : ∀ h, s.hash.lo ≤ h → h < s.hash.hi → FmOwn s.hash h → (s.hash.get h).v.cut < 0 ∧ 0 ≤ (s.hash.get h).v.part := by
      intro y y1 y2 hy
      have hv := I.geo.vert _ (I.geo.key (by omega) (by omega) hy)
      obtain ⟨⟨a1, a2, _⟩, _⟩ := I.vl y (by omega) (by omega) hy
      rw [a1, a2]
      have := hpos _ hv
      have := I.parts _ hv
      omega
    refine (sfTabl_holds (b := b) env.absI s.cur.dlt s.dltmax (passnbr % 2) hcp (fun x => (s.hash.lo ≤ x.1 ∧ x.1 < s.hash.hi) ∧ FmOwn s.hash x.1 ∧ (s.hash.get x.1).st = .link ∧ (x.2 = 0 ∨ x.2 = 1)) _ _ ?_ ?_).mono ?_
    · intro x hx
      obtain ⟨a1, a2, a3, a4⟩ := hord _ _ x hx
      exact ⟨⟨a1, a2, a4⟩, a1, a2, a3, a4⟩
    · intro x hx
      cases hx
    intro l hl
    cases l with
    | none =>
      rw [Holds_pure]
      exact ⟨⟨keys, pb, P, I.frame _ _ _ _ _, O.fit, O.bst⟩, rfl, rfl⟩
    | some x =>
      obtain ⟨h, i⟩ := x
      obtain ⟨q1, q2, q3, q4⟩ := hl _ rfl
      dsimp only at q1 q2 q3 q4 ⊢
      obtain ⟨z1, z2⟩ := hcp h q1.1 q1.2 q2
      rw [linkSide_eq q1 q4 z1 z2, ok_bind, Holds_bind]
      have hvk := hdeg _ (I.geo.vert _ (I.geo.key (h := h) (by omega) (by omega) q2))
      refine (sfMove_holds hc ha hb q4 (I.frame s.bst s.dltmax s.movenbr s.moveflag (s.clock + 1)) (h := h) (by omega) (by dsimp only; omega) q2 q3 hvk).mono ?_
      rintro s1 ⟨keys1, P1, I1, l1, m1, K1⟩
      have m1' : s1.msk = s.msk := m1
      rw [Holds_bind]
      have room : Holds (sfRoom env.junk s1) (fun s' => SOk b keys1 pb P1 s' ∧ s'.bst = s1.bst ∧ s'.moveflag = s1.moveflag ∧ s'.movenbr = s1.movenbr) := by
        have hfit := O.fit
        unfold Fit at hfit
        have hmax := I1.geo.max
        have hnbr := I1.geo.nbr
        have hbst : SBst b pb s1.bst := by rw [K1.bst]; exact O.bst
        unfold sfRoom
        by_cases hr : s1.nbr ≥ s1.max
        · rw [if_pos hr]
          refine (sfResize_holds hc hb env.junk I1 hd0 ?_).mono ?_
          · rw [m1']; omega
          rintro s2 ⟨I2, f2, _, _, e4, _, e6, e7, _⟩
          exact ⟨⟨I2, f2, by rw [e4]; exact hbst⟩, e4, e6, e7⟩
        · rw [if_neg hr, Holds_pure]
          have hf1 : Fit b keys1 s1 := by
            unfold Fit
            rw [m1'] at hmax ⊢
            omega
          refine ⟨⟨⟨?_, I1.sv, I1.vl, I1.such, I1.parts, I1.sep, I1.out, I1.cur⟩, hf1, hbst⟩, rfl, rfl, rfl⟩
          obtain ⟨g1, g2, g3, g4, g5, g6, g7, g8, g9, g10, g11, g12, g13, g14, g15⟩ := I1.geo
          refine ⟨g1, g2, g3, g4, g5, g6, g7, g8, ?_, hd0, g11, g12, g13, g14, g15⟩
          unfold Fit at hf1
          omega
      refine room.mono ?_
      rintro s2 ⟨O2, b2, f2, n2⟩
      rw [Holds_pure, Loop.Sat_next]
      obtain ⟨pb3, O3⟩ := sfCompare_ok env.absI mat O2
      obtain ⟨pb4, O4⟩ := sfRange_ok env.absI mat (env.absI s2.bst.dlt) O3
      refine ⟨⟨keys1, pb4, P1, O4⟩, ?_, hmv⟩
      exact sf_trk env.absI mat (b2.trans K1.bst) (f2.trans K1.moveflag) (by rw [n2, K1.movenbr])
  · rw [if_neg hmv, Holds_pure]
    exact ⟨⟨keys, pb, P, O⟩, rfl, rfl⟩

end Scotch.Separ
