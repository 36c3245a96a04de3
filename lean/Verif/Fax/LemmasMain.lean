import Verif.Fax.LemmasMerge3
import Verif.Sort.Props

/-! # Structure of the column blocks -/

set_option autoImplicit false
set_option linter.unusedSimpArgs false

namespace Scotch.Fax

variable {R : Int → Int} {base k top : Int} {E : Int → Int → Prop}

/-- Column block `c`, whose blocks are between `st c` and `st (c + 1)`, has been handled. -/
structure Done (E : Int → Int → Prop) (R : Int → Int) (base top : Int) (st : Int → Int) (blok : Int → Blok) (c : Int) : Prop where
  lt : st c < st (c + 1)
  diag : blok (st c) = ⟨R c, R (c + 1) - 1, c⟩
  ok : ∀ i, st c < i → i < st (c + 1) → BOk R (c + 1) (top - 1) (blok i)
  sorted : ∀ i j, st c < i → i < j → j < st (c + 1) → Before (blok i) (blok j)
  cov : ∀ x, T E R base top c x ↔ ∃ i, st c < i ∧ i < st (c + 1) ∧ (blok i).frow ≤ x ∧ x ≤ (blok i).lrow

theorem Done.congr {st st' : Int → Int} {blok blok' : Int → Blok} {c : Int} (D : Done E R base top st blok c) (h1 : st' c = st c) (h2 : st' (c + 1) = st (c + 1)) (h3 : ∀ i, i < st (c + 1) → blok' i = blok i) :
    Done E R base top st' blok' c := by
  have h4 := D.lt
  refine ⟨by omega, ?_, ?_, ?_, ?_⟩
  · rw [h1, h3 _ h4]; exact D.diag
  · intro i i1 i2
    rw [h3 i (by omega)]
    exact D.ok i (by omega) (by omega)
  · intro i j i1 i2 i3
    rw [h3 i (by omega), h3 j (by omega)]
    exact D.sorted i j (by omega) i2 (by omega)
  · intro x
    rw [D.cov, h1, h2]
    constructor
    · rintro ⟨i, i1, i2, i3⟩
      exact ⟨i, i1, i2, by rw [h3 i i2]; exact i3⟩
    · rintro ⟨i, i1, i2, i3⟩
      exact ⟨i, i1, i2, by rw [h3 i i2] at i3; exact i3⟩

theorem Done.of_wrote {st : Int → Int} {blok0 : Arr Blok} {s : Arr Blok × Int} {B : List Blok} {c : Int} (W : Wrote blok0 (st c) (⟨R c, R (c + 1) - 1, c⟩ :: B) s) (hst : st (c + 1) = s.2) (hC : Canon R (c + 1) (top - 1) B)
    (hcov : ∀ x, T E R base top c x ↔ Fax.cov B x) : Done E R base top st s.1.get c := by
  have hn := W.nbr
  rw [List.length_cons] at hn
  push_cast at hn
  have hnew : ∀ i, st c < i → i < st (c + 1) → ∃ j : Nat, ∃ h : j < B.length, i = st c + 1 + j ∧ s.1.get i = B[j] := by
    intro i i1 i2
    refine ⟨(i - st c - 1).toNat, by omega, by omega, ?_⟩
    have := W.new ((i - st c - 1).toNat + 1) (by rw [List.length_cons]; omega)
    rw [List.getElem_cons_succ] at this
    rw [← this]
    congr 1
    push_cast
    omega
  refine ⟨by omega, ?_, ?_, ?_, ?_⟩
  · have := W.new 0 (by simp)
    simpa using this
  · intro i i1 i2
    obtain ⟨j, hj, _, e⟩ := hnew i i1 i2
    rw [e]
    exact hC.ok _ (List.getElem_mem _)
  · intro i j i1 i2 i3
    obtain ⟨a, ha, ea, ea'⟩ := hnew i i1 (by omega)
    obtain ⟨b, hb, eb, eb'⟩ := hnew j (by omega) i3
    rw [ea', eb']
    exact List.pairwise_iff_getElem.1 hC.sorted a b ha hb (by omega)
  · intro x
    rw [hcov]
    constructor
    · rintro ⟨b, hb, h⟩
      obtain ⟨j, hj, rfl⟩ := List.mem_iff_getElem.1 hb
      have := W.new (j + 1) (by rw [List.length_cons]; omega)
      rw [List.getElem_cons_succ] at this
      refine ⟨st c + ((j + 1 : Nat) : Int), by push_cast; omega, by push_cast; omega, ?_⟩
      rw [this]
      exact h
    · rintro ⟨i, i1, i2, h⟩
      obtain ⟨j, hj, _, e⟩ := hnew i i1 i2
      rw [e] at h
      exact ⟨_, List.getElem_mem _, h⟩

/-- Rows of the structure of a column block. -/
theorem T_iff (hR : Rng R base top) (hk : base ≤ k) (hkt : k < top) (hE : ∀ i j, E i j → (R base ≤ i ∧ i < R top) ∧ (R base ≤ j ∧ j < R top)) {st : Int → Int} {cblk : Arr Cblk} {blok : Arr Blok} {cs : List Int}
    (D : ∀ c, base ≤ c → c < k → Done E R base top st blok.get c) (hst : ∀ c, base ≤ c → c ≤ k → (cblk.get c).blok = st c)
    (hcs : ∀ c, c ∈ cs ↔ base ≤ c ∧ c < k ∧ 2 < st (c + 1) - st c ∧ (blok.get (st c + 1)).cblk = k) (i : Int) :
    T E R base top k i ↔ (R (k + 1) ≤ i ∧ i < R top) ∧ ((∃ j, R k ≤ j ∧ j < R (k + 1) ∧ E j i) ∨ ∃ c ∈ cs, ctrCov cblk blok c i) := by
  constructor
  · intro h
    have hb := h.bounds
    have hi := h.inside (fun j i h => (hE j i h).2.2)
    refine ⟨⟨hb.2.2, hi⟩, ?_⟩
    have hF : ∀ c i, c < k → T E R base top c i → ∃ f j, (base ≤ c ∧ c < k ∧ st c + 1 < st (c + 1) ∧ (blok.get (st c + 1)).cblk = f) ∧ base ≤ f ∧ f < top ∧ R f ≤ j ∧ j < R (f + 1) ∧ T E R base top c j ∧ ∀ i', T E R base top c i' → j ≤ i' := by
      intro c x c1 hT
      have c2 := hT.bounds.1
      have Dc := D c c2 c1
      obtain ⟨b, b1, b2, b3⟩ := (Dc.cov x).1 hT
      have ok1 := Dc.ok (st c + 1) (by omega) (by omega)
      have g1 := ok1.ge
      have g2 := ok1.le
      have g3 := ok1.frow
      have g4 := ok1.rows
      have g5 := ok1.lrow
      refine ⟨(blok.get (st c + 1)).cblk, (blok.get (st c + 1)).frow, ⟨c2, c1, by omega, rfl⟩, by omega, by omega, g3, by omega, (Dc.cov _).2 ⟨st c + 1, by omega, by omega, Int.le_refl _, g4⟩, ?_⟩
      intro i' hi'
      obtain ⟨b', b1', b2', b3'⟩ := (Dc.cov i').1 hi'
      by_cases e : b' = st c + 1
      · rw [e] at b3'; exact b3'.1
      · have e1 := Dc.sorted (st c + 1) b' (by omega) (by omega) b2'
        have e2 := Dc.ok b' b1' b2'
        have e3 : BOk R (c + 1) top (blok.get (st c + 1)) := ⟨ok1.ge, by omega, ok1.frow, ok1.rows, ok1.lrow⟩
        have e4 : BOk R (c + 1) top (blok.get b') := ⟨e2.ge, by have := e2.le; omega, e2.frow, e2.rows, e2.lrow⟩
        have := Before.rows hR (by omega) e3 e4 e1
        omega
    rcases (T.son hR hk hkt (fun c f => base ≤ c ∧ c < k ∧ st c + 1 < st (c + 1) ∧ (blok.get (st c + 1)).cblk = f) hF h).2 with h' | ⟨c, c1, ⟨c2, _, c3, c4⟩, c5⟩
    · exact .inl h'
    · right
      have Dc := D c c2 c1
      obtain ⟨b, b1, b2, b3⟩ := (Dc.cov i).1 c5
      have hne : b ≠ st c + 1 := by
        intro e
        rw [e] at b3
        have := (Dc.ok (st c + 1) (by omega) c3).lrow
        rw [c4] at this
        omega
      refine ⟨c, (hcs c).2 ⟨c2, c1, by omega, c4⟩, b, ?_, ?_, b3⟩
      · rw [hst c c2 (by omega)]; omega
      · rw [hst (c + 1) (by omega) (by omega)]; exact b2
  · rintro ⟨⟨h1, h2⟩, h⟩
    rcases h with ⟨j, j1, j2, j3⟩ | ⟨c, hc, b, b1, b2, b3⟩
    · exact .edge hk hkt j1 j2 j3 h1
    · obtain ⟨c1, c2, c3, c4⟩ := (hcs c).1 hc
      have Dc := D c c1 c2
      rw [hst c c1 (by omega)] at b1
      rw [hst (c + 1) (by omega) (by omega)] at b2
      have ok1 := Dc.ok (st c + 1) (by omega) (by omega)
      have g3 := ok1.frow
      have g4 := ok1.rows
      have g5 := ok1.lrow
      rw [c4] at g3 g5
      exact .fill ((Dc.cov i).2 ⟨b, by omega, b2, b3⟩) ((Dc.cov (blok.get (st c + 1)).frow).2 ⟨st c + 1, by omega, by omega, Int.le_refl _, g4⟩) hk hkt g3 (by omega) h1

/-- Column blocks that contribute to a column block. -/
theorem contrib_of {st : Int → Int} {cblk : Arr Cblk} {blok : Arr Blok} {c : Int} (D : Done E R base top st blok.get c) (hst : ∀ c, base ≤ c → c ≤ k → (cblk.get c).blok = st c) (hlo : cblk.lo = base) (hhi : k + 1 ≤ cblk.hi)
    (hblo : blok.lo ≤ st c) (hbhi : st (c + 1) ≤ blok.hi) (h1 : base ≤ c) (h2 : c < k) (h3 : 2 < st (c + 1) - st c) (h4 : (blok.get (st c + 1)).cblk = k) : Contrib R k top cblk blok c := by
  have e1 := hst c h1 (by omega)
  have e2 := hst (c + 1) (by omega) (by omega)
  refine ⟨by omega, by omega, by omega, by omega, by omega, ?_, ?_⟩
  · intro i i1 i2
    have g := D.ok i (by omega) (by omega)
    refine ⟨?_, g.le, g.frow, g.rows, g.lrow⟩
    have := D.sorted (st c + 1) i (by omega) (by omega) (by omega)
    unfold Before at this
    omega
  · intro i i1 i2
    exact D.sorted i (i + 1) (by omega) (by omega) (by omega)

/-! ## Entries -/

theorem entry_symm {g : Graph} {o : Order} (C : g.Consistent) (V : o.Valid g) (i j : Int) (h : Entry g o i j) : Entry g o j i := by
  obtain ⟨h1, p, hp, rfl⟩ := h
  have hv := V.peri i h1
  have hi := C.inside _ p hv.1 hp
  have hs := C.symm _ p hv.1 hp
  have hj := V.perm p.1 hi.1
  refine ⟨hj.1, (o.peri.get i, p.2), ?_, hv.2⟩
  rw [hj.2]
  exact hs

theorem entry_in {g : Graph} {o : Order} (C : g.Consistent) (V : o.Valid g) (i j : Int) (h : Entry g o i j) : g.Vertex i ∧ g.Vertex j :=
  ⟨h.1, (entry_symm C V i j h).1⟩

theorem entry_rg {g : Graph} {o : Order} (C : g.Consistent) (V : o.Valid g) (i j : Int) (h : Entry g o i j) :
    (rg g o g.baseval ≤ i ∧ i < rg g o (g.baseval + o.cblknbr)) ∧ (rg g o g.baseval ≤ j ∧ j < rg g o (g.baseval + o.cblknbr)) := by
  have hn := C.vertnnd
  obtain ⟨⟨a, b⟩, ⟨c, d⟩⟩ := entry_in C V i j h
  rw [rg_base V, rg_top V]
  omega

/-! ## Sorting of neighbours -/

theorem sort_cols {size cap : Int} {s : Arr Int × Arr Int × Int} {keys : List Int} (S : Col size cap s keys) (bits : Nat) (hn : cap < 2 ^ bits) {lo hi : Int} (hin : ∀ x ∈ keys, lo ≤ x ∧ x < hi) :
    Holds (Sorting.sort Sorting.lt1 (bits + 1) s.2.1 s.2.2) (fun r => SortOk r s.2.2 lo hi ∧ ∀ x, (∃ i, 0 ≤ i ∧ i < s.2.2 ∧ r.get i = x) ↔ x ∈ keys) := by
  have hnb := S.nbr
  have hlo := S.lo
  have hhi := S.hi
  have hcap := S.cap
  refine Holds.mono (C02_sort Sorting.lt1 strictWeak_lt1 s.2.1 s.2.2 bits (by omega) (by omega) (by omega) (by omega)) ?_
  rintro r ⟨⟨p1, p2, f, f1, f2⟩, hs⟩
  have fin : ∀ i, 0 ≤ i → i < s.2.2 → 0 ≤ f i ∧ f i < s.2.2 := by
    intro i i1 i2
    apply Classical.byContradiction
    intro h
    have := f1 (f i) h
    have := f.injective this
    omega
  have hget : ∀ i, 0 ≤ i → i < s.2.2 → ∃ h : i.toNat < keys.length, s.2.1.get i = keys[i.toNat] := by
    intro i i1 i2
    refine ⟨by omega, ?_⟩
    rw [← S.get i.toNat (by omega)]
    congr 1
    omega
  have hmem : ∀ i, 0 ≤ i → i < s.2.2 → r.get i ∈ keys := by
    intro i i1 i2
    obtain ⟨h, e⟩ := hget (f i) (fin i i1 i2).1 (fin i i1 i2).2
    rw [f2, e]
    exact List.getElem_mem _
  refine ⟨⟨by omega, by omega, by omega, ?_, fun i i1 i2 => hin _ (hmem i i1 i2)⟩, ?_⟩
  · intro i j i1 i2 i3
    have h1 := hs i j i1 i2 i3
    simp only [Sorting.lt1, decide_eq_false_iff_not] at h1
    have hne : r.get i ≠ r.get j := by
      intro e
      obtain ⟨a1, a2⟩ := hget (f i) (fin i i1 (by omega)).1 (fin i i1 (by omega)).2
      obtain ⟨b1, b2⟩ := hget (f j) (fin j (by omega) i3).1 (fin j (by omega) i3).2
      rw [f2, f2, a2, b2] at e
      have e1 := (List.Nodup.getElem_inj_iff S.nodup).1 e
      have e2 : f i = f j := by have := fin i i1 (by omega); have := fin j (by omega) i3; omega
      have := f.injective e2
      omega
    omega
  · intro x
    constructor
    · rintro ⟨i, i1, i2, rfl⟩
      exact hmem i i1 i2
    · intro hx
      obtain ⟨n, hn, rfl⟩ := List.mem_iff_getElem.1 hx
      have hin' : 0 ≤ f.symm n ∧ f.symm n < s.2.2 := by
        apply Classical.byContradiction
        intro h
        have h2 := f1 _ h
        rw [Equiv.apply_symm_apply] at h2
        omega
      refine ⟨f.symm n, hin'.1, hin'.2, ?_⟩
      rw [f2, Equiv.apply_symm_apply]
      exact S.get n hn

theorem Chn.congr {ctrb ctrb' : Arr Int} (h1 : ctrb'.lo = ctrb.lo) (h2 : ctrb'.hi = ctrb.hi) : ∀ (cs : List Int) (h : Int), Chn ctrb h cs → (∀ c ∈ cs, ctrb'.get c = ctrb.get c) → Chn ctrb' h cs := by
  intro cs
  induction cs with
  | nil => intro h hC _; exact hC
  | cons c cs ih =>
    rintro h ⟨a, b, d, e, f⟩ hg
    refine ⟨a, b, by omega, by omega, ?_⟩
    rw [hg c List.mem_cons_self]
    exact ih _ f (fun c' hc' => hg c' (List.mem_cons_of_mem _ hc'))

/-! ## Column blocks -/

/-- State when column block `k` is to be handled. -/
structure Inv (g : Graph) (o : Order) (top : Int) (st : Int → Int) (k : Int) (s : State) : Prop where
  ctrb : s.ctrb.lo = g.baseval ∧ s.ctrb.hi = top
  cblk : s.cblk.lo = g.baseval ∧ s.cblk.hi = top + 1
  blok : s.blok.lo = g.baseval ∧ s.blok.hi = g.baseval + s.blokmax
  fit : g.baseval ≤ s.bloknum ∧ s.bloknum ≤ g.baseval + s.blokmax
  first : st g.baseval = g.baseval
  last : st k = s.bloknum
  below : ∀ c, g.baseval ≤ c → c < k → st (c + 1) ≤ s.bloknum
  above : ∀ c, g.baseval ≤ c → c < k → g.baseval ≤ st c
  cols : ∀ c, g.baseval ≤ c → c < k → s.cblk.get c = ⟨rg g o c, rg g o (c + 1) - 1, st c⟩
  done : ∀ c, g.baseval ≤ c → c < k → Done (Entry g o) (rg g o) g.baseval top st s.blok.get c
  chain : ∀ f, k ≤ f → f < top → ∃ cs, Chn s.ctrb (s.ctrb.get f) cs ∧ cs.Nodup ∧ ∀ c, c ∈ cs ↔ g.baseval ≤ c ∧ c < k ∧ 2 < st (c + 1) - st c ∧ (s.blok.get (st c + 1)).cblk = f

theorem blocks_may {p : Prop} {g : Graph} {o : Order} (V : o.Valid g) {sort : Arr Int} {nbr sortoft tlokoft frst h d : Int} (htop : top = g.baseval + o.cblknbr) (h1 : g.baseval ≤ k) (h2 : k < top) (S : SortOk sort nbr (rg g o (k + 1)) (rg g o top))
    {ctrb : Arr Int} {cblk : Arr Cblk} {blok : Arr Blok} {cs : List Int} (hC : Chn ctrb h cs) (hcs : ∀ c ∈ cs, Contrib (rg g o) k top cblk blok c) (hfuel : cs.length ≤ o.cblknbr.toNat) {tlok : Arr Tlok} (hlo : tlok.lo = 0)
    (hnd : nbr ≤ d) (hless : cs ≠ [] → nbr ≤ d - 1) (hhi : d + ctrs cblk cs ≤ tlok.hi) (hcap : ¬ p → d + 1 + ctrs cblk cs ≤ tlok.hi) (hl1 : 3 * (d + ctrs cblk cs) ≤ tlokoft) (hl2 : 3 * (d + 1) ≤ sortoft)
    (hblo : blok.lo ≤ frst) (hbhi : frst + d + ctrs cblk cs ≤ blok.hi) (hbhi2 : frst + d + 1 ≤ blok.hi) :
    May p (blocks g o top sortoft tlokoft sort nbr ⟨rg g o k, rg g o (k + 1) - 1, k⟩ ctrb cblk h tlok blok frst) (fun s => ∃ B, Wrote blok frst (⟨rg g o k, rg g o (k + 1) - 1, k⟩ :: B) s ∧ Canon (rg g o) (k + 1) (top - 1) B ∧
      (∀ i, cov B i ↔ (rg g o (k + 1) ≤ i ∧ i < rg g o top) ∧ ((∃ x, 0 ≤ x ∧ x < nbr ∧ sort.get x = i) ∨ ∃ c ∈ cs, ctrCov cblk blok c i))) := by
  unfold blocks
  cases cs with
  | nil =>
    rw [if_pos (show h = -1 from hC)]
    have := ctrs_nonneg hcs
    refine May.mono (direct_holds V htop h1 h2 S (sortoft := sortoft) (frst := frst) (blok := blok) (by omega) hblo (by omega)).may ?_
    rintro s ⟨B, W, hB, hcov⟩
    refine ⟨B, W, hB, ?_⟩
    intro i
    rw [hcov]
    constructor
    · rintro ⟨x, x1, x2, x3⟩
      exact ⟨by rw [← x3]; exact S.inside x x1 x2, .inl ⟨x, x1, x2, x3⟩⟩
    · rintro ⟨_, h | ⟨c, hc, _⟩⟩
      · exact h
      · cases hc
  | cons c cs =>
    have e : h ≠ -1 := by rw [hC.1]; exact hC.2.1
    rw [if_neg e]
    have hl := hless (by simp)
    have hp := ctrs_nonneg hcs
    rw [List.length_cons] at hp
    push_cast at hp
    exact updated_may V htop h1 h2 S hC hcs hfuel hlo (by omega) (fun hp => by have := hcap hp; omega) (by omega) hblo (by omega)

theorem link_holds {g : Graph} {o : Order} {st : Int → Int} (hb : 0 ≤ g.baseval) (h1 : g.baseval ≤ k) (h2 : k < top) {s : State} (hctrb : s.ctrb.lo = g.baseval ∧ s.ctrb.hi = top) (hblok : s.blok.lo = g.baseval ∧ s.bloknum ≤ s.blok.hi) (hk : g.baseval ≤ st k)
    (D : Done (Entry g o) (rg g o) g.baseval top st s.blok.get k) (hlast : st (k + 1) = s.bloknum)
    (hch : ∀ f, k ≤ f → f < top → ∃ cs, Chn s.ctrb (s.ctrb.get f) cs ∧ cs.Nodup ∧ ∀ c, c ∈ cs ↔ g.baseval ≤ c ∧ c < k ∧ 2 < st (c + 1) - st c ∧ (s.blok.get (st c + 1)).cblk = f) :
    Holds (link k (st k) s) (fun s' => s'.cblk = s.cblk ∧ s'.blok = s.blok ∧ s'.blokmax = s.blokmax ∧ s'.bloknum = s.bloknum ∧ s'.ctrb.lo = g.baseval ∧ s'.ctrb.hi = top ∧
      ∀ f, k + 1 ≤ f → f < top → ∃ cs, Chn s'.ctrb (s'.ctrb.get f) cs ∧ cs.Nodup ∧ ∀ c, c ∈ cs ↔ g.baseval ≤ c ∧ c < k + 1 ∧ 2 < st (c + 1) - st c ∧ (s.blok.get (st c + 1)).cblk = f) := by
  unfold link
  by_cases hc : s.bloknum - st k > 2
  · rw [if_pos hc, Arr.rd_ok _ (by omega) (by omega), ok_bind]
    have ok1 := D.ok (st k + 1) (by omega) (by omega)
    have g1 := ok1.ge
    have g2 := ok1.le
    rw [Arr.rd_ok _ (by omega) (by omega), ok_bind, Arr.wr_ok _ _ (by omega) (by omega), ok_bind, Arr.wr_ok _ _ (by rw [Arr.set_lo]; omega) (by rw [Arr.set_hi]; omega), ok_bind, Holds_pure]
    refine ⟨rfl, rfl, rfl, rfl, hctrb.1, hctrb.2, ?_⟩
    intro f f1 f2
    obtain ⟨cs, c1, c2, c3⟩ := hch f (by omega) f2
    have hcs : ∀ c ∈ cs, ((s.ctrb.set k (s.ctrb.get (s.blok.get (st k + 1)).cblk)).set (s.blok.get (st k + 1)).cblk k).get c = s.ctrb.get c := by
      intro c hc
      have := (c3 c).1 hc
      rw [Arr.set_get_ne _ _ (by omega), Arr.set_get_ne _ _ (by omega)]
    have c4 := Chn.congr (ctrb := s.ctrb) (ctrb' := (s.ctrb.set k (s.ctrb.get (s.blok.get (st k + 1)).cblk)).set (s.blok.get (st k + 1)).cblk k) rfl rfl cs _ c1 hcs
    by_cases e : f = (s.blok.get (st k + 1)).cblk
    · refine ⟨k :: cs, ⟨?_, by omega, ?_, ?_, ?_⟩, List.nodup_cons.2 ⟨fun h => by have := (c3 k).1 h; omega, c2⟩, ?_⟩
      · dsimp only
        rw [e, Arr.set_get_same]
      · exact (by omega : s.ctrb.lo ≤ k)
      · exact (by omega : k < s.ctrb.hi)
      · dsimp only
        rw [Arr.set_get_ne _ _ (by omega), Arr.set_get_same, ← e]
        rw [← e] at c4
        exact c4
      · intro c
        rw [List.mem_cons, c3]
        constructor
        · rintro (rfl | h)
          · exact ⟨h1, by omega, by omega, e.symm⟩
          · exact ⟨h.1, by omega, h.2.2⟩
        · rintro ⟨a1, a2, a3, a4⟩
          by_cases ec : c = k
          · exact .inl ec
          · exact .inr ⟨a1, by omega, a3, a4⟩
    · refine ⟨cs, ?_, c2, ?_⟩
      · dsimp only
        rw [Arr.set_get_ne _ _ e, Arr.set_get_ne _ _ (by omega)]
        exact c4
      · intro c
        rw [c3]
        constructor
        · rintro ⟨a1, a2, a3⟩
          exact ⟨a1, by omega, a3⟩
        · rintro ⟨a1, a2, a3, a4⟩
          refine ⟨a1, ?_, a3, a4⟩
          apply Classical.byContradiction
          intro hn
          have ec : c = k := by omega
          rw [ec] at a4
          exact e a4.symm
  · rw [if_neg hc, Holds_pure]
    refine ⟨rfl, rfl, rfl, rfl, hctrb.1, hctrb.2, ?_⟩
    intro f f1 f2
    obtain ⟨cs, c1, c2, c3⟩ := hch f (by omega) f2
    refine ⟨cs, c1, c2, ?_⟩
    intro c
    rw [c3]
    constructor
    · rintro ⟨a1, a2, a3⟩
      exact ⟨a1, by omega, a3⟩
    · rintro ⟨a1, a2, a3, a4⟩
      refine ⟨a1, ?_, a3, a4⟩
      apply Classical.byContradiction
      intro hn
      have ec : c = k := by omega
      rw [ec, hlast] at a3
      omega

end Scotch.Fax
