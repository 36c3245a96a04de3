import Verif.Fax.LemmasMain

/-! # Block symbolic factorization -/

set_option autoImplicit false
set_option linter.unusedSimpArgs false

namespace Scotch.Fax

variable {k top : Int}

theorem cblkStep_may {g : Graph} {o : Order} {slack : Int} {bits : Nat} (junk : Int → Junk) (C : g.Consistent) (A : g.Allocated) (V : o.Valid g) (hb : 0 ≤ g.baseval) (hs : 0 ≤ slack) (hn : g.vertnbr < 2 ^ bits) (htop : top = g.baseval + o.cblknbr)
    (h1 : g.baseval ≤ k) (h2 : k < top) {st : Int → Int} {s : State} (I : Inv g o top st k s) :
    May (slack + 3 * g.baseval < 4) (cblkStep slack bits junk g o k s) (fun s' => ∃ st', Inv g o top st' (k + 1) s') := by
  have hR := rng V
  rw [← htop] at hR
  have hnnd := C.vertnnd
  have hrlo := V.rangIn
  have hge : g.baseval ≤ rg g o k := by
    have := hR.mono_le (a := g.baseval) (b := k) (by omega) h1 (by omega)
    rw [rg_base V] at this
    exact this
  have hlt := hR.step k h1 (by omega)
  have htopv : rg g o top = g.vertnnd := by rw [htop, rg_top V, hnnd]
  have hle : rg g o (k + 1) ≤ rg g o top := hR.mono_le (a := k + 1) (b := top) (by omega) (by omega) (by omega)
  obtain ⟨ilo, ihi⟩ := I.ctrb
  obtain ⟨clo, chi⟩ := I.cblk
  obtain ⟨blo, bhi⟩ := I.blok
  obtain ⟨fit1, fit2⟩ := I.fit
  unfold cblkStep
  dsimp only
  rw [Arr.rd_ok _ (by omega) (by omega), ok_bind, Arr.rd_ok _ (by omega) (by omega), ok_bind, Arr.wr_ok _ _ (by omega) (by omega), ok_bind]
  rw [← rg_eq (g := g) (o := o) (c := k) (by omega), ← rg_eq (g := g) (o := o) (c := k + 1) (by omega), show o.cblknbr + g.baseval = top by omega]
  rw [May_bind]
  refine May.mono (degrMax_holds C A V hge (by omega) (by omega)).may ?_
  rintro d ⟨d0, d1, d2⟩
  rw [May_bind]
  refine May.mono (hashMax_holds d).may ?_
  rintro hm ⟨hm1, hm2⟩
  rw [Arr.rd_ok _ (by omega) (by omega), ok_bind]
  obtain ⟨cs, cs1, cs2, cs3⟩ := I.chain k (Int.le_refl _) h2
  have hcsl : (cs.length : Int) ≤ k - g.baseval := nodup_le cs2 h1 (fun c hc => by have := (cs3 c).1 hc; omega)
  generalize hcb : s.cblk.set k ⟨rg g o k, rg g o (k + 1) - 1, s.bloknum⟩ = cblk
  have hcblo : cblk.lo = g.baseval := by rw [← hcb]; exact clo
  have hcbhi : cblk.hi = top + 1 := by rw [← hcb]; exact chi
  have hcbk : cblk.get k = ⟨rg g o k, rg g o (k + 1) - 1, s.bloknum⟩ := by rw [← hcb]; exact Arr.set_get_same _ _ _
  have hcbl : ∀ c, g.baseval ≤ c → c < k → cblk.get c = ⟨rg g o c, rg g o (c + 1) - 1, st c⟩ := by
    intro c c1 c2
    rw [← hcb, Arr.set_get_ne _ _ (by omega)]
    exact I.cols c c1 c2
  have hst : ∀ c, g.baseval ≤ c → c ≤ k → (cblk.get c).blok = st c := by
    intro c c1 c2
    by_cases e : c = k
    · rw [e, hcbk, I.last]
    · rw [hcbl c c1 (by omega)]
  rw [May_bind]
  refine May.mono (ctrSum_holds (cblk := cblk) cs (s.ctrb.get k) 0 (o.cblknbr.toNat + 1) cs1 (fun c hc => by have := (cs3 c).1 hc; omega) (by omega)).may ?_
  rintro sum rfl
  rw [Int.zero_add]
  generalize hso : (if hm * 4 > 3 * (d + ctrs cblk cs) then hm * 4 else 3 * (d + ctrs cblk cs)) = sortoft
  have hso1 : hm * 4 ≤ sortoft := by rw [← hso]; split <;> omega
  have hso2 : 3 * (d + ctrs cblk cs) ≤ sortoft := by rw [← hso]; split <;> omega
  rw [May_bind]
  refine May.mono (grow_holds _ s.blokmax (by omega)).may ?_
  rintro bm ⟨bm1, bm2⟩
  generalize hblk : (⟨g.baseval, g.baseval + bm, fun i => if i < s.bloknum then s.blok.get i else (junk k).blok i⟩ : Arr Blok) = blok
  have hblo : blok.lo = g.baseval := by rw [← hblk]
  have hbhi : blok.hi = g.baseval + bm := by rw [← hblk]
  have hbget : ∀ i, i < s.bloknum → blok.get i = s.blok.get i := by
    intro i hi
    rw [← hblk]
    exact if_pos hi
  have hD : ∀ c, g.baseval ≤ c → c < k → Done (Entry g o) (rg g o) g.baseval top st blok.get c := by
    intro c c1 c2
    refine (I.done c c1 c2).congr rfl rfl ?_
    intro i hi
    exact hbget i (by have := I.below c c1 c2; omega)
  have hfirst : ∀ c, g.baseval ≤ c → c < k → 2 < st (c + 1) - st c → blok.get (st c + 1) = s.blok.get (st c + 1) := by
    intro c c1 c2 c3
    exact hbget _ (by have := I.below c c1 c2; omega)
  have hcs' : ∀ c, c ∈ cs ↔ g.baseval ≤ c ∧ c < k ∧ 2 < st (c + 1) - st c ∧ (blok.get (st c + 1)).cblk = k := by
    intro c
    rw [cs3]
    constructor
    · rintro ⟨a1, a2, a3, a4⟩
      exact ⟨a1, a2, a3, by rw [hfirst c a1 a2 a3]; exact a4⟩
    · rintro ⟨a1, a2, a3, a4⟩
      exact ⟨a1, a2, a3, by rw [hfirst c a1 a2 a3] at a4; exact a4⟩
  have hcon : ∀ c ∈ cs, Contrib (rg g o) k top cblk blok c := by
    intro c hc
    obtain ⟨a1, a2, a3, a4⟩ := (hcs' c).1 hc
    exact contrib_of (hD c a1 a2) hst hcblo (by omega) (by have := I.above c a1 a2; omega) (by have := I.below c a1 a2; omega) a1 a2 a3 a4
  have hnn := ctrs_nonneg hcon
  rw [May_bind]
  refine May.mono (collect_holds C A V hb (size := hm * 4) (cap := d) hge hlt (by omega) d2 d0 (by omega) (s := (⟨0, hm * 4, fun _ => -1⟩, ⟨0, d, (junk k).int⟩, 0)) ?_).may ?_
  · exact ⟨⟨rfl, rfl, by omega, (fun k hk => by cases hk), (fun x _ _ hx => absurd rfl hx), (fun x y _ _ _ _ hx => absurd rfl hx), by simp⟩, rfl, rfl, rfl, (fun i h => by simp at h), List.nodup_nil, by simpa using d0⟩
  rintro r ⟨keys, hcol, hkeys, hless⟩
  have hE := entry_rg C V
  rw [← htop] at hE
  rw [May_bind]
  refine May.mono (sort_cols hcol bits (by omega) (lo := rg g o (k + 1)) (hi := rg g o top) ?_).may ?_
  · intro x hx
    obtain ⟨⟨c, c1, c2, c3⟩, hx2⟩ := (hkeys x).1 hx
    exact ⟨hx2, (hE c x c3).2.2⟩
  rintro sort ⟨hS, hsort⟩
  have hrn := hcol.nbr
  have hrc := hcol.cap
  have hless' : cs ≠ [] → r.2.2 ≤ d - 1 := by
    intro hne
    obtain ⟨c, hc⟩ := List.exists_mem_of_ne_nil cs hne
    obtain ⟨a1, a2, a3, a4⟩ := (hcs' c).1 hc
    have Dc := hD c a1 a2
    have ok1 := Dc.ok (st c + 1) (by omega) (by omega)
    have g3 := ok1.frow
    have g4 := ok1.rows
    have g5 := ok1.lrow
    rw [a4] at g3 g5
    have hT := (Dc.cov (blok.get (st c + 1)).frow).2 ⟨st c + 1, by omega, by omega, Int.le_refl _, g4⟩
    obtain ⟨p, p1, p2⟩ := hT.lower (entry_symm C V)
    have g6 := hR.mono_le (a := c + 1) (b := k) (by omega) (by omega) (by omega)
    rw [hrn]
    exact hless ⟨_, p, g3, by omega, p2, by omega⟩
  rw [May_bind]
  refine May.mono (blocks_may (d := d) V htop h1 h2 hS cs1 hcon (by omega) rfl (by omega) hless' ?_ ?_ (by omega) (by omega) (by omega) (by omega) (by omega)) ?_
  · dsimp only; omega
  · intro hp; dsimp only; omega
  rintro b ⟨B, W, hB, hcov⟩
  have hT : ∀ x, T (Entry g o) (rg g o) g.baseval top k x ↔ cov B x := by
    intro x
    rw [T_iff hR h1 h2 hE hD hst hcs', hcov, hsort, hkeys]
    constructor
    · rintro ⟨e1, e2 | e2⟩
      · exact ⟨e1, .inl ⟨e2, e1.1⟩⟩
      · exact ⟨e1, .inr e2⟩
    · rintro ⟨e1, e2 | e2⟩
      · exact ⟨e1, .inl e2.1⟩
      · exact ⟨e1, .inr e2⟩
  have hbl : st k = s.bloknum := I.last
  rw [← hbl] at W
  have hst' : ∀ c, c ≤ k → (fun c => if c ≤ k then st c else b.2) c = st c := fun c hc => if_pos hc
  have hst1 : (fun c => if c ≤ k then st c else b.2) (k + 1) = b.2 := if_neg (by omega)
  generalize (fun c => if c ≤ k then st c else b.2) = st' at hst' hst1
  rw [← hst' k (Int.le_refl _)] at W
  have hDk := Done.of_wrote W hst1 hB hT
  have hWn := W.nbr
  rw [List.length_cons, hst' k (Int.le_refl _)] at hWn
  push_cast at hWn
  have hWold : ∀ i, i < s.bloknum → b.1.get i = s.blok.get i := by
    intro i hi
    rw [W.old i (by rw [hst' k (Int.le_refl _)]; omega)]
    exact hbget i hi
  have hfit := W.fit
  have hD' : ∀ c, g.baseval ≤ c → c < k → Done (Entry g o) (rg g o) g.baseval top st' b.1.get c := by
    intro c c1 c2
    refine (I.done c c1 c2).congr (hst' c (by omega)) (hst' (c + 1) (by omega)) ?_
    intro i hi
    exact hWold i (by have := I.below c c1 c2; omega)
  have hWlo := W.lo
  have hWhi := W.hi
  rw [← hbl, ← hst' k (Int.le_refl _)]
  refine May.mono (link_holds (g := g) (o := o) (st := st') (k := k) (top := top) (s := ⟨s.ctrb, cblk, b.1, bm, b.2⟩) hb h1 h2 ⟨ilo, ihi⟩ ⟨by dsimp only; omega, by dsimp only; omega⟩ (by rw [hst' k (Int.le_refl _)]; omega) hDk hst1 ?_).may ?_
  · intro f f1 f2
    obtain ⟨cs', x1, x2, x3⟩ := I.chain f f1 f2
    refine ⟨cs', x1, x2, ?_⟩
    intro c
    rw [x3]
    dsimp only
    constructor
    · rintro ⟨a1, a2, a3, a4⟩
      have := I.below c a1 a2
      rw [hst' c (by omega), hst' (c + 1) (by omega), hWold _ (by omega)]
      exact ⟨a1, a2, a3, a4⟩
    · rintro ⟨a1, a2, a3, a4⟩
      have := I.below c a1 a2
      rw [hst' c (by omega), hst' (c + 1) (by omega)] at a3
      rw [hst' c (by omega), hWold _ (by omega)] at a4
      exact ⟨a1, a2, a3, a4⟩
  · rintro s' ⟨e1, e2, e3, e4, e5, e6, e7⟩
    dsimp only at e1 e2 e3 e4
    refine ⟨st', ⟨e5, e6⟩, ?_, ?_, ?_, ?_, ?_, ?_, ?_, ?_, ?_, ?_⟩
    · rw [e1]; exact ⟨hcblo, hcbhi⟩
    · rw [e2, e3]; omega
    · rw [e3, e4]; omega
    · rw [hst' _ h1]; exact I.first
    · rw [e4]; exact hst1
    · intro c c1 c2
      rw [e4]
      by_cases e : c = k
      · rw [e, hst1]
      · rw [hst' (c + 1) (by omega)]
        have := I.below c c1 (by omega)
        omega
    · intro c c1 c2
      rw [hst' c (by omega)]
      by_cases e : c = k
      · rw [e, hbl]; exact fit1
      · exact I.above c c1 (by omega)
    · intro c c1 c2
      rw [e1, hst' c (by omega)]
      by_cases e : c = k
      · rw [e, hcbk, hbl]
      · exact hcbl c c1 (by omega)
    · intro c c1 c2
      rw [e2]
      by_cases e : c = k
      · rw [e]; exact hDk
      · exact hD' c c1 (by omega)
    · intro f f1 f2
      rw [e2]
      exact e7 f f1 f2

end Scotch.Fax
