import Verif.Separ.LemmasFm3

/-! # Fiduccia-Mattheyses refinement of separators: moves -/

set_option autoImplicit false
set_option linter.unusedSimpArgs false

namespace Scotch.Separ
open Graph
open Bipart (FmVals FmSlot FmSave FmSt FmCur Fm FmOwn FmKey FmTab fmFree fmSearch fmPrime FmOwn_set FmKey_set over)
open Hash (Tab probe probe_in)

variable {b : Vgraph} {g : Graph} {c : Int} {keys : List Int} {s : Fm} {h hv : Int} {R : Int → FmVals → Prop} {P P0 pb : Int → Int} {F Fb : Int → Int → Int} {ch : List Int}

/-- Gains, given the parts of vertices: opposite of the decrease of the load of the separator. -/
noncomputable def gains (g : Graph) (P : Int → Int) (i x : Int) : Int := near g P (1 - i) x - g.velo x

/-- Imbalance and load of the separator. -/
def SCur (b : Vgraph) (P : Int → Int) (c : FmCur) : Prop :=
  c.dlt = over b.s P 0 b.s.velo * b.dwgt1 - over b.s P 1 b.s.velo * b.dwgt0 ∧ c.comm = over b.s P 2 b.s.velo

/-- State between moves: `P` are the current parts, `pb` those of the best separator. -/
structure SInv (b : Vgraph) (c : Int) (keys : List Int) (pb P : Int → Int) (s : Fm) : Prop where
  geo : SGeo b.s c keys s
  sv : SSv (Vals b.s pb (gains b.s pb)) s
  vl : SVl (SQ b.s P (gains b.s P)) s
  such : ∀ h, 0 ≤ h → h < s.msk + 1 → FmOwn s.hash h → (s.hash.get h).st ≠ .such
  parts : Parts b.s P
  sep : Separated b.s P
  out : ∀ x, b.s.Vertex x → x ∉ keys → P x = b.part x ∧ pb x = b.part x ∧ b.part x ≠ 2
  cur : SCur b P s.cur

/-- Change of a slot that keeps its vertex, and of the list of locked slots. -/
theorem SGeo.relock (G : SGeo g c keys s) {x : FmSlot} (hx : x.vertnum = (s.hash.get h).vertnum) (hm : x.mswp ≤ s.mswp) (hn : FmOwn s.hash h) {l : List Int} (hnd : l.Nodup) (h1 : 0 ≤ h ∧ h < s.msk + 1)
    (hl : ∀ j, j ∈ l ↔ if j = h then Locked x.st else j ∈ s.lock) : SGeo g c keys { s with hash := s.hash.set h x, lock := l } := by
  have o := FmOwn_set hx
  have k := FmKey_set hx
  refine ⟨G.mask, G.max, G.hlo, G.hhi, G.slo, G.shi, ?_, G.vert, G.fit, G.cpos, G.nbr, ?_, G.mpos, hnd, ?_⟩
  · have := G.tab
    unfold FmTab at *
    dsimp only
    rw [o, k]
    exact this
  · intro j j1 j2
    dsimp only
    rw [o]
    by_cases e : j = h
    · subst e
      rw [Arr.set_get_same]
      exact ⟨hm, fun hc => absurd hn hc⟩
    · rw [Arr.set_get_ne _ _ e]
      exact G.mswp j j1 j2
  · intro j
    dsimp only
    rw [hl, o]
    by_cases e : j = h
    · rw [e, if_pos rfl, Arr.set_get_same]
      exact ⟨fun z => ⟨h1, hn, z⟩, fun z => z.2.2⟩
    · rw [if_neg e, Arr.set_get_ne _ _ e]
      exact G.lock j

/-! ## Loads -/

open Classical in
theorem over_PE {v p : Int} (hp : p = 0 ∨ p = 1) (k : Int) : over b.s (PE b.s v p P0 (b.s.vend v)) k b.s.velo =
    over b.s P0 k b.s.velo + (if k = 2 then near b.s P0 (1 - p) v else 0) - (if k = 1 - p then near b.s P0 (1 - p) v else 0) := by
  have key : ∀ x, (if PE b.s v p P0 (b.s.vend v) x = k then b.s.velo x else 0) + (if k = 1 - p then (if b.s.Adj v x ∧ P0 x = 1 - p then b.s.velo x else 0) else 0) = (if P0 x = k then b.s.velo x else 0) +
      (if k = 2 then (if b.s.Adj v x ∧ P0 x = 1 - p then b.s.velo x else 0) else 0) := by
    intro x
    unfold PE
    by_cases h1 : b.s.Adj v x ∧ P0 x = 1 - p
    · rw [if_pos (show Proc b.s v (b.s.vend v) x ∧ P0 x = 1 - p from h1), if_pos h1, h1.2]
      split <;> split <;> split <;> split <;> omega
    · rw [if_neg (show ¬ (Proc b.s v (b.s.vend v) x ∧ P0 x = 1 - p) from h1), if_neg h1]
      simp
  have e0 : ∀ c : Prop, [Decidable c] → sumI b.s.baseval b.s.vertnnd (fun x => if c then (if b.s.Adj v x ∧ P0 x = 1 - p then b.s.velo x else 0) else 0) = if c then near b.s P0 (1 - p) v else 0 := by
    intro c _
    by_cases k1 : c
    · simp only [if_pos k1]; rfl
    · simp only [if_neg k1]; exact sumI_eq_zero (fun _ _ _ => rfl)
  have := sumI_congr (lo := b.s.baseval) (hi := b.s.vertnnd) (fun x _ _ => key x)
  rw [sumI_add_dist, sumI_add_dist, e0, e0] at this
  unfold over
  omega

/-- Parts after a move. -/
noncomputable def moved (g : Graph) (v p : Int) (P0 : Int → Int) : Int → Int := upd (PE g v p P0 (g.vend v)) v p

theorem moved_cur {v p : Int} (hv : b.s.Vertex v) (hp : p = 0 ∨ p = 1) (h2 : P0 v = 2) {cur : FmCur} (hcur : SCur b P0 cur) {x : FmVals} (hx : Vals b.s P0 (gains b.s P0) v x) :
    SCur b (moved b.s v p P0) { cur with dlt := cur.dlt + sfDelta b x p, comm := cur.comm + sgGet x p } := by
  obtain ⟨c1, c2⟩ := hcur
  have hPv : PE b.s v p P0 (b.s.vend v) v = 2 := by
    rcases PE_cases (g := b.s) (P0 := P0) v p (b.s.vend v) v with z | z
    · exact z
    · rw [z]; exact h2
  have hov : ∀ k, over b.s (moved b.s v p P0) k b.s.velo = over b.s P0 k b.s.velo + (if k = 2 then near b.s P0 (1 - p) v else 0) - (if k = 1 - p then near b.s P0 (1 - p) v else 0) -
      (if (2 : Int) = k then b.s.velo v else 0) + (if p = k then b.s.velo v else 0) := by
    intro k
    unfold moved
    rw [over_upd _ hv, over_PE hp, hPv]
  obtain ⟨x1, x2, x3⟩ := hx
  have hg := x3 h2 p hp
  unfold SCur
  dsimp only
  rw [hov, hov, hov, c1, c2, hg]
  unfold sfDelta dwgt
  rw [hg, x2]
  unfold gains
  generalize near b.s P0 (1 - p) v = n
  rcases hp with rfl | rfl
  · simp
    constructor
    · ring
    · omega
  · simp
    constructor
    · ring
    · omega

theorem moved_parts {v p : Int} (hp : p = 0 ∨ p = 1) (h : Parts g P0) : Parts g (moved g v p P0) := by
  intro x hx
  unfold moved upd
  split
  · omega
  · exact PE_parts h x hx

theorem moved_sep (hc : ConsE g) {v p : Int} (hp : p = 0 ∨ p = 1) (h : Separated g P0) : Separated g (moved g v p P0) := by
  rw [sep_adj] at h ⊢
  have hadj : ∀ x, g.Adj v x → PE g v p P0 (g.vend v) x ≠ 1 - p := by
    intro x hx
    unfold PE
    by_cases k : P0 x = 1 - p
    · rw [if_pos ⟨hx, k⟩]; omega
    · rw [if_neg (fun z => k z.2)]; exact k
  have hpe : ∀ x y, g.Vertex x → g.Adj x y → ¬ (PE g v p P0 (g.vend v) x = 0 ∧ PE g v p P0 (g.vend v) y = 1) ∧ ¬ (PE g v p P0 (g.vend v) x = 1 ∧ PE g v p P0 (g.vend v) y = 0) := by
    intro x y hx hxy
    have := h x y hx hxy
    have a1 := PE_cases (g := g) (P0 := P0) v p (g.vend v) x
    have a2 := PE_cases (g := g) (P0 := P0) v p (g.vend v) y
    omega
  intro x y hx hxy
  unfold moved
  by_cases ex : x = v
  · rw [ex] at hxy ⊢
    rw [upd_same]
    by_cases ey : y = v
    · rw [ey, upd_same]; omega
    · rw [upd_ne _ _ ey]
      have := hadj y hxy
      omega
  · rw [upd_ne _ _ ex]
    by_cases ey : y = v
    · rw [ey, upd_same]
      rw [ey] at hxy
      have := hadj x (hc.adj_symm hx hxy)
      omega
    · rw [upd_ne _ _ ey]
      exact hpe x y hx hxy

theorem moved_gains (hc : ConsE g) {v p : Int} (hv : g.Vertex v) (hp : p = 0 ∨ p = 1) (h2 : P0 v = 2) {x : Int} (hx : g.Vertex x) {j : Int} (hj : j = 0 ∨ j = 1) :
    gains g (moved g v p P0) j x = FE g v p P0 (g.vend v) j x := by
  have hPv : PE g v p P0 (g.vend v) v = 2 := by
    rcases PE_cases (g := g) (P0 := P0) v p (g.vend v) v with z | z
    · exact z
    · rw [z]; exact h2
  have hsym : g.Adj x v ↔ Proc g v (g.vend v) x := ⟨fun z => hc.adj_symm hx z, fun z => hc.adj_symm hv z⟩
  unfold gains FE moved
  rw [near_upd hv, hPv]
  by_cases c1 : j = p
  · rw [if_pos c1, c1, if_neg (show ¬ (g.Adj x v ∧ (2 : Int) = 1 - p) by omega), if_neg (show ¬ (g.Adj x v ∧ p = 1 - p) by omega)]
    omega
  · rw [if_neg c1, show 1 - j = p by omega, if_neg (show ¬ (g.Adj x v ∧ (2 : Int) = p) by omega)]
    have : near g (PE g v p P0 (g.vend v)) p x = near g P0 p x := by
      apply near_congr
      intro y _ _
      unfold PE
      split
      · omega
      · exact Iff.rfl
    rw [this]
    by_cases k : g.Adj x v
    · rw [if_pos ⟨k, rfl⟩, if_pos (hsym.1 k)]; omega
    · rw [if_neg (fun z => k z.1), if_neg (fun z => k (hsym.2 z))]; omega

/-! ## Chained slots -/

/-- State in the course of the loop on chained slots. -/
structure SChain (g : Graph) (c : Int) (keys : List Int) (R : Int → FmVals → Prop) (P : Int → Int) (s : Fm) (ch : List Int) : Prop where
  geo : SGeo g c keys s
  sv : SSv R s
  vl : SVl (SQ g P (gains g P)) s
  nodup : ch.Nodup
  chain : ∀ h ∈ ch, (0 ≤ h ∧ h < s.msk + 1) ∧ FmOwn s.hash h ∧ P (FmKey s.hash h) = 2 ∧ ((s.hash.get h).st = .free ∨ (s.hash.get h).st = .such)
  such : ∀ h, 0 ≤ h → h < s.msk + 1 → FmOwn s.hash h → (s.hash.get h).st = .such → h ∈ ch

/-- What the loop on chained slots does not change. -/
structure SKeepC (s s' : Fm) : Prop where
  mswp : s'.mswp = s.mswp
  cur : s'.cur = s.cur
  bst : s'.bst = s.bst
  dltmax : s'.dltmax = s.dltmax
  moveflag : s'.moveflag = s.moveflag
  movenbr : s'.movenbr = s.movenbr
  clock : s'.clock = s.clock
  msk : s'.msk = s.msk
  max : s'.max = s.max

theorem SKeepC.refl (s : Fm) : SKeepC s s := ⟨rfl, rfl, rfl, rfl, rfl, rfl, rfl, rfl, rfl⟩
theorem SKeepC.trans {s s' s'' : Fm} (h : SKeepC s s') (k : SKeepC s' s'') : SKeepC s s'' :=
  ⟨k.mswp.trans h.mswp, k.cur.trans h.cur, k.bst.trans h.bst, k.dltmax.trans h.dltmax, k.moveflag.trans h.moveflag, k.movenbr.trans h.movenbr, k.clock.trans h.clock, k.msk.trans h.msk, k.max.trans h.max⟩
theorem SKeep.toC {s s' : Fm} (k : SKeep s s') : SKeepC s s' := ⟨k.mswp, k.cur, k.bst, k.dltmax, k.moveflag, k.movenbr, k.clock, k.msk, k.max⟩

/-- Change of the status of the first chained slot. -/
theorem SChain.next (C : SChain g c keys R P s (h :: ch)) {st : FmSt} (hst : st = .link ∨ st = .used) {l : List Int} (hnd : l.Nodup) (hl : ∀ j, j ∈ l ↔ if j = h then Locked st else j ∈ s.lock) :
    SChain g c keys R P { s with hash := s.hash.set h { s.hash.get h with st := st }, lock := l } ch := by
  obtain ⟨⟨h1, h2⟩, ho, hp, _⟩ := C.chain h List.mem_cons_self
  obtain ⟨hni, hnd'⟩ := List.nodup_cons.1 C.nodup
  have o : FmOwn (s.hash.set h { s.hash.get h with st := st }) = FmOwn s.hash := FmOwn_set rfl
  have k : FmKey (s.hash.set h { s.hash.get h with st := st }) = FmKey s.hash := FmKey_set rfl
  have hge : ∀ y, y ≠ h → (s.hash.set h { s.hash.get h with st := st }).get y = s.hash.get y := fun y c => Arr.set_get_ne _ _ c
  have hgh : (s.hash.set h { s.hash.get h with st := st }).get h = { s.hash.get h with st := st } := Arr.set_get_same _ _ _
  refine ⟨C.geo.relock (x := { s.hash.get h with st := st }) rfl (C.geo.mswp h h1 h2).1 ho hnd ⟨h1, h2⟩ hl, ?_, ?_, hnd', ?_, ?_⟩
  · have S := C.sv.upd (h := h) (x := { s.hash.get h with st := st }) rfl rfl (Or.inr rfl)
    exact ⟨S.vals, S.nonneg, S.sv, S.inj, S.all⟩
  · intro y y1 y2
    dsimp only
    rw [o, k]
    intro hy
    have hq := C.vl y y1 y2 hy
    by_cases e : y = h
    · rw [e] at hq ⊢
      rw [hgh]
      exact ⟨hq.1, fun _ => hp⟩
    · rw [hge y e]; exact hq
  · intro y hy
    dsimp only
    rw [o, k, hge y (fun e => hni (e ▸ hy))]
    exact C.chain y (List.mem_cons_of_mem _ hy)
  · intro y y1 y2
    dsimp only
    rw [o]
    intro hy hys
    by_cases e : y = h
    · rw [e, hgh] at hys
      dsimp only at hys
      rcases hst with z | z <;> rw [z] at hys <;> simp at hys
    · rw [hge y e] at hys
      have := C.such y y1 y2 hy hys
      rw [List.mem_cons] at this
      exact this.resolve_left e

theorem sfUnchain_holds (p : Int) : ∀ (ch : List Int) (s : Fm), SChain g c keys R P s ch → Holds (ch.foldlM (sfUnchain p) s) (fun s' => SChain g c keys R P s' [] ∧ SKeepC s s')
  | [], s, C => by
    rw [List.foldlM_nil, Holds_pure]
    exact ⟨C, SKeepC.refl s⟩
  | h :: l, s, C => by
    obtain ⟨⟨h1, h2⟩, ho, hp, hst⟩ := C.chain h List.mem_cons_self
    have hlo := C.geo.hlo
    have hhi := C.geo.hhi
    rw [List.foldlM_cons, Holds_bind]
    have hlk := C.geo.lock h
    have step : ∀ s1, SChain g c keys R P s1 l → SKeepC s s1 → Holds (l.foldlM (sfUnchain p) s1) (fun s' => SChain g c keys R P s' [] ∧ SKeepC s s') := by
      intro s1 C1 K1
      refine (sfUnchain_holds p l s1 C1).mono ?_
      rintro s' ⟨C', K'⟩
      exact ⟨C', K1.trans K'⟩
    have same : ∀ st, (Locked st ↔ Locked (s.hash.get h).st) → ∀ j, j ∈ s.lock ↔ if j = h then Locked st else j ∈ s.lock := by
      intro st hs j
      by_cases e : j = h
      · rw [e, if_pos rfl, hlk, hs]
        exact ⟨fun z => z.2.2, fun z => ⟨⟨h1, h2⟩, ho, z⟩⟩
      · rw [if_neg e]
    unfold sfUnchain
    rw [Arr.rd_ok _ (by omega) (by omega), ok_bind]
    by_cases c1 : (s.hash.get h).st = .free
    · rw [if_pos c1, Arr.wr_ok _ _ (by omega) (by omega), ok_bind, Holds_pure]
      exact step _ (C.next (Or.inl rfl) C.geo.nodup (same _ (by rw [c1]; exact ⟨fun z => absurd z not_locked_link, fun z => absurd z not_locked_free⟩))) ⟨rfl, rfl, rfl, rfl, rfl, rfl, rfl, rfl, rfl⟩
    · have c2 := hst.resolve_left c1
      rw [if_neg c1]
      by_cases c3 : sgGet (s.hash.get h).v p = (s.hash.get h).v.cut
      · rw [if_pos c3, Arr.wr_ok _ _ (by omega) (by omega), ok_bind, Holds_pure]
        refine step _ (C.next (Or.inl rfl) (C.geo.nodup.erase h) ?_) ⟨rfl, rfl, rfl, rfl, rfl, rfl, rfl, rfl, rfl⟩
        intro j
        rw [C.geo.nodup.mem_erase_iff]
        by_cases e : j = h
        · rw [if_pos e]
          exact ⟨fun z => absurd e z.1, fun z => absurd z not_locked_link⟩
        · rw [if_neg e]
          exact ⟨fun z => z.2, fun z => ⟨e, z⟩⟩
      · rw [if_neg c3, Arr.wr_ok _ _ (by omega) (by omega), ok_bind, Holds_pure]
        exact step _ (C.next (Or.inr rfl) C.geo.nodup (same _ (by rw [c2]; exact ⟨fun _ => locked_such, fun _ => locked_used⟩))) ⟨rfl, rfl, rfl, rfl, rfl, rfl, rfl, rfl, rfl⟩

/-! ## A move -/

/-- What a move does to the variables. -/
structure SStepKeep (s s' : Fm) : Prop where
  mswp : s'.mswp = s.mswp
  bst : s'.bst = s.bst
  dltmax : s'.dltmax = s.dltmax
  moveflag : s'.moveflag = s.moveflag
  movenbr : s'.movenbr = s.movenbr + 1
  clock : s'.clock = s.clock

theorem SMid.frame (M : SMid g c keys R P F hv s ch) (n : Int) : SMid g c keys R P F hv { s with movenbr := n } ch :=
  ⟨⟨M.geo.mask, M.geo.max, M.geo.hlo, M.geo.hhi, M.geo.slo, M.geo.shi, M.geo.tab, M.geo.vert, M.geo.fit, M.geo.cpos, M.geo.nbr, M.geo.mswp, M.geo.mpos, M.geo.nodup, M.geo.lock⟩,
    ⟨M.sv.vals, M.sv.nonneg, M.sv.sv, M.sv.inj, M.sv.all⟩, M.vl, M.nodup, M.chain, M.such, M.move⟩

theorem sfMove_holds (hc : ConsE b.s) (ha : Alloc b) (hb : 0 ≤ b.s.baseval) {p : Int} (hp : p = 0 ∨ p = 1) (I : SInv b c keys pb P s) (h1 : 0 ≤ h) (h2 : h < s.msk + 1) (ho : FmOwn s.hash h) (hst : (s.hash.get h).st = .link)
    (hcd : b.s.vend (FmKey s.hash h) - b.s.vert (FmKey s.hash h) ≤ c) :
    Holds (sfMove b h p s) (fun s' => ∃ keys' P', SInv b 0 keys' pb P' s' ∧ (keys'.length : Int) ≤ keys.length + c ∧ s'.msk = s.msk ∧ SStepKeep s s') := by
  have hlo := I.geo.hlo
  have hhi := I.geo.hhi
  have hq := I.vl h h1 h2 ho
  have hvv : b.s.Vertex (FmKey s.hash h) := I.geo.vert _ (I.geo.key h1 h2 ho)
  have hPv := hq.2 hst
  have hkey : (s.hash.get h).vertnum = FmKey s.hash h := rfl
  unfold sfMove
  rw [Arr.rd_ok _ (by omega) (by omega), ok_bind, Arr.wr_ok _ _ (by omega) (by omega), ok_bind]
  generalize hkv : FmKey s.hash h = v at hq hvv hPv hkey hcd ⊢
  have hnl : h ∉ s.lock := by
    rw [I.geo.lock, hst]
    exact fun z => not_locked_link z.2.2
  have hx : ({ s.hash.get h with st := .such } : FmSlot).vertnum = (s.hash.get h).vertnum := rfl
  have o : FmOwn (s.hash.set h { s.hash.get h with st := .such }) = FmOwn s.hash := FmOwn_set hx
  have k : FmKey (s.hash.set h { s.hash.get h with st := .such }) = FmKey s.hash := FmKey_set hx
  have hgh : (s.hash.set h { s.hash.get h with st := .such }).get h = { s.hash.get h with st := .such } := Arr.set_get_same _ _ _
  have hge : ∀ y, y ≠ h → (s.hash.set h { s.hash.get h with st := .such }).get y = s.hash.get y := fun y c => Arr.set_get_ne _ _ c
  have M1 : SMid b.s c keys (Vals b.s pb (gains b.s pb)) P (gains b.s P) h { s with hash := s.hash.set h { s.hash.get h with st := .such }, lock := h :: s.lock, cur := { s.cur with dlt := s.cur.dlt + sfDelta b (s.hash.get h).v p, comm := s.cur.comm + sgGet (s.hash.get h).v p } } [] := by
    have G := I.geo.relock (x := { s.hash.get h with st := .such }) (l := h :: s.lock) hx (I.geo.mswp h h1 h2).1 ho (List.nodup_cons.2 ⟨hnl, I.geo.nodup⟩) ⟨h1, h2⟩ ?_
    · have S := I.sv.upd (h := h) (x := { s.hash.get h with st := .such }) hx rfl (Or.inr rfl)
      refine ⟨⟨G.mask, G.max, G.hlo, G.hhi, G.slo, G.shi, G.tab, G.vert, G.fit, G.cpos, G.nbr, G.mswp, G.mpos, G.nodup, G.lock⟩, ⟨S.vals, S.nonneg, S.sv, S.inj, S.all⟩, ?_, List.nodup_nil, ?_, ?_, ?_⟩
      · intro y y1 y2
        dsimp only
        rw [o, k]
        intro hy
        have hqy := I.vl y y1 y2 hy
        by_cases e : y = h
        · rw [e] at hqy ⊢
          rw [hgh]
          exact ⟨hqy.1, fun z => by simp at z⟩
        · rw [hge y e]; exact hqy
      · intro y hy
        simp at hy
      · intro y y1 y2
        dsimp only
        rw [o]
        intro hy hys
        by_cases e : y = h
        · exact Or.inr e
        · rw [hge y e] at hys
          exact absurd hys (I.such y y1 y2 hy)
      · dsimp only
        rw [o, hgh]
        exact ⟨⟨h1, h2⟩, ho, rfl, by simp⟩
    · intro j
      rw [List.mem_cons]
      by_cases e : j = h
      · rw [if_pos e]
        exact ⟨fun _ => locked_such, fun _ => Or.inl e⟩
      · rw [if_neg e]
        exact ⟨fun z => z.resolve_left e, Or.inr⟩
  have hcur := moved_cur (P0 := P) hvv hp hPv I.cur hq.1
  rw [Holds_bind]
  refine (M1.save h1 h2 (by dsimp only; rw [o]; exact ho) ?_).mono ?_
  · dsimp only
    rw [hgh, k]
    intro hr
    have e := hq.1.1
    rw [hPv] at e
    dsimp only
    rw [← e]
    exact hr
  rintro s2 ⟨M2, K2, g2, _⟩
  have hm2 : s2.msk = s.msk := K2.msk
  have hk2 : FmKey s2.hash h = v := by
    rw [(K2.own h (by dsimp only; rw [o]; exact ho)).2]
    dsimp only
    rw [k, hkv]
  have ho2 : FmOwn s2.hash h := (K2.own h (by dsimp only; rw [o]; exact ho)).1
  have hsw2 : (s2.hash.get h).mswp = s2.mswp := by
    rw [g2, K2.mswp]
  have M3 := M2.frame (s2.movenbr + 1)
  rw [Holds_bind, hkey, hq.1.2.1]
  refine (sfArcs_holds (s := { s2 with movenbr := s2.movenbr + 1 }) hc ha hb hp hvv I.parts I.sep hPv hk2 M3 I.out hcd).mono ?_
  rintro ⟨s4, ch⟩ ⟨keys', M4, K4, out4, len4⟩
  dsimp only at M4 K4 ⊢
  have hm4 : s4.msk = s2.msk := K4.msk
  have ho4 : FmOwn s4.hash h := (K4.own h ho2).1
  have hk4 : FmKey s4.hash h = v := (K4.own h ho2).2.trans hk2
  have hlo4 := M4.geo.hlo
  have hhi4 := M4.geo.hhi
  have hq4 := M4.vl h h1 (by omega) ho4
  rw [hk4] at hq4
  rw [Arr.rd_ok _ (by omega) (by omega), ok_bind, Arr.wr_ok _ _ (by omega) (by omega), ok_bind]
  have hx4 : ({ s4.hash.get h with v := { (s4.hash.get h).v with part := p }, st := .used } : FmSlot).vertnum = (s4.hash.get h).vertnum := rfl
  have o4 : FmOwn (s4.hash.set h { s4.hash.get h with v := { (s4.hash.get h).v with part := p }, st := .used }) = FmOwn s4.hash := FmOwn_set hx4
  have k4 : FmKey (s4.hash.set h { s4.hash.get h with v := { (s4.hash.get h).v with part := p }, st := .used }) = FmKey s4.hash := FmKey_set hx4
  have hgh4 : (s4.hash.set h { s4.hash.get h with v := { (s4.hash.get h).v with part := p }, st := .used }).get h = { s4.hash.get h with v := { (s4.hash.get h).v with part := p }, st := .used } := Arr.set_get_same _ _ _
  have hge4 : ∀ y, y ≠ h → (s4.hash.set h { s4.hash.get h with v := { (s4.hash.get h).v with part := p }, st := .used }).get y = s4.hash.get y := fun y c => Arr.set_get_ne _ _ c
  have hsaved : (s4.hash.get h).mswp = s4.mswp := by
    rw [K4.saved h ho2 hsw2]
    exact K4.mswp.symm
  have C : SChain b.s (c - (b.s.vend v - b.s.vert v)) keys' (Vals b.s pb (gains b.s pb)) (moved b.s v p P) { s4 with hash := s4.hash.set h { s4.hash.get h with v := { (s4.hash.get h).v with part := p }, st := .used } } ch := by
    have hkne : ∀ y, 0 ≤ y → y < s4.msk + 1 → FmOwn s4.hash y → y ≠ h → FmKey s4.hash y ≠ v := by
      intro y y1 y2 yo hy e
      exact hy (M4.geo.same y1 y2 yo h1 (by omega) ho4 (by rw [e, hk4]))
    refine ⟨M4.geo.upd hx4 (M4.geo.mswp h h1 (by omega)).1 ho4 ?_, M4.sv.upd hx4 rfl (Or.inl hsaved), ?_, M4.nodup, ?_, ?_⟩
    · rw [M4.move.2.2.1]
      exact ⟨fun _ => locked_such, fun _ => locked_used⟩
    · intro y y1 y2
      dsimp only at y2 ⊢
      rw [o4, k4]
      intro hy
      have hvy := M4.geo.vert _ (M4.geo.key y1 y2 hy)
      have hqy := M4.vl y y1 y2 hy
      by_cases e : y = h
      · rw [e, hgh4, hk4]
        refine ⟨⟨(upd_same _ _ _).symm, hq4.1.2.1, fun z => ?_⟩, fun z => by simp at z⟩
        unfold moved at z
        rw [upd_same] at z
        omega
      · rw [hge4 y e]
        have hmv : moved b.s v p P (FmKey s4.hash y) = PE b.s v p P (b.s.vend v) (FmKey s4.hash y) := upd_ne _ _ (hkne y y1 y2 hy e)
        refine ⟨⟨by rw [hmv]; exact hqy.1.1, hqy.1.2.1, ?_⟩, by rw [hmv]; exact hqy.2⟩
        intro z i hi
        rw [hmv] at z
        rw [moved_gains hc hvv hp hPv hvy hi]
        exact hqy.1.2.2 z i hi
    · intro y hy
      obtain ⟨a1, a2, a3, a4⟩ := M4.chain y hy
      have hyh : y ≠ h := by
        intro e
        rw [e] at hy
        exact M4.move.2.2.2 hy
      dsimp only
      rw [o4, k4, hge4 y hyh]
      refine ⟨a1, a2, ?_, a4⟩
      have hmv : moved b.s v p P (FmKey s4.hash y) = PE b.s v p P (b.s.vend v) (FmKey s4.hash y) := upd_ne _ _ (hkne y a1.1 a1.2 a2 hyh)
      rw [hmv]
      exact a3
    · intro y y1 y2
      dsimp only at y2 ⊢
      rw [o4]
      intro hy hys
      by_cases e : y = h
      · rw [e, hgh4] at hys
        simp at hys
      · rw [hge4 y e] at hys
        exact (M4.such y y1 y2 hy hys).resolve_right e
  refine (sfUnchain_holds p ch _ C).mono ?_
  rintro s5 ⟨C5, K5⟩
  have hm5 : s5.msk = s4.msk := K5.msk
  have hc5 : s5.cur = { s.cur with dlt := s.cur.dlt + sfDelta b (s.hash.get h).v p, comm := s.cur.comm + sgGet (s.hash.get h).v p } := K5.cur.trans (K4.cur.trans K2.cur)
  have hvk : v ∈ keys' := hk4 ▸ M4.geo.key h1 (by omega) ho4
  refine ⟨keys', moved b.s v p P, ⟨C5.geo.fewer (Int.le_refl 0) C5.geo.cpos, C5.sv, C5.vl, ?_, moved_parts hp I.parts, moved_sep hc hp I.sep, ?_, ?_⟩, ?_, ?_, ?_⟩
  · intro y y1 y2 hy hys
    have := C5.such y y1 y2 hy hys
    simp at this
  · intro x hxv hxk
    unfold moved
    rw [upd_ne _ _ (fun e => hxk (by rw [e]; exact hvk))]
    exact out4 x hxv hxk
  · rw [hc5]; exact hcur
  · have := C5.geo.cpos
    omega
  · omega
  · exact ⟨K5.mswp.trans (K4.mswp.trans K2.mswp), K5.bst.trans (K4.bst.trans K2.bst), K5.dltmax.trans (K4.dltmax.trans K2.dltmax), K5.moveflag.trans (K4.moveflag.trans K2.moveflag),
      by rw [K5.movenbr, K4.movenbr, show s2.movenbr = s.movenbr from K2.movenbr], K5.clock.trans (K4.clock.trans K2.clock)⟩

end Scotch.Separ
