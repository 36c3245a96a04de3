import Verif.Separ.LemmasFm1

/-! # Fiduccia-Mattheyses refinement of separators: gains, and neighbours of a vertex that enters the separator -/

set_option autoImplicit false
set_option linter.unusedSimpArgs false

namespace Scotch.Separ
open Graph
open Bipart (FmVals FmSlot FmSave FmSt FmCur Fm FmOwn FmKey FmTab fmFree fmSearch fmPrime FmOwn_set FmKey_set over)
open Hash (Tab probe probe_in)

/-! ## Gains -/

open Classical in
/-- Load of the neighbours of a vertex that are in some part. -/
noncomputable def near (g : Graph) (q : Int → Int) (k w : Int) : Int := sumI g.baseval g.vertnnd (fun x => if g.Adj w x ∧ q x = k then g.velo x else 0)

theorem near_arcs {g : Graph} (hc : ConsE g) (q : Int → Int) (k : Int) {u : Int} (hu : g.Vertex u) :
    sumI (g.vert u) (g.vend u) (fun e => if q (g.dest e) = k then g.velo (g.dest e) else 0) = near g q k u := by
  classical
  rw [sumI_enum g.dest (fun x => if q x = k then g.velo x else 0) g.baseval g.vertnnd (g.vert u) (g.vend u) (hc.range u hu).2
    (fun i j i1 i2 j1 j2 => hc.simple u hu i j i1 i2 j1 j2) (fun i i1 i2 => (hc.inside u i hu i1 i2).1)]
  apply sumI_congr
  intro x _ _
  by_cases h1 : g.Adj u x
  · rw [if_pos (show ∃ i, g.vert u ≤ i ∧ i < g.vend u ∧ g.dest i = x from h1)]
    by_cases h2 : q x = k
    · rw [if_pos h2, if_pos ⟨h1, h2⟩]
    · rw [if_neg h2, if_neg (fun h => h2 h.2)]
  · rw [if_neg (show ¬ ∃ i, g.vert u ≤ i ∧ i < g.vend u ∧ g.dest i = x from h1), if_neg (fun h => h1 h.1)]

theorem near_congr {g : Graph} {q q' : Int → Int} {k w : Int} (h : ∀ x, g.Vertex x → g.Adj w x → (q x = k ↔ q' x = k)) : near g q k w = near g q' k w := by
  unfold near
  apply sumI_congr
  intro x x1 x2
  by_cases h1 : g.Adj w x
  · have := h x ⟨x1, x2⟩ h1
    by_cases h2 : q x = k
    · rw [if_pos ⟨h1, h2⟩, if_pos ⟨h1, this.1 h2⟩]
    · rw [if_neg (fun z => h2 z.2), if_neg (fun z => h2 (this.2 z.2))]
  · rw [if_neg (fun z => h1 z.1), if_neg (fun z => h1 z.1)]

theorem near_zero {g : Graph} {q : Int → Int} {k w : Int} (h : ∀ x, g.Vertex x → g.Adj w x → q x ≠ k) : near g q k w = 0 := by
  unfold near
  apply sumI_eq_zero
  intro x x1 x2
  rw [if_neg]
  rintro ⟨h1, h2⟩
  exact h x ⟨x1, x2⟩ h1 h2

open Classical in
theorem near_upd {g : Graph} {q : Int → Int} {w : Int} (hw : g.Vertex w) (k c u : Int) :
    near g (upd q w c) k u = near g q k u - (if g.Adj u w ∧ q w = k then g.velo w else 0) + (if g.Adj u w ∧ c = k then g.velo w else 0) := by
  unfold near
  have := sumI_update hw.1 hw.2 (fun x => if g.Adj u x ∧ q x = k then g.velo x else 0) (if g.Adj u w ∧ c = k then g.velo w else 0)
  rw [← this]
  apply sumI_congr
  intro x _ _
  by_cases hx : x = w
  · rw [hx, upd_same, if_pos rfl]
  · rw [upd_ne _ _ hx, if_neg hx]

/-! ## Values of slots -/

/-- Values of a vertex, given parts and gains. -/
def Vals (g : Graph) (P : Int → Int) (F : Int → Int → Int) (w : Int) (x : FmVals) : Prop :=
  x.part = P w ∧ x.cut = - g.velo w ∧ (P w = 2 → ∀ i, (i = 0 ∨ i = 1) → sgGet x i = F i w)

/-- A slot, given parts and gains. -/
def SQ (g : Graph) (P : Int → Int) (F : Int → Int → Int) (w : Int) (y : FmSlot) : Prop := Vals g P F w y.v ∧ (y.st = .link → P w = 2)

theorem sgAdd_get (x : FmVals) {i j : Int} (d : Int) (hi : i = 0 ∨ i = 1) (hj : j = 0 ∨ j = 1) : sgGet (sgAdd x i d) j = sgGet x j + (if j = i then d else 0) := by
  unfold sgGet sgAdd
  rcases hi with rfl | rfl <;> rcases hj with rfl | rfl <;> simp

theorem sgAdd_part (x : FmVals) (i d : Int) : (sgAdd x i d).part = x.part := by unfold sgAdd; split <;> rfl
theorem sgAdd_cut (x : FmVals) (i d : Int) : (sgAdd x i d).cut = x.cut := by unfold sgAdd; split <;> rfl

variable {b : Vgraph} {g : Graph} {c : Int} {keys : List Int} {s : Fm} {h hv : Int} {R : Int → FmVals → Prop} {P P' : Int → Int} {F F' : Int → Int → Int} {ch ch' : List Int}

/-- State in the course of a move: `hv` is the slot of the vertex that moves. -/
structure SMid (g : Graph) (c : Int) (keys : List Int) (R : Int → FmVals → Prop) (P : Int → Int) (F : Int → Int → Int) (hv : Int) (s : Fm) (ch : List Int) : Prop where
  geo : SGeo g c keys s
  sv : SSv R s
  vl : SVl (SQ g P F) s
  nodup : ch.Nodup
  chain : ∀ h ∈ ch, (0 ≤ h ∧ h < s.msk + 1) ∧ FmOwn s.hash h ∧ P (FmKey s.hash h) = 2 ∧ ((s.hash.get h).st = .free ∨ (s.hash.get h).st = .such)
  such : ∀ h, 0 ≤ h → h < s.msk + 1 → FmOwn s.hash h → (s.hash.get h).st = .such → h ∈ ch ∨ h = hv
  move : (0 ≤ hv ∧ hv < s.msk + 1) ∧ FmOwn s.hash hv ∧ (s.hash.get hv).st = .such ∧ hv ∉ ch

/-- What a move does not change. -/
structure SKeep (s s' : Fm) : Prop where
  mswp : s'.mswp = s.mswp
  cur : s'.cur = s.cur
  bst : s'.bst = s.bst
  dltmax : s'.dltmax = s.dltmax
  moveflag : s'.moveflag = s.moveflag
  movenbr : s'.movenbr = s.movenbr
  clock : s'.clock = s.clock
  lock : s'.lock = s.lock
  msk : s'.msk = s.msk
  max : s'.max = s.max
  own : ∀ h, FmOwn s.hash h → FmOwn s'.hash h ∧ FmKey s'.hash h = FmKey s.hash h
  saved : ∀ h, FmOwn s.hash h → (s.hash.get h).mswp = s.mswp → (s'.hash.get h).mswp = s.mswp

theorem SKeep.refl (s : Fm) : SKeep s s := ⟨rfl, rfl, rfl, rfl, rfl, rfl, rfl, rfl, rfl, rfl, fun _ h => ⟨h, rfl⟩, fun _ _ h => h⟩

theorem SKeep.trans {s s' s'' : Fm} (h : SKeep s s') (k : SKeep s' s'') : SKeep s s'' :=
  ⟨k.mswp.trans h.mswp, k.cur.trans h.cur, k.bst.trans h.bst, k.dltmax.trans h.dltmax, k.moveflag.trans h.moveflag, k.movenbr.trans h.movenbr, k.clock.trans h.clock, k.lock.trans h.lock, k.msk.trans h.msk, k.max.trans h.max,
    fun x hx => ⟨(k.own x (h.own x hx).1).1, (k.own x (h.own x hx).1).2.trans (h.own x hx).2⟩,
    fun x hx hs => by rw [k.saved x (h.own x hx).1 (by rw [h.mswp]; exact h.saved x hx hs), h.mswp]⟩

theorem SKeep.set {x : FmSlot} (hx : x.vertnum = (s.hash.get h).vertnum) (hm : x.mswp = (s.hash.get h).mswp) : SKeep s { s with hash := s.hash.set h x } :=
  ⟨rfl, rfl, rfl, rfl, rfl, rfl, rfl, rfl, rfl, rfl, fun y hy => ⟨by rw [show FmOwn (s.hash.set h x) = FmOwn s.hash from FmOwn_set hx]; exact hy, by rw [show FmKey (s.hash.set h x) = FmKey s.hash from FmKey_set hx]⟩,
    fun y hy hs => by
      by_cases e : y = h
      · rw [e] at hs ⊢
        dsimp only
        rw [Arr.set_get_same, hm]
        exact hs
      · dsimp only
        rw [Arr.set_get_ne _ _ e]
        exact hs⟩

/-- Change of a slot. -/
theorem SMid.set (M : SMid g c keys R P F hv s ch) (h1 : 0 ≤ h) (h2 : h < s.msk + 1) (ho : FmOwn s.hash h) {x : FmSlot} (hx : x.vertnum = (s.hash.get h).vertnum) (hm : x.mswp = (s.hash.get h).mswp)
    (hs : (s.hash.get h).mswp = s.mswp ∨ x.v = (s.hash.get h).v) (hl : Locked x.st ↔ Locked (s.hash.get h).st) (hq : SQ g P' F' (FmKey s.hash h) x)
    (hr : ∀ w, w ≠ FmKey s.hash h → P' w = P w ∧ (P w = 2 → ∀ j, (j = 0 ∨ j = 1) → F' j w = F j w))
    (hch : (ch' = ch ∧ (h ∈ ch → (x.st = .free ∨ x.st = .such) ∧ P' (FmKey s.hash h) = 2) ∧ (x.st = .such → h ∈ ch ∨ h = hv) ∧ (h = hv → x.st = .such)) ∨
      (ch' = h :: ch ∧ h ∉ ch ∧ (x.st = .free ∨ x.st = .such) ∧ P' (FmKey s.hash h) = 2 ∧ h ≠ hv)) : SMid g c keys R P' F' hv { s with hash := s.hash.set h x } ch' := by
  have o : FmOwn (s.hash.set h x) = FmOwn s.hash := FmOwn_set hx
  have k : FmKey (s.hash.set h x) = FmKey s.hash := FmKey_set hx
  have G := M.geo
  have hne : ∀ j, 0 ≤ j → j < s.msk + 1 → FmOwn s.hash j → j ≠ h → FmKey s.hash j ≠ FmKey s.hash h := fun j j1 j2 jo hj e => hj (G.same j1 j2 jo h1 h2 ho e)
  have hgh : (s.hash.set h x).get h = x := Arr.set_get_same _ _ _
  have hge : ∀ y, y ≠ h → (s.hash.set h x).get y = s.hash.get y := fun y c => Arr.set_get_ne _ _ c
  refine ⟨G.upd hx (by rw [hm]; exact (G.mswp h h1 h2).1) ho hl, M.sv.upd hx hm hs, ?_, ?_, ?_, ?_, ?_⟩
  · refine M.vl.upd hx (fun _ => hq) ?_
    intro j j1 j2 jo hj hjq
    obtain ⟨e1, e2⟩ := hr _ (hne j j1 j2 jo hj)
    obtain ⟨⟨a1, a2, a3⟩, a4⟩ := hjq
    refine ⟨⟨a1.trans e1.symm, a2, ?_⟩, fun hlk => e1.trans (a4 hlk)⟩
    intro h2' i hi
    rw [e1] at h2'
    rw [e2 h2' i hi]
    exact a3 h2' i hi
  · rcases hch with ⟨e, _⟩ | ⟨e, e', _⟩
    · rw [e]; exact M.nodup
    · rw [e]; exact List.nodup_cons.2 ⟨e', M.nodup⟩
  · intro y hy
    dsimp only
    rw [o, k]
    by_cases c : y = h
    · rw [c, hgh]
      rcases hch with ⟨e, e1, _⟩ | ⟨_, _, e1, e2, _⟩
      · rw [e, c] at hy
        exact ⟨⟨h1, h2⟩, ho, (e1 hy).2, (e1 hy).1⟩
      · exact ⟨⟨h1, h2⟩, ho, e2, e1⟩
    · rw [hge y c]
      have hy' : y ∈ ch := by
        rcases hch with ⟨e, _⟩ | ⟨e, _⟩
        · rwa [e] at hy
        · rw [e, List.mem_cons] at hy
          exact hy.resolve_left c
      obtain ⟨a1, a2, a3, a4⟩ := M.chain y hy'
      exact ⟨a1, a2, by rw [(hr _ (hne y a1.1 a1.2 a2 c)).1]; exact a3, a4⟩
  · intro y y1 y2
    dsimp only
    rw [o]
    intro hy hst
    by_cases c : y = h
    · rw [c, hgh] at hst
      rcases hch with ⟨e, _, e1, _⟩ | ⟨e, _, _, _, _⟩
      · rw [c, e]; exact e1 hst
      · rw [c, e]; exact Or.inl List.mem_cons_self
    · rw [hge y c] at hst
      rcases M.such y y1 y2 hy hst with hz | hz
      · rcases hch with ⟨e, _⟩ | ⟨e, _⟩
        · rw [e]; exact Or.inl hz
        · rw [e]; exact Or.inl (List.mem_cons_of_mem _ hz)
      · exact Or.inr hz
  · obtain ⟨a1, a2, a3, a4⟩ := M.move
    dsimp only
    rw [o]
    by_cases c : hv = h
    · rcases hch with ⟨e, _, _, e1⟩ | ⟨_, _, _, _, e1⟩
      · rw [e]
        refine ⟨a1, a2, ?_, a4⟩
        rw [c, hgh]
        exact e1 c.symm
      · exact absurd c.symm e1
    · rw [hge hv c]
      refine ⟨a1, a2, a3, ?_⟩
      rcases hch with ⟨e, _⟩ | ⟨e, _⟩
      · rw [e]; exact a4
      · rw [e, List.mem_cons]; exact fun z => z.elim c a4

/-- Save of a slot. -/
theorem SMid.save {f : FmVals → FmVals} (M : SMid g c keys R P F hv s ch) (h1 : 0 ≤ h) (h2 : h < s.msk + 1) (ho : FmOwn s.hash h) (hf : R (FmKey s.hash h) (s.hash.get h).v → R (FmKey s.hash h) (f (s.hash.get h).v)) :
    Holds (sfSave f s h) (fun s' => SMid g c keys R P F hv s' ch ∧ SKeep s s' ∧ s'.hash.get h = { s.hash.get h with mswp := s.mswp } ∧ (∀ y, y ≠ h → s'.hash.get y = s.hash.get y)) := by
  refine (sfSave_holds M.geo M.sv h1 h2 ho hf).mono ?_
  rintro s' ⟨⟨sv, n, e⟩, G', S'⟩
  have o : FmOwn (s.hash.set h { s.hash.get h with mswp := s.mswp }) = FmOwn s.hash := FmOwn_set rfl
  have k : FmKey (s.hash.set h { s.hash.get h with mswp := s.mswp }) = FmKey s.hash := FmKey_set rfl
  have hst : ∀ y, ((s.hash.set h { s.hash.get h with mswp := s.mswp }).get y).st = (s.hash.get y).st := by
    intro y
    by_cases c : y = h
    · rw [c, Arr.set_get_same]
    · rw [Arr.set_get_ne _ _ c]
  have hvv : ∀ y, ((s.hash.set h { s.hash.get h with mswp := s.mswp }).get y).v = (s.hash.get y).v := by
    intro y
    by_cases c : y = h
    · rw [c, Arr.set_get_same]
    · rw [Arr.set_get_ne _ _ c]
  refine ⟨⟨G', S', ?_, M.nodup, ?_, ?_, ?_⟩, ?_, ?_, ?_⟩
  · rw [e]
    intro y y1 y2
    dsimp only
    rw [o, k]
    intro hy
    obtain ⟨a1, a2⟩ := M.vl y y1 y2 hy
    refine ⟨by rw [hvv]; exact a1, by rw [hst]; exact a2⟩
  · rw [e]
    dsimp only
    rw [o, k]
    intro y hy
    rw [hst]
    exact M.chain y hy
  · rw [e]
    dsimp only
    rw [o]
    intro y
    rw [hst]
    exact M.such y
  · rw [e]
    dsimp only
    rw [o, hst]
    exact M.move
  · rw [e]
    exact ⟨rfl, rfl, rfl, rfl, rfl, rfl, rfl, rfl, rfl, rfl, fun y hy => ⟨by dsimp only; rw [o]; exact hy, by dsimp only; rw [k]⟩, fun y _ hs => by
      by_cases e : y = h
      · rw [e]
        dsimp only
        rw [Arr.set_get_same]
      · dsimp only
        rw [Arr.set_get_ne _ _ e]
        exact hs⟩
  · rw [e]; exact Arr.set_get_same _ _ _
  · intro y hy; rw [e]; exact Arr.set_get_ne _ _ hy

theorem SMid.congr (M : SMid g c keys R P F hv s ch) (hP : ∀ w, g.Vertex w → P' w = P w) (hF : ∀ w, g.Vertex w → P w = 2 → ∀ j, (j = 0 ∨ j = 1) → F' j w = F j w) : SMid g c keys R P' F' hv s ch := by
  have hvx : ∀ y, 0 ≤ y → y < s.msk + 1 → FmOwn s.hash y → g.Vertex (FmKey s.hash y) := fun y y1 y2 hy => M.geo.vert _ (M.geo.key y1 y2 hy)
  refine ⟨M.geo, M.sv, ?_, M.nodup, ?_, M.such, M.move⟩
  · intro y y1 y2 hy
    obtain ⟨⟨a1, a2, a3⟩, a4⟩ := M.vl y y1 y2 hy
    refine ⟨⟨by rw [hP _ (hvx y y1 y2 hy)]; exact a1, a2, ?_⟩, by rw [hP _ (hvx y y1 y2 hy)]; exact a4⟩
    intro h2 i hi
    rw [hP _ (hvx y y1 y2 hy)] at h2
    rw [hF _ (hvx y y1 y2 hy) h2 i hi]
    exact a3 h2 i hi
  · intro y hy
    obtain ⟨a1, a2, a3, a4⟩ := M.chain y hy
    rw [hP _ (hvx y a1.1 a1.2 a2)]
    exact ⟨a1, a2, a3, a4⟩

theorem SMid.fewer (M : SMid g c keys R P F hv s ch) {c' : Int} (h0 : 0 ≤ c') (h : c' ≤ c) : SMid g c' keys R P F hv s ch :=
  ⟨M.geo.fewer h0 h, M.sv, M.vl, M.nodup, M.chain, M.such, M.move⟩

theorem not_locked_free : ¬ Locked .free := by unfold Locked; simp
theorem not_locked_link : ¬ Locked .link := by unfold Locked; simp
theorem locked_used : Locked .used := Or.inl rfl
theorem locked_such : Locked .such := Or.inr rfl

/-- A slot of the separator whose gains have changed. -/
theorem sfChain_holds (M : SMid g c keys R P F hv s ch) (h1 : 0 ≤ h) (h2 : h < s.msk + 1) (ho : FmOwn s.hash h) (hp : P (FmKey s.hash h) = 2) :
    Holds (sfChain h (s, ch)) (fun r => SMid g c keys R P F hv r.1 r.2 ∧ SKeep s r.1 ∧ (∀ y, y ≠ h → r.1.hash.get y = s.hash.get y) ∧ ∀ y ∈ r.2, y ∈ ch ∨ y = h) := by
  have hlo := M.geo.hlo
  have hhi := M.geo.hhi
  have hq := M.vl h h1 h2 ho
  unfold sfChain
  dsimp only
  rw [Arr.rd_ok _ (by omega) (by omega), ok_bind]
  have hnc : (s.hash.get h).st = .link ∨ (s.hash.get h).st = .used → h ∉ ch ∧ h ≠ hv := by
    intro hst
    refine ⟨fun hm => ?_, fun e => ?_⟩
    · have := (M.chain h hm).2.2.2
      rcases hst with a | a <;> rcases this with b | b <;> rw [a] at b <;> simp at b
    · have := M.move.2.2.1
      rw [← e] at this
      rcases hst with a | a <;> rw [a] at this <;> simp at this
  have hmem : ∀ y ∈ h :: ch, y ∈ ch ∨ y = h := by
    intro y hy
    rw [List.mem_cons] at hy
    exact hy.symm
  by_cases hl : (s.hash.get h).st = .link
  · rw [if_pos hl, Arr.wr_ok _ _ (by omega) (by omega), ok_bind, Holds_pure]
    obtain ⟨n1, n2⟩ := hnc (Or.inl hl)
    refine ⟨M.set h1 h2 ho rfl rfl (Or.inr rfl) ?_ ⟨hq.1, fun z => by simp at z⟩ (fun w _ => ⟨rfl, fun _ _ _ => rfl⟩) (Or.inr ⟨rfl, n1, Or.inl rfl, hp, n2⟩), SKeep.set rfl rfl, fun y hy => Arr.set_get_ne _ _ hy, hmem⟩
    rw [hl]
    exact ⟨fun z => absurd z not_locked_free, fun z => absurd z not_locked_link⟩
  · rw [if_neg hl]
    by_cases hu : (s.hash.get h).st = .used
    · rw [if_pos hu, Arr.wr_ok _ _ (by omega) (by omega), ok_bind, Holds_pure]
      obtain ⟨n1, n2⟩ := hnc (Or.inr hu)
      refine ⟨M.set h1 h2 ho rfl rfl (Or.inr rfl) ?_ ⟨hq.1, fun z => by simp at z⟩ (fun w _ => ⟨rfl, fun _ _ _ => rfl⟩) (Or.inr ⟨rfl, n1, Or.inr rfl, hp, n2⟩), SKeep.set rfl rfl, fun y hy => Arr.set_get_ne _ _ hy, hmem⟩
      rw [hu]
      exact ⟨fun _ => locked_used, fun _ => locked_such⟩
    · rw [if_neg hu, Holds_pure]
      exact ⟨M, SKeep.refl s, fun _ _ => rfl, fun y hy => Or.inl hy⟩

/-- A slot of the separator whose gain changes. -/
theorem sfMeet_holds (M : SMid g c keys R P F hv s ch) (h1 : 0 ≤ h) (h2 : h < s.msk + 1) (ho : FmOwn s.hash h) (hp : P (FmKey s.hash h) = 2) {i : Int} (hi : i = 0 ∨ i = 1) (d : Int) :
    Holds (sfMeet i d h (s, ch)) (fun r => SMid g c keys R P (fun j x => if j = i ∧ x = FmKey s.hash h then F j x + d else F j x) hv r.1 r.2 ∧ SKeep s r.1 ∧ (∀ y, y ≠ h → r.1.hash.get y = s.hash.get y) ∧
      ∀ y ∈ r.2, y ∈ ch ∨ y = h) := by
  have hq := M.vl h h1 h2 ho
  unfold sfMeet
  rw [Holds_bind]
  refine (M.save h1 h2 ho ?_).mono ?_
  · intro hR
    have : { (s.hash.get h).v with part := 2 } = (s.hash.get h).v := by
      have e := hq.1.1
      rw [hp] at e
      rw [← e]
    rw [this]
    exact hR
  rintro s1 ⟨M1, K1, g1, g2⟩
  have ho1 := (K1.own h ho).1
  have hk1 := (K1.own h ho).2
  have hm1 := K1.msk
  have hlo := M1.geo.hlo
  have hhi := M1.geo.hhi
  have hq1 := M1.vl h h1 (by omega) ho1
  rw [Arr.rd_ok _ (by omega) (by omega), ok_bind, Arr.wr_ok _ _ (by omega) (by omega), ok_bind]
  have M2 := M1.set (h := h) (P' := P) (F' := fun j x => if j = i ∧ x = FmKey s.hash h then F j x + d else F j x) (ch' := ch) (x := { s1.hash.get h with v := sgAdd (s1.hash.get h).v i d }) h1 (by omega) ho1 rfl rfl
    (Or.inl (by rw [g1, K1.mswp])) Iff.rfl ?_ ?_ ?_
  · have K2 : SKeep s1 { s1 with hash := s1.hash.set h { s1.hash.get h with v := sgAdd (s1.hash.get h).v i d } } := SKeep.set rfl rfl
    refine (sfChain_holds M2 h1 (by dsimp only; omega) (K2.own h ho1).1 (by rw [(K2.own h ho1).2, hk1]; exact hp)).mono ?_
    rintro r ⟨M3, K3, g3, m3⟩
    refine ⟨M3, K1.trans (K2.trans K3), ?_, m3⟩
    intro y hy
    rw [g3 y hy, ← g2 y hy]
    exact Arr.set_get_ne _ _ hy
  · refine ⟨⟨?_, ?_, ?_⟩, hq1.2⟩
    · dsimp only; rw [sgAdd_part]; exact hq1.1.1
    · dsimp only; rw [sgAdd_cut]; exact hq1.1.2.1
    · intro h2' j hj
      dsimp only
      rw [sgAdd_get _ _ hi hj, hq1.1.2.2 h2' j hj]
      by_cases e : j = i
      · rw [if_pos e, if_pos ⟨e, hk1⟩]
      · rw [if_neg e, if_neg (fun z => e z.1)]; omega
  · intro w hw
    refine ⟨rfl, fun _ j _ => ?_⟩
    rw [hk1] at hw
    rw [if_neg (fun z => hw z.2)]
  · left
    refine ⟨rfl, fun hm => ?_, fun z => M1.such h h1 (by omega) ho1 z, fun e => ?_⟩
    · obtain ⟨_, _, a3, a4⟩ := M1.chain h hm
      exact ⟨a4, a3⟩
    · rw [e]; exact M1.move.2.2.1

/-- Search of a vertex. -/
theorem SGeo.search (hc : ConsE g) (hb : 0 ≤ g.baseval) (G : SGeo g c keys s) {w : Int} (hw : g.Vertex w) :
    (∃ d, Hash.Path fmPrime (s.msk + 1) (FmOwn s.hash) (FmKey s.hash) w d ∧ ¬ FmOwn s.hash (probe fmPrime (s.msk + 1) w d) ∧ w ∉ keys ∧ fmSearch s.hash s.msk w = .ok (probe fmPrime (s.msk + 1) w d, true)) ∨
    (∃ h, (0 ≤ h ∧ h < s.msk + 1) ∧ FmOwn s.hash h ∧ FmKey s.hash h = w ∧ fmSearch s.hash s.msk w = .ok (h, false)) := by
  have hw0 : 0 ≤ w := by have := hw.1; omega
  obtain ⟨d, hd, ⟨f1, f2⟩ | ⟨f1, f2⟩⟩ := Bipart.fmSearch_eq G.tab G.mask G.hlo G.hhi hw0 (Or.inl (G.room hc))
  · exact Or.inl ⟨d, hd, f1, G.tab.not_mem hd f1, f2⟩
  · refine Or.inr ⟨_, probe_in G.tab.pos w d, ?_, f1, f2⟩
    unfold FmOwn
    unfold FmKey at f1
    rw [f1]
    omega

theorem arc_ext {w e : Int} (e1 : g.vert w ≤ e) (u : Int) : (∃ i, g.vert w ≤ i ∧ i < e + 1 ∧ g.dest i = u) ↔ (∃ i, g.vert w ≤ i ∧ i < e ∧ g.dest i = u) ∨ u = g.dest e := by
  constructor
  · rintro ⟨i, k1, k2, k3⟩
    by_cases hi : i = e
    · right; rw [← k3, hi]
    · left; exact ⟨i, k1, by omega, k3⟩
  · rintro (⟨i, k1, k2, k3⟩ | rfl)
    · exact ⟨i, k1, by omega, k3⟩
    · exact ⟨e, e1, by omega, rfl⟩

/-- Neighbours of a vertex that enters the separator. -/
theorem sfArcsEnd_holds (hc : ConsE b.s) (ha : Alloc b) (hb : 0 ≤ b.s.baseval) (M : SMid b.s c keys R P F hv s ch) (ho : FmOwn s.hash h) {w p : Int} (hw : b.s.Vertex w) (hk : FmKey s.hash h = w) (hp : p = 0 ∨ p = 1)
    (hpp : Parts b.s P) (hsep : ∀ x, b.s.Adj w x → P x ≠ p) (hout : ∀ x, b.s.Vertex x → x ∉ keys → P x ≠ 2) (hch : h ∉ ch) :
    Holds (b.s.forArcs w ((s, ch), 0) (sfArcEnd b p (- b.s.velo w))) (fun r => (∃ F', (∀ j x, (j = p ∧ b.s.Adj w x → F' j x = F j x - b.s.velo w) ∧ (¬ (j = p ∧ b.s.Adj w x) → F' j x = F j x)) ∧
      SMid b.s c keys R P F' hv r.1.1 r.1.2) ∧ SKeep s r.1.1 ∧ h ∉ r.1.2 ∧ r.1.1.hash.get h = s.hash.get h ∧ r.2 = near b.s P (1 - p) w) := by
  rw [← near_arcs hc _ _ hw]
  refine Holds_forArcs ha.graph hw (hc.range w hw).2 (fun e (r : (Fm × List Int) × Int) => (∃ F', (∀ j x, (j = p ∧ (∃ i, b.s.vert w ≤ i ∧ i < e ∧ b.s.dest i = x) → F' j x = F j x - b.s.velo w) ∧
      (¬ (j = p ∧ ∃ i, b.s.vert w ≤ i ∧ i < e ∧ b.s.dest i = x) → F' j x = F j x)) ∧ SMid b.s c keys R P F' hv r.1.1 r.1.2) ∧ SKeep s r.1.1 ∧ h ∉ r.1.2 ∧ r.1.1.hash.get h = s.hash.get h ∧
      r.2 = sumI (b.s.vert w) e (fun e => if P (b.s.dest e) = 1 - p then b.s.velo (b.s.dest e) else 0)) ?_ ?_ ?_
  · refine ⟨⟨F, fun j x => ⟨?_, fun _ => rfl⟩, M⟩, SKeep.refl s, hch, rfl, (sumI_empty (Int.le_refl _) _).symm⟩
    rintro ⟨_, i, i1, i2, _⟩
    omega
  · rintro e ⟨⟨t, l⟩, q⟩ e1 e2 ⟨⟨F1, hF1, M1⟩, K1, n1, s1, q1⟩
    dsimp only at M1 K1 n1 s1 q1
    obtain ⟨hx, hne⟩ := hc.inside w e hw e1 e2
    have hadj : b.s.Adj w (b.s.dest e) := ⟨e, e1, e2, rfl⟩
    have hns := hsep _ hadj
    have hpx := hpp _ hx
    rw [sumI_succ e1]
    have hnot : ¬ ∃ i, b.s.vert w ≤ i ∧ i < e ∧ b.s.dest i = b.s.dest e := by
      rintro ⟨i, k1, k2, k3⟩
      have := hc.simple w hw i e k1 (by omega) e1 e2 k3
      omega
    have hext : ∀ u, (∃ i, b.s.vert w ≤ i ∧ i < e + 1 ∧ b.s.dest i = u) ↔ (∃ i, b.s.vert w ≤ i ∧ i < e ∧ b.s.dest i = u) ∨ u = b.s.dest e := arc_ext e1
    generalize b.s.dest e = x at hx hne hadj hns hpx hnot hext ⊢
    have hm1 := K1.msk
    unfold sfArcEnd
    dsimp only
    have skip : P x ≠ 2 → Holds (Except.ok ((t, l), q + b.s.velo x) : Except Fault ((Fm × List Int) × Int)) (fun r => (∃ F', (∀ j x, (j = p ∧ (∃ i, b.s.vert w ≤ i ∧ i < e + 1 ∧ b.s.dest i = x) → F' j x = F j x - b.s.velo w) ∧
      (¬ (j = p ∧ ∃ i, b.s.vert w ≤ i ∧ i < e + 1 ∧ b.s.dest i = x) → F' j x = F j x)) ∧ SMid b.s c keys R P F' hv r.1.1 r.1.2) ∧ SKeep s r.1.1 ∧ h ∉ r.1.2 ∧ r.1.1.hash.get h = s.hash.get h ∧
      r.2 = sumI (b.s.vert w) e (fun e => if P (b.s.dest e) = 1 - p then b.s.velo (b.s.dest e) else 0) + (if P x = 1 - p then b.s.velo x else 0)) := by
      intro h2
      rw [Holds_ok]
      refine ⟨⟨fun j y => if j = p ∧ y = x then F j y - b.s.velo w else F1 j y, ?_, ?_⟩, K1, n1, s1, ?_⟩
      · intro j y
        dsimp only
        rw [hext]
        by_cases c1 : j = p ∧ y = x
        · rw [if_pos c1]
          exact ⟨fun _ => rfl, fun z => absurd ⟨c1.1, Or.inr c1.2⟩ z⟩
        · rw [if_neg c1]
          refine ⟨fun z => (hF1 j y).1 ⟨z.1, z.2.resolve_right (fun z2 => c1 ⟨z.1, z2⟩)⟩, fun z => (hF1 j y).2 (fun z2 => z ⟨z2.1, Or.inl z2.2⟩)⟩
      · refine M1.congr (fun _ _ => rfl) ?_
        intro y _ hy j _
        rw [if_neg]
        rintro ⟨_, rfl⟩
        exact h2 hy
      · rw [if_pos (show P x = 1 - p by omega), q1]
    rcases M1.geo.search hc hb hx with ⟨d, _, _, hnk, he⟩ | ⟨y, hy, hyo, hyk, he⟩
    · rw [he, ok_bind]
      dsimp only
      rw [if_pos rfl, rdVelo_eq ha.graph hx, ok_bind]
      exact skip (hout x hx hnk)
    · rw [he, ok_bind]
      dsimp only
      have hlo := M1.geo.hlo
      have hhi := M1.geo.hhi
      have hq := M1.vl y hy.1 hy.2 hyo
      rw [hyk] at hq
      rw [if_neg (by simp), Arr.rd_ok _ (by omega) (by omega), ok_bind, hq.1.1]
      by_cases h2 : P x = 2
      · rw [if_pos h2, Holds_bind]
        have hyh : y ≠ h := by
          intro c1
          rw [c1, (K1.own h ho).2, hk] at hyk
          exact hne hyk.symm
        refine (sfMeet_holds M1 hy.1 hy.2 hyo (by rw [hyk]; exact h2) hp (- b.s.velo w)).mono ?_
        rintro r ⟨M2, K2, g2, m2⟩
        rw [Holds_pure]
        refine ⟨⟨_, ?_, M2⟩, K1.trans K2, ?_, ?_, ?_⟩
        · intro j z
          rw [hext, hyk]
          by_cases c1 : j = p ∧ z = x
          · rw [if_pos c1]
            refine ⟨fun _ => ?_, fun z => absurd ⟨c1.1, Or.inr c1.2⟩ z⟩
            rw [(hF1 j z).2 (by rw [c1.2]; exact fun z2 => hnot z2.2)]
            omega
          · rw [if_neg c1]
            refine ⟨fun z => (hF1 j _).1 ⟨z.1, z.2.resolve_right (fun z2 => c1 ⟨z.1, z2⟩)⟩, fun z => (hF1 j _).2 (fun z2 => z ⟨z2.1, Or.inl z2.2⟩)⟩
        · intro hm
          rcases m2 h hm with c1 | c1
          · exact n1 c1
          · exact hyh c1.symm
        · rw [g2 h (Ne.symm hyh)]; exact s1
        · rw [if_neg (by omega), q1, Int.add_zero]
      · rw [if_neg h2, hq.1.2.1]
        have := skip h2
        rw [show q - -b.s.velo x = q + b.s.velo x by omega]
        exact this
  · rintro r hr
    exact hr

theorem sfEnterVals_get {p : Int} (hp : p = 0 ∨ p = 1) (veloval : Int) (x : FmVals) : sgGet (sfEnterVals p veloval x) p = x.cut ∧ sgGet (sfEnterVals p veloval x) (1 - p) = x.cut - veloval := by
  unfold sgGet sfEnterVals
  rcases hp with rfl | rfl <;> simp

/-- A vertex of the other part enters the separator. -/
theorem sfEnter_holds (hc : ConsE b.s) (ha : Alloc b) (hb : 0 ≤ b.s.baseval) (M : SMid b.s c keys R P F hv s ch) (h1 : 0 ≤ h) (h2 : h < s.msk + 1) (ho : FmOwn s.hash h) {w p veloval : Int} (hw : b.s.Vertex w) (hk : FmKey s.hash h = w)
    (hp : p = 0 ∨ p = 1) (hpp : Parts b.s P) (hPw : P w = 1 - p) (hPv : P (FmKey s.hash hv) = 2) (hsep : ∀ x, b.s.Adj w x → P x ≠ p) (hout : ∀ x, b.s.Vertex x → x ∉ keys → P x ≠ 2)
    (hR : ∀ x, R w x → x.part ≠ 2 → R w { x with comp := 0, comm := 0 }) :
    Holds (sfEnter b p (- veloval) w h (s, ch)) (fun r => (∃ F', (F' p w = near b.s P (1 - p) w - b.s.velo w) ∧ F' (1 - p) w = veloval - b.s.velo w ∧
      (∀ j x, x ≠ w → (j = p ∧ b.s.Adj w x → F' j x = F j x - b.s.velo w) ∧ (¬ (j = p ∧ b.s.Adj w x) → F' j x = F j x)) ∧ SMid b.s c keys R (upd P w 2) F' hv r.1 r.2) ∧ SKeep s r.1) := by
  have hq := M.vl h h1 h2 ho
  rw [hk] at hq
  have hself : ¬ b.s.Adj w w := by
    rintro ⟨i, i1, i2, i3⟩
    exact (hc.inside w i hw i1 i2).2 i3
  have hwk : w ∈ keys := hk ▸ M.geo.key h1 h2 ho
  have hhv : h ≠ hv := by
    intro e
    rw [← e, hk, hPw] at hPv
    omega
  have hnch : h ∉ ch := by
    intro hm
    have := (M.chain h hm).2.2.1
    rw [hk, hPw] at this
    omega
  have hst : (s.hash.get h).st = .free ∨ (s.hash.get h).st = .used := by
    rcases e : (s.hash.get h).st with _ | _ | _ | _
    · simp
    · simp
    · have := hq.2 e
      omega
    · exfalso
      rcases M.such h h1 h2 ho e with z | z
      · exact hnch z
      · exact hhv z
  unfold sfEnter
  dsimp only
  rw [Holds_bind]
  refine (M.save h1 h2 ho ?_).mono ?_
  · intro hr
    rw [hk] at hr ⊢
    have e := hq.1.1
    have := hR _ hr (by rw [e]; omega)
    rw [hPw] at e
    rw [← e]
    exact this
  rintro s1 ⟨M1, K1, g1, g2⟩
  have ho1 := (K1.own h ho).1
  have hk1 := (K1.own h ho).2
  have hm1 := K1.msk
  have hlo := M1.geo.hlo
  have hhi := M1.geo.hhi
  have hq1 := M1.vl h h1 (by omega) ho1
  rw [hk1, hk] at hq1
  have hst1 : (s1.hash.get h).st = (s.hash.get h).st := by rw [g1]
  rw [Arr.rd_ok _ (by omega) (by omega), ok_bind, Arr.wr_ok _ _ (by omega) (by omega), ok_bind, Holds_bind, hq1.1.2.1]
  have K2 : SKeep s1 { s1 with hash := s1.hash.set h { s1.hash.get h with v := sfEnterVals p (- veloval) (s1.hash.get h).v } } := SKeep.set rfl rfl
  have M2 := M1.set (h := h) (P' := upd P w 2) (F' := fun j x => if x = w then (if j = p then - b.s.velo w else veloval - b.s.velo w) else F j x) (ch' := ch)
    (x := { s1.hash.get h with v := sfEnterVals p (- veloval) (s1.hash.get h).v }) h1 (by omega) ho1 rfl rfl
    (Or.inl (by rw [g1, K1.mswp])) Iff.rfl ?_ ?_ ?_
  · refine (sfArcsEnd_holds hc ha hb M2 (K2.own h ho1).1 hw (by rw [(K2.own h ho1).2, hk1, hk]) hp ?_ ?_ ?_ hnch).mono ?_
    · intro x hx
      by_cases e : x = w
      · rw [e, upd_same]; simp
      · rw [upd_ne _ _ e]; exact hpp x hx
    · intro x hx
      by_cases e : x = w
      · rw [e, upd_same]; omega
      · rw [upd_ne _ _ e]; exact hsep x hx
    · intro x hx hxk
      rw [upd_ne _ _ (by intro e; rw [e] at hxk; exact hxk hwk)]
      exact hout x hx hxk
    rintro ⟨⟨s3, ch3⟩, n⟩ ⟨⟨F3, hF3, M3⟩, K3, n3, g3, q3⟩
    dsimp only at M3 K3 n3 g3 q3 ⊢
    have K13 := K1.trans (K2.trans K3)
    have ho3 := (K13.own h ho).1
    have hk3 := (K13.own h ho).2
    have hm3 := K13.msk
    have hlo3 := M3.geo.hlo
    have hhi3 := M3.geo.hhi
    rw [Arr.rd_ok _ (by omega) (by omega), ok_bind, Arr.wr_ok _ _ (by omega) (by omega), ok_bind, Holds_pure]
    have K4 : SKeep s3 { s3 with hash := s3.hash.set h { s3.hash.get h with v := sgAdd (s3.hash.get h).v p n, st := if (s3.hash.get h).st = .used then .such else (s3.hash.get h).st } } := SKeep.set rfl rfl
    have hq3 := M3.vl h h1 (by omega) ho3
    rw [hk3, hk] at hq3
    rw [Arr.set_get_same] at g3
    have hst3 : (s3.hash.get h).st = (s.hash.get h).st := by rw [g3]; exact hst1
    have hnear : near b.s (upd P w 2) (1 - p) w = near b.s P (1 - p) w := by
      apply near_congr
      intro x _ hx
      rw [upd_ne _ _ (by intro e; rw [e] at hx; exact hself hx)]
    refine ⟨⟨fun j x => if x = w then F3 j x + (if j = p then n else 0) else F3 j x, ?_, ?_, ?_, ?_⟩, K13.trans K4⟩
    · dsimp only
      rw [if_pos rfl, if_pos rfl, (hF3 p w).2 (fun z => hself z.2), if_pos rfl, if_pos rfl, q3, hnear]
      omega
    · dsimp only
      rw [if_pos rfl, if_neg (by omega), (hF3 _ w).2 (fun z => hself z.2), if_pos rfl, if_neg (by omega)]
      omega
    · intro j x hx
      dsimp only
      rw [if_neg hx]
      have := hF3 j x
      rw [if_neg hx] at this
      exact this
    · refine M3.set h1 (by omega) ho3 rfl rfl (Or.inl ?_) ?_ ?_ ?_ ?_
      · rw [g3]
        dsimp only
        rw [g1, K13.mswp]
      · dsimp only
        rw [hst3]
        rcases hst with e | e <;> rw [e]
        · simp
        · simp [Locked]
      · rw [hk3, hk]
        refine ⟨⟨?_, ?_, ?_⟩, ?_⟩
        · dsimp only; rw [sgAdd_part]; exact hq3.1.1
        · dsimp only; rw [sgAdd_cut]; exact hq3.1.2.1
        · intro h2' j hj
          dsimp only
          rw [if_pos rfl, sgAdd_get _ _ hp hj, hq3.1.2.2 h2' j hj]
        · intro _
          exact upd_same _ _ _
      · intro x hx
        rw [hk3, hk] at hx
        refine ⟨rfl, fun _ j _ => ?_⟩
        rw [if_neg hx]
      · right
        refine ⟨rfl, n3, ?_, ?_, hhv⟩
        · dsimp only
          rw [hst3]
          rcases hst with e | e <;> rw [e] <;> simp
        · rw [hk3, hk]; exact upd_same _ _ _
  · rw [hk1, hk]
    refine ⟨⟨?_, ?_, ?_⟩, ?_⟩
    · rw [upd_same]; rfl
    · exact hq1.1.2.1
    · intro _ j hj
      dsimp only
      obtain ⟨a1, a2⟩ := sfEnterVals_get hp (- veloval) (s1.hash.get h).v
      rw [hq1.1.2.1] at a1 a2
      rw [if_pos rfl]
      by_cases e : j = p
      · rw [if_pos e, e]; exact a1
      · rw [if_neg e, show j = 1 - p by omega, a2]; omega
    · intro _
      exact upd_same _ _ _
  · intro x hx
    rw [hk1, hk] at hx
    refine ⟨upd_ne _ _ hx, fun _ j _ => ?_⟩
    rw [if_neg hx]
  · left
    refine ⟨rfl, fun hm => absurd hm hnch, fun z => ?_, fun e => absurd e hhv⟩
    rw [hst1] at z
    rcases hst with e | e <;> rw [e] at z <;> simp at z

end Scotch.Separ
