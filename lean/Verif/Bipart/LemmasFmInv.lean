import Verif.Bipart.LemmasFmHash
import Verif.Bipart.LemmasFmVals

/-! # Fiduccia-Mattheyses refinement: invariants -/

set_option autoImplicit false
set_option linter.unusedSimpArgs false

namespace Scotch.Bipart
open Graph
open Coarsen (IsMask land land_mask)
open Hash (Tab Path probe probe_in probe_succ probe_surj)

/-- The hash table holds the vertices of a list, and the list of locked slots is right. -/
structure FmGeo (b : Bgraph) (keys : List Int) (s : Fm) : Prop where
  mask : IsMask s.msk
  max : s.max * 4 = s.msk + 1
  hlo : s.hash.lo = 0
  hhi : s.hash.hi = s.msk + 1
  slo : s.save.lo = 0
  shi : s.save.hi = s.msk + 1
  tab : FmTab s.hash s.msk keys
  vert : ∀ k ∈ keys, b.s.Vertex k
  room : (keys.length : Int) < s.msk + 1 ∨ ∀ v, b.s.Vertex v → v ∈ keys
  nbr : s.nbr = keys.length ∨ ∀ v, b.s.Vertex v → v ∈ keys
  mswp : ∀ h, 0 ≤ h → h < s.msk + 1 → (FmOwn s.hash h → 0 ≤ (s.hash.get h).mswp ∧ (s.hash.get h).mswp ≤ s.mswp) ∧ (¬ FmOwn s.hash h → (s.hash.get h).mswp = -1)
  nodup : s.lock.Nodup
  lock : ∀ h, h ∈ s.lock ↔ (0 ≤ h ∧ h < s.msk + 1) ∧ FmOwn s.hash h ∧ (s.hash.get h).st = .used

/-- Saved slots, and slots that are not saved, hold the values of the best partition. -/
structure FmSv (b : Bgraph) (keys : List Int) (pb : Int → Int) (s : Fm) : Prop where
  cur : CurOk b pb s.bst
  out : ∀ v, b.s.Vertex v → v ∉ keys → pb v = xorP (b.part v) s.bst.swap ∧ Inner b.s pb v
  vals : ∀ h, 0 ≤ h → h < s.msk + 1 → FmOwn s.hash h → (s.hash.get h).mswp ≠ s.mswp → (s.hash.get h).v = fmVals b pb (FmKey s.hash h)
  nonneg : 0 ≤ s.savenbr
  sv : ∀ i, 0 ≤ i → i < s.savenbr → (0 ≤ (s.save.get i).hashnum ∧ (s.save.get i).hashnum < s.msk + 1) ∧ FmOwn s.hash (s.save.get i).hashnum ∧
    (s.hash.get (s.save.get i).hashnum).mswp = s.mswp ∧ (s.save.get i).v = fmVals b pb (FmKey s.hash (s.save.get i).hashnum)
  inj : ∀ i j, 0 ≤ i → i < s.savenbr → 0 ≤ j → j < s.savenbr → (s.save.get i).hashnum = (s.save.get j).hashnum → i = j
  all : ∀ h, 0 ≤ h → h < s.msk + 1 → FmOwn s.hash h → (s.hash.get h).mswp = s.mswp → ∃ i, 0 ≤ i ∧ i < s.savenbr ∧ (s.save.get i).hashnum = h

/-- Each slot holds the values of its vertex for a partition that depends on the vertex. Vertices that are not in the table are inner ones. -/
structure FmVl (b : Bgraph) (keys : List Int) (r : Int → Int → Int) (s : Fm) : Prop where
  vals : ∀ h, 0 ≤ h → h < s.msk + 1 → FmOwn s.hash h → (s.hash.get h).v = fmVals b (r (FmKey s.hash h)) (FmKey s.hash h)
  out : ∀ v, b.s.Vertex v → v ∉ keys → r v v = xorP (b.part v) s.cur.swap ∧ Inner b.s (r v) v

/-- What the loops on arcs and slots do not change. -/
structure FmKeep (s s' : Fm) : Prop where
  mswp : s'.mswp = s.mswp
  cur : s'.cur = s.cur
  bst : s'.bst = s.bst
  dltmin : s'.dltmin = s.dltmin
  dltmax : s'.dltmax = s.dltmax
  moveflag : s'.moveflag = s.moveflag
  movenbr : s'.movenbr = s.movenbr
  clock : s'.clock = s.clock
  lock : s'.lock.length = s.lock.length

theorem FmKeep.refl (s : Fm) : FmKeep s s := ⟨rfl, rfl, rfl, rfl, rfl, rfl, rfl, rfl, rfl⟩

theorem FmKeep.trans {s s' s'' : Fm} (h : FmKeep s s') (k : FmKeep s' s'') : FmKeep s s'' :=
  ⟨k.mswp.trans h.mswp, k.cur.trans h.cur, k.bst.trans h.bst, k.dltmin.trans h.dltmin, k.dltmax.trans h.dltmax, k.moveflag.trans h.moveflag, k.movenbr.trans h.movenbr, k.clock.trans h.clock, k.lock.trans h.lock⟩

variable {b : Bgraph} {keys : List Int} {p pb : Int → Int} {r : Int → Int → Int} {s : Fm} {h : Int}

/-- An injection that misses a value. -/
theorem inj_room {n m h : Int} {f : Int → Int} (hn : 0 ≤ n) (h1 : 0 ≤ h) (h2 : h < m) (hf : ∀ i, 0 ≤ i → i < n → (0 ≤ f i ∧ f i < m) ∧ f i ≠ h)
    (hi : ∀ i j, 0 ≤ i → i < n → 0 ≤ j → j < n → f i = f j → i = j) : n < m := by
  have hcard : (Finset.Ico (0 : Int) n).card ≤ ((Finset.Ico (0 : Int) m).erase h).card := by
    refine Finset.card_le_card_of_injOn f ?_ ?_
    · intro x hx
      rw [Finset.mem_coe, Finset.mem_Ico] at hx
      rw [Finset.mem_coe, Finset.mem_erase, Finset.mem_Ico]
      have := hf x hx.1 hx.2
      exact ⟨this.2, this.1⟩
    · intro x hx y hy hxy
      rw [Finset.mem_coe, Finset.mem_Ico] at hx hy
      exact hi x y hx.1 hx.2 hy.1 hy.2 hxy
  rw [Finset.card_erase_of_mem (by rw [Finset.mem_Ico]; exact ⟨h1, h2⟩), Int.card_Ico, Int.card_Ico] at hcard
  omega

theorem FmSv.room (V : FmSv b keys pb s) (h1 : 0 ≤ h) (h2 : h < s.msk + 1) (hn : FmOwn s.hash h → (s.hash.get h).mswp ≠ s.mswp) : s.savenbr < s.msk + 1 := by
  refine inj_room V.nonneg h1 h2 (fun i i1 i2 => ?_) V.inj
  obtain ⟨a, c, d, _⟩ := V.sv i i1 i2
  refine ⟨a, ?_⟩
  intro e
  rw [e] at c d
  exact hn c d

theorem Arr.set_self {α : Type} (a : Arr α) (i : Int) : a.set i (a.get i) = a := by
  unfold Arr.set
  congr 1
  funext j
  by_cases h : j = i
  · rw [if_pos h, h]
  · rw [if_neg h]

section upd
variable {t : Arr FmSlot} {x : FmSlot}

theorem FmOwn_set (hx : x.vertnum = (t.get h).vertnum) : FmOwn (t.set h x) = FmOwn t := by
  funext j
  unfold FmOwn
  by_cases e : j = h
  · rw [e, Arr.set_get_same, hx]
  · rw [Arr.set_get_ne _ _ e]

theorem FmKey_set (hx : x.vertnum = (t.get h).vertnum) : FmKey (t.set h x) = FmKey t := by
  funext j
  unfold FmKey
  by_cases e : j = h
  · rw [e, Arr.set_get_same, hx]
  · rw [Arr.set_get_ne _ _ e]

/-- Change of a slot that keeps its vertex. -/
theorem FmGeo.upd (G : FmGeo b keys s) {x : FmSlot} (hx : x.vertnum = (s.hash.get h).vertnum) (hm : FmOwn s.hash h → 0 ≤ x.mswp ∧ x.mswp ≤ s.mswp) (hn : FmOwn s.hash h)
    (hs : x.st = .used ↔ (s.hash.get h).st = .used) : FmGeo b keys { s with hash := s.hash.set h x } := by
  have o := FmOwn_set hx
  have k := FmKey_set hx
  refine ⟨G.mask, G.max, G.hlo, G.hhi, G.slo, G.shi, ?_, G.vert, G.room, G.nbr, ?_, G.nodup, ?_⟩
  · have := G.tab
    unfold FmTab at *
    dsimp only
    rw [o, k]
    exact this
  · intro j j1 j2
    dsimp only
    rw [o]
    by_cases e : j = h
    · subst e
      rw [Arr.set_get_same]
      exact ⟨hm, fun hc => absurd hn hc⟩
    · rw [Arr.set_get_ne _ _ e]
      exact G.mswp j j1 j2
  · intro j
    dsimp only
    rw [G.lock, o]
    by_cases e : j = h
    · rw [e, Arr.set_get_same, hs]
    · rw [Arr.set_get_ne _ _ e]

/-- Change of the values of a slot that is saved. -/
theorem FmSv.upd (V : FmSv b keys pb s) {x : FmSlot} (hx : x.vertnum = (s.hash.get h).vertnum) (hm : x.mswp = s.mswp) (hm' : (s.hash.get h).mswp = s.mswp) : FmSv b keys pb { s with hash := s.hash.set h x } := by
  have o := FmOwn_set hx
  have k := FmKey_set hx
  have mm : ∀ j, ((s.hash.set h x).get j).mswp = (s.hash.get j).mswp := by
    intro j
    by_cases e : j = h
    · rw [e, Arr.set_get_same, hm, hm']
    · rw [Arr.set_get_ne _ _ e]
  refine ⟨V.cur, V.out, ?_, V.nonneg, ?_, V.inj, ?_⟩
  · intro j j1 j2
    dsimp only
    rw [o, k, mm]
    intro hj hne
    have e : j ≠ h := by intro e; rw [e, hm'] at hne; exact hne rfl
    rw [Arr.set_get_ne _ _ e]
    exact V.vals j j1 j2 hj hne
  · intro i i1 i2
    dsimp only
    rw [o, k, mm]
    exact V.sv i i1 i2
  · intro j j1 j2
    dsimp only
    rw [o, mm]
    exact V.all j j1 j2

/-- Change of the values of a slot. -/
theorem FmVl.upd (V : FmVl b keys r s) {x : FmSlot} {r' : Int → Int → Int} (hx : x.vertnum = (s.hash.get h).vertnum) (hv : FmOwn s.hash h → x.v = fmVals b (r' (FmKey s.hash h)) (FmKey s.hash h))
    (hr : ∀ j, 0 ≤ j → j < s.msk + 1 → FmOwn s.hash j → j ≠ h → fmVals b (r' (FmKey s.hash j)) (FmKey s.hash j) = fmVals b (r (FmKey s.hash j)) (FmKey s.hash j)) (ho : ∀ v, b.s.Vertex v → v ∉ keys → r' v v = r v v ∧ (Inner b.s (r v) v → Inner b.s (r' v) v)) :
    FmVl b keys r' { s with hash := s.hash.set h x } := by
  have o := FmOwn_set hx
  have k := FmKey_set hx
  refine ⟨?_, ?_⟩
  · intro j j1 j2
    dsimp only
    rw [o, k]
    intro hj
    by_cases e : j = h
    · subst e
      rw [Arr.set_get_same]
      exact hv hj
    · rw [Arr.set_get_ne _ _ e, hr j j1 j2 hj e]
      exact V.vals j j1 j2 hj
  · intro v hv hn
    dsimp only
    obtain ⟨a1, a2⟩ := V.out v hv hn
    obtain ⟨b1, b2⟩ := ho v hv hn
    exact ⟨b1.trans a1, b2 a2⟩

end upd

/-- Slots are saved at most once. -/
theorem fmSaveOnce_holds (G : FmGeo b keys s) (S : FmSv b keys pb s) (V : FmVl b keys r s) (h1 : 0 ≤ h) (h2 : h < s.msk + 1) (ho : FmOwn s.hash h) :
    Holds (fmSaveOnce s h) (fun s' => (∃ sv n, s' = { s with save := sv, savenbr := n, hash := s.hash.set h { s.hash.get h with mswp := s.mswp } }) ∧ FmGeo b keys s' ∧ FmSv b keys pb s' ∧ FmVl b keys r s') := by
  have hlo := G.hlo
  have hhi := G.hhi
  unfold fmSaveOnce
  rw [Arr.rd_ok _ (by omega) (by omega), ok_bind]
  by_cases hm : (s.hash.get h).mswp ≠ s.mswp
  · rw [if_pos hm]
    have hroom := S.room h1 h2 (fun _ => hm)
    have hnn := S.nonneg
    have slo := G.slo
    have shi := G.shi
    unfold fmSave
    rw [Arr.rd_ok _ (by omega) (by omega), ok_bind, Arr.wr_ok _ _ (by omega) (by omega), ok_bind, Arr.wr_ok _ _ (by omega) (by omega), ok_bind, Holds_pure]
    have hmw := (G.mswp h h1 h2).1 ho
    have G' := G.upd (h := h) (x := { s.hash.get h with mswp := s.mswp }) rfl (fun _ => ⟨by dsimp only; omega, Int.le_refl _⟩) ho Iff.rfl
    have V' := V.upd (h := h) (x := { s.hash.get h with mswp := s.mswp }) (r' := r) rfl (fun hh => V.vals h h1 h2 hh) (fun _ _ _ _ _ => rfl) (fun _ _ _ => ⟨rfl, id⟩)
    have o : FmOwn (s.hash.set h { s.hash.get h with mswp := s.mswp }) = FmOwn s.hash := FmOwn_set rfl
    have k : FmKey (s.hash.set h { s.hash.get h with mswp := s.mswp }) = FmKey s.hash := FmKey_set rfl
    refine ⟨⟨_, _, rfl⟩, ?_, ?_, ?_⟩
    · exact ⟨G'.mask, G'.max, G'.hlo, G'.hhi, slo, shi, G'.tab, G'.vert, G'.room, G'.nbr, G'.mswp, G'.nodup, G'.lock⟩
    · refine ⟨S.cur, S.out, ?_, by dsimp only; omega, ?_, ?_, ?_⟩
      · intro j j1 j2
        dsimp only
        rw [o, k]
        intro hj hne
        have e : j ≠ h := by intro e; rw [e, Arr.set_get_same] at hne; exact hne rfl
        rw [Arr.set_get_ne _ _ e] at hne ⊢
        exact S.vals j j1 j2 hj hne
      · intro i i1 i2
        dsimp only at i2 ⊢
        rw [o, k]
        by_cases e : i = s.savenbr
        · subst e
          rw [Arr.set_get_same]
          dsimp only
          rw [Arr.set_get_same]
          exact ⟨⟨h1, h2⟩, ho, rfl, S.vals h h1 h2 ho hm⟩
        · rw [Arr.set_get_ne _ _ e]
          obtain ⟨a, c, d, f⟩ := S.sv i i1 (by omega)
          refine ⟨a, c, ?_, f⟩
          by_cases e' : (s.save.get i).hashnum = h
          · rw [e', Arr.set_get_same]
          · rw [Arr.set_get_ne _ _ e']; exact d
      · intro i j i1 i2 j1 j2 hij
        dsimp only at i2 j2 hij
        have hne : ∀ i, 0 ≤ i → i < s.savenbr → (s.save.get i).hashnum ≠ h := by
          intro i i1 i2 e
          have := (S.sv i i1 i2).2.2.1
          rw [e] at this
          exact hm this
        by_cases ei : i = s.savenbr
        · by_cases ej : j = s.savenbr
          · omega
          · rw [ei, Arr.set_get_same, Arr.set_get_ne _ _ ej] at hij
            exact absurd hij.symm (hne j j1 (by omega))
        · by_cases ej : j = s.savenbr
          · rw [ej, Arr.set_get_same, Arr.set_get_ne _ _ ei] at hij
            exact absurd hij (hne i i1 (by omega))
          · rw [Arr.set_get_ne _ _ ei, Arr.set_get_ne _ _ ej] at hij
            exact S.inj i j i1 (by omega) j1 (by omega) hij
      · intro j j1 j2
        dsimp only
        rw [o]
        intro hj hmj
        by_cases e : j = h
        · exact ⟨s.savenbr, hnn, by omega, by rw [Arr.set_get_same, e]⟩
        · rw [Arr.set_get_ne _ _ e] at hmj
          obtain ⟨i, i1, i2, i3⟩ := S.all j j1 j2 hj hmj
          exact ⟨i, i1, by omega, by rw [Arr.set_get_ne _ _ (by omega)]; exact i3⟩
    · exact ⟨V'.vals, V'.out⟩
  · rw [if_neg hm, Holds_pure]
    have hm' : (s.hash.get h).mswp = s.mswp := by omega
    have e : s.hash.set h { s.hash.get h with mswp := s.mswp } = s.hash := by
      rw [← hm']
      exact Arr.set_self _ _
    exact ⟨⟨s.save, s.savenbr, by rw [e]⟩, G, S, V⟩

/-! ## Change of size -/

theorem fmLastFree_holds {t : Arr FmSlot} (h0 : t.lo ≤ 0) : ∀ (n : Nat) (h : Int), h < t.hi → h < n → (∃ x, 0 ≤ x ∧ x ≤ h ∧ ¬ FmOwn t x) →
    Holds (fmLastFree t n h) (fun r => 0 ≤ r ∧ r ≤ h ∧ ¬ FmOwn t r) := by
  intro n
  induction n with
  | zero =>
    rintro h _ h2 ⟨x, x1, x2, _⟩
    omega
  | succ n ih =>
    rintro h hh h2 ⟨x, x1, x2, x3⟩
    unfold fmLastFree
    rw [Arr.rd_ok _ (by omega) hh, ok_bind]
    by_cases ho : (t.get h).vertnum ≠ -1
    · rw [if_pos ho]
      have hx : x ≠ h := by intro e; rw [e] at x3; exact x3 ho
      refine (ih (h - 1) (by omega) (by push_cast at h2; omega) ⟨x, x1, by omega, x3⟩).mono ?_
      rintro y ⟨y1, y2, y3⟩
      exact ⟨y1, by omega, y3⟩
    · rw [if_neg ho, Holds_pure]
      exact ⟨by omega, Int.le_refl _, ho⟩

theorem path_scanned {N sta p k : Int} {own : Int → Prop} (s1 : 0 ≤ sta) (s2 : sta < N) (hs : ¬ own sta) (p1 : 0 ≤ p) (p2 : p < N) (hp : own p) {d : Nat} (hd : probe fmPrime N k d = p)
    (hpath : ∀ d' < d, own (probe fmPrime N k d')) (d' : Nat) (h : d' < d) :
    (sta < p → sta ≤ probe fmPrime N k d' ∧ probe fmPrime N k d' < p) ∧ (p < sta → (sta ≤ probe fmPrime N k d' ∧ probe fmPrime N k d' < N) ∨ (0 ≤ probe fmPrime N k d' ∧ probe fmPrime N k d' < p)) := by
  have hN : 0 < N := by omega
  have hsub : ∀ j : Nat, j ≤ d → probe fmPrime N k (d - j) = (p - j) % N := by
    intro j hj
    rw [← hd]
    unfold probe
    rw [Int.emod_sub_emod]
    congr 1
    omega
  have key : ∀ j : Nat, j ≤ d → 0 < j → p - j ≠ sta ∧ p - j + N ≠ sta := by
    intro j hj h0
    have ho := hpath (d - j) (by omega)
    rw [hsub j hj] at ho
    constructor
    · intro e
      rw [e, Int.emod_eq_of_lt s1 s2] at ho
      exact hs ho
    · intro e
      have : (p - j) % N = sta := by
        rw [← e, ← Int.add_emod_right]
        exact Int.emod_eq_of_lt (by omega) (by omega)
      rw [this] at ho
      exact hs ho
  have hps : p ≠ sta := fun e => hs (by rw [← e]; exact hp)
  have e := hsub (d - d') (by omega)
  rw [show d - (d - d') = d' by omega] at e
  rw [e]
  constructor
  · intro hlt
    have hle : ((d - d' : Nat) : Int) < p - sta := by
      by_contra hc
      have := (key (p - sta).toNat (by omega) (by omega)).1
      omega
    rw [Int.emod_eq_of_lt (by omega) (by omega)]
    omega
  · intro hlt
    have hle : ((d - d' : Nat) : Int) < p - sta + N := by
      by_contra hc
      have := (key (p - sta + N).toNat (by omega) (by omega)).2
      omega
    by_cases hneg : 0 ≤ p - ((d - d' : Nat) : Int)
    · right
      rw [Int.emod_eq_of_lt hneg (by omega)]
      omega
    · left
      have : (p - ((d - d' : Nat) : Int)) % N = p - ((d - d' : Nat) : Int) + N := by
        rw [← Int.add_emod_right]
        exact Int.emod_eq_of_lt (by omega) (by omega)
      rw [this]
      omega

theorem IsMask.half {m : Int} (h : IsMask m) : IsMask (2 * m + 1) := by
  have := h.double
  rwa [show m * 2 + 1 = 2 * m + 1 by omega] at this

/-- The table after the change of size holds the same slots, at other places. -/
structure Moved (t : Arr FmSlot) (N : Int) (t' : Arr FmSlot) (msk' : Int) : Prop where
  inj : ∀ x y, 0 ≤ x → x < msk' + 1 → 0 ≤ y → y < msk' + 1 → FmOwn t' x → FmKey t' x = FmKey t' y → x = y
  cont : ∀ x : FmSlot, x.vertnum ≠ -1 → ((∃ y, 0 ≤ y ∧ y < msk' + 1 ∧ t'.get y = x) ↔ ∃ y, 0 ≤ y ∧ y < N ∧ t.get y = x)

theorem rehash_holds {t : Arr FmSlot} {N : Int} (hN : 0 < N) (hm : IsMask (2 * N - 1)) {T0 : Arr FmSlot} (ht0 : T0.lo = 0) (ht1 : T0.hi = 2 * N) (htl : ∀ x, x < N → T0.get x = t.get x)
    (htu : ∀ x, N ≤ x → T0.get x = FmSlot.empty) (T : Tab fmPrime N (FmOwn t) (FmKey t) keys) (hroom : (keys.length : Int) < N) (hk : ∀ k ∈ keys, 0 ≤ k)
    (hmw : ∀ y, 0 ≤ y → y < N → ¬ FmOwn t y → (t.get y).mswp = -1) :
    Holds (do
      let sta ← fmLastFree T0 (N.toNat + 1) (N - 1)
      let r ← forUp sta N (T0, ([] : List Int)) (fmRehash (2 * N - 1))
      forUp 0 sta r (fmRehash (2 * N - 1))) (fun r => r.1.lo = 0 ∧ r.1.hi = 2 * N ∧ Tab fmPrime (2 * N) (FmOwn r.1) (FmKey r.1) keys ∧ Moved t N r.1 (2 * N - 1) ∧
        (∀ y, 0 ≤ y → y < 2 * N → ¬ FmOwn r.1 y → (r.1.get y).mswp = -1) ∧ r.2.Nodup ∧ ∀ y, y ∈ r.2 ↔ (0 ≤ y ∧ y < 2 * N) ∧ FmOwn r.1 y ∧ (r.1.get y).st = .used) := by
  have ol : ∀ x, x < N → (FmOwn T0 x ↔ FmOwn t x) := by intro x hx; unfold FmOwn; rw [htl x hx]
  have ou : ∀ x, N ≤ x → ¬ FmOwn T0 x := by intro x hx; unfold FmOwn; rw [htu x hx]; simp [FmSlot.empty]
  have kl : ∀ x, x < N → FmKey T0 x = FmKey t x := by intro x hx; unfold FmKey; rw [htl x hx]
  obtain ⟨x0, a1, a2, a3⟩ := T.free hroom
  rw [Holds_bind]
  refine (fmLastFree_holds (by omega) (N.toNat + 1) (N - 1) (by omega) (by omega) ⟨x0, a1, by omega, fun h => a3 ((ol _ a2).1 h)⟩).mono ?_
  rintro sta ⟨s1, s2, s3⟩
  have s3' : ¬ FmOwn t sta := fun h => s3 ((ol _ (by omega)).2 h)
  have hpth : ∀ p, 0 ≤ p → p < N → FmOwn T0 p → ∃ d, probe fmPrime N (FmKey T0 p) d = p ∧ ∀ d' < d, (sta < p → sta ≤ probe fmPrime N (FmKey T0 p) d' ∧ probe fmPrime N (FmKey T0 p) d' < p) ∧
      (p < sta → (sta ≤ probe fmPrime N (FmKey T0 p) d' ∧ probe fmPrime N (FmKey T0 p) d' < N) ∨ (0 ≤ probe fmPrime N (FmKey T0 p) d' ∧ probe fmPrime N (FmKey T0 p) d' < p)) := by
    intro p p1 p2 hp
    obtain ⟨d, d1, d2⟩ := T.path p p1 p2 ((ol p p2).1 hp)
    rw [kl p p2]
    exact ⟨d, d1, fun d' hd' => path_scanned s1 (by omega) s3' p1 p2 ((ol p p2).1 hp) d1 (fun e he => (d2 e he).1) d' hd'⟩
  have hkey : ∀ p, 0 ≤ p → p < N → FmOwn T0 p → 0 ≤ FmKey T0 p := by
    intro p p1 p2 hp
    rw [kl p p2]
    exact hk _ ((T.mem _).2 ⟨p, p1, p2, (ol p p2).1 hp, rfl⟩)
  have R0 : Reh N T0 (fun x => sta ≤ x ∧ x < sta) T0 [] := by
    refine ⟨ht0, ht1, fun _ _ _ _ => rfl, fun x x1 x2 _ => ou _ (by omega), ?_, ?_, ?_, ?_, List.nodup_nil, ?_⟩
    · intro y y1 y2 hy hys
      omega
    · intro x y x1 x2 y1 y2 hx hxy
      have hxN : x < N := by by_contra hc; exact ou x (by omega) hx
      have hy : FmOwn T0 y := by unfold FmOwn at hx ⊢; unfold FmKey at hxy; rw [← hxy]; exact hx
      have hyN : y < N := by by_contra hc; exact ou y (by omega) hy
      rw [kl x hxN, kl y hyN] at hxy
      exact T.uniq x1 hxN y1 hyN ((ol x hxN).1 hx) ((ol y hyN).1 hy) hxy
    · intro x hx
      constructor
      · rintro ⟨y, y1, y2, y3⟩
        have hyN : y < N := by
          by_contra hc
          exact ou y (by omega) (by unfold FmOwn; rw [y3]; exact hx)
        exact ⟨y, y1, hyN, y3⟩
      · rintro ⟨y, y1, y2, y3⟩
        exact ⟨y, y1, by omega, y3⟩
    · intro y y1 y2 hy
      by_cases hyN : y < N
      · rw [htl y hyN]; exact hmw y y1 hyN (fun h => hy ((ol y hyN).2 h))
      · rw [htu y (by omega)]; rfl
    · intro y
      constructor
      · intro h; simp at h
      · rintro ⟨_, _, h, _⟩; omega
  rw [Holds_bind]
  refine Holds_forUp (fun i r => Reh N T0 (fun x => sta ≤ x ∧ x < i) r.1 r.2) (by omega) R0 ?_ ?_
  · rintro i ⟨t1, l1⟩ i1 i2 R
    have e : (fun x => sta ≤ x ∧ x < i + 1) = (fun x => (sta ≤ x ∧ x < i) ∨ x = i) := by
      funext x; apply propext; omega
    rw [e]
    refine fmRehash_holds hm R (by omega) i2 (by omega) (hkey i (by omega) i2) ?_
    intro ho
    obtain ⟨d, d1, d2⟩ := hpth i (by omega) i2 ho
    refine ⟨d, d1, fun d' hd' => ?_⟩
    have hne : sta < i := by
      by_contra hc
      exact s3 (by rw [show sta = i by omega]; exact ho)
    exact (d2 d' hd').1 hne
  · intro r1 R1
    have e : (fun x => sta ≤ x ∧ x < N) = (fun x => (sta ≤ x ∧ x < N) ∨ (0 ≤ x ∧ x < 0)) := by
      funext x; apply propext; omega
    rw [e] at R1
    refine Holds_forUp (fun i r => Reh N T0 (fun x => (sta ≤ x ∧ x < N) ∨ (0 ≤ x ∧ x < i)) r.1 r.2) s1 R1 ?_ ?_
    · rintro i ⟨t1, l1⟩ i1 i2 R
      have e : (fun x => (sta ≤ x ∧ x < N) ∨ (0 ≤ x ∧ x < i + 1)) = (fun x => ((sta ≤ x ∧ x < N) ∨ (0 ≤ x ∧ x < i)) ∨ x = i) := by
        funext x; apply propext; omega
      rw [e]
      refine fmRehash_holds hm R (by omega) (by omega) (by omega) (hkey i (by omega) (by omega)) ?_
      intro ho
      obtain ⟨d, d1, d2⟩ := hpth i (by omega) (by omega) ho
      exact ⟨d, d1, fun d' hd' => (d2 d' hd').2 i2⟩
    · intro r2 R2
      have hall : ∀ y, 0 ≤ y → y < 2 * N → ((sta ≤ y % N ∧ y % N < N) ∨ (0 ≤ y % N ∧ y % N < sta)) := by
        intro y y1 y2
        have := Int.emod_nonneg y (show N ≠ 0 by omega)
        have := Int.emod_lt_of_pos y hN
        omega
      have hcont : ∀ x : FmSlot, x.vertnum ≠ -1 → ((∃ y, 0 ≤ y ∧ y < 2 * N ∧ r2.1.get y = x) ↔ ∃ y, 0 ≤ y ∧ y < N ∧ t.get y = x) := by
        intro x hx
        rw [R2.cont x hx]
        constructor
        · rintro ⟨y, y1, y2, y3⟩; exact ⟨y, y1, y2, by rw [← htl y y2]; exact y3⟩
        · rintro ⟨y, y1, y2, y3⟩; exact ⟨y, y1, y2, by rw [htl y y2]; exact y3⟩
      refine ⟨R2.lo, R2.hi, ⟨by omega, ?_, ?_, T.nodup⟩, ⟨?_, ?_⟩, R2.mswp, R2.nodup, ?_⟩
      · intro y y1 y2 hy
        obtain ⟨d, d1, d2⟩ := R2.fin y y1 y2 hy (hall y y1 y2)
        have hex : ∃ d, probe fmPrime (2 * N) (FmKey r2.1 y) d = y := ⟨d, d1⟩
        classical
        have hD := Nat.find_spec hex
        have hmin := fun d (h : d < Nat.find hex) => Nat.find_min hex h
        have hle : Nat.find hex ≤ d := Nat.find_le d1
        generalize Nat.find hex = D at hD hmin hle
        refine ⟨D, hD, fun d' hd' => ⟨(d2 d' (by omega)).1, ?_⟩⟩
        intro he
        have hin := probe_in (prime := fmPrime) (show 0 < 2 * N by omega) (FmKey r2.1 y) d'
        exact hmin d' hd' (R2.inj y _ y1 y2 hin.1 hin.2 hy he.symm).symm
      · intro k
        rw [T.mem]
        constructor
        · rintro ⟨y, y1, y2, y3, y4⟩
          obtain ⟨z, z1, z2, z3⟩ := (hcont (t.get y) y3).2 ⟨y, y1, y2, rfl⟩
          exact ⟨z, z1, z2, by unfold FmOwn; rw [z3]; exact y3, by unfold FmKey; rw [z3]; exact y4⟩
        · rintro ⟨y, y1, y2, y3, y4⟩
          obtain ⟨z, z1, z2, z3⟩ := (hcont (r2.1.get y) y3).1 ⟨y, y1, y2, rfl⟩
          exact ⟨z, z1, z2, by unfold FmOwn; rw [z3]; exact y3, by unfold FmKey; rw [z3]; exact y4⟩
      · rw [show 2 * N - 1 + 1 = 2 * N by omega]; exact R2.inj
      · rw [show 2 * N - 1 + 1 = 2 * N by omega]; exact hcont
      · intro y
        rw [R2.lock]
        constructor
        · rintro ⟨c1, c2, _, c4⟩; exact ⟨c1, c2, c4⟩
        · rintro ⟨c1, c2, c4⟩; exact ⟨c1, c2, hall y c1.1 c1.2, c4⟩

end Scotch.Bipart
