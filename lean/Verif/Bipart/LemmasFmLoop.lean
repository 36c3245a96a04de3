import Verif.Bipart.LemmasFmPass
import Mathlib.Order.WellFounded

/-! # Fiduccia-Mattheyses refinement: loops -/

set_option autoImplicit false
set_option linter.unusedSimpArgs false

namespace Scotch.Bipart
open Graph
open Coarsen (IsMask land land_mask)
open Hash (Tab Path probe probe_in probe_succ probe_surj)

variable {b : Bgraph} {keys : List Int} {p pb : Int → Int} {r r' : Int → Int → Int} {s s' s0 : Fm} {h u w e mit mat : Int}

/-- The search in the gain table returns slots that hold vertices, that are in the table, and whose move is allowed. -/
def PickOk (pick : FmPick) : Prop :=
  ∀ n (hash : Arr FmSlot) dlt mn mx h, pick n hash dlt mn mx = some h → (hash.lo ≤ h ∧ h < hash.hi) ∧ (hash.get h).vertnum ≠ -1 ∧ (hash.get h).st = .link ∧
    mn ≤ dlt + (hash.get h).v.comp ∧ dlt + (hash.get h).v.comp ≤ mx

/-- The number of locked slots is bounded. -/
theorem FmGeo.lock_le (hc : ConsE b.s) (G : FmGeo b keys s) : (s.lock.length : Int) ≤ b.s.vertnbr := by
  have hn : (s.lock.map (FmKey s.hash)).Nodup := by
    refine List.Nodup.map_on ?_ G.nodup
    intro x hx y hy hxy
    rw [G.lock] at hx hy
    exact G.tab.uniq hx.1.1 hx.1.2 hy.1.1 hy.1.2 hx.2.1 hy.2.1 hxy
  have hsub : (s.lock.map (FmKey s.hash)).toFinset ⊆ Finset.Ico b.s.baseval b.s.vertnnd := by
    intro k hk
    rw [List.mem_toFinset, List.mem_map] at hk
    obtain ⟨y, hy, rfl⟩ := hk
    rw [G.lock] at hy
    have := G.vert _ ((G.tab.mem _).2 ⟨y, hy.1.1, hy.1.2, hy.2.1, rfl⟩)
    rw [Finset.mem_Ico]
    exact ⟨this.1, this.2⟩
  have := Finset.card_le_card hsub
  rw [List.toFinset_card_of_nodup hn, List.length_map, Int.card_Ico] at this
  have := hc.vertnnd
  have := hc.vertnbr
  omega

theorem fmStep_holds (hc : ConsE b.s) (ha : Alloc b) (hb : 0 ≤ b.s.baseval) (hpart : Parts b.s b.part) (junk : Int → FmSave) {pick : FmPick} (hpick : PickOk pick) (movemax : Int)
    (I : FmInv b keys p pb s) (T : FmTrk b mit mat s0 s) :
    Holds (fmStep junk pick b movemax mit mat s) (Loop.Sat (fun s' => (∃ keys' p' pb', FmInv b keys' p' pb' s' ∧ FmTrk b mit mat s0 s') ∧ s'.lock.length = s.lock.length + 1)
      (fun s' => ∃ keys' p' pb', FmInv b keys' p' pb' s' ∧ FmTrk b mit mat s0 s')) := by
  have I0 : FmInv b keys p pb { s with clock := s.clock + 1 } := by
    obtain ⟨G, S, V, C, M⟩ := I
    exact ⟨⟨G.mask, G.max, G.hlo, G.hhi, G.slo, G.shi, G.tab, G.vert, G.room, G.nbr, G.mswp, G.nodup, G.lock⟩, ⟨S.cur, S.out, S.vals, S.nonneg, S.sv, S.inj, S.all⟩, ⟨V.vals, V.out⟩, C, M⟩
  have T0 : FmTrk b mit mat s0 { s with clock := s.clock + 1 } := ⟨T.rng, T.le, T.flag, T.bal⟩
  unfold fmStep
  by_cases hmv : s.movenbr < movemax
  · rw [if_pos hmv]
    dsimp only
    cases hpk : pick s.clock s.hash s.cur.dlt s.dltmin s.dltmax with
    | none =>
      rw [Holds_pure]
      exact ⟨keys, p, pb, I0, T0⟩
    | some h =>
      obtain ⟨q1, q2, q3, q4, q5⟩ := hpick _ _ _ _ _ _ hpk
      have hlo := I.geo.hlo
      have hhi := I.geo.hhi
      rw [Holds_bind]
      refine (fmMove_holds hc ha hb hpart junk I0 (h := h) (by omega) (by dsimp only; omega) q2 q3).mono ?_
      rintro s1 ⟨keys1, I1, K1, d1⟩
      dsimp only at d1
      have T1 : FmTrk b mit mat s0 s1 := by
        refine ⟨?_, ?_, ?_, ?_⟩
        · rw [K1.dltmin, K1.dltmax]; exact T.rng
        · have := T.le
          unfold FmLt FmSame at *
          rw [K1.dltmin, K1.dltmax, K1.bst]
          exact this
        · intro hf
          rw [K1.moveflag] at hf
          have := T.flag hf
          unfold FmLt at *
          rw [K1.dltmin, K1.dltmax, K1.bst]
          exact this
        · intro hx
          have := T.bal hx
          rw [K1.dltmin, K1.dltmax, K1.bst, d1]
          exact ⟨⟨q4, q5⟩, this.2⟩
      obtain ⟨pb2, I2⟩ := fmCompare_inv I1
      obtain ⟨pb3, I3⟩ := fmTighten_inv (mit := mit) (mat := mat) I2
      have T3 := T1.compare.tighten
      rw [Holds_bind]
      refine (fmSwap_holds hc ha hpart I3 T3).mono ?_
      rintro s4 ⟨p4, pb4, I4, T4, l4, _⟩
      rw [Holds_pure, Loop.Sat_next]
      refine ⟨⟨keys1, p4, pb4, I4, T4⟩, ?_⟩
      rw [l4, fmTighten_lock, fmCompare_lock.1, K1.lock]
  · rw [if_neg hmv, Holds_pure]
    exact ⟨keys, p, pb, I, T⟩

/-! ## Start of a pass -/

/-- What is known between passes: slots that are not saved, and saved slots, hold the values of the best partition. -/
structure FmRdy (b : Bgraph) (keys : List Int) (pb : Int → Int) (s : Fm) : Prop where
  geo : FmGeo b keys s
  cur : CurOk b pb s.bst
  out : ∀ v, b.s.Vertex v → v ∉ keys → pb v = xorP (b.part v) s.bst.swap ∧ Inner b.s pb v
  vals : ∀ h, 0 ≤ h → h < s.msk + 1 → FmOwn s.hash h → (∀ i, 0 ≤ i → i < s.savenbr → (s.save.get i).hashnum ≠ h) → (s.hash.get h).v = fmVals b pb (FmKey s.hash h)
  nonneg : 0 ≤ s.savenbr
  sv : ∀ i, 0 ≤ i → i < s.savenbr → (0 ≤ (s.save.get i).hashnum ∧ (s.save.get i).hashnum < s.msk + 1) ∧ FmOwn s.hash (s.save.get i).hashnum ∧ (s.save.get i).v = fmVals b pb (FmKey s.hash (s.save.get i).hashnum)
  inj : ∀ i j, 0 ≤ i → i < s.savenbr → 0 ≤ j → j < s.savenbr → (s.save.get i).hashnum = (s.save.get j).hashnum → i = j
  mswp : 0 ≤ s.mswp

theorem FmInv.ready (I : FmInv b keys p pb s) : FmRdy b keys pb s := by
  obtain ⟨G, S, V, C, M⟩ := I
  refine ⟨G, S.cur, S.out, ?_, S.nonneg, fun i i1 i2 => ⟨(S.sv i i1 i2).1, (S.sv i i1 i2).2.1, (S.sv i i1 i2).2.2.2⟩, S.inj, M⟩
  intro y y1 y2 hy hn
  refine S.vals y y1 y2 hy ?_
  intro hm
  obtain ⟨i, i1, i2, i3⟩ := S.all y y1 y2 hy hm
  exact hn i i1 i2 i3

theorem FmRdy.save_lt (S : FmRdy b keys pb s) (i : Int) (i1 : 0 ≤ i) (i2 : i < s.savenbr) : i < s.msk + 1 := by
  have : (Finset.Ico (0 : Int) s.savenbr).card ≤ (Finset.Ico (0 : Int) (s.msk + 1)).card := by
    refine Finset.card_le_card_of_injOn (fun i => (s.save.get i).hashnum) ?_ ?_
    · intro x hx
      rw [Finset.mem_coe, Finset.mem_Ico] at hx ⊢
      exact (S.sv x hx.1 hx.2).1
    · intro x hx y hy hxy
      rw [Finset.mem_coe, Finset.mem_Ico] at hx hy
      exact S.inj x y hx.1 hx.2 hy.1 hy.2 hxy
  rw [Int.card_Ico, Int.card_Ico] at this
  omega

theorem fmRestore_holds (S : FmRdy b keys pb s) :
    Holds (forUp 0 s.savenbr s.hash fun i a => fmRestore s a (s.savenbr - 1 - i)) (fun t => t.lo = 0 ∧ t.hi = s.msk + 1 ∧
      (∀ y, (t.get y).vertnum = (s.hash.get y).vertnum ∧ (t.get y).mswp = (s.hash.get y).mswp ∧ ((t.get y).st = .used ↔ (s.hash.get y).st = .used)) ∧
      ∀ y, 0 ≤ y → y < s.msk + 1 → FmOwn s.hash y → (t.get y).v = fmVals b pb (FmKey s.hash y)) := by
  have hnn := S.nonneg
  have hlo := S.geo.hlo
  have hhi := S.geo.hhi
  have slo := S.geo.slo
  have shi := S.geo.shi
  have hle := S.save_lt
  refine Holds_forUp (fun i t => t.lo = 0 ∧ t.hi = s.msk + 1 ∧
      (∀ y, (t.get y).vertnum = (s.hash.get y).vertnum ∧ (t.get y).mswp = (s.hash.get y).mswp ∧ ((t.get y).st = .used ↔ (s.hash.get y).st = .used)) ∧
      (∀ n, s.savenbr - i ≤ n → n < s.savenbr → (t.get (s.save.get n).hashnum).v = (s.save.get n).v) ∧
      ∀ y, (∀ n, s.savenbr - i ≤ n → n < s.savenbr → (s.save.get n).hashnum ≠ y) → (t.get y).v = (s.hash.get y).v) hnn
    ⟨hlo, hhi, fun _ => ⟨rfl, rfl, Iff.rfl⟩, fun n n1 n2 => by omega, fun _ _ => rfl⟩ ?_ ?_
  · rintro i t i1 i2 ⟨t1, t2, t3, t4, t5⟩
    obtain ⟨c1, c2, c4⟩ := S.sv (s.savenbr - 1 - i) (by omega) (by omega)
    have := hle (s.savenbr - 1 - i) (by omega) (by omega)
    unfold fmRestore
    rw [Arr.rd_ok _ (by omega) (by omega), ok_bind, Arr.rd_ok _ (by omega) (by omega), ok_bind, Arr.wr_ok _ _ (by omega) (by omega), Holds_ok]
    generalize hx : ({ t.get (s.save.get (s.savenbr - 1 - i)).hashnum with v := (s.save.get (s.savenbr - 1 - i)).v } : FmSlot) = x
    have x1 : x.vertnum = (t.get (s.save.get (s.savenbr - 1 - i)).hashnum).vertnum := by rw [← hx]
    have x2 : x.v = (s.save.get (s.savenbr - 1 - i)).v := by rw [← hx]
    have x3 : x.mswp = (t.get (s.save.get (s.savenbr - 1 - i)).hashnum).mswp := by rw [← hx]
    have x4 : x.st = (t.get (s.save.get (s.savenbr - 1 - i)).hashnum).st := by rw [← hx]
    generalize hy : (if (if x.st = FmSt.link then { x with st := FmSt.free } else x).st = FmSt.free ∧ (s.save.get (s.savenbr - 1 - i)).v.part = 2 then
      { (if x.st = FmSt.link then { x with st := FmSt.free } else x) with st := FmSt.link } else (if x.st = FmSt.link then { x with st := FmSt.free } else x)) = y
    have y1 : y.vertnum = x.vertnum ∧ y.v = x.v ∧ y.mswp = x.mswp ∧ (y.st = .used ↔ x.st = .used) := by
      rw [← hy]
      by_cases q1 : x.st = .link <;> by_cases q2 : x.st = .free <;> by_cases q3 : (s.save.get (s.savenbr - 1 - i)).v.part = 2 <;> simp [q1, q2, q3] <;> simp_all
    obtain ⟨w1, w2, w3, w4⟩ := y1
    refine ⟨t1, t2, ?_, ?_, ?_⟩
    · intro z
      by_cases c : z = (s.save.get (s.savenbr - 1 - i)).hashnum
      · rw [c, Arr.set_get_same, w1, w3, w4, x1, x3, x4]
        exact t3 _
      · rw [Arr.set_get_ne _ _ c]
        exact t3 z
    · intro n n1 n2
      by_cases c : n = s.savenbr - 1 - i
      · rw [c, Arr.set_get_same, w2, x2]
      · have : (s.save.get n).hashnum ≠ (s.save.get (s.savenbr - 1 - i)).hashnum := by
          intro c'
          exact c (S.inj _ _ (by omega) n2 (by omega) (by omega) c')
        rw [Arr.set_get_ne _ _ this]
        exact t4 n (by omega) n2
    · intro z hz
      rw [Arr.set_get_ne _ _ (fun c => hz (s.savenbr - 1 - i) (by omega) (by omega) c.symm)]
      exact t5 z (fun n n1 n2 => hz n (by omega) n2)
  · rintro t ⟨t1, t2, t3, t4, t5⟩
    refine ⟨t1, t2, t3, ?_⟩
    intro y y1 y2 hy
    by_cases hm : ∃ i, 0 ≤ i ∧ i < s.savenbr ∧ (s.save.get i).hashnum = y
    · obtain ⟨i, i1, i2, i3⟩ := hm
      have := t4 i (by omega) i2
      rw [i3] at this
      rw [this]
      have := (S.sv i i1 i2).2.2
      rw [i3] at this
      exact this
    · rw [t5 y ?_]
      · exact S.vals y y1 y2 hy (fun i i1 i2 c => hm ⟨i, i1, i2, c⟩)
      · intro n n1 n2 c
        exact hm ⟨n, by omega, n2, c⟩

theorem fmUnlock_holds (all : Bool) : ∀ (l : List Int) (t : Arr FmSlot), (∀ h ∈ l, t.lo ≤ h ∧ h < t.hi) → Holds (l.foldlM (fmUnlock all) t) (fun t' => t'.lo = t.lo ∧ t'.hi = t.hi ∧
    (∀ y, (t'.get y).vertnum = (t.get y).vertnum ∧ (t'.get y).mswp = (t.get y).mswp ∧ (t'.get y).v = (t.get y).v) ∧ ∀ y, (t'.get y).st = .used → (t.get y).st = .used ∧ y ∉ l) := by
  intro l
  induction l with
  | nil =>
    intro t _
    rw [List.foldlM_nil, Holds_pure]
    exact ⟨rfl, rfl, fun _ => ⟨rfl, rfl, rfl⟩, fun y hy => ⟨hy, List.not_mem_nil⟩⟩
  | cons h l ih =>
    intro t hl
    have hh := hl h List.mem_cons_self
    rw [List.foldlM_cons, Holds_bind]
    unfold fmUnlock
    rw [Arr.rd_ok _ hh.1 hh.2, ok_bind, Arr.wr_ok _ _ hh.1 hh.2, Holds_ok]
    generalize hx : (if all = true ∨ (t.get h).v.cut > 0 then FmSt.link else FmSt.free) = st
    have hst : st ≠ .used := by rw [← hx]; split <;> decide
    refine (ih (t.set h { t.get h with st := st }) (fun y hy => hl y (List.mem_cons_of_mem _ hy))).mono ?_
    rintro t' ⟨t1, t2, t3, t4⟩
    refine ⟨t1, t2, ?_, ?_⟩
    · intro y
      obtain ⟨c1, c2, c3⟩ := t3 y
      by_cases c : y = h
      · rw [c] at c1 c2 c3 ⊢
        rw [Arr.set_get_same] at c1 c2 c3
        exact ⟨c1, c2, c3⟩
      · rw [Arr.set_get_ne _ _ c] at c1 c2 c3
        exact ⟨c1, c2, c3⟩
    · intro y hy
      obtain ⟨c1, c2⟩ := t4 y hy
      by_cases c : y = h
      · rw [c, Arr.set_get_same] at c1
        exact absurd c1 hst
      · rw [Arr.set_get_ne _ _ c] at c1
        refine ⟨c1, ?_⟩
        rw [List.mem_cons]
        rintro (z | z)
        · exact c z
        · exact c2 z

/-- Invariant between passes. -/
structure FmEnd (b : Bgraph) (mit mat : Int) (s0 s : Fm) : Prop where
  inv : ∃ keys pb, FmRdy b keys pb s
  rng : s0.dltmin ≤ s.dltmin ∧ s.dltmin ≤ mit ∧ mat ≤ s.dltmax ∧ s.dltmax ≤ s0.dltmax
  le : FmLt s s0 ∨ FmSame s s0
  bal : b.veextax = none → s.dltmin ≤ s.bst.dlt ∧ s.bst.dlt ≤ s.dltmax

theorem fmPass_holds (hc : ConsE b.s) (ha : Alloc b) (hb : 0 ≤ b.s.baseval) (hpart : Parts b.s b.part) (junk : Int → FmSave) {pick : FmPick} (hpick : PickOk pick) (all : Bool) (movemax : Int)
    (E : FmEnd b mit mat s0 s) :
    Holds (fmPass junk pick b all movemax mit mat s) (fun s' => FmEnd b mit mat s0 s' ∧ (s'.moveflag = true → FmLt s' s ∧ s'.dltmin ≤ mit ∧ mat ≤ s'.dltmax)) := by
  obtain ⟨⟨keys, pb, S⟩, hr, hle, hbal⟩ := E
  have G := S.geo
  have M := S.mswp
  have hlo := G.hlo
  have hhi := G.hhi
  unfold fmPass
  rw [Holds_bind]
  refine (fmRestore_holds S).mono ?_
  rintro t ⟨t1, t2, t3, t4⟩
  rw [Holds_bind]
  refine (fmUnlock_holds all s.lock t (fun h hh => by have := ((G.lock h).1 hh).1; omega)).mono ?_
  rintro t' ⟨t1', t2', t3', t4'⟩
  have ho : FmOwn t' = FmOwn s.hash := by
    funext y
    unfold FmOwn
    rw [(t3' y).1, (t3 y).1]
  have hk : FmKey t' = FmKey s.hash := by
    funext y
    unfold FmKey
    rw [(t3' y).1, (t3 y).1]
  have hmw : ∀ y, (t'.get y).mswp = (s.hash.get y).mswp := fun y => by rw [(t3' y).2.1, (t3 y).2.1]
  have hv : ∀ y, 0 ≤ y → y < s.msk + 1 → FmOwn s.hash y → (t'.get y).v = fmVals b pb (FmKey s.hash y) := fun y y1 y2 y3 => by rw [(t3' y).2.2]; exact t4 y y1 y2 y3
  have I1 : FmInv b keys pb pb { s with hash := t', cur := s.bst, mswp := s.mswp + 1, lock := [], moveflag := false, movenbr := 0, savenbr := 0 } := by
    refine ⟨⟨G.mask, G.max, by dsimp only; omega, by dsimp only; omega, G.slo, G.shi, ?_, G.vert, G.room, G.nbr, ?_, List.nodup_nil, ?_⟩, ⟨S.cur, S.out, ?_, Int.le_refl _, ?_, ?_, ?_⟩, ⟨?_, S.out⟩, S.cur, by dsimp only; omega⟩
    · have := G.tab
      unfold FmTab at *
      dsimp only
      rw [ho, hk]
      exact this
    · intro y y1 y2
      dsimp only
      rw [ho, hmw]
      refine ⟨fun z => ?_, (G.mswp y y1 y2).2⟩
      have := (G.mswp y y1 y2).1 z
      omega
    · intro y
      dsimp only
      rw [ho]
      constructor
      · intro z; exact absurd z List.not_mem_nil
      · rintro ⟨z1, z2, z3⟩
        obtain ⟨z4, z5⟩ := t4' y z3
        exact absurd ((G.lock y).2 ⟨z1, z2, (t3 y).2.2.1 z4⟩) z5
    · intro y y1 y2
      dsimp only
      rw [ho, hk]
      intro hy _
      exact hv y y1 y2 hy
    · intro i i1 i2
      dsimp only at i2
      omega
    · intro i j i1 i2
      dsimp only at i2
      omega
    · intro y y1 y2
      dsimp only
      rw [ho, hmw]
      intro hy hm
      have := (G.mswp y y1 y2).1 hy
      omega
    · intro y y1 y2
      dsimp only
      rw [ho, hk]
      exact hv y y1 y2
  have T1 : FmTrk b mit mat { s with hash := t', cur := s.bst, mswp := s.mswp + 1, lock := [], moveflag := false, movenbr := 0, savenbr := 0 } { s with hash := t', cur := s.bst, mswp := s.mswp + 1, lock := [], moveflag := false, movenbr := 0, savenbr := 0 } :=
    ⟨⟨Int.le_refl _, hr.2.1, hr.2.2.1, Int.le_refl _⟩, Or.inr ⟨rfl, rfl, rfl, rfl⟩, fun hf => absurd hf Bool.false_ne_true, fun hx => ⟨hbal hx, hbal hx⟩⟩
  refine Holds_loopM (fun s' => ∃ keys' p' pb', FmInv b keys' p' pb' s' ∧ FmTrk b mit mat { s with hash := t', cur := s.bst, mswp := s.mswp + 1, lock := [], moveflag := false, movenbr := 0, savenbr := 0 } s')
    (fun s' => (b.s.vertnbr - s'.lock.length).toNat) ?_ _ _ ⟨_, _, _, I1, T1⟩ ?_
  · rintro s' ⟨keys', p', pb', I', T'⟩
    refine (fmStep_holds hc ha hb hpart junk hpick movemax I' T').mono ?_
    intro l hl
    refine Loop.Sat.mono hl ?_ ?_
    · rintro s'' ⟨⟨keys'', p'', pb'', I'', T''⟩, l''⟩
      refine ⟨⟨keys'', p'', pb'', I'', T''⟩, ?_⟩
      have := I''.geo.lock_le hc
      omega
    · rintro s'' ⟨keys'', p'', pb'', I'', T''⟩
      refine ⟨⟨⟨keys'', pb'', I''.ready⟩, ?_, ?_, fun hx => (T''.bal hx).2⟩, ?_⟩
      · have := T''.rng
        dsimp only at this
        omega
      · have := T''.le
        have := T''.rng
        unfold FmLt FmSame at *
        dsimp only at *
        omega
      · intro hf
        have := T''.flag hf
        have := T''.rng
        unfold FmLt FmSame at *
        dsimp only at *
        omega
  · have := hc.vertnbr
    dsimp only
    rw [List.length_nil]
    omega

/-! ## Termination -/

theorem loopM_wf {σ ρ α : Type} {rel : α → α → Prop} (wf : WellFounded rel) (μ : σ → α) {step : σ → M (Loop σ ρ)} {Q : ρ → Prop} (I : σ → Prop)
    (hstep : ∀ s, I s → Holds (step s) (Loop.Sat (fun s' => I s' ∧ rel (μ s') (μ s)) Q)) : ∀ s, I s → ∃ n, ∀ fuel, n ≤ fuel → Holds (loopM step fuel s) Q := by
  intro s
  refine (InvImage.wf μ wf).induction (C := fun s => I s → ∃ n, ∀ fuel, n ≤ fuel → Holds (loopM step fuel s) Q) s ?_
  intro s ih hI
  obtain ⟨l, hl, hs⟩ := Holds_iff_exists.1 (hstep s hI)
  cases l with
  | brk x =>
    refine ⟨1, fun fuel hf => ?_⟩
    obtain ⟨k, rfl⟩ : ∃ k, fuel = k + 1 := ⟨fuel - 1, by omega⟩
    rw [loopM, hl, ok_bind]
    exact hs
  | next x =>
    obtain ⟨n, hn⟩ := ih x hs.2 hs.1
    refine ⟨n + 1, fun fuel hf => ?_⟩
    obtain ⟨k, rfl⟩ : ∃ k, fuel = k + 1 := ⟨fuel - 1, by omega⟩
    rw [loopM, hl, ok_bind]
    exact hn k (by omega)

/-- Lower bound on the communication load. -/
def commLow (b : Bgraph) : Int := b.commloadextn0 + sumI b.s.baseval b.s.vertnnd (fun v => - |b.veex v|)

theorem cut_nonneg {g : Graph} (hc : ConsE g) : 0 ≤ cut g p := by
  unfold cut over
  apply sumI_nonneg
  intro v h1 h2
  split
  · unfold linkTo
    apply List.sum_nonneg
    intro x hx
    rw [List.mem_map] at hx
    obtain ⟨q, hq, rfl⟩ := hx
    obtain ⟨e, e1, e2, e3, e4⟩ := (mem_nbrs g v q).1 hq
    split
    · rw [← e4]; exact hc.edlo v e ⟨h1, h2⟩ e1 e2
    · exact Int.le_refl _
  · exact Int.le_refl _

theorem CurOk.low {c : FmCur} (hc : ConsE b.s) (hd : 0 ≤ b.domndist) (h : CurOk b p c) : commLow b ≤ c.comm := by
  have h1 := cut_nonneg (p := p) hc
  have h2 : 0 ≤ cut b.s p * b.domndist := Int.mul_nonneg h1 hd
  have h3 : sumI b.s.baseval b.s.vertnnd (fun v => - |b.veex v|) ≤ over b.s p 1 b.veex := by
    apply sumI_mono
    intro v _ _
    have := neg_abs_le (b.veex v)
    have := abs_nonneg (b.veex v)
    split <;> omega
  have := h.comm
  unfold commLow
  omega

theorem fmPasses_holds (hc : ConsE b.s) (ha : Alloc b) (hb : 0 ≤ b.s.baseval) (hpart : Parts b.s b.part) (hd : 0 ≤ b.domndist) (junk : Int → FmSave) {pick : FmPick} (hpick : PickOk pick) (all : Bool) (movemax passnbr : Int)
    (E : FmEnd b mit mat s0 s) :
    ∃ n, ∀ fuel, n ≤ fuel → Holds (fmPasses junk pick b all movemax mit mat fuel (s, passnbr)) (fun s' => FmEnd b mit mat s0 s') := by
  unfold fmPasses
  have wf : WellFounded (Prod.Lex (fun a c : Nat => a < c) (Prod.Lex (fun a c : Nat => a < c) (fun a c : Nat => a < c))) :=
    WellFounded.prod_lex Nat.lt_wfRel.wf (WellFounded.prod_lex Nat.lt_wfRel.wf Nat.lt_wfRel.wf)
  refine loopM_wf wf (fun x : Fm × Int => ((x.1.dltmax - x.1.dltmin - (mat - mit)).toNat, (x.1.bst.comm - commLow b).toNat, (|x.1.bst.dlt|).toNat)) (fun x => FmEnd b mit mat s0 x.1) ?_ (s, passnbr) E
  rintro ⟨s1, n1⟩ E1
  dsimp only at E1 ⊢
  rw [Holds_bind]
  refine (fmPass_holds hc ha hb hpart junk hpick all movemax E1).mono ?_
  rintro s2 ⟨E2, F2⟩
  by_cases hf : s2.moveflag = true ∧ n1 - 1 ≠ 0
  · rw [if_pos hf, Holds_pure, Loop.Sat_next]
    refine ⟨E2, ?_⟩
    obtain ⟨lt, _, _⟩ := F2 hf.1
    rw [Prod.lex_def]
    dsimp only
    rw [Prod.lex_def]
    dsimp only
    obtain ⟨_, _, I1⟩ := E1.inv
    obtain ⟨_, _, I2⟩ := E2.inv
    have c1 := I1.cur.low hc hd
    have c2 := I2.cur.low hc hd
    have r1 := E1.rng
    have r2 := E2.rng
    have a1 := abs_nonneg s1.bst.dlt
    have a2 := abs_nonneg s2.bst.dlt
    unfold FmLt at lt
    omega
  · rw [if_neg hf, Holds_pure]
    exact E2

end Scotch.Bipart
