import Verif.Separ.LemmasFm5
import Verif.Bipart.LemmasFmLoop

/-! # Fiduccia-Mattheyses refinement of separators: loop on passes -/

set_option autoImplicit false
set_option linter.unusedSimpArgs false

namespace Scotch.Separ
open Graph
open Bipart (FmVals FmSlot FmSave FmSt FmCur Fm FmOwn FmKey FmTab fmFree fmSearch fmPrime FmOwn_set FmKey_set over fmRestore loopM_wf)
open Hash (Tab probe probe_in)
open Coarsen (IsMask)

variable {b : Vgraph} {keys : List Int} {s s0 : Fm} {pb P : Int → Int}

/-- State between passes: slots that are not saved, and saved slots, hold the values of the best separator. -/
structure SRdy (b : Vgraph) (keys : List Int) (pb : Int → Int) (s : Fm) : Prop where
  mask : IsMask s.msk
  max : s.max * 4 = s.msk + 1
  hlo : s.hash.lo = 0
  hhi : s.hash.hi = s.msk + 1
  slo : s.save.lo = 0
  shi : s.save.hi = s.msk + 1
  tab : FmTab s.hash s.msk keys
  vert : ∀ k ∈ keys, b.s.Vertex k
  nbr : s.nbr = keys.length
  fit : Fit b keys s
  mswp : ∀ h, 0 ≤ h → h < s.msk + 1 → (s.hash.get h).mswp ≤ s.mswp ∧ (¬ FmOwn s.hash h → (s.hash.get h).mswp = -1)
  mpos : -1 ≤ s.mswp
  lockr : ∀ h ∈ s.lock, 0 ≤ h ∧ h < s.msk + 1
  lock : ∀ h, 0 ≤ h → h < s.msk + 1 → FmOwn s.hash h → (s.hash.get h).st ≠ .such ∧ ((s.hash.get h).st = .used → h ∈ s.lock)
  vals : ∀ h, 0 ≤ h → h < s.msk + 1 → FmOwn s.hash h → (∀ i, 0 ≤ i → i < s.savenbr → (s.save.get i).hashnum ≠ h) → Vals b.s pb (gains b.s pb) (FmKey s.hash h) (s.hash.get h).v ∧ ((s.hash.get h).st = .link → (s.hash.get h).v.part = 2)
  nonneg : 0 ≤ s.savenbr
  sv : ∀ i, 0 ≤ i → i < s.savenbr → (0 ≤ (s.save.get i).hashnum ∧ (s.save.get i).hashnum < s.msk + 1) ∧ FmOwn s.hash (s.save.get i).hashnum ∧ Vals b.s pb (gains b.s pb) (FmKey s.hash (s.save.get i).hashnum) (s.save.get i).v
  inj : ∀ i j, 0 ≤ i → i < s.savenbr → 0 ≤ j → j < s.savenbr → (s.save.get i).hashnum = (s.save.get j).hashnum → i = j
  out : ∀ x, b.s.Vertex x → x ∉ keys → pb x = b.part x ∧ b.part x ≠ 2
  bst : SBst b pb s.bst

theorem SOk.ready (O : SOk b keys pb P s) : SRdy b keys pb s := by
  have I := O.inv
  have G := I.geo
  have S := I.sv
  refine ⟨G.mask, G.max, G.hlo, G.hhi, G.slo, G.shi, G.tab, G.vert, G.nbr, O.fit, G.mswp, ?_, fun h hh => ((G.lock h).1 hh).1, ?_, ?_, S.nonneg, fun i i1 i2 => ⟨(S.sv i i1 i2).1, (S.sv i i1 i2).2.1, (S.sv i i1 i2).2.2.2⟩, S.inj,
    fun x hx hk => (I.out x hx hk).2, O.bst⟩
  · have := G.mpos
    omega
  · intro y y1 y2 hy
    exact ⟨I.such y y1 y2 hy, fun z => (G.lock y).2 ⟨⟨y1, y2⟩, hy, Or.inl z⟩⟩
  · intro y y1 y2 hy hn
    refine ⟨S.vals y y1 y2 hy ?_, fun z => ?_⟩
    · intro hm
      obtain ⟨i, i1, i2, i3⟩ := S.all y y1 y2 hy hm
      exact hn i i1 i2 i3
    · obtain ⟨⟨a1, _, _⟩, a4⟩ := I.vl y y1 y2 hy
      rw [a1]
      exact a4 z

theorem SRdy.save_lt (S : SRdy b keys pb s) (i : Int) (i1 : 0 ≤ i) (i2 : i < s.savenbr) : i < s.msk + 1 := by
  have : (Finset.Ico (0 : Int) s.savenbr).card ≤ (Finset.Ico (0 : Int) (s.msk + 1)).card := by
    refine Finset.card_le_card_of_injOn (fun i => (s.save.get i).hashnum) ?_ ?_
    · intro x hx
      rw [Finset.mem_coe, Finset.mem_Ico] at hx ⊢
      exact (S.sv x hx.1 hx.2).1
    · intro x hx y hy hxy
      rw [Finset.mem_coe, Finset.mem_Ico] at hx hy
      exact S.inj x y hx.1 hx.2 hy.1 hy.2 hxy
  rw [Int.card_Ico, Int.card_Ico] at this
  omega

theorem sfRestore_holds (S : SRdy b keys pb s) :
    Holds (forUp 0 s.savenbr s.hash fun i a => fmRestore s a (s.savenbr - 1 - i)) (fun t => t.lo = 0 ∧ t.hi = s.msk + 1 ∧
      (∀ y, (t.get y).vertnum = (s.hash.get y).vertnum ∧ (t.get y).mswp = (s.hash.get y).mswp ∧ ((t.get y).st = .used ↔ (s.hash.get y).st = .used) ∧ ((t.get y).st = .such ↔ (s.hash.get y).st = .such)) ∧
      ∀ y, 0 ≤ y → y < s.msk + 1 → FmOwn s.hash y → Vals b.s pb (gains b.s pb) (FmKey s.hash y) (t.get y).v ∧ ((t.get y).st = .link → (t.get y).v.part = 2)) := by
  have hnn := S.nonneg
  have hlo := S.hlo
  have hhi := S.hhi
  have slo := S.slo
  have shi := S.shi
  have hle := S.save_lt
  refine Holds_forUp (fun i t => t.lo = 0 ∧ t.hi = s.msk + 1 ∧
      (∀ y, (t.get y).vertnum = (s.hash.get y).vertnum ∧ (t.get y).mswp = (s.hash.get y).mswp ∧ ((t.get y).st = .used ↔ (s.hash.get y).st = .used) ∧ ((t.get y).st = .such ↔ (s.hash.get y).st = .such)) ∧
      (∀ n, s.savenbr - i ≤ n → n < s.savenbr → (t.get (s.save.get n).hashnum).v = (s.save.get n).v ∧ ((t.get (s.save.get n).hashnum).st = .link → (s.save.get n).v.part = 2)) ∧
      ∀ y, (∀ n, s.savenbr - i ≤ n → n < s.savenbr → (s.save.get n).hashnum ≠ y) → t.get y = s.hash.get y) hnn
    ⟨hlo, hhi, fun _ => ⟨rfl, rfl, Iff.rfl, Iff.rfl⟩, fun n n1 n2 => by omega, fun _ _ => rfl⟩ ?_ ?_
  · rintro i t i1 i2 ⟨t1, t2, t3, t4, t5⟩
    obtain ⟨c1, c2, c4⟩ := S.sv (s.savenbr - 1 - i) (by omega) (by omega)
    have := hle (s.savenbr - 1 - i) (by omega) (by omega)
    unfold fmRestore
    rw [Arr.rd_ok _ (by omega) (by omega), ok_bind, Arr.rd_ok _ (by omega) (by omega), ok_bind, Arr.wr_ok _ _ (by omega) (by omega), Holds_ok]
    generalize hx : ({ t.get (s.save.get (s.savenbr - 1 - i)).hashnum with v := (s.save.get (s.savenbr - 1 - i)).v } : FmSlot) = x
    have x1 : x.vertnum = (t.get (s.save.get (s.savenbr - 1 - i)).hashnum).vertnum := by rw [← hx]
    have x2 : x.v = (s.save.get (s.savenbr - 1 - i)).v := by rw [← hx]
    have x3 : x.mswp = (t.get (s.save.get (s.savenbr - 1 - i)).hashnum).mswp := by rw [← hx]
    have x4 : x.st = (t.get (s.save.get (s.savenbr - 1 - i)).hashnum).st := by rw [← hx]
    generalize hy : (if (if x.st = FmSt.link then { x with st := FmSt.free } else x).st = FmSt.free ∧ (s.save.get (s.savenbr - 1 - i)).v.part = 2 then
      { (if x.st = FmSt.link then { x with st := FmSt.free } else x) with st := FmSt.link } else (if x.st = FmSt.link then { x with st := FmSt.free } else x)) = y
    have y1 : y.vertnum = x.vertnum ∧ y.v = x.v ∧ y.mswp = x.mswp ∧ (y.st = .used ↔ x.st = .used) ∧ (y.st = .such ↔ x.st = .such) ∧ (y.st = .link → (s.save.get (s.savenbr - 1 - i)).v.part = 2) := by
      rw [← hy]
      by_cases q1 : x.st = .link <;> by_cases q2 : x.st = .free <;> by_cases q3 : (s.save.get (s.savenbr - 1 - i)).v.part = 2 <;> simp [q1, q2, q3] <;> simp_all
    obtain ⟨w1, w2, w3, w4, w5, w6⟩ := y1
    refine ⟨t1, t2, ?_, ?_, ?_⟩
    · intro z
      by_cases c : z = (s.save.get (s.savenbr - 1 - i)).hashnum
      · rw [c, Arr.set_get_same, w1, w3, w4, w5, x1, x3, x4]
        exact t3 _
      · rw [Arr.set_get_ne _ _ c]
        exact t3 z
    · intro n n1 n2
      by_cases c : n = s.savenbr - 1 - i
      · rw [c, Arr.set_get_same, w2, x2]
        exact ⟨rfl, w6⟩
      · have : (s.save.get n).hashnum ≠ (s.save.get (s.savenbr - 1 - i)).hashnum := by
          intro c'
          exact c (S.inj _ _ (by omega) n2 (by omega) (by omega) c')
        rw [Arr.set_get_ne _ _ this]
        exact t4 n (by omega) n2
    · intro z hz
      rw [Arr.set_get_ne _ _ (fun c => hz (s.savenbr - 1 - i) (by omega) (by omega) c.symm)]
      exact t5 z (fun n n1 n2 => hz n (by omega) n2)
  · rintro t ⟨t1, t2, t3, t4, t5⟩
    refine ⟨t1, t2, t3, ?_⟩
    intro y y1 y2 hy
    by_cases hm : ∃ i, 0 ≤ i ∧ i < s.savenbr ∧ (s.save.get i).hashnum = y
    · obtain ⟨i, i1, i2, i3⟩ := hm
      have := t4 i (by omega) i2
      rw [i3] at this
      rw [this.1]
      have h2 := (S.sv i i1 i2).2.2
      rw [i3] at h2
      exact ⟨h2, this.2⟩
    · rw [t5 y ?_]
      · exact S.vals y y1 y2 hy (fun i i1 i2 c => hm ⟨i, i1, i2, c⟩)
      · intro n n1 n2 c
        exact hm ⟨n, by omega, n2, c⟩

theorem sfUnlock_holds : ∀ (l : List Int) (t : Arr FmSlot), (∀ h ∈ l, t.lo ≤ h ∧ h < t.hi) → Holds (l.foldlM sfUnlock t) (fun t' => t'.lo = t.lo ∧ t'.hi = t.hi ∧
    (∀ y, (t'.get y).vertnum = (t.get y).vertnum ∧ (t'.get y).mswp = (t.get y).mswp ∧ (t'.get y).v = (t.get y).v) ∧
    ∀ y, ((t'.get y).st = (t.get y).st ∧ y ∉ l) ∨ ((t'.get y).st = if (t.get y).v.part = 2 then .link else .free)) := by
  intro l
  induction l with
  | nil =>
    intro t _
    rw [List.foldlM_nil, Holds_pure]
    exact ⟨rfl, rfl, fun _ => ⟨rfl, rfl, rfl⟩, fun y => Or.inl ⟨rfl, List.not_mem_nil⟩⟩
  | cons h l ih =>
    intro t hl
    have hh := hl h List.mem_cons_self
    rw [List.foldlM_cons, Holds_bind]
    unfold sfUnlock
    rw [Arr.rd_ok _ hh.1 hh.2, ok_bind, Arr.wr_ok _ _ hh.1 hh.2, Holds_ok]
    refine (ih (t.set h { t.get h with st := if (t.get h).v.part = 2 then .link else .free }) (fun y hy => hl y (List.mem_cons_of_mem _ hy))).mono ?_
    rintro t' ⟨t1, t2, t3, t4⟩
    refine ⟨t1, t2, ?_, ?_⟩
    · intro y
      obtain ⟨c1, c2, c3⟩ := t3 y
      by_cases c : y = h
      · rw [c] at c1 c2 c3 ⊢
        rw [Arr.set_get_same] at c1 c2 c3
        exact ⟨c1, c2, c3⟩
      · rw [Arr.set_get_ne _ _ c] at c1 c2 c3
        exact ⟨c1, c2, c3⟩
    · intro y
      have := t4 y
      by_cases c : y = h
      · rw [c, Arr.set_get_same] at this
        rw [c]
        rcases this with z | z
        · exact Or.inr z.1
        · exact Or.inr z
      · rw [Arr.set_get_ne _ _ c] at this
        rcases this with z | z
        · exact Or.inl ⟨z.1, fun w => (List.mem_cons.1 w).elim c z.2⟩
        · exact Or.inr z

/-- Start of a pass. -/
theorem sfStart_holds (hd0 : 0 ≤ b.s.degrmax) (dltmax : Int) (S : SRdy b keys pb s) {t : Arr FmSlot} (t1 : t.lo = 0) (t2 : t.hi = s.msk + 1)
    (t3 : ∀ y, (t.get y).vertnum = (s.hash.get y).vertnum ∧ (t.get y).mswp = (s.hash.get y).mswp)
    (t4 : ∀ y, 0 ≤ y → y < s.msk + 1 → FmOwn s.hash y → Vals b.s pb (gains b.s pb) (FmKey s.hash y) (t.get y).v ∧ ((t.get y).st = .link → (t.get y).v.part = 2) ∧ (t.get y).st ≠ .used ∧ (t.get y).st ≠ .such) :
    SOk b keys pb pb { s with hash := t, cur := s.bst, dltmax := dltmax, mswp := s.mswp + 1, lock := [], moveflag := false, movenbr := 0, savenbr := 0 } := by
  have ho : FmOwn t = FmOwn s.hash := by
    funext y
    unfold FmOwn
    rw [(t3 y).1]
  have hk : FmKey t = FmKey s.hash := by
    funext y
    unfold FmKey
    rw [(t3 y).1]
  have hfit := S.fit
  refine ⟨⟨⟨S.mask, S.max, t1, t2, S.slo, S.shi, ?_, S.vert, ?_, hd0, S.nbr, ?_, ?_, List.nodup_nil, ?_⟩, ⟨?_, Int.le_refl _, ?_, ?_, ?_⟩, ?_, ?_, S.bst.parts, S.bst.sep, ?_, S.bst.cur⟩, hfit, S.bst⟩
  · have := S.tab
    unfold FmTab at *
    dsimp only
    rw [ho, hk]
    exact this
  · unfold Fit at hfit
    dsimp only
    omega
  · intro y y1 y2
    dsimp only
    rw [ho, (t3 y).2]
    obtain ⟨a1, a2⟩ := S.mswp y y1 y2
    exact ⟨by omega, a2⟩
  · have := S.mpos
    dsimp only
    omega
  · intro y
    dsimp only
    rw [ho]
    constructor
    · intro z; exact absurd z List.not_mem_nil
    · rintro ⟨z1, z2, z3⟩
      obtain ⟨_, _, a3, a4⟩ := t4 y z1.1 z1.2 z2
      rcases z3 with z | z
      · exact absurd z a3
      · exact absurd z a4
  · intro y y1 y2
    dsimp only
    rw [ho, hk]
    intro hy _
    exact (t4 y y1 y2 hy).1
  · intro i i1 i2
    dsimp only at i2
    omega
  · intro i j i1 i2
    dsimp only at i2
    omega
  · intro y y1 y2
    dsimp only
    rw [ho, (t3 y).2]
    intro hy hm
    have := (S.mswp y y1 y2).1
    omega
  · intro y y1 y2
    dsimp only
    rw [ho, hk]
    intro hy
    obtain ⟨a1, a2, _, _⟩ := t4 y y1 y2 hy
    refine ⟨a1, fun z => ?_⟩
    rw [← a1.1]
    exact a2 z
  · intro y y1 y2
    dsimp only
    rw [ho]
    intro hy
    exact (t4 y y1 y2 hy).2.2.2
  · intro x hx hxk
    obtain ⟨a1, a2⟩ := S.out x hx hxk
    exact ⟨a1, a1, a2⟩

/-- The beginning of a pass. -/
theorem sfPass_eq (hd0 : 0 ≤ b.s.degrmax) (env : SfEnv) (movemax mat passnbr : Int) (S : SRdy b keys pb s) :
    ∃ s1, SOk b keys pb pb s1 ∧ s1.bst = s.bst ∧ s1.moveflag = false ∧ s1.movenbr = 0 ∧ ∀ fuel, sfPass env b movemax mat passnbr fuel s = loopM (sfStep env b movemax mat passnbr) fuel s1 := by
  have hlo := S.hlo
  have hhi := S.hhi
  obtain ⟨t, ht, t1, t2, t3, t4⟩ := Holds_iff_exists.1 (sfRestore_holds S)
  obtain ⟨t', ht', t1', t2', t3', t4'⟩ := Holds_iff_exists.1 (sfUnlock_holds s.lock t (fun h hh => by have := S.lockr h hh; omega))
  refine ⟨_, sfStart_holds (t := t') hd0 (if env.absI s.bst.dlt > s.dltmax then env.absI s.bst.dlt else s.dltmax) S (by omega) (by omega) ?_ ?_, rfl, rfl, rfl, ?_⟩
  · intro y
    rw [(t3' y).1, (t3' y).2.1, (t3 y).1, (t3 y).2.1]
    exact ⟨rfl, rfl⟩
  · intro y y1 y2 hy
    obtain ⟨a1, a2⟩ := t4 y y1 y2 hy
    obtain ⟨_, _, a5⟩ := t3' y
    obtain ⟨_, _, a6, a7⟩ := t3 y
    obtain ⟨a8, a9⟩ := S.lock y y1 y2 hy
    rw [a5]
    refine ⟨a1, ?_⟩
    rcases t4' y with z | z
    · rw [z.1]
      exact ⟨a2, fun w => z.2 (a9 (a6.1 w)), fun w => a8 (a7.1 w)⟩
    · rw [z]
      by_cases c : (t.get y).v.part = 2
      · rw [if_pos c]
        exact ⟨fun _ => c, by simp, by simp⟩
      · rw [if_neg c]
        exact ⟨fun w => by simp at w, by simp, by simp⟩
  · intro fuel
    unfold sfPass
    rw [ht, ok_bind, ht', ok_bind]

/-- What the refinement assumes. -/
structure SfHyp (b : Vgraph) (env : SfEnv) : Prop where
  cons : ConsE b.s
  alloc : Alloc b
  base : 0 ≤ b.s.baseval
  deg : ∀ v, b.s.Vertex v → b.s.vend v - b.s.vert v ≤ b.s.degrmax
  deg0 : 0 ≤ b.s.degrmax
  pos : ∀ v, b.s.Vertex v → 0 < b.s.velo v
  order : env.order.Ok

/-- If the best separator is balanced, a pass only replaces it by better ones. -/
def PTrk (absI : Int → Int) (mat : Int) (s s' : Fm) : Prop :=
  (∀ x, absI x = |x|) → |s.bst.dlt| ≤ mat → |s'.bst.dlt| ≤ mat ∧ (SLt s'.bst s.bst ∨ SSame s'.bst s.bst) ∧ (s'.moveflag = true → SLt s'.bst s.bst)

theorem SLt.trans {x y z : FmCur} (h : SLt x y) (k : SLt y z) : SLt x z := by unfold SLt at *; omega
theorem SLt.same {x y z : FmCur} (h : SLt x y) (k : SSame y z) : SLt x z := by unfold SLt SSame at *; omega
theorem SSame.lt {x y z : FmCur} (h : SSame x y) (k : SLt y z) : SLt x z := by unfold SLt SSame at *; omega
theorem SSame.trans {x y z : FmCur} (h : SSame x y) (k : SSame y z) : SSame x z := by unfold SSame at *; omega

theorem PTrk.step {absI : Int → Int} {mat : Int} {s0 s s' : Fm} (h : PTrk absI mat s0 s) (k : STrk absI mat s s') : PTrk absI mat s0 s' := by
  intro ha hb
  obtain ⟨h1, h2, h3⟩ := h ha hb
  obtain ⟨k1, k2⟩ := k ha h1
  refine ⟨k1, ?_, ?_⟩
  · rcases k2 with ⟨k2, _⟩ | ⟨k2, _, _⟩
    · rcases h2 with h2 | h2
      · exact Or.inl (k2.trans h2)
      · exact Or.inl (k2.same h2)
    · rcases h2 with h2 | h2
      · exact Or.inl (k2.lt h2)
      · exact Or.inr (k2.trans h2)
  · intro hf
    rcases k2 with ⟨k2, _⟩ | ⟨k2, k3, _⟩
    · rcases h2 with h2 | h2
      · exact k2.trans h2
      · exact k2.same h2
    · rw [k3] at hf
      exact k2.lt (h3 hf)

/-- Loop on moves, whatever its number of steps. -/
theorem sfPass_fuel {env : SfEnv} (H : SfHyp b env) (movemax mat passnbr : Int) (fuel : Nat) (S : SRdy b keys pb s) :
    OrFuel (sfPass env b movemax mat passnbr fuel s) (fun s' => (∃ keys' pb', SRdy b keys' pb' s') ∧ PTrk env.absI mat s s') := by
  obtain ⟨s1, O1, e1, e2, _, e4⟩ := sfPass_eq H.deg0 env movemax mat passnbr S
  rw [e4]
  refine OrFuel_loopM (fun s' => (∃ keys' pb' P', SOk b keys' pb' P' s') ∧ PTrk env.absI mat s s') ?_ fuel s1 ⟨⟨keys, pb, pb, O1⟩, ?_⟩
  · rintro s' ⟨⟨keys', pb', P', O'⟩, T'⟩
    refine OrFuel.of_holds ((sfStep_holds H.cons H.alloc H.base H.deg H.deg0 H.pos H.order movemax mat passnbr O').mono ?_)
    intro l hl
    refine Loop.Sat.mono hl ?_ ?_
    · rintro s2 ⟨O2, T2, _⟩
      exact ⟨O2, T'.step T2⟩
    · rintro s2 ⟨⟨keys2, pb2, P2, O2⟩, b2, f2⟩
      refine ⟨⟨keys2, pb2, O2.ready⟩, ?_⟩
      unfold PTrk at *
      rw [b2, f2]
      exact T'
  · intro _ hb
    rw [e1, e2]
    exact ⟨hb, Or.inr ⟨rfl, rfl⟩, fun z => by simp at z⟩

theorem over_velo_nonneg (hc : ConsE b.s) (p : Int → Int) (k : Int) : 0 ≤ over b.s p k b.s.velo := over_nonneg p k (fun v hv => hc.velo v hv)

/-- Order on separators. -/
def slex : Nat × Nat → Nat × Nat → Prop := Prod.Lex (· < ·) (· < ·)

theorem slex_wf : WellFounded slex := (Prod.lex Nat.lt_wfRel Nat.lt_wfRel).wf

/-- Load of the separator and imbalance. -/
def smeas (c : FmCur) : Nat × Nat := (c.comm.toNat, |c.dlt|.toNat)

theorem slex_of {x y : FmCur} (h0 : 0 ≤ x.comm) (h : SLt x y) : slex (smeas x) (smeas y) := by
  unfold slex smeas
  rw [Prod.lex_def]
  rcases h with h | ⟨h, h'⟩
  · left; dsimp only; omega
  · right
    have := abs_nonneg x.dlt
    dsimp only
    omega

/-- Loop on moves, if the best separator is balanced. -/
theorem sfPass_ends {env : SfEnv} (H : SfHyp b env) (habs : ∀ x, env.absI x = |x|) (movemax mat passnbr : Int) (S : SRdy b keys pb s) (hbal : |s.bst.dlt| ≤ mat) :
    Ends (fun fuel => sfPass env b movemax mat passnbr fuel s) (fun s' => (∃ keys' pb', SRdy b keys' pb' s') ∧ PTrk env.absI mat s s') := by
  obtain ⟨s1, O1, e1, e2, _, e4⟩ := sfPass_eq H.deg0 env movemax mat passnbr S
  have hm : FuelMono (fun fuel => sfPass env b movemax mat passnbr fuel s) := by
    simp only [e4]
    exact FuelMono.loopM _ _
  refine Ends.of_mono hm ?_
  simp only [e4]
  refine loopM_wf (Prod.lex ⟨slex, slex_wf⟩ Nat.lt_wfRel).wf (fun s' : Fm => (smeas s'.bst, (movemax - s'.movenbr).toNat)) (fun s' => (∃ keys' pb' P', SOk b keys' pb' P' s') ∧ PTrk env.absI mat s s') ?_ s1 ⟨⟨keys, pb, pb, O1⟩, ?_⟩
  · rintro s' ⟨⟨keys', pb', P', O'⟩, T'⟩
    refine (sfStep_holds H.cons H.alloc H.base H.deg H.deg0 H.pos H.order movemax mat passnbr O').mono ?_
    intro l hl
    refine Loop.Sat.mono hl ?_ ?_
    · rintro s2 ⟨⟨keys2, pb2, P2, O2⟩, T2, mv⟩
      refine ⟨⟨⟨keys2, pb2, P2, O2⟩, T'.step T2⟩, ?_⟩
      show Prod.Lex slex (· < ·) _ _
      rw [Prod.lex_def]
      have h0 : 0 ≤ s2.bst.comm := by
        rw [O2.bst.cur.2]
        exact over_velo_nonneg H.cons _ _
      rcases (T2 habs (T' habs hbal).1).2 with ⟨z, _⟩ | ⟨z, _, z2⟩
      · exact Or.inl (slex_of h0 z)
      · right
        refine ⟨?_, by dsimp only; omega⟩
        dsimp only
        unfold smeas
        unfold SSame at z
        rw [z.1, z.2]
    · rintro s2 ⟨⟨keys2, pb2, P2, O2⟩, b2, f2⟩
      refine ⟨⟨keys2, pb2, O2.ready⟩, ?_⟩
      unfold PTrk at *
      rw [b2, f2]
      exact T'
  · intro _ hb
    rw [e1, e2]
    exact ⟨hb, Or.inr ⟨rfl, rfl⟩, fun z => by simp at z⟩

/-- Result of the loop on passes. -/
def SfEnd (b : Vgraph) (absI : Int → Int) (mat : Int) (s0 s : Fm) : Prop :=
  (∃ keys pb, SRdy b keys pb s) ∧ ((∀ x, absI x = |x|) → |s0.bst.dlt| ≤ mat → |s.bst.dlt| ≤ mat ∧ (SLt s.bst s0.bst ∨ SSame s.bst s0.bst))

theorem SfEnd.refl {absI : Int → Int} {mat : Int} (S : SRdy b keys pb s) : SfEnd b absI mat s s := ⟨⟨_, _, S⟩, fun _ h => ⟨h, Or.inr ⟨rfl, rfl⟩⟩⟩

theorem SfEnd.step {absI : Int → Int} {mat : Int} {s0 s s' : Fm} (h : SfEnd b absI mat s0 s) (S : ∃ keys' pb', SRdy b keys' pb' s') (k : PTrk absI mat s s') : SfEnd b absI mat s0 s' := by
  refine ⟨S, fun ha hb => ?_⟩
  obtain ⟨h1, h2⟩ := h.2 ha hb
  obtain ⟨k1, k2, _⟩ := k ha h1
  refine ⟨k1, ?_⟩
  rcases k2 with k2 | k2 <;> rcases h2 with h2 | h2
  · exact Or.inl (k2.trans h2)
  · exact Or.inl (k2.same h2)
  · exact Or.inl (k2.lt h2)
  · exact Or.inr (k2.trans h2)

theorem sfPasses_fuel {env : SfEnv} (H : SfHyp b env) (movemax mat passnbr : Int) (fuel : Nat) (S : SRdy b keys pb s) :
    OrFuel (sfPasses env b movemax mat fuel (s, passnbr)) (SfEnd b env.absI mat s) := by
  unfold sfPasses
  refine OrFuel_loopM (fun t => SfEnd b env.absI mat s t.1) ?_ fuel _ (SfEnd.refl S)
  rintro ⟨s', n⟩ h
  obtain ⟨⟨keys', pb', S'⟩, _⟩ := id h
  rw [OrFuel_bind]
  refine (sfPass_fuel H movemax mat n fuel S').mono ?_
  rintro s2 ⟨S2, T2⟩
  have := SfEnd.step h S2 T2
  split
  · exact this
  · exact this

theorem sfPasses_ends {env : SfEnv} (H : SfHyp b env) (habs : ∀ x, env.absI x = |x|) (movemax mat passnbr : Int) (S : SRdy b keys pb s) (hbal : |s.bst.dlt| ≤ mat) :
    Ends (fun fuel => sfPasses env b movemax mat fuel (s, passnbr)) (SfEnd b env.absI mat s) := by
  have key : ∀ s', SfEnd b env.absI mat s s' → ∀ n, ∃ r, SfEnd b env.absI mat s r ∧ ∃ N, ∀ k fuel, N ≤ k → N ≤ fuel →
      loopM (fun (s, passnbr) => do
        let s ← sfPass env b movemax mat passnbr fuel s
        if s.moveflag ∧ passnbr - 1 ≠ 0 then return .next (s, passnbr - 1) else return .brk s) k (s', n) = .ok r := by
    intro s'
    refine (InvImage.wf (fun s' : Fm => smeas s'.bst) slex_wf).induction (C := fun s' => SfEnd b env.absI mat s s' → ∀ n, ∃ r, SfEnd b env.absI mat s r ∧ ∃ N, ∀ k fuel, N ≤ k → N ≤ fuel →
      loopM (fun (s, passnbr) => do
        let s ← sfPass env b movemax mat passnbr fuel s
        if s.moveflag ∧ passnbr - 1 ≠ 0 then return .next (s, passnbr - 1) else return .brk s) k (s', n) = .ok r) s' ?_
    intro s' ih h n
    obtain ⟨⟨keys', pb', S'⟩, h2⟩ := id h
    have hb' := (h2 habs hbal).1
    obtain ⟨s2, ⟨S2, T2⟩, n1, hn1⟩ := sfPass_ends H habs movemax mat n S' hb'
    have hE := SfEnd.step h S2 T2
    dsimp only at hn1
    by_cases hc : s2.moveflag = true ∧ n - 1 ≠ 0
    · have hlt := (T2 habs hb').2.2 hc.1
      have h0 : 0 ≤ s2.bst.comm := by
        obtain ⟨_, _, S2⟩ := S2
        rw [S2.bst.cur.2]
        exact over_velo_nonneg H.cons _ _
      obtain ⟨r, hr, N, hN⟩ := ih s2 (slex_of h0 hlt) hE (n - 1)
      refine ⟨r, hr, N + n1 + 1, ?_⟩
      intro k fuel k1 k2
      obtain ⟨k', rfl⟩ : ∃ k', k = k' + 1 := ⟨k - 1, by omega⟩
      rw [loopM]
      dsimp only
      rw [hn1 fuel (by omega), ok_bind, if_pos hc, pure_bind]
      exact hN k' fuel (by omega) (by omega)
    · refine ⟨s2, hE, n1 + 1, ?_⟩
      intro k fuel k1 k2
      obtain ⟨k', rfl⟩ : ∃ k', k = k' + 1 := ⟨k - 1, by omega⟩
      rw [loopM]
      dsimp only
      rw [hn1 fuel (by omega), ok_bind, if_neg hc]
      rfl
  obtain ⟨r, hr, N, hN⟩ := key s (SfEnd.refl S) passnbr
  exact ⟨r, hr, N, fun fuel hf => hN fuel fuel hf hf⟩

end Scotch.Separ
