import Verif.Bipart.ModelFm
import Mathlib.Data.Nat.Find

/-! # Hash table of the Fiduccia-Mattheyses refinement: searches and change of size -/

set_option autoImplicit false
set_option linter.unusedSimpArgs false

namespace Scotch.Bipart
open Coarsen (IsMask land land_mask)
open Hash (Tab Path probe probe_in probe_succ probe_surj)

/-- A slot that holds a vertex. -/
def FmOwn (t : Arr FmSlot) (h : Int) : Prop := (t.get h).vertnum ≠ -1

/-- Vertex of a slot. -/
def FmKey (t : Arr FmSlot) (h : Int) : Int := (t.get h).vertnum

/-- The table holds the vertices of a list. -/
abbrev FmTab (t : Arr FmSlot) (msk : Int) (keys : List Int) : Prop := Tab fmPrime (msk + 1) (FmOwn t) (FmKey t) keys

theorem find_stop {prime : Int} {test : Int → M (Option Bool)} {msk k : Int} (hm : IsMask msk) {D : Nat} {r : Bool}
    (hD : ∀ d < D, test (probe prime (msk + 1) k d) = .ok none) (hS : test (probe prime (msk + 1) k D) = .ok (some r)) :
    ∀ (m d : Nat), d + m = D → ∀ n, m < n → Hash.find test msk n (probe prime (msk + 1) k d) = .ok (probe prime (msk + 1) k D, r) := by
  have hp : 0 < msk + 1 := by have := hm.nonneg; omega
  intro m
  induction m with
  | zero =>
    intro d hd n hn
    obtain ⟨n, rfl⟩ : ∃ n', n = n' + 1 := ⟨n - 1, by omega⟩
    rw [show d = D by omega, Hash.find, hS]
    rfl
  | succ m ih =>
    intro d hd n hn
    obtain ⟨n, rfl⟩ : ∃ n', n = n' + 1 := ⟨n - 1, by omega⟩
    rw [Hash.find, hD d (by omega), ok_bind]
    dsimp only
    rw [land_mask hm (by have := (probe_in (prime := prime) hp k d).1; omega), probe_succ]
    exact ih (d + 1) (by omega) n (by omega)

theorem fmHome_eq {msk v : Int} (hm : IsMask msk) (hv : 0 ≤ v) : fmHome v msk = probe fmPrime (msk + 1) v 0 := by
  unfold fmHome probe
  rw [land_mask hm (by unfold fmPrime; omega)]
  simp

section
variable {t : Arr FmSlot} {msk : Int} {keys : List Int} {v : Int}

theorem fmTab_rd (hm : IsMask msk) (h0 : t.lo = 0) (h1 : t.hi = msk + 1) (d : Nat) : t.rd (probe fmPrime (msk + 1) v d) = .ok (t.get (probe fmPrime (msk + 1) v d)) := by
  have := hm.nonneg
  have := probe_in (prime := fmPrime) (show 0 < msk + 1 by omega) v d
  exact Arr.rd_ok _ (by omega) (by omega)

/-- Search of a vertex or of a free slot. -/
theorem fmSearch_eq (T : FmTab t msk keys) (hm : IsMask msk) (h0 : t.lo = 0) (h1 : t.hi = msk + 1) (hv : 0 ≤ v) (hroom : (keys.length : Int) < msk + 1 ∨ v ∈ keys) :
    ∃ d, Path fmPrime (msk + 1) (FmOwn t) (FmKey t) v d ∧ ((¬ FmOwn t (probe fmPrime (msk + 1) v d) ∧ fmSearch t msk v = .ok (probe fmPrime (msk + 1) v d, true)) ∨
      (FmKey t (probe fmPrime (msk + 1) v d) = v ∧ fmSearch t msk v = .ok (probe fmPrime (msk + 1) v d, false))) := by
  have hex : ∃ d : Nat, (d : Int) < msk + 1 ∧ (¬ FmOwn t (probe fmPrime (msk + 1) v d) ∨ FmKey t (probe fmPrime (msk + 1) v d) = v) := by
    rcases hroom with h | h
    · obtain ⟨x, x1, x2, x3⟩ := T.free h
      obtain ⟨d, d1, d2⟩ := probe_surj (prime := fmPrime) T.pos v x x1 x2
      exact ⟨d, d1, Or.inl (by rw [d2]; exact x3)⟩
    · obtain ⟨x, x1, x2, x3, x4⟩ := (T.mem v).1 h
      obtain ⟨d, d1, d2⟩ := probe_surj (prime := fmPrime) T.pos v x x1 x2
      exact ⟨d, d1, Or.inr (by rw [d2]; exact x4)⟩
  classical
  have hD := Nat.find_spec hex
  have hmin := fun d (h : d < Nat.find hex) => Nat.find_min hex h
  generalize Nat.find hex = D at hD hmin
  have hp : Path fmPrime (msk + 1) (FmOwn t) (FmKey t) v D := by
    intro d hd
    have := hmin d hd
    constructor
    · by_contra hc; exact this ⟨by omega, Or.inl hc⟩
    · intro hc; exact this ⟨by omega, Or.inr hc⟩
  refine ⟨D, hp, ?_⟩
  have hf : D < fmFuel msk := by unfold fmFuel; omega
  have hd : ∀ d < D, (do
      let x ← t.rd (probe fmPrime (msk + 1) v d)
      return if x.vertnum = v then some false else if x.vertnum = -1 then some true else none : M (Option Bool)) = .ok none := by
    intro d hd
    rw [fmTab_rd hm h0 h1, ok_bind]
    obtain ⟨a, b⟩ := hp d hd
    rw [if_neg (show ¬ (t.get _).vertnum = v from b), if_neg (show ¬ (t.get _).vertnum = -1 from a)]
    rfl
  by_cases hk : FmKey t (probe fmPrime (msk + 1) v D) = v
  · right
    refine ⟨hk, ?_⟩
    unfold fmSearch
    rw [fmHome_eq hm hv]
    refine find_stop hm hd ?_ D 0 (by omega) _ hf
    rw [fmTab_rd hm h0 h1, ok_bind, if_pos (show (t.get _).vertnum = v from hk)]
    rfl
  · left
    have ho : ¬ FmOwn t (probe fmPrime (msk + 1) v D) := by
      rcases hD.2 with h | h
      · exact h
      · exact absurd h hk
    refine ⟨ho, ?_⟩
    unfold fmSearch
    rw [fmHome_eq hm hv]
    refine find_stop hm hd ?_ D 0 (by omega) _ hf
    have ho' : (t.get (probe fmPrime (msk + 1) v D)).vertnum = -1 := by
      by_contra hc; exact ho hc
    rw [fmTab_rd hm h0 h1, ok_bind, if_neg (show ¬ (t.get _).vertnum = v from hk), if_pos ho']
    rfl

/-- Search of a free slot for a new vertex. -/
theorem fmFree_eq (T : FmTab t msk keys) (hm : IsMask msk) (h0 : t.lo = 0) (h1 : t.hi = msk + 1) (hv : 0 ≤ v) (hroom : (keys.length : Int) < msk + 1) (hn : v ∉ keys) :
    ∃ d, Path fmPrime (msk + 1) (FmOwn t) (FmKey t) v d ∧ ¬ FmOwn t (probe fmPrime (msk + 1) v d) ∧ fmFree t msk v = .ok (probe fmPrime (msk + 1) v d) := by
  obtain ⟨d, hp, h | h⟩ := fmSearch_eq T hm h0 h1 hv (Or.inl hroom)
  · refine ⟨d, hp, h.1, ?_⟩
    have hlt : d < fmFuel msk := by
      obtain ⟨x, x1, x2, x3⟩ := T.free hroom
      obtain ⟨d', d1, d2⟩ := probe_surj (prime := fmPrime) T.pos v x x1 x2
      unfold fmFuel
      by_contra hc
      have := (hp d' (by omega)).1
      rw [d2] at this
      exact x3 this
    unfold fmFree
    rw [fmHome_eq hm hv, find_stop hm (D := d) (r := true) ?_ ?_ d 0 (by omega) _ hlt]
    · rfl
    · intro d' hd'
      rw [fmTab_rd hm h0 h1, ok_bind, if_neg (show ¬ (t.get _).vertnum = -1 from (hp d' hd').1)]
      rfl
    · have ho' : (t.get (probe fmPrime (msk + 1) v d)).vertnum = -1 := by
        by_contra hc; exact h.1 hc
      rw [fmTab_rd hm h0 h1, ok_bind, if_pos ho']
      rfl
  · exfalso
    apply hn
    have hin := probe_in (prime := fmPrime) T.pos v d
    refine (T.mem v).2 ⟨_, hin.1, hin.2, ?_, h.1⟩
    unfold FmOwn
    have := h.1
    unfold FmKey at this
    rw [this]
    omega

/-- Search of a vertex of the table. -/
theorem fmLocate_eq (T : FmTab t msk keys) (hm : IsMask msk) (h0 : t.lo = 0) (h1 : t.hi = msk + 1) (hv : 0 ≤ v) (hk : v ∈ keys) :
    Holds (fmLocate t msk v) (fun h => 0 ≤ h ∧ h < msk + 1 ∧ FmKey t h = v) := by
  obtain ⟨x, x1, x2, x3, x4⟩ := (T.mem v).1 hk
  obtain ⟨d, d1, d2⟩ := T.path x x1 x2 x3
  rw [x4] at d1 d2
  have hlt : d < fmFuel msk := by
    obtain ⟨d', e1, e2⟩ := probe_surj (prime := fmPrime) T.pos v x x1 x2
    unfold fmFuel
    by_contra hc
    have := (d2 d' (by omega)).2
    rw [e2] at this
    exact this x4
  unfold fmLocate
  rw [fmHome_eq hm hv, find_stop hm (D := d) (r := false) ?_ ?_ d 0 (by omega) _ hlt]
  · rw [ok_bind, Holds_pure, d1]
    exact ⟨x1, x2, x4⟩
  · intro d' hd'
    have hin := probe_in (prime := fmPrime) T.pos v d'
    rw [fmTab_rd hm h0 h1, ok_bind, if_neg (show ¬ (t.get _).vertnum = v from (d2 d' hd').2)]
    rfl
  · rw [fmTab_rd hm h0 h1, ok_bind, d1, if_pos (show (t.get _).vertnum = v from x4)]
    rfl
end

/-! ## Change of size -/

/-- State of the rehash of a table `t0` of `N` slots into a table of `2 N` slots: `S` tells which of the old slots have been handled. -/
structure Reh (N : Int) (t0 : Arr FmSlot) (S : Int → Prop) (t : Arr FmSlot) (lock : List Int) : Prop where
  lo : t.lo = 0
  hi : t.hi = 2 * N
  old : ∀ x, 0 ≤ x → x < N → ¬ S x → t.get x = t0.get x
  up : ∀ x, 0 ≤ x → x < N → ¬ S x → ¬ FmOwn t (x + N)
  fin : ∀ y, 0 ≤ y → y < 2 * N → FmOwn t y → S (y % N) → ∃ d, probe fmPrime (2 * N) (FmKey t y) d = y ∧
    ∀ d' < d, FmOwn t (probe fmPrime (2 * N) (FmKey t y) d') ∧ S (probe fmPrime (2 * N) (FmKey t y) d' % N)
  inj : ∀ x y, 0 ≤ x → x < 2 * N → 0 ≤ y → y < 2 * N → FmOwn t x → FmKey t x = FmKey t y → x = y
  cont : ∀ x : FmSlot, x.vertnum ≠ -1 → ((∃ y, 0 ≤ y ∧ y < 2 * N ∧ t.get y = x) ↔ ∃ y, 0 ≤ y ∧ y < N ∧ t0.get y = x)
  mswp : ∀ y, 0 ≤ y → y < 2 * N → ¬ FmOwn t y → (t.get y).mswp = -1
  nodup : lock.Nodup
  lock : ∀ y, y ∈ lock ↔ (0 ≤ y ∧ y < 2 * N) ∧ FmOwn t y ∧ S (y % N) ∧ (t.get y).st = .used

theorem probe_mod (N k : Int) (d : Nat) : probe fmPrime (2 * N) k d % N = probe fmPrime N k d := by
  unfold probe
  exact Int.emod_emod_of_dvd _ ⟨2, by omega⟩

theorem mod_cases {N y p : Int} (h1 : 0 ≤ y) (h2 : y < 2 * N) (h : y % N = p) : y = p ∨ y = p + N := by
  by_cases hy : y < N
  · left; rw [Int.emod_eq_of_lt h1 hy] at h; exact h
  · right
    have : (y - N) % N = y % N := by rw [Int.sub_emod_right]
    rw [Int.emod_eq_of_lt (by omega) (by omega)] at this
    omega

variable {N : Int} {t0 : Arr FmSlot} {S : Int → Prop} {t : Arr FmSlot} {lock : List Int}

theorem fmRehash_holds (hm : IsMask (2 * N - 1)) (R : Reh N t0 S t lock) {p : Int} (p1 : 0 ≤ p) (p2 : p < N) (hS : ¬ S p) (hv : FmOwn t0 p → 0 ≤ FmKey t0 p)
    (hpath : FmOwn t0 p → ∃ d, probe fmPrime N (FmKey t0 p) d = p ∧ ∀ d' < d, S (probe fmPrime N (FmKey t0 p) d')) :
    Holds (fmRehash (2 * N - 1) p (t, lock)) (fun r => Reh N t0 (fun x => S x ∨ x = p) r.1 r.2) := by
  have e0 := R.old p p1 p2 hS
  have elo := R.lo
  have ehi := R.hi
  have epN : (p + N) % N = p := by rw [Int.add_emod_right]; exact Int.emod_eq_of_lt p1 p2
  have epp : p % N = p := Int.emod_eq_of_lt p1 p2
  unfold fmRehash
  dsimp only
  rw [Arr.rd_ok t (by omega) (by omega), ok_bind]
  by_cases ho : (t.get p).vertnum ≠ -1
  · rw [if_pos ho]
    obtain ⟨d0, d1, d2⟩ := hpath (by unfold FmOwn; rw [← e0]; exact ho)
    have hv' := hv (by unfold FmOwn; rw [← e0]; exact ho)
    have ek : FmKey t0 p = (t.get p).vertnum := by unfold FmKey; rw [e0]
    rw [ek] at d1 d2 hv'
    generalize hk : (t.get p).vertnum = k at d1 d2 hv' ho
    have hsz : (2 * N - 1 : Int) + 1 = 2 * N := by omega
    have hprob : probe fmPrime (2 * N) k d0 = p ∨ probe fmPrime (2 * N) k d0 = p + N := by
      have hin := probe_in (prime := fmPrime) (show 0 < 2 * N by omega) k d0
      exact mod_cases hin.1 hin.2 (by rw [probe_mod, d1])
    have hex : ∃ d : Nat, probe fmPrime (2 * N) k d = p ∨ ¬ FmOwn t (probe fmPrime (2 * N) k d) := by
      refine ⟨d0, ?_⟩
      rcases hprob with h | h
      · exact Or.inl h
      · right; rw [h]; exact R.up p p1 p2 hS
    classical
    have hD := Nat.find_spec hex
    have hmin := fun d (h : d < Nat.find hex) => Nat.find_min hex h
    have hle : Nat.find hex ≤ d0 := by
      apply Nat.find_le
      rcases hprob with h | h
      · exact Or.inl h
      · right; rw [h]; exact R.up p p1 p2 hS
    generalize Nat.find hex = D at hD hmin hle
    have hbef : ∀ d < D, probe fmPrime (2 * N) k d ≠ p ∧ FmOwn t (probe fmPrime (2 * N) k d) := by
      intro d hd
      have := hmin d hd
      exact ⟨fun h => this (Or.inl h), by by_contra h; exact this (Or.inr h)⟩
    have hbefS : ∀ d < D, S (probe fmPrime (2 * N) k d % N) := by
      intro d hd
      rw [probe_mod]
      exact d2 d (by omega)
    have hDS : S (probe fmPrime (2 * N) k D % N) ∨ probe fmPrime (2 * N) k D % N = p := by
      rw [probe_mod]
      by_cases h : D = d0
      · right; rw [h, d1]
      · left; exact d2 D (by omega)
    have hin := fun d => probe_in (prime := fmPrime) (show 0 < 2 * N by omega) k d
    have hfuel : D < fmFuel (2 * N - 1) := by
      unfold fmFuel
      obtain ⟨d', e1, e2⟩ := probe_surj (prime := fmPrime) (show 0 < 2 * N by omega) k p p1 (by omega)
      by_contra hc
      exact (hbef d' (by omega)).1 e2
    have hplace : ∀ r, (do
        if probe fmPrime (2 * N - 1 + 1) k D = p then return some false
        else do
          let x ← t.rd (probe fmPrime (2 * N - 1 + 1) k D)
          return if x.vertnum = -1 then some true else none : M (Option Bool)) = .ok (some r) → fmPlace t (2 * N - 1) p k = .ok (probe fmPrime (2 * N - 1 + 1) k D, r) := by
      intro r hr
      unfold fmPlace
      rw [fmHome_eq hm hv']
      refine find_stop hm ?_ hr D 0 (by omega) _ hfuel
      intro d hd
      rw [hsz]
      rw [if_neg (hbef d hd).1, Arr.rd_ok t (by have := hin d; omega) (by have := hin d; omega), ok_bind, if_neg (show ¬ (t.get _).vertnum = -1 from (hbef d hd).2)]
      rfl
    rw [hsz] at hplace
    by_cases hq : probe fmPrime (2 * N) k D = p
    · rw [hplace false (by rw [if_pos hq]; rfl), ok_bind]
      unfold fmRelocate
      dsimp only
      rw [if_neg (by decide)]
      rw [hq, pure_bind, Arr.rd_ok t (by omega) (by omega), ok_bind, Holds_pure]
      dsimp only
      have hown : FmOwn t p := by unfold FmOwn; rw [hk]; exact ho
      refine ⟨elo, ehi, fun x x1 x2 hx => R.old x x1 x2 (fun h => hx (Or.inl h)), fun x x1 x2 hx => R.up x x1 x2 (fun h => hx (Or.inl h)), ?_, R.inj, R.cont, R.mswp, ?_, ?_⟩
      · intro y y1 y2 hy hys
        by_cases hyp : y = p
        · subst hyp
          have ek' : FmKey t y = k := hk
          rw [ek']
          exact ⟨D, hq, fun d hd => ⟨(hbef d hd).2, Or.inl (hbefS d hd)⟩⟩
        · have hys' : S (y % N) := by
            rcases hys with h | h
            · exact h
            · rcases mod_cases y1 y2 h with h' | h'
              · exact absurd h' hyp
              · rw [h'] at hy; exact absurd hy (R.up p p1 p2 hS)
          obtain ⟨d, f1, f2⟩ := R.fin y y1 y2 hy hys'
          exact ⟨d, f1, fun d' hd' => ⟨(f2 d' hd').1, Or.inl (f2 d' hd').2⟩⟩
      · split
        · rw [List.nodup_cons]
          refine ⟨?_, R.nodup⟩
          intro hmem
          have := ((R.lock p).1 hmem).2.2.1
          rw [epp] at this
          exact hS this
        · exact R.nodup
      · intro y
        have hbase : (y ∈ lock ∨ (y = p ∧ (t.get p).st = .used)) ↔ (0 ≤ y ∧ y < 2 * N) ∧ FmOwn t y ∧ (S (y % N) ∨ y % N = p) ∧ (t.get y).st = .used := by
          rw [R.lock]
          constructor
          · rintro (⟨a, b, c, d⟩ | ⟨rfl, b⟩)
            · exact ⟨a, b, Or.inl c, d⟩
            · exact ⟨by omega, hown, Or.inr epp, b⟩
          · rintro ⟨a, b, c | c, d⟩
            · exact Or.inl ⟨a, b, c, d⟩
            · rcases mod_cases a.1 a.2 c with h' | h'
              · exact Or.inr ⟨h', by rw [← h']; exact d⟩
              · rw [h'] at b; exact absurd b (R.up p p1 p2 hS)
        rw [← hbase]
        by_cases hu : (t.get p).st = .used
        · rw [if_pos hu, List.mem_cons]
          constructor
          · rintro (h | h)
            · exact Or.inr ⟨h, hu⟩
            · exact Or.inl h
          · rintro (h | h)
            · exact Or.inr h
            · exact Or.inl h.1
        · rw [if_neg hu]
          constructor
          · exact Or.inl
          · rintro (h | h)
            · exact h
            · exact absurd h.2 hu
    · have hnq : ¬ FmOwn t (probe fmPrime (2 * N) k D) := by
        rcases hD with h | h
        · exact absurd h hq
        · exact h
      have hinD := hin D
      have hnq' : (t.get (probe fmPrime (2 * N) k D)).vertnum = -1 := by by_contra hc; exact hnq hc
      rw [hplace true (by rw [if_neg hq, Arr.rd_ok t (by omega) (by omega), ok_bind, if_pos hnq']; rfl), ok_bind]
      dsimp only
      generalize hqq : probe fmPrime (2 * N) k D = q at *
      unfold fmRelocate
      rw [if_pos rfl, Arr.wr_ok t _ (by omega) (by omega), ok_bind, Arr.wr_ok (t.set q (t.get p)) _ (by rw [Arr.set_lo]; omega) (by rw [Arr.set_hi]; omega), ok_bind]
      generalize hz : ({ t.get p with vertnum := -1, mswp := -1 } : FmSlot) = z
      have hz1 : z.vertnum = -1 := by rw [← hz]
      have hz2 : z.mswp = -1 := by rw [← hz]
      generalize ht' : (t.set q (t.get p)).set p z = t'
      have gq : t'.get q = t.get p := by rw [← ht', Arr.set_get_ne _ _ hq, Arr.set_get_same]
      have gp : t'.get p = z := by rw [← ht', Arr.set_get_same]
      have gx : ∀ x, x ≠ q → x ≠ p → t'.get x = t.get x := by
        intro x x1 x2
        rw [← ht', Arr.set_get_ne _ _ x2, Arr.set_get_ne _ _ x1]
      have tlo : t'.lo = 0 := by rw [← ht']; exact elo
      have thi : t'.hi = 2 * N := by rw [← ht']; exact ehi
      rw [Arr.rd_ok t' (by omega) (by omega), ok_bind, Holds_pure, gq]
      dsimp only
      have oq : FmOwn t' q := by unfold FmOwn; rw [gq, hk]; exact ho
      have op : ¬ FmOwn t' p := by unfold FmOwn; rw [gp, hz1]; simp
      have ox : ∀ x, x ≠ q → x ≠ p → (FmOwn t' x ↔ FmOwn t x) := by intro x x1 x2; unfold FmOwn; rw [gx x x1 x2]
      have kx : ∀ x, x ≠ q → x ≠ p → FmKey t' x = FmKey t x := by intro x x1 x2; unfold FmKey; rw [gx x x1 x2]
      have kq : FmKey t' q = k := by unfold FmKey; rw [gq, hk]
      have kp : FmKey t p = k := hk
      have opt : FmOwn t p := by unfold FmOwn; rw [hk]; exact ho
      refine ⟨tlo, thi, ?_, ?_, ?_, ?_, ?_, ?_, ?_, ?_⟩
      · intro x x1 x2 hx
        have hxp : x ≠ p := fun h => hx (Or.inr h)
        have hxq : x ≠ q := by
          intro h
          rw [← h, Int.emod_eq_of_lt x1 x2] at hDS
          exact hx hDS
        rw [gx x hxq hxp]
        exact R.old x x1 x2 (fun h => hx (Or.inl h))
      · intro x x1 x2 hx
        have hxp : x + N ≠ p := by omega
        have hxq : x + N ≠ q := by
          intro h
          rw [← h, Int.add_emod_right, Int.emod_eq_of_lt x1 x2] at hDS
          exact hx hDS
        rw [ox _ hxq hxp]
        exact R.up x x1 x2 (fun h => hx (Or.inl h))
      · intro y y1 y2 hy hys
        have hyp : y ≠ p := fun h => op (by rw [← h]; exact hy)
        by_cases hyq : y = q
        · subst hyq
          rw [kq]
          refine ⟨D, hqq, fun d hd => ?_⟩
          have hb := hbef d hd
          have hnq2 : probe fmPrime (2 * N) k d ≠ y := fun h => hnq (by rw [← h]; exact hb.2)
          exact ⟨(ox _ hnq2 hb.1).2 hb.2, Or.inl (hbefS d hd)⟩
        · have hyo := (ox y hyq hyp).1 hy
          have hys' : S (y % N) := by
            rcases hys with h | h
            · exact h
            · rcases mod_cases y1 y2 h with h' | h'
              · exact absurd h' hyp
              · rw [h'] at hyo; exact absurd hyo (R.up p p1 p2 hS)
          obtain ⟨d, f1, f2⟩ := R.fin y y1 y2 hyo hys'
          rw [kx y hyq hyp]
          refine ⟨d, f1, fun d' hd' => ?_⟩
          obtain ⟨f3, f4⟩ := f2 d' hd'
          have n1 : probe fmPrime (2 * N) (FmKey t y) d' ≠ q := fun h => hnq (by rw [← h]; exact f3)
          have n2 : probe fmPrime (2 * N) (FmKey t y) d' ≠ p := fun h => hS (by rw [h, epp] at f4; exact f4)
          exact ⟨(ox _ n1 n2).2 f3, Or.inl f4⟩
      · intro x y x1 x2 y1 y2 hx hxy
        have hxp : x ≠ p := fun h => op (by rw [← h]; exact hx)
        have hyp : y ≠ p := by
          intro h
          have : FmKey t' y = -1 := by unfold FmKey; rw [h, gp, hz1]
          rw [this] at hxy
          exact hx hxy
        by_cases hxq : x = q
        · by_cases hyq : y = q
          · rw [hxq, hyq]
          · exfalso
            rw [hxq, kq, kx y hyq hyp, ← kp] at hxy
            exact hyp (R.inj p y p1 (by omega) y1 y2 opt hxy).symm
        · by_cases hyq : y = q
          · exfalso
            rw [hyq, kq, kx x hxq hxp, ← kp] at hxy
            exact hxp (R.inj p x p1 (by omega) x1 x2 opt hxy.symm).symm
          · rw [kx x hxq hxp, kx y hyq hyp] at hxy
            exact R.inj x y x1 x2 y1 y2 ((ox x hxq hxp).1 hx) hxy
      · intro x hx
        rw [← R.cont x hx]
        constructor
        · rintro ⟨y, y1, y2, y3⟩
          have hyp : y ≠ p := by intro h; rw [h, gp] at y3; rw [← y3] at hx; exact hx hz1
          by_cases hyq : y = q
          · exact ⟨p, p1, by omega, by rw [← gq, ← hyq]; exact y3⟩
          · exact ⟨y, y1, y2, by rw [← gx y hyq hyp]; exact y3⟩
        · rintro ⟨y, y1, y2, y3⟩
          by_cases hyp : y = p
          · exact ⟨q, by omega, by omega, by rw [gq, ← hyp]; exact y3⟩
          · have hyq : y ≠ q := by intro h; rw [h] at y3; rw [← y3] at hx; exact hx hnq'
            exact ⟨y, y1, y2, by rw [gx y hyq hyp]; exact y3⟩
      · intro y y1 y2 hy
        by_cases hyp : y = p
        · rw [hyp, gp]; exact hz2
        · have hyq : y ≠ q := fun h => hy (by rw [h]; exact oq)
          rw [gx y hyq hyp]
          exact R.mswp y y1 y2 (fun h => hy ((ox y hyq hyp).2 h))
      · have hnl : q ∉ lock := fun h => hnq ((R.lock q).1 h).2.1
        split
        · rw [List.nodup_cons]; exact ⟨hnl, R.nodup⟩
        · exact R.nodup
      · intro y
        have hbase : (y ∈ lock ∨ (y = q ∧ (t.get p).st = .used)) ↔ (0 ≤ y ∧ y < 2 * N) ∧ FmOwn t' y ∧ (S (y % N) ∨ y % N = p) ∧ (t'.get y).st = .used := by
          rw [R.lock]
          constructor
          · rintro (⟨a, b, c, d⟩ | ⟨rfl, b⟩)
            · have hyp : y ≠ p := fun h => hS (by rw [h, epp] at c; exact c)
              have hyq : y ≠ q := fun h => hnq (by rw [← h]; exact b)
              exact ⟨a, (ox y hyq hyp).2 b, Or.inl c, by rw [gx y hyq hyp]; exact d⟩
            · exact ⟨by omega, oq, hDS, by rw [gq]; exact b⟩
          · rintro ⟨a, b, c, d⟩
            by_cases hyq : y = q
            · right; rw [hyq, gq] at d; exact ⟨hyq, d⟩
            · have hyp : y ≠ p := fun h => op (by rw [← h]; exact b)
              left
              have b' := (ox y hyq hyp).1 b
              rw [gx y hyq hyp] at d
              refine ⟨a, b', ?_, d⟩
              rcases c with c | c
              · exact c
              · rcases mod_cases a.1 a.2 c with h' | h'
                · exact absurd h' hyp
                · rw [h'] at b'; exact absurd b' (R.up p p1 p2 hS)
        rw [← hbase]
        by_cases hu : (t.get p).st = .used
        · rw [if_pos hu, List.mem_cons]
          constructor
          · rintro (h | h)
            · exact Or.inr ⟨h, hu⟩
            · exact Or.inl h
          · rintro (h | h)
            · exact Or.inr h
            · exact Or.inl h.1
        · rw [if_neg hu]
          constructor
          · exact Or.inl
          · rintro (h | h)
            · exact h
            · exact absurd h.2 hu
  · rw [if_neg ho, Holds_pure]
    have hown : ¬ FmOwn t p := ho
    refine ⟨elo, ehi, fun x x1 x2 hx => R.old x x1 x2 (fun h => hx (Or.inl h)), fun x x1 x2 hx => R.up x x1 x2 (fun h => hx (Or.inl h)), ?_, R.inj, R.cont, R.mswp, R.nodup, ?_⟩
    · intro y y1 y2 hy hys
      have hys' : S (y % N) := by
        rcases hys with h | h
        · exact h
        · rcases mod_cases y1 y2 h with h' | h'
          · rw [h'] at hy; exact absurd hy hown
          · rw [h'] at hy; exact absurd hy (R.up p p1 p2 hS)
      obtain ⟨d, f1, f2⟩ := R.fin y y1 y2 hy hys'
      exact ⟨d, f1, fun d' hd' => ⟨(f2 d' hd').1, Or.inl (f2 d' hd').2⟩⟩
    · intro y
      rw [R.lock]
      constructor
      · rintro ⟨a, b, c, d⟩; exact ⟨a, b, Or.inl c, d⟩
      · rintro ⟨a, b, c | c, d⟩
        · exact ⟨a, b, c, d⟩
        · rcases mod_cases a.1 a.2 c with h' | h'
          · rw [h'] at b; exact absurd b hown
          · rw [h'] at b; exact absurd b (R.up p p1 p2 hS)

end Scotch.Bipart
