import Verif.HOrder.LemmasLink
import Verif.HOrder.ModelHx

/-! # Elimination trees of minimum degree methods: lemmas -/

set_option autoImplicit false
set_option linter.unusedSimpArgs false
set_option linter.unusedVariables false

namespace Scotch.HOrder

/-- Function with another value at a point. -/
def upd {α : Type} (f : Int → α) (i : Int) (v : α) : Int → α := fun j => if j = i then v else f j

section
variable {α : Type} {f : Int → α} {i j : Int} {v : α}
theorem upd_same : upd f i v i = v := if_pos rfl
theorem upd_ne (h : j ≠ i) : upd f i v j = f j := if_neg h
theorem set_upd (a : Arr α) : (a.set i v).get = upd a.get i v := rfl
end

/-- A forest, in the arrays of `hallOrderHxBuild`, when vertices below `i` have been processed. Principal vertices have positive loads. `S j` has the sons of `j`, and `Q j` its secondary vertices. -/
structure HxT (b N i : Int) (rk : Int → Int) (nv sz fa fr ne se : Int → Int) (k root : Int) (S Q : Int → List Int) (own : Int → Int) : Prop where
  nonneg : ∀ v, b ≤ v → v < b + N → 0 ≤ nv v
  link : ∀ j, b ≤ j → j < b + N → 0 < nv j → Link ne (fr j) (S j) (-1)
  sons : ∀ j, b ≤ j → j < b + N → 0 < nv j → (S j).Nodup ∧ ∀ x, x ∈ S j ↔ b ≤ x ∧ x < i ∧ 0 < nv x ∧ fa x = j
  up : ∀ x, b ≤ x → x < i → 0 < nv x → fa x ≠ -1 → b ≤ fa x ∧ fa x < b + N ∧ 0 < nv (fa x) ∧ rk x < rk (fa x)
  low : ∀ x, b ≤ x → x < i → ¬ 0 < nv x → fa x ≠ -1
  secn : ∀ j, b ≤ j → j < b + N → 0 < nv j → Link se (se j) (Q j) (-1)
  secs : ∀ j, b ≤ j → j < b + N → 0 < nv j → (Q j).Nodup ∧ ∀ x, x ∈ Q j ↔ b ≤ x ∧ x < i ∧ ¬ 0 < nv x ∧ own x = j
  own : ∀ x, b ≤ x → x < i → ¬ 0 < nv x → b ≤ own x ∧ own x < b + N ∧ 0 < nv (own x)
  sum : sumI b (b + N) (fun v => if 0 < nv v then sz v else 0) = i - b
  size : ∀ v, b ≤ v → v < b + N → 0 < nv v → 0 ≤ sz v ∧ (v < i → 1 ≤ sz v)
  cnt : k = sumI b i (fun v => if 0 < nv v then 1 else 0)
  root : (root = -1 ∧ ∀ x, b ≤ x → x < i → 0 < nv x → fa x ≠ -1) ∨ (b ≤ root ∧ root < i ∧ 0 < nv root ∧ fa root = -1 ∧ ∀ x, b ≤ x → x < i → 0 < nv x → fa x = -1 → x ≤ root)
  rank : ∀ x, b ≤ x → x < b + N → 0 ≤ rk x ∧ rk x < N

variable {b N i : Int} {rk : Int → Int} {nv sz fa fr ne se : Int → Int} {k root : Int} {S Q : Int → List Int} {own : Int → Int}

/-- Sums, when a value is changed. -/
theorem sumI_upd {lo hi i : Int} (h1 : lo ≤ i) (h2 : i < hi) {f g : Int → Int} (h : ∀ v, lo ≤ v → v < hi → v ≠ i → g v = f v) : sumI lo hi g = sumI lo hi f + (g i - f i) := by
  have e : sumI lo hi g = sumI lo hi (fun v => f v + if v = i then g i - f i else 0) := by
    apply sumI_congr
    intro v v1 v2
    by_cases hv : v = i
    · rw [if_pos hv, hv]; omega
    · rw [if_neg hv, h v v1 v2 hv]; omega
  have e2 := sumI_single h1 h2 (fun _ => g i - f i)
  rw [e, sumI_add_dist, e2]

/-- A principal vertex that has a father. -/
theorem HxT.son {f : Int} (T : HxT b N i rk nv sz fa fr ne se k root S Q own) (hb : 0 ≤ b) (h1 : b ≤ i) (h2 : i < b + N) (hi : 0 < nv i) (f1 : b ≤ f) (f2 : f < b + N) (hf : 0 < nv f) (hr : rk i < rk f) :
    HxT b N (i + 1) rk nv (upd sz i (sz i + 1)) (upd fa i f) (upd fr f i) (upd ne i (fr f)) se (k + 1) root (upd S f (i :: S f)) Q own := by
  have hif : i ≠ f := fun he => by rw [he] at hr; omega
  have hn : ∀ j, b ≤ j → j < b + N → 0 < nv j → i ∉ S j := fun j j1 j2 j3 hx => by
    have := ((T.sons j j1 j2 j3).2 i).1 hx; omega
  refine ⟨T.nonneg, ?_, ?_, ?_, ?_, T.secn, ?_, ?_, ?_, ?_, ?_, ?_, T.rank⟩
  · intro j j1 j2 j3
    have hl : ∀ a, Link ne a (S j) (-1) → Link (upd ne i (fr f)) a (S j) (-1) := fun a => link_congr (fun x hx => (upd_ne (fun he : x = i => hn j j1 j2 j3 (he ▸ hx))).symm)
    by_cases hj : j = f
    · subst hj
      rw [upd_same, upd_same]
      refine ⟨rfl, ?_⟩
      rw [upd_same]
      exact hl _ (T.link j j1 j2 j3)
    · rw [upd_ne hj, upd_ne hj]
      exact hl _ (T.link j j1 j2 j3)
  · intro j j1 j2 j3
    obtain ⟨s1, s2⟩ := T.sons j j1 j2 j3
    by_cases hj : j = f
    · subst hj
      rw [upd_same]
      refine ⟨List.nodup_cons.2 ⟨hn j j1 j2 j3, s1⟩, ?_⟩
      intro x
      rw [List.mem_cons, s2]
      by_cases hx : x = i
      · subst hx
        rw [upd_same]
        exact ⟨fun _ => ⟨h1, by omega, hi, rfl⟩, fun _ => Or.inl rfl⟩
      · rw [upd_ne hx]
        constructor
        · rintro (hy | hy)
          · exact absurd hy hx
          · exact ⟨hy.1, by omega, hy.2.2⟩
        · rintro ⟨a, c, d⟩
          exact Or.inr ⟨a, by omega, d⟩
    · rw [upd_ne hj]
      refine ⟨s1, ?_⟩
      intro x
      rw [s2]
      by_cases hx : x = i
      · subst hx
        rw [upd_same]
        exact ⟨fun h => by omega, fun h => absurd h.2.2.2.symm hj⟩
      · rw [upd_ne hx]
        exact ⟨fun h => ⟨h.1, by omega, h.2.2⟩, fun h => ⟨h.1, by omega, h.2.2⟩⟩
  · intro x x1 x2 x3 x4
    by_cases hx : x = i
    · subst hx
      rw [upd_same]
      exact ⟨f1, f2, hf, hr⟩
    · rw [upd_ne hx] at x4 ⊢
      exact T.up x x1 (by omega) x3 x4
  · intro x x1 x2 x3
    rw [upd_ne (fun he : x = i => x3 (he ▸ hi))]
    exact T.low x x1 (by
      by_cases hx : x = i
      · subst hx; exact absurd hi x3
      · omega) x3
  · intro j j1 j2 j3
    obtain ⟨s1, s2⟩ := T.secs j j1 j2 j3
    refine ⟨s1, fun x => ?_⟩
    rw [s2]
    constructor
    · intro h; exact ⟨h.1, by omega, h.2.2⟩
    · intro h
      refine ⟨h.1, ?_, h.2.2⟩
      by_cases hx : x = i
      · subst hx; exact absurd hi h.2.2.1
      · omega
  · intro x x1 x2 x3
    exact T.own x x1 (by
      by_cases hx : x = i
      · subst hx; exact absurd hi x3
      · omega) x3
  · have := sumI_upd (lo := b) (hi := b + N) (i := i) h1 h2 (f := fun v => if 0 < nv v then sz v else 0) (g := fun v => if 0 < nv v then upd sz i (sz i + 1) v else 0)
      (fun v _ _ hv => by rw [upd_ne hv])
    rw [this, T.sum]
    rw [if_pos hi, if_pos hi, upd_same]
    omega
  · intro v v1 v2 v3
    have := T.size v v1 v2 v3
    by_cases hv : v = i
    · subst hv; rw [upd_same]; omega
    · rw [upd_ne hv]; omega
  · rw [sumI_succ h1, ← T.cnt, if_pos hi]
  · rcases T.root with ⟨r1, r2⟩ | ⟨r1, r2, r3, r4, r5⟩
    · refine Or.inl ⟨r1, ?_⟩
      intro x x1 x2 x3
      by_cases hx : x = i
      · rw [hx, upd_same]; omega
      · rw [upd_ne hx]; exact r2 x x1 (by omega) x3
    · refine Or.inr ⟨r1, by omega, r3, by rw [upd_ne (by omega)]; exact r4, ?_⟩
      intro x x1 x2 x3 x4
      by_cases hx : x = i
      · rw [hx, upd_same] at x4; omega
      · rw [upd_ne hx] at x4; exact r5 x x1 (by omega) x3 x4

/-- A principal vertex that is a root. It may have become principal just now. -/
theorem HxT.top {w z : Int} (T : HxT b N i rk nv sz fa fr ne se k root S Q own) (hb : 0 ≤ b) (h1 : b ≤ i) (h2 : i < b + N) (hw : 0 < w)
    (hi : (0 < nv i ∧ w = nv i ∧ z = sz i + 1) ∨ (nv i = 0 ∧ z = 1 ∧ fr i = -1 ∧ se i = -1)) :
    HxT b N (i + 1) rk (upd nv i w) (upd sz i z) (upd fa i (-1)) fr ne se (k + 1) i (if 0 < nv i then S else upd S i []) (if 0 < nv i then Q else upd Q i []) own := by
  have hp : ∀ x, x ≠ i → upd nv i w x = nv x := fun x hx => upd_ne hx
  have hpi : 0 < upd nv i w i := by rw [upd_same]; exact hw
  have hS : ∀ j, b ≤ j → j < b + N → 0 < upd nv i w j → Link ne (fr j) ((if 0 < nv i then S else upd S i []) j) (-1) ∧ Link se (se j) ((if 0 < nv i then Q else upd Q i []) j) (-1) ∧
      (((if 0 < nv i then S else upd S i []) j).Nodup ∧ ∀ x, x ∈ (if 0 < nv i then S else upd S i []) j ↔ b ≤ x ∧ x < i + 1 ∧ 0 < upd nv i w x ∧ upd fa i (-1) x = j) ∧
      (((if 0 < nv i then Q else upd Q i []) j).Nodup ∧ ∀ x, x ∈ (if 0 < nv i then Q else upd Q i []) j ↔ b ≤ x ∧ x < i + 1 ∧ ¬ 0 < upd nv i w x ∧ own x = j) := by
    intro j j1 j2 j3
    have old : 0 < nv j → Link ne (fr j) (S j) (-1) ∧ Link se (se j) (Q j) (-1) ∧
      ((S j).Nodup ∧ ∀ x, x ∈ S j ↔ b ≤ x ∧ x < i + 1 ∧ 0 < upd nv i w x ∧ upd fa i (-1) x = j) ∧
      ((Q j).Nodup ∧ ∀ x, x ∈ Q j ↔ b ≤ x ∧ x < i + 1 ∧ ¬ 0 < upd nv i w x ∧ own x = j) := by
      intro hj
      obtain ⟨s1, s2⟩ := T.sons j j1 j2 hj
      obtain ⟨q1, q2⟩ := T.secs j j1 j2 hj
      refine ⟨T.link j j1 j2 hj, T.secn j j1 j2 hj, ⟨s1, fun x => ?_⟩, q1, fun x => ?_⟩
      · rw [s2]
        by_cases hx : x = i
        · subst hx; rw [upd_same (f := fa)]
          exact ⟨fun h => by omega, fun h => by omega⟩
        · rw [hp x hx, upd_ne hx]
          exact ⟨fun h => ⟨h.1, by omega, h.2.2⟩, fun h => ⟨h.1, by omega, h.2.2⟩⟩
      · rw [q2]
        by_cases hx : x = i
        · subst hx; rw [upd_same]
          exact ⟨fun h => by omega, fun h => by omega⟩
        · rw [hp x hx]
          exact ⟨fun h => ⟨h.1, by omega, h.2.2⟩, fun h => ⟨h.1, by omega, h.2.2⟩⟩
    rcases hi with ⟨hi1, _, _⟩ | ⟨hi1, _, hi3, hi4⟩
    · rw [if_pos hi1, if_pos hi1]
      refine old ?_
      by_cases hj : j = i
      · rw [hj]; exact hi1
      · rw [← hp j hj]; exact j3
    · have hni : ¬ 0 < nv i := by omega
      rw [if_neg hni, if_neg hni]
      by_cases hj : j = i
      · subst hj
        rw [upd_same, upd_same]
        refine ⟨hi3, hi4, ⟨List.nodup_nil, fun x => ?_⟩, List.nodup_nil, fun x => ?_⟩
        · refine ⟨(fun h => by cases h), ?_⟩
          rintro ⟨x1, x2, x3, x4⟩
          exfalso
          by_cases hx : x = j
          · rw [hx, upd_same] at x4; omega
          · rw [upd_ne hx] at x4
            rw [hp x hx] at x3
            have := (T.up x x1 (by omega) x3 (by omega)).2.2.1
            rw [x4] at this; omega
        · refine ⟨(fun h => by cases h), ?_⟩
          rintro ⟨x1, x2, x3, x4⟩
          exfalso
          by_cases hx : x = j
          · rw [hx] at x3; exact x3 hpi
          · rw [hp x hx] at x3
            have := (T.own x x1 (by omega) x3).2.2
            rw [x4] at this; omega
      · rw [upd_ne hj, upd_ne hj]
        refine old ?_
        rw [← hp j hj]; exact j3
  have hpos : ∀ x, 0 < nv x → 0 < upd nv i w x := fun x hx => by
    by_cases he : x = i
    · rw [he]; exact hpi
    · rw [hp x he]; exact hx
  refine ⟨?_, fun j j1 j2 j3 => (hS j j1 j2 j3).1, fun j j1 j2 j3 => (hS j j1 j2 j3).2.2.1, ?_, ?_, fun j j1 j2 j3 => (hS j j1 j2 j3).2.1, fun j j1 j2 j3 => (hS j j1 j2 j3).2.2.2, ?_, ?_, ?_, ?_, ?_, T.rank⟩
  · intro v v1 v2
    by_cases hv : v = i
    · rw [hv]; omega
    · rw [hp v hv]; exact T.nonneg v v1 v2
  · intro x x1 x2 x3 x4
    by_cases hx : x = i
    · rw [hx, upd_same] at x4; exact absurd rfl x4
    · rw [upd_ne hx] at x4 ⊢
      rw [hp x hx] at x3
      obtain ⟨a, c, d, e⟩ := T.up x x1 (by omega) x3 x4
      exact ⟨a, c, hpos _ d, e⟩
  · intro x x1 x2 x3
    by_cases hx : x = i
    · exact absurd (hx ▸ hpi) x3
    · rw [upd_ne hx]
      rw [hp x hx] at x3
      exact T.low x x1 (by omega) x3
  · intro x x1 x2 x3
    by_cases hx : x = i
    · exact absurd (hx ▸ hpi) x3
    · rw [hp x hx] at x3
      obtain ⟨a, c, d⟩ := T.own x x1 (by omega) x3
      exact ⟨a, c, hpos _ d⟩
  · have := sumI_upd (lo := b) (hi := b + N) (i := i) h1 h2 (f := fun v => if 0 < nv v then sz v else 0) (g := fun v => if 0 < upd nv i w v then upd sz i z v else 0)
      (fun v _ _ hv => by rw [upd_ne hv, upd_ne hv])
    rw [this, T.sum]
    rw [if_pos hpi, upd_same]
    rcases hi with ⟨hi1, _, hi3⟩ | ⟨hi1, hi2, _⟩
    · rw [if_pos hi1]; omega
    · rw [if_neg (by omega)]; omega
  · intro v v1 v2 v3
    by_cases hv : v = i
    · subst hv
      rw [upd_same]
      rcases hi with ⟨hi1, _, hi3⟩ | ⟨hi1, hi2, _⟩
      · have := T.size v v1 v2 hi1; omega
      · omega
    · rw [upd_ne hv]
      rw [hp v hv] at v3
      have := T.size v v1 v2 v3; omega
  · rw [sumI_succ h1, if_pos hpi, T.cnt]
    congr 1
    apply sumI_congr
    intro x _ x2
    rw [hp x (by omega)]
  · refine Or.inr ⟨h1, by omega, hpi, upd_same, fun x _ x2 _ _ => by omega⟩

/-- A secondary vertex. -/
theorem HxT.sec {f w f' : Int} (T : HxT b N i rk nv sz fa fr ne se k root S Q own) (hb : 0 ≤ b) (h1 : b ≤ i) (h2 : i < b + N) (hi : nv i = 0) (f1 : b ≤ f) (f2 : f < b + N) (hf : 0 < nv f) (hw : 0 < w) (hf' : f' ≠ -1) :
    HxT b N (i + 1) rk (upd nv f w) (upd sz f (sz f + 1)) (upd fa i f') fr ne (upd (upd se i (se f)) f i) k root S (upd Q f (i :: Q f)) (upd own i f) := by
  have hif : i ≠ f := fun he => by rw [he] at hi; omega
  have hp : ∀ x, 0 < upd nv f w x ↔ 0 < nv x := fun x => by
    by_cases hx : x = f
    · rw [hx, upd_same]; exact ⟨fun _ => hf, fun _ => hw⟩
    · rw [upd_ne hx]
  have hn : ∀ j, b ≤ j → j < b + N → 0 < nv j → i ∉ Q j ∧ f ∉ Q j := fun j j1 j2 j3 => by
    have := (T.secs j j1 j2 j3).2
    refine ⟨fun hx => ?_, fun hx => ?_⟩
    · have := (this i).1 hx; omega
    · have := (this f).1 hx; omega
  have hni : ¬ 0 < upd nv f w i := by rw [hp]; omega
  refine ⟨?_, ?_, ?_, ?_, ?_, ?_, ?_, ?_, ?_, ?_, ?_, ?_, T.rank⟩
  · intro v v1 v2
    by_cases hv : v = f
    · rw [hv, upd_same]; omega
    · rw [upd_ne hv]; exact T.nonneg v v1 v2
  · intro j j1 j2 j3
    exact T.link j j1 j2 ((hp j).1 j3)
  · intro j j1 j2 j3
    obtain ⟨s1, s2⟩ := T.sons j j1 j2 ((hp j).1 j3)
    refine ⟨s1, fun x => ?_⟩
    rw [s2, hp]
    by_cases hx : x = i
    · subst hx; exact ⟨fun h => by omega, fun h => by omega⟩
    · rw [upd_ne hx]
      exact ⟨fun h => ⟨h.1, by omega, h.2.2⟩, fun h => ⟨h.1, by omega, h.2.2⟩⟩
  · intro x x1 x2 x3 x4
    have hx : x ≠ i := fun he => hni (he ▸ x3)
    rw [hp] at x3
    rw [upd_ne hx] at x4 ⊢
    rw [hp]
    exact T.up x x1 (by omega) x3 x4
  · intro x x1 x2 x3
    by_cases hx : x = i
    · rw [hx, upd_same]; exact hf'
    · rw [upd_ne hx]
      rw [hp] at x3
      exact T.low x x1 (by omega) x3
  · intro j j1 j2 j3
    rw [hp] at j3
    obtain ⟨n1, n2⟩ := hn j j1 j2 j3
    have hl : ∀ a, Link se a (Q j) (-1) → Link (upd (upd se i (se f)) f i) a (Q j) (-1) := fun a => link_congr (fun x hx => by
      rw [upd_ne (fun he : x = f => n2 (he ▸ hx)), upd_ne (fun he : x = i => n1 (he ▸ hx))])
    by_cases hj : j = f
    · subst hj
      rw [upd_same, upd_same]
      refine ⟨rfl, ?_⟩
      rw [upd_ne hif, upd_same]
      exact hl _ (T.secn j j1 j2 j3)
    · rw [upd_ne hj, upd_ne (f := Q) hj, upd_ne (fun he => by rw [he] at j3; omega)]
      exact hl _ (T.secn j j1 j2 j3)
  · intro j j1 j2 j3
    rw [hp] at j3
    obtain ⟨s1, s2⟩ := T.secs j j1 j2 j3
    by_cases hj : j = f
    · subst hj
      rw [upd_same]
      refine ⟨List.nodup_cons.2 ⟨(hn j j1 j2 j3).1, s1⟩, fun x => ?_⟩
      rw [List.mem_cons, s2, hp]
      by_cases hx : x = i
      · subst hx
        rw [upd_same]
        exact ⟨fun _ => ⟨h1, by omega, by omega, rfl⟩, fun _ => Or.inl rfl⟩
      · rw [upd_ne hx]
        constructor
        · rintro (hy | hy)
          · exact absurd hy hx
          · exact ⟨hy.1, by omega, hy.2.2⟩
        · rintro ⟨a, c, d⟩
          exact Or.inr ⟨a, by omega, d⟩
    · rw [upd_ne hj]
      refine ⟨s1, fun x => ?_⟩
      rw [s2, hp]
      by_cases hx : x = i
      · subst hx
        rw [upd_same]
        exact ⟨fun h => by omega, fun h => absurd h.2.2.2.symm hj⟩
      · rw [upd_ne hx]
        exact ⟨fun h => ⟨h.1, by omega, h.2.2⟩, fun h => ⟨h.1, by omega, h.2.2⟩⟩
  · intro x x1 x2 x3
    rw [hp]
    by_cases hx : x = i
    · rw [hx, upd_same]; exact ⟨f1, f2, hf⟩
    · rw [upd_ne hx]
      rw [hp] at x3
      exact T.own x x1 (by omega) x3
  · have := sumI_upd (lo := b) (hi := b + N) (i := f) f1 f2 (f := fun v => if 0 < nv v then sz v else 0) (g := fun v => if 0 < upd nv f w v then upd sz f (sz f + 1) v else 0)
      (fun v _ _ hv => by rw [upd_ne hv, upd_ne hv])
    rw [this, T.sum]
    rw [if_pos ((hp f).2 hf), if_pos hf, upd_same]
    omega
  · intro v v1 v2 v3
    rw [hp] at v3
    have := T.size v v1 v2 v3
    by_cases hv : v = f
    · subst hv
      rw [upd_same]
      exact ⟨by omega, fun _ => by omega⟩
    · rw [upd_ne hv]
      refine ⟨this.1, fun hl => this.2 ?_⟩
      by_cases he : v = i
      · rw [he] at v3; omega
      · omega
  · rw [sumI_succ h1, if_neg hni, T.cnt]
    rw [Int.add_zero]
    apply sumI_congr
    intro x _ _
    by_cases hx : 0 < nv x
    · rw [if_pos hx, if_pos ((hp x).2 hx)]
    · rw [if_neg hx, if_neg (fun h => hx ((hp x).1 h))]
  · rcases T.root with ⟨r1, r2⟩ | ⟨r1, r2, r3, r4, r5⟩
    · refine Or.inl ⟨r1, ?_⟩
      intro x x1 x2 x3
      have hx : x ≠ i := fun he => hni (he ▸ x3)
      rw [upd_ne hx]
      exact r2 x x1 (by omega) ((hp x).1 x3)
    · refine Or.inr ⟨r1, by omega, (hp _).2 r3, by rw [upd_ne (by omega)]; exact r4, ?_⟩
      intro x x1 x2 x3 x4
      have hx : x ≠ i := fun he => hni (he ▸ x3)
      rw [upd_ne hx] at x4
      exact r5 x x1 (by omega) ((hp x).1 x3) x4

end Scotch.HOrder
