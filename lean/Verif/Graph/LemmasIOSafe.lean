import Verif.Graph.IO
import Verif.Graph.Spec
import Verif.TextIO.LemmasReader

/-! # Graphs: loading is memory safe -/

set_option autoImplicit false
set_option linter.unusedSimpArgs false

namespace Scotch
open Text
namespace Graph

/-- Invariant of the loops of `graphLoad`: base `B`, `n` vertices, `m` arcs, `i` being the current vertex. -/
structure LS (lbl : Bool) (B n m adj : Int) (s0 : Stream) (i : Int) (st : LoadSt) : Prop where
  vt : st.verttax.lo = B ∧ st.verttax.hi = B + (n + 1)
  ve : ∀ a, st.velotax = some a → a.lo = B ∧ a.hi = B + n
  vl : ∀ a, st.vlbltax = some a → (a.lo = B ∧ a.hi = B + n) ∧ lbl = true ∧
    (45 ∉ s0 → ∀ v, B ≤ v → v < i → 0 ≤ a.get v ∧ a.get v ≤ st.vlblmax)
  et : st.edgetax.lo = B ∧ st.edgetax.hi = B + m
  el : ∀ a, st.edlotax = some a → a.lo = B ∧ a.hi = B + m
  num : B ≤ st.edgenum ∧ st.edgenum ≤ B + m
  sub : ∀ c ∈ st.s, c ∈ s0
  pos : ∀ v, B ≤ v → v < i → B ≤ st.verttax.get v ∧ st.verttax.get v ≤ st.edgenum
  mono : ∀ v, B ≤ v → v + 1 < i → st.verttax.get v ≤ st.verttax.get (v + 1)
  dst : adj = 0 → 45 ∉ s0 → ∀ e, B ≤ e → e < st.edgenum → 0 ≤ st.edgetax.get e

variable {lbl : Bool} {B n m adj numMax : Int} {s0 : Stream} {i : Int} {st : LoadSt}

theorem loadSum_safe {lotax : Option (Arr Int)} {j v sum lo hi : Int} (h : ∀ a, lotax = some a → a.lo = lo ∧ a.hi = hi)
    (h1 : lo ≤ j) (h2 : j < hi) : Safe (loadSum numMax lotax j v sum) (fun r => ∀ a, r.1 = some a → a.lo = lo ∧ a.hi = hi) := by
  unfold loadSum
  cases lotax with
  | none => intro a ha; cases ha
  | some a =>
    have := h a rfl
    dsimp only
    rw [Safe_bind, Safe_wr]
    refine ⟨by omega, ?_⟩
    rw [Safe_bind]
    refine (chk_safe numMax _).mono ?_
    rintro _ rfl
    rintro b ⟨⟩
    exact this

/-- Reading of an integer in the loops. -/
theorem getInt_LS (hs : ∀ c ∈ st.s, c ∈ s0) : Safe (getInt numMax st.s) (fun r => ∀ v s', r = some (v, s') →
    (∀ c ∈ s', c ∈ s0) ∧ (45 ∉ s0 → 0 ≤ v)) := by
  refine (getInt_safe numMax st.s).mono ?_
  intro r hr v s' e
  obtain ⟨h1, h2⟩ := hr v s' e
  exact ⟨fun c hc => hs c (h1 c hc), fun h => h2 (fun hh => h (hs 45 hh))⟩

theorem loadEdlo_safe (edl : Bool) (h : LS lbl B n m adj s0 i st) (hlt : st.edgenum < B + m) :
    Safe (loadEdlo numMax edl st) (OSat (fun st' => LS lbl B n m adj s0 i st' ∧ st'.edgenum = st.edgenum) True) := by
  unfold loadEdlo
  split
  · rw [Safe_andThen]
    refine (getInt_LS h.sub).mono ?_
    intro r hr
    cases r with
    | none => trivial
    | some p =>
      obtain ⟨v, s'⟩ := p
      obtain ⟨h1, h2⟩ := hr v s' rfl
      dsimp only
      rw [Safe_bind]
      refine (loadSum_safe h.el h.num.1 hlt).mono ?_
      rintro ⟨a, b⟩ hab
      exact ⟨⟨h.vt, h.ve, h.vl, h.et, hab, h.num, h1, h.pos, h.mono, h.dst⟩, rfl⟩
  · exact ⟨h, rfl⟩

theorem loadArc_safe (edl : Bool) (h : LS lbl B n m adj s0 i st) (hlt : st.edgenum < B + m) :
    Safe (loadArc numMax adj edl st)
      (OSat (fun st' => LS lbl B n m adj s0 i st' ∧ st'.edgenum = st.edgenum + 1) True) := by
  unfold loadArc
  rw [Safe_andThen]
  refine (loadEdlo_safe edl h hlt).mono ?_
  intro r hr
  cases r with
  | none => trivial
  | some st1 =>
    obtain ⟨h', e1⟩ := hr
    rw [← e1] at hlt
    dsimp only
    rw [Safe_andThen]
    refine (getInt_LS h'.sub).mono ?_
    intro r hr
    cases r with
    | none => trivial
    | some p =>
      obtain ⟨v, s'⟩ := p
      obtain ⟨h1, h2⟩ := hr v s' rfl
      dsimp only
      rw [Safe_bind]
      refine (chk_safe numMax _).mono ?_
      rintro _ rfl
      have := h'.et
      have := h'.num
      rw [Safe_bind, Safe_wr]
      refine ⟨by omega, ⟨h'.vt, h'.ve, h'.vl, h'.et, h'.el, ⟨by omg, by omg⟩, h1, ?_, h'.mono, ?_⟩, by omg⟩
      · intro v a b
        have := h'.pos v a b
        exact ⟨this.1, by omg⟩
      · intro a b e c d
        rw [Arr.set_get]
        split
        · have := h2 b
          omega
        · exact h'.dst a b e c (by omg)

theorem loadVlbl_safe (h : LS lbl B n m adj s0 i st) (h1 : B ≤ i) (h2 : i < B + n) :
    Safe (loadVlbl numMax i st) (OSat (fun st' => LS lbl B n m adj s0 i st' ∧ (45 ∉ s0 → ∀ a, st'.vlbltax = some a →
      0 ≤ a.get i ∧ a.get i ≤ st'.vlblmax)) True) := by
  unfold loadVlbl
  cases hl : st.vlbltax with
  | none =>
    refine ⟨h, ?_⟩
    intro _ a ha
    rw [hl] at ha
    cases ha
  | some a =>
    dsimp only
    obtain ⟨l1, l2, l3⟩ := h.vl a hl
    rw [Safe_andThen]
    refine (getInt_LS h.sub).mono ?_
    intro r hr
    cases r with
    | none => trivial
    | some p =>
      obtain ⟨v, s'⟩ := p
      obtain ⟨e1, e2⟩ := hr v s' rfl
      dsimp only
      rw [Safe_bind, Safe_wr]
      refine ⟨by omega, ⟨h.vt, h.ve, ?_, h.et, h.el, h.num, e1, h.pos, h.mono, h.dst⟩, ?_⟩
      · rintro b ⟨⟩
        refine ⟨l1, l2, ?_⟩
        intro c w c1 c2
        have := l3 c w c1 c2
        rw [Arr.set_get_ne _ _ (by omega)]
        dsimp only
        split <;> omega
      · rintro c b ⟨⟩
        rw [Arr.set_get_same]
        have := e2 c
        dsimp only
        split <;> omega

theorem loadVelo_safe (vel : Bool) {P : Option (Arr Int) → Int → Prop} (h : LS lbl B n m adj s0 i st) (h1 : B ≤ i) (h2 : i < B + n)
    (hP : P st.vlbltax st.vlblmax) :
    Safe (loadVelo numMax vel i st) (OSat (fun st' => LS lbl B n m adj s0 i st' ∧ P st'.vlbltax st'.vlblmax) True) := by
  unfold loadVelo
  split
  · rw [Safe_andThen]
    refine (getInt_LS h.sub).mono ?_
    intro r hr
    cases r with
    | none => trivial
    | some p =>
      obtain ⟨v, s'⟩ := p
      obtain ⟨e1, e2⟩ := hr v s' rfl
      dsimp only
      rw [Safe_bind]
      refine (loadSum_safe h.ve h1 h2).mono ?_
      rintro ⟨a, b⟩ hab
      exact ⟨⟨h.vt, hab, h.vl, h.et, h.el, h.num, e1, h.pos, h.mono, h.dst⟩, hP⟩
  · exact ⟨h, hP⟩

theorem loadVert_safe (hd : Header) (h : LS lbl B n m adj s0 i st) (h1 : B ≤ i) (h2 : i < B + n) :
    Safe (loadVert numMax adj (B + m) hd i st) (OSat (LS lbl B n m adj s0 (i + 1)) True) := by
  unfold loadVert
  rw [Safe_andThen]
  refine (loadVlbl_safe h h1 h2).mono ?_
  intro r hr
  cases r with
  | none => trivial
  | some st1 =>
    obtain ⟨a1, a2⟩ := hr
    dsimp only
    rw [Safe_andThen]
    refine (loadVelo_safe (P := fun t k => 45 ∉ s0 → ∀ a, t = some a → 0 ≤ a.get i ∧ a.get i ≤ k) hd.vel a1 h1 h2 a2).mono ?_
    clear h a1 a2 st1
    intro r hr
    cases r with
    | none => trivial
    | some st1 =>
      obtain ⟨a1, a2⟩ := hr
      dsimp only
      rw [Safe_andThen]
      refine (getInt_LS a1.sub).mono ?_
      intro r hr
      cases r with
      | none => trivial
      | some p =>
        obtain ⟨v, s'⟩ := p
        obtain ⟨e1, e2⟩ := hr v s' rfl
        have := a1.vt
        have hnum := a1.num
        dsimp only
        rw [Safe_bind, Safe_wr]
        refine ⟨by omega, ?_⟩
        rw [Safe_bind]
        refine (chk_safe numMax _).mono ?_
        rintro _ rfl
        split
        · trivial
        · rename_i hle
          refine Safe_loopO (fun k st' => LS lbl B n m adj s0 (i + 1) st' ∧ st'.edgenum = k) True ?_ ?_ ?_ (fun h => h)
          · refine ⟨⟨a1.vt, a1.ve, ?_, a1.et, a1.el, hnum, e1, ?_, ?_, a1.dst⟩, rfl⟩
            · intro a ha
              obtain ⟨b1, b2, b3⟩ := a1.vl a ha
              refine ⟨b1, b2, ?_⟩
              intro c w c1 c2
              by_cases hw : w = i
              · subst hw
                exact a2 c a ha
              · exact b3 c w c1 (by omega)
            · intro w c1 c2
              rw [Arr.set_get]
              split
              · exact ⟨hnum.1, Int.le_refl _⟩
              · exact a1.pos w c1 (by omega)
            · intro w c1 c2
              dsimp only
              rw [Arr.set_get_ne _ _ (by omega), Arr.set_get]
              split
              · exact (a1.pos w c1 (by omega)).2
              · exact a1.mono w c1 (by omega)
          · intro k st2 k1 k2 ⟨b1, b2⟩
            refine (loadArc_safe hd.edl b1 (by omega)).mono ?_
            intro r hr
            cases r with
            | none => trivial
            | some st3 => exact ⟨hr.1, by have := hr.2; omega⟩
          · intro st2 hst2
            exact hst2.1

theorem relabelIndex_safe {vlblmax : Int} {vlbltax : Arr Int} (hlo : vlbltax.lo = B) (hhi : vlbltax.hi = B + n)
    (hv : ∀ v, B ≤ v → v < B + n → 0 ≤ vlbltax.get v ∧ vlbltax.get v ≤ vlblmax) :
    Safe (relabelIndex B (B + n) vlblmax vlbltax) (OSat (fun t => t.lo = 0 ∧ t.hi = vlblmax + 1) True) := by
  unfold relabelIndex
  refine Safe_loopO (fun _ t => t.lo = 0 ∧ t.hi = vlblmax + 1) True ⟨rfl, rfl⟩ ?_ (fun s h => h) (fun h => h)
  intro j t j1 j2 ht
  have := hv j j1 j2
  rw [Safe_bind, Safe_rd]
  refine ⟨by omega, ?_⟩
  rw [Safe_bind, Safe_rd]
  refine ⟨by omega, ?_⟩
  split
  · trivial
  · rw [Safe_bind, Safe_wr]
    exact ⟨by omega, ht⟩

theorem load2_safe {vlblmax : Int} {vlbltax verttax edgetax : Arr Int} (hlo : vlbltax.lo = B) (hhi : vlbltax.hi = B + n)
    (hv : ∀ v, B ≤ v → v < B + n → 0 ≤ vlbltax.get v ∧ vlbltax.get v ≤ vlblmax)
    (hvt : verttax.lo = B ∧ verttax.hi = B + (n + 1)) (het : edgetax.lo = B ∧ edgetax.hi = B + m)
    (hpos : ∀ v, B ≤ v → v ≤ B + n → B ≤ verttax.get v ∧ verttax.get v ≤ B + m)
    (hmono : ∀ v, B ≤ v → v < B + n → verttax.get v ≤ verttax.get (v + 1))
    (hdst : ∀ e, B ≤ e → e < B + m → 0 ≤ edgetax.get e) :
    Safe (load2 numMax B (B + n) verttax edgetax vlblmax vlbltax) (OSat (fun t => t.lo = B ∧ t.hi = B + m) True) := by
  unfold load2
  rw [Safe_bind]
  refine (chk_safe numMax _).mono ?_
  rintro _ rfl
  split
  · trivial
  · rw [Safe_andThen]
    refine (relabelIndex_safe hlo hhi hv).mono ?_
    intro r hr
    cases r with
    | none => trivial
    | some t =>
      obtain ⟨t1, t2⟩ : t.lo = 0 ∧ t.hi = vlblmax + 1 := hr
      dsimp only
      refine Safe_loopO (fun i a => a.lo = B ∧ a.hi = B + m ∧
          ∀ e, (i < B + n → verttax.get i ≤ e) → B ≤ e → i < B + n → e < B + m → 0 ≤ a.get e) True ?_ ?_ ?_ (fun h => h)
      · exact ⟨het.1, het.2, fun e _ h1 _ h2 => hdst e h1 h2⟩
      · intro i a i1 i2 ⟨a1, a2, a3⟩
        have p1 := hpos i i1 (by omega)
        have p2 := hpos (i + 1) (by omega) (by omega)
        have p3 := hmono i i1 i2
        rw [Safe_bind, Safe_rd]
        refine ⟨by omega, ?_⟩
        rw [Safe_bind, Safe_rd]
        refine ⟨by omega, ?_⟩
        refine Safe_loopO (fun k a => a.lo = B ∧ a.hi = B + m ∧ ∀ e, k ≤ e → e < B + m → 0 ≤ a.get e) True ?_ ?_ ?_ (fun h => h)
        · exact ⟨a1, a2, fun e h1 h2 => a3 e (fun _ => h1) (by omega) i2 h2⟩
        · intro k b k1 k2 ⟨b1, b2, b3⟩
          have := b3 k (Int.le_refl _) (by omega)
          unfold relabelArc
          rw [Safe_bind, Safe_rd]
          refine ⟨by omega, ?_⟩
          split
          · trivial
          · rw [Safe_bind, Safe_rd]
            refine ⟨by omega, ?_⟩
            split
            · trivial
            · rw [Safe_bind, Safe_wr]
              refine ⟨by omega, b1, b2, ?_⟩
              intro e e1 e2
              rw [Arr.set_get_ne _ _ (by omega)]
              exact b3 e (by omega) e2
        · intro b hb
          refine ⟨hb.1, hb.2.1, ?_⟩
          intro e e1 e2 e3 e4
          have := e1 e3
          exact hb.2.2 e (by omega) e4
      · intro a ha
        exact ⟨ha.1, ha.2.1⟩

theorem optArr_some {use : Bool} {lo k : Int} {junk : Int → Int} {a : Arr Int} (h : optArr use lo k junk = some a) :
    use = true ∧ a.lo = lo ∧ a.hi = lo + k := by
  unfold optArr at h
  split at h
  · cases h
    rename_i hc
    exact ⟨hc.1, rfl, rfl⟩
  · cases h

theorem loadEnd_safe (hd : Header) (hn : 0 ≤ n) (h : LS lbl B n m adj s0 (B + n) st) (hadj : lbl = true → adj = 0)
    (hlbl : lbl = true → 45 ∉ s0) (hnum : st.edgenum = B + m) (hvert : hd.vertnbr = n) :
    Safe (loadEnd numMax hd B (B + n) { st with verttax := st.verttax.set (B + n) st.edgenum })
      (OSat (fun r => r.1.Allocated) True) := by
  have hpos : ∀ v, B ≤ v → v ≤ B + n → B ≤ (st.verttax.set (B + n) st.edgenum).get v ∧
      (st.verttax.set (B + n) st.edgenum).get v ≤ B + m := by
    intro v h1 h2
    have := h.num
    rw [Arr.set_get]
    split
    · omega
    · have := h.pos v h1 (by omega)
      omega
  have hmono : ∀ v, B ≤ v → v < B + n → (st.verttax.set (B + n) st.edgenum).get v ≤
      (st.verttax.set (B + n) st.edgenum).get (v + 1) := by
    intro v h1 h2
    rw [Arr.set_get_ne _ _ (by omega), Arr.set_get]
    split
    · exact (h.pos v h1 h2).2
    · exact h.mono v h1 (by omega)
  have hfin : ∀ edgetax : Arr Int, edgetax.lo = B → edgetax.hi = B + m →
      Allocated ⟨B, hd.vertnbr, B + n, st.verttax.set (B + n) st.edgenum, none, st.velotax, st.velosum, none, st.vlbltax,
        hd.edgenbr, edgetax, st.edlotax, st.edlosum, st.degrmax⟩ := by
    intro edgetax e1 e2
    have hvt := h.vt
    refine ⟨?_, ?_, ?_, ?_, ?_, ?_, ?_, ?_, ?_⟩
    · show st.verttax.lo ≤ B
      omega
    · show B + n ≤ st.verttax.hi
      omega
    · intro _
      show B + n + 1 ≤ st.verttax.hi
      omega
    · rintro a ⟨⟩
    · intro a ha
      have := h.ve a ha
      dsimp only
      omega
    · rintro a ⟨⟩
    · intro a ha
      have := (h.vl a ha).1
      dsimp only
      omega
    · rintro v ⟨v1, v2⟩ _
      have p1 := hpos v v1 (by omg)
      have p2 := hpos (v + 1) (by omg) (by omg)
      show edgetax.lo ≤ _ ∧ _ ≤ edgetax.hi
      unfold vert vend
      omg
    · rintro a ha v ⟨v1, v2⟩ _
      have := h.el a ha
      have p1 := hpos v v1 (by omg)
      have p2 := hpos (v + 1) (by omg) (by omg)
      unfold vert vend
      omg
  unfold loadEnd
  cases hl : st.vlbltax with
  | none =>
    have := hfin st.edgetax h.et.1 h.et.2
    rw [hl] at this
    exact this
  | some a =>
    obtain ⟨⟨a1, a2⟩, a3, a4⟩ := h.vl a hl
    dsimp only
    rw [Safe_andThen]
    refine (load2_safe (verttax := st.verttax.set (B + n) st.edgenum) a1 a2 (a4 (hlbl a3)) h.vt h.et hpos hmono ?_).mono ?_
    · intro e e1 e2
      exact h.dst (hadj a3) (hlbl a3) e e1 (by omega)
    · intro r hr
      cases r with
      | none => trivial
      | some t =>
        have := hfin t hr.1 hr.2
        rw [hl] at this
        exact this

theorem loadBody_safe (baseval : Int) (noVert noEdge : Bool) (junk : LoadJunk) (hd : Header) (s : Stream)
    (hn : 0 ≤ hd.vertnbr) (hm : 0 ≤ hd.edgenbr) (hlbl : hd.lbl = true → 45 ∉ s) :
    Safe (loadBody numMax baseval noVert noEdge junk hd s) (OSat (fun r => r.1.Allocated) True) := by
  unfold loadBody
  generalize hB : (if baseval = -1 then hd.filebase else baseval) = B
  dsimp only
  rw [Safe_bind]
  have hadj : Safe (loadAdj numMax baseval hd) (fun adj => hd.lbl = true → adj = 0) := by
    unfold loadAdj
    split
    · intro _; rfl
    · rw [Safe_bind]
      refine (chk_safe numMax _).mono ?_
      rintro _ rfl
      intro hl
      rw [if_pos hl]
  refine hadj.mono ?_
  intro adj hadj
  rw [Safe_bind]
  refine (chk_safe numMax _).mono ?_
  rintro _ rfl
  rw [Safe_bind]
  refine (chk_safe numMax _).mono ?_
  rintro _ rfl
  rw [Safe_bind]
  refine (chk_safe numMax _).mono ?_
  rintro _ rfl
  rw [Safe_bind]
  refine (chk_safe numMax _).mono ?_
  rintro _ rfl
  rw [Safe_andThen, show hd.vertnbr + B = B + hd.vertnbr by omega, show hd.edgenbr + B = B + hd.edgenbr by omega]
  refine Safe_loopO (LS hd.lbl B hd.vertnbr hd.edgenbr adj s) True ?_ ?_ ?_ (fun h => h)
  · refine ⟨⟨rfl, rfl⟩, ?_, ?_, ⟨rfl, rfl⟩, ?_, ⟨Int.le_refl _, by omg⟩, fun c h => h, ?_, ?_, ?_⟩
    · intro a ha
      exact (optArr_some ha).2
    · intro a ha
      obtain ⟨h1, h2⟩ := optArr_some ha
      exact ⟨h2, h1, fun _ v v1 v2 => by omega⟩
    · intro a ha
      exact (optArr_some ha).2
    · intro v v1 v2; omega
    · intro v v1 v2; omega
    · intro _ _ e e1 e2; omg
  · intro i st i1 i2 hst
    exact loadVert_safe hd hst i1 i2
  · intro st hst
    rw [show max B (B + hd.vertnbr) = B + hd.vertnbr by omega] at hst
    have := hst.vt
    dsimp only
    rw [Safe_bind, Safe_wr]
    refine ⟨by omega, ?_⟩
    split
    · trivial
    · rename_i hne
      exact loadEnd_safe hd hn hst hadj hlbl (by omega) rfl

theorem loadHeader_safe (s : Stream) : Safe (loadHeader numMax s)
    (OSat (fun r => 0 ≤ r.1.vertnbr ∧ 0 ≤ r.1.edgenbr ∧ ∀ c ∈ r.2, c ∈ s) True) := by
  unfold loadHeader
  have step : ∀ {α : Type} (s' : Stream) (hs : ∀ c ∈ s', c ∈ s) (f : Int × Stream → M (Option α)) (Q : α → Prop),
      (∀ v s'', (∀ c ∈ s'', c ∈ s) → Safe (f (v, s'')) (OSat Q True)) →
      Safe (getInt numMax s' >?> f) (OSat Q True) := by
    intro α s' hs f Q hf
    rw [Safe_andThen]
    refine (getInt_safe numMax s').mono ?_
    intro r hr
    cases r with
    | none => trivial
    | some p => exact hf p.1 p.2 (fun c hc => hs c ((hr p.1 p.2 rfl).1 c hc))
  have step' : ∀ {α : Type} (c : Prop) [Decidable c] (f : Unit → M (Option α)) (Q : α → Prop),
      (c → Safe (f ()) (OSat Q True)) → Safe (guardO c >?> f) (OSat Q True) := by
    intro α c _ f Q hf
    rw [Safe_andThen, Safe_guardO]
    split
    · rename_i h
      exact hf h
    · trivial
  refine step s (fun c h => h) _ _ ?_
  intro versval s1 h1
  refine step' _ _ _ ?_
  intro _
  refine step s1 h1 _ _ ?_
  intro vertnbr s2 h2
  refine step s2 h2 _ _ ?_
  intro edgenbr s3 h3
  refine step s3 h3 _ _ ?_
  intro baseadj s4 h4
  refine step s4 h4 _ _ ?_
  intro propval s5 h5
  refine step' _ _ _ ?_
  intro _
  refine step' _ _ _ ?_
  intro hv
  refine step' _ _ _ ?_
  intro he
  exact ⟨by omg, by omg, h5⟩

end Graph
end Scotch
