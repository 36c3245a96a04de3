import Verif.Bipart.LemmasGp

/-! # Bipartition by the Gibbs-Poole-Stockmeyer method: growth of part 1, and frontier -/

set_option autoImplicit false
set_option linter.unusedSimpArgs false

namespace Scotch

open Classical in
/-- Sum over the elements listed in an array. -/
theorem sumI_enum (q f : Int → Int) (a b lo hi : Int) (hle : lo ≤ hi)
    (hinj : ∀ i j, lo ≤ i → i < hi → lo ≤ j → j < hi → q i = q j → i = j) (hr : ∀ i, lo ≤ i → i < hi → a ≤ q i ∧ q i < b) :
    sumI lo hi (fun i => f (q i)) = sumI a b (fun v => if ∃ i, lo ≤ i ∧ i < hi ∧ q i = v then f v else 0) := by
  obtain ⟨n, rfl⟩ : ∃ n : Nat, hi = lo + n := ⟨(hi - lo).toNat, by omega⟩
  clear hle
  induction n with
  | zero =>
    rw [sumI_empty (by omega)]
    symm
    apply sumI_eq_zero
    intro v _ _
    rw [if_neg]
    rintro ⟨i, h1, h2, _⟩
    omega
  | succ n ih =>
    rw [show lo + ((n + 1 : Nat) : Int) = lo + n + 1 by omega] at *
    rw [sumI_succ (by omega), ih (fun i j h1 h2 h3 h4 => hinj i j h1 (by omega) h3 (by omega)) (fun i h1 h2 => hr i h1 (by omega))]
    have hq := hr (lo + n) (by omega) (by omega)
    rw [← sumI_single hq.1 hq.2 f, ← sumI_add_dist]
    apply sumI_congr
    intro v _ _
    by_cases hv : v = q (lo + n)
    · have hno : ¬ ∃ i, lo ≤ i ∧ i < lo + n ∧ q i = v := by
        rintro ⟨i, h1, h2, h3⟩
        have := hinj i (lo + n) h1 (by omega) (by omega) (by omega) (by rw [h3, hv])
        omega
      have hyes : ∃ i, lo ≤ i ∧ i < lo + n + 1 ∧ q i = v := ⟨lo + n, by omega, by omega, hv.symm⟩
      rw [if_pos hv, if_neg hno, if_pos hyes, Int.zero_add]
    · rw [if_neg hv, Int.add_zero]
      by_cases he : ∃ i, lo ≤ i ∧ i < lo + n ∧ q i = v
      · obtain ⟨i, h1, h2, h3⟩ := he
        rw [if_pos ⟨i, h1, h2, h3⟩, if_pos ⟨i, h1, by omega, h3⟩]
      · rw [if_neg he, if_neg]
        rintro ⟨i, h1, h2, h3⟩
        by_cases hi : i = lo + n
        · rw [hi] at h3; exact hv h3.symm
        · exact he ⟨i, h1, by omega, h3⟩

end Scotch

namespace Scotch.Bipart
open Graph

/-- State of the growth of part 1 in a closed set. -/
structure Grow (b : Bgraph) (C : Int → Prop) (p : Int) (old part0 : Int → Int) (s : GpGrow) : Prop where
  bfs : Bfs b.s C p old s.gp
  bnd : s.part.lo = b.parttax.lo ∧ s.part.hi = b.parttax.hi
  done : ∀ i, 0 ≤ i → i < s.gp.tail → ∀ w, b.s.Adj (s.gp.queu.get i) w → s.gp.pass.get w = p
  par : ∀ i, 0 < i → i < s.gp.head → ∃ j, 0 ≤ j ∧ j < s.gp.tail ∧ b.s.Adj (s.gp.queu.get j) (s.gp.queu.get i)
  into : ∀ i, 0 ≤ i → i < s.gp.tail → s.part.get (s.gp.queu.get i) = 1
  out : ∀ v, (∀ i, 0 ≤ i → i < s.gp.tail → s.gp.queu.get i ≠ v) → s.part.get v = part0 v
  parts : Parts b.s s.part.get
  size : s.compsize0 = over b.s s.part.get 0 (fun _ => 1)
  load : s.compload0dlt = over b.s s.part.get 0 b.s.velo - b.compload0avg
  extn : s.commloadextn = over b.s s.part.get 1 b.veex

variable {b : Bgraph} {C : Int → Prop} {p : Int} {old part0 : Int → Int}

theorem gpGrow_holds (hc : ConsE b.s) (ha : Alloc b) (hC : Closed b.s C) (h0 : ∀ v, C v → part0 v = 0) {s : GpGrow} (h : Grow b C p old part0 s)
    (ht : s.gp.tail = 0) (hh : s.gp.head = 1) :
    Holds (loopM (gpGrowStep b p) (b.s.vertnbr.toNat + 1) s) (fun r => Grow b C p old part0 r ∧ 1 ≤ r.gp.tail ∧ r.gp.queu.get 0 = s.gp.queu.get 0) := by
  have hnn := hc.vertnnd
  refine Holds_loopM (fun r : GpGrow => Grow b C p old part0 r ∧ r.gp.tail < r.gp.head ∧ (r.gp.head = 1 ∨ 1 ≤ r.gp.tail) ∧ r.gp.queu.get 0 = s.gp.queu.get 0)
    (fun r => (b.s.vertnbr - r.gp.tail).toNat) ?_ _ _ ⟨h, by omega, Or.inl hh, rfl⟩ ?_
  · rintro r ⟨i, it, ith, iq⟩
    have hle := i.bfs.head_le hc hC
    have hb := i.bfs.bnd
    have ht := i.bfs.tail
    have hv := i.bfs.enum.mem ht.1 it
    generalize hx : r.gp.queu.get r.gp.tail = v at hv
    have hvv := hC.sub _ hv.1
    have v1 := hvv.1
    have v2 := hvv.2
    have hpb := ha.part
    have hib := i.bnd
    have hfresh : ∀ j, 0 ≤ j → j < r.gp.tail → r.gp.queu.get j ≠ v := by
      intro j j1 j2 hj
      have := i.bfs.enum.2.1 j r.gp.tail j1 (by omega) ht.1 it (by rw [hj, hx])
      omega
    have hpv : r.part.get v = 0 := by rw [i.out v hfresh]; exact h0 v hv.1
    unfold gpGrowStep
    rw [Arr.rd_ok _ (by have := hb.q1; omega) (by have := hb.q2; omega), ok_bind, hx, Arr.wr_ok _ _ (by omega) (by omega), ok_bind,
      rdVelo_eq ha.graph hvv, ok_bind, rdVeex_eq ha hvv, ok_bind, Arr.rd_ok _ (by have := hb.d1; omega) (by have := hb.d2; omega), ok_bind]
    dsimp only
    rw [Holds_bind]
    have i1' : Bfs b.s C p old { r.gp with tail := r.gp.tail + 1 } :=
      ⟨⟨hb.q1, hb.q2, hb.p1, hb.p2, hb.d1, hb.d2⟩, by dsimp only; omega, i.bfs.enum, i.bfs.le, i.bfs.out, i.bfs.dist⟩
    refine (gpArcs_holds hc ha.graph hC i1' hv.1 (by have := i.bfs.dist _ hv.1 hv.2; omega)).mono ?_
    rintro s' ⟨j1, j2, j3⟩
    have jt := j2.tail
    have jh := j2.head
    have jq := j2.queu
    dsimp only at jt jh jq
    have hflip : (r.part.set v 1).get = flip r.part.get v := by
      funext w
      unfold flip
      rw [Arr.set_get, hpv]
      rfl
    have hG : Grow b C p old part0 ⟨s', r.part.set v 1, r.compsize0 - 1, r.compload0dlt - b.s.velo v, r.commloadextn + b.veex v⟩ := by
      refine ⟨j1, hib, ?_, ?_, ?_, ?_, ?_, ?_, ?_, ?_⟩
      · intro k k1 k2 w hw
        dsimp only at k2 hw ⊢
        rw [jq k (by omega)] at hw
        by_cases hk : k = r.gp.tail
        · rw [hk, hx] at hw
          exact j3 w hw
        · exact j2.pass w (i.done k k1 (by omega) w hw)
      · intro k k1 k2
        dsimp only at k2 ⊢
        by_cases hk : k < r.gp.head
        · obtain ⟨j, a1, a2, a3⟩ := i.par k k1 hk
          refine ⟨j, a1, by omega, ?_⟩
          rw [jq j (by omega), jq k hk]; exact a3
        · refine ⟨r.gp.tail, by omega, by omega, ?_⟩
          rw [jq _ it, hx]
          exact j2.new k (by dsimp only; omega) k2
      · intro k k1 k2
        dsimp only at k2 ⊢
        rw [jq k (by omega), Arr.set_get]
        split
        · rfl
        · rename_i hne
          by_cases hk : k = r.gp.tail
          · rw [hk, hx] at hne; exact absurd rfl hne
          · exact i.into k k1 (by omega)
      · intro w hw
        dsimp only at hw ⊢
        have hwv : w ≠ v := by
          intro e
          exact hw r.gp.tail (by omega) (by omega) (by rw [jq _ it, hx, e])
        rw [Arr.set_get_ne _ _ hwv]
        refine i.out w ?_
        intro k k1 k2
        rw [← jq k (by omega)]
        exact hw k k1 (by omega)
      · rw [hflip]; exact flip_parts i.parts v hvv
      · dsimp only
        rw [hflip, over0_flip i.parts hvv, hpv, i.size]; omega
      · dsimp only
        rw [hflip, over0_flip i.parts hvv, hpv, i.load]; omega
      · dsimp only
        rw [hflip, over1_flip i.parts hvv, hpv, i.extn]; omega
    have hq0 : s'.queu.get 0 = s.gp.queu.get 0 := by rw [jq 0 (by omega), iq]
    by_cases he : r.compload0dlt - b.s.velo v > 0 ∧ ¬ s'.head ≤ s'.tail
    · rw [if_pos he, Holds_pure, Loop.Sat_next]
      exact ⟨⟨hG, by dsimp only; omega, Or.inr (by dsimp only; omega), hq0⟩, by dsimp only; omega⟩
    · rw [if_neg he, Holds_pure, Loop.Sat_brk]
      exact ⟨hG, by dsimp only; omega, hq0⟩
  · have := hc.vertnbr
    omega

/-- State of the computation of the frontier, before vertex of index `t`, arc `e`. -/
structure FronInv (b : Bgraph) (C : Int → Prop) (queu : Arr Int) (part : Int → Int) (t0 c0 : Int) (s : GpFron) (t : Int) (A : Int → Prop) : Prop where
  tail : s.tail = t
  dbnd : s.dist.lo = b.s.baseval ∧ s.dist.hi = b.s.vertnnd
  fbnd : s.frontab.lo = b.frontab.lo ∧ s.frontab.hi = b.frontab.hi
  enum : Enum s.frontab s.fronnbr (fun x => (∃ i, t0 ≤ i ∧ i < t ∧ queu.get i = x) ∨ (C x ∧ part x = 1 ∧ s.dist.get x = -1))
  mark : ∀ x, (C x ∧ part x = 1 ∧ s.dist.get x = -1) ↔ part x = 1 ∧ A x

theorem gpFronArcs_holds (hc : ConsE b.s) (ha : Alloc b) (hC : Closed b.s C) {queu part : Arr Int} {t0 c0 t : Int} {s : GpFron} {A : Int → Prop}
    (hpb : part.lo = b.parttax.lo ∧ part.hi = b.parttax.hi)
    (hq : ∀ i, t0 ≤ i → i < t → C (queu.get i) ∧ part.get (queu.get i) = 0) {v : Int} (hv : C v)
    (h : FronInv b C queu part.get t0 c0 s t A) :
    Holds (b.s.forArcs v s (gpFronArc b part)) (fun s' => FronInv b C queu part.get t0 c0 s' t (fun x => A x ∨ b.s.Adj v x) ∧
      s'.commloadintn = s.commloadintn + linkTo b.s part.get 1 v) := by
  have hvv := hC.sub v hv
  have hnn := hc.vertnnd
  have hr := (hc.range v hvv).2
  have hpa := ha.part
  have hfa := ha.fron
  refine Holds_forArcs ha.graph hvv hr (fun e s' => FronInv b C queu part.get t0 c0 s' t (fun x => A x ∨ ∃ e', b.s.vert v ≤ e' ∧ e' < e ∧ b.s.dest e' = x) ∧
      s'.commloadintn = s.commloadintn + sumI (b.s.vert v) e (fun e => if part.get (b.s.dest e) = 1 then b.s.edlo e else 0)) ?_ ?_ ?_
  · refine ⟨⟨h.tail, h.dbnd, h.fbnd, h.enum, ?_⟩, by rw [sumI_empty (Int.le_refl _)]; omega⟩
    intro x
    rw [h.mark]
    constructor
    · rintro ⟨a, c⟩; exact ⟨a, Or.inl c⟩
    · rintro ⟨a, c | ⟨e', h1, h2, _⟩⟩
      · exact ⟨a, c⟩
      · omega
  · rintro e s' h1 h2 ⟨i, ic⟩
    have hw : C (b.s.dest e) := hC.adj v _ hv ⟨e, h1, h2, rfl⟩
    have hwv := hC.sub _ hw
    have w1 := hwv.1
    have w2 := hwv.2
    have hdb := i.dbnd
    have hfb := i.fbnd
    unfold gpFronArc
    rw [Arr.rd_ok _ (by omega) (by omega), ok_bind]
    by_cases hp : part.get (b.s.dest e) = 1
    · rw [if_pos hp, rdEdlo_eq ha.graph hvv h1 h2, ok_bind, Arr.rd_ok _ (by omega) (by omega), ok_bind]
      by_cases hd : s'.dist.get (b.s.dest e) ≠ -1
      · rw [if_pos hd]
        have hx : ¬ ((∃ i, t0 ≤ i ∧ i < t ∧ queu.get i = b.s.dest e) ∨ (C (b.s.dest e) ∧ part.get (b.s.dest e) = 1 ∧ s'.dist.get (b.s.dest e) = -1)) := by
          rintro (⟨i, i1, i2, i3⟩ | ⟨_, _, h⟩)
          · have := (hq i i1 i2).2
            rw [i3, hp] at this
            exact absurd this (by decide)
          · exact hd h
        have hlt := i.enum.lt (lo := b.s.baseval) (hi := b.s.vertnnd) (by
          rintro x (⟨i, i1, i2, rfl⟩ | ⟨h, _⟩)
          · exact hC.sub _ (hq i i1 i2).1
          · exact hC.sub _ h) hx w1 w2
        have h0 := i.enum.1
        rw [Arr.wr_ok _ _ (by omega) (by omega), ok_bind, Arr.wr_ok _ _ (by omega) (by omega), ok_bind, Holds_pure]
        refine ⟨⟨i.tail, hdb, hfb, ?_, ?_⟩, ?_⟩
        · refine (i.enum.push hx).congr ?_
          intro x
          dsimp only
          by_cases hxe : x = b.s.dest e
          · rw [hxe, Arr.set_get_same]
            exact ⟨fun _ => Or.inr ⟨hw, hp, rfl⟩, fun _ => Or.inr rfl⟩
          · rw [Arr.set_get_ne _ _ hxe]
            exact ⟨fun h => h.elim id (fun h => absurd h hxe), Or.inl⟩
        · intro x
          dsimp only
          by_cases hxe : x = b.s.dest e
          · rw [hxe, Arr.set_get_same]
            exact ⟨fun _ => ⟨hp, Or.inr ⟨e, h1, by omega, rfl⟩⟩, fun _ => ⟨hw, hp, rfl⟩⟩
          · rw [Arr.set_get_ne _ _ hxe, i.mark]
            constructor
            · rintro ⟨a, c | ⟨e', k1, k2, k3⟩⟩
              · exact ⟨a, Or.inl c⟩
              · exact ⟨a, Or.inr ⟨e', k1, by omega, k3⟩⟩
            · rintro ⟨a, c | ⟨e', k1, k2, k3⟩⟩
              · exact ⟨a, Or.inl c⟩
              · refine ⟨a, Or.inr ⟨e', k1, ?_, k3⟩⟩
                rcases Int.lt_or_le e' e with hh | hh
                · exact hh
                · exact absurd (by rw [← k3, show e' = e by omega]) hxe
        · dsimp only
          rw [sumI_succ h1, if_pos hp, ic]; omega
      · rw [if_neg hd, Holds_pure]
        refine ⟨⟨i.tail, hdb, hfb, i.enum, ?_⟩, ?_⟩
        · intro x
          dsimp only
          rw [i.mark]
          constructor
          · rintro ⟨a, c | ⟨e', k1, k2, k3⟩⟩
            · exact ⟨a, Or.inl c⟩
            · exact ⟨a, Or.inr ⟨e', k1, by omega, k3⟩⟩
          · rintro ⟨a, c | ⟨e', k1, k2, k3⟩⟩
            · exact ⟨a, Or.inl c⟩
            · rcases Int.lt_or_le e' e with hh | hh
              · exact ⟨a, Or.inr ⟨e', k1, hh, k3⟩⟩
              · rw [← i.mark, ← k3, show e' = e by omega]
                exact ⟨hw, hp, by omega⟩
        · dsimp only
          rw [sumI_succ h1, if_pos hp, ic]; omega
    · rw [if_neg hp, Holds_pure]
      refine ⟨⟨i.tail, hdb, hfb, i.enum, ?_⟩, ?_⟩
      · intro x
        rw [i.mark]
        constructor
        · rintro ⟨a, c | ⟨e', k1, k2, k3⟩⟩
          · exact ⟨a, Or.inl c⟩
          · exact ⟨a, Or.inr ⟨e', k1, by omega, k3⟩⟩
        · rintro ⟨a, c | ⟨e', k1, k2, k3⟩⟩
          · exact ⟨a, Or.inl c⟩
          · rcases Int.lt_or_le e' e with hh | hh
            · exact ⟨a, Or.inr ⟨e', k1, hh, k3⟩⟩
            · rw [← k3, show e' = e by omega] at a
              exact absurd a hp
      · rw [sumI_succ h1, if_neg hp, ic]; omega
  · rintro s' ⟨i, ic⟩
    refine ⟨⟨i.tail, i.dbnd, i.fbnd, i.enum, i.mark⟩, ?_⟩
    rw [ic]
    congr 1
    unfold linkTo nbrs arcs
    rw [List.map_map, List.map_map]
    have := sum_map_range (fun e => if part.get (b.s.dest e) = 1 then b.s.edlo e else 0) (b.s.vert v) (b.s.vend v - b.s.vert v).toNat
    rw [List.map_map] at this
    rw [show b.s.vert v + ((b.s.vend v - b.s.vert v).toNat : Int) = b.s.vend v by omega] at this
    rw [← this]
    rfl

theorem gpFron_holds (hc : ConsE b.s) (ha : Alloc b) (hC : Closed b.s C) {queu part : Arr Int} {t0 head : Int} {s : GpFron}
    (hpb : part.lo = b.parttax.lo ∧ part.hi = b.parttax.hi) (hqb : queu.lo = 0 ∧ head ≤ queu.hi)
    (hq : ∀ i, t0 ≤ i → i < head → C (queu.get i) ∧ part.get (queu.get i) = 0)
    (hinj : ∀ i j, t0 ≤ i → i < head → t0 ≤ j → j < head → queu.get i = queu.get j → i = j)
    (ht0 : 0 ≤ t0) (hlt : t0 < head) (hle : head ≤ b.s.vertnbr)
    (h1 : s.tail = t0) (h2 : s.dist.lo = b.s.baseval ∧ s.dist.hi = b.s.vertnnd) (h3 : s.frontab = b.frontab) (h4 : s.fronnbr = 0)
    (h5 : ∀ x, C x → part.get x = 1 → s.dist.get x ≠ -1) (h6 : s.commloadintn = 0) :
    Holds (loopM (gpFronStep b part queu head) (b.s.vertnbr.toNat + 1) s) (fun r =>
      r.frontab.lo = b.frontab.lo ∧ r.frontab.hi = b.frontab.hi ∧
      Enum r.frontab r.fronnbr (fun x => (∃ i, t0 ≤ i ∧ i < head ∧ queu.get i = x) ∨ (part.get x = 1 ∧ ∃ i, t0 ≤ i ∧ i < head ∧ b.s.Adj (queu.get i) x)) ∧
      r.commloadintn = sumI t0 head (fun i => linkTo b.s part.get 1 (queu.get i))) := by
  have hnn := hc.vertnnd
  have hfa := ha.fron
  refine Holds_loopM (fun r : GpFron => ∃ t, t0 ≤ t ∧ t < head ∧ FronInv b C queu part.get t0 0 r t (fun x => ∃ i, t0 ≤ i ∧ i < t ∧ b.s.Adj (queu.get i) x) ∧
      r.commloadintn = sumI t0 t (fun i => linkTo b.s part.get 1 (queu.get i))) (fun r => (b.s.vertnbr - r.tail).toNat) ?_ _ _ ?_ ?_
  · rintro r ⟨t, k1, k2, i, ic⟩
    have ht := i.tail
    have hfb := i.fbnd
    have hv := hq t k1 k2
    have hvv := hC.sub _ hv.1
    unfold gpFronStep
    rw [Arr.rd_ok _ (by omega) (by omega), ok_bind, ht]
    generalize hx : queu.get t = v at hv hvv
    have hfresh : ¬ ((∃ i, t0 ≤ i ∧ i < t ∧ queu.get i = v) ∨ (C v ∧ part.get v = 1 ∧ r.dist.get v = -1)) := by
      rintro (⟨j, j1, j2, j3⟩ | ⟨_, h, _⟩)
      · have := hinj j t j1 (by omega) k1 k2 (by rw [j3, hx])
        omega
      · rw [hv.2] at h; exact absurd h (by decide)
    have hlt := i.enum.lt (lo := b.s.baseval) (hi := b.s.vertnnd) (by
      rintro x (⟨j, j1, j2, rfl⟩ | ⟨h, _⟩)
      · exact hC.sub _ (hq j j1 (by omega)).1
      · exact hC.sub _ h) hfresh hvv.1 hvv.2
    have h0 := i.enum.1
    rw [Arr.wr_ok _ _ (by omega) (by omega), ok_bind, Holds_bind]
    refine (gpFronArcs_holds hc ha hC (s := { r with tail := t + 1, frontab := r.frontab.set r.fronnbr v, fronnbr := r.fronnbr + 1 }) (t0 := t0) (c0 := 0) (t := t + 1) (A := fun x => ∃ i, t0 ≤ i ∧ i < t ∧ b.s.Adj (queu.get i) x) hpb
      (fun j j1 j2 => hq j j1 (by omega)) hv.1 ⟨rfl, i.dbnd, hfb, ?_, i.mark⟩).mono ?_
    · dsimp only
      refine (i.enum.push hfresh).congr ?_
      intro x
      constructor
      · rintro ((⟨j, j1, j2, j3⟩ | h) | rfl)
        · exact Or.inl ⟨j, j1, by omega, j3⟩
        · exact Or.inr h
        · exact Or.inl ⟨t, k1, by omega, hx⟩
      · rintro (⟨j, j1, j2, j3⟩ | h)
        · by_cases hj : j = t
          · rw [hj, hx] at j3; exact Or.inr j3.symm
          · exact Or.inl (Or.inl ⟨j, j1, by omega, j3⟩)
        · exact Or.inl (Or.inr h)
    · rintro s' ⟨m1, m2⟩
      dsimp only at m2
      have mt := m1.tail
      have m1' : FronInv b C queu part.get t0 0 s' (t + 1) (fun x => ∃ i, t0 ≤ i ∧ i < t + 1 ∧ b.s.Adj (queu.get i) x) := by
        refine ⟨m1.tail, m1.dbnd, m1.fbnd, m1.enum, ?_⟩
        intro x
        rw [m1.mark]
        constructor
        · rintro ⟨a, ⟨j, j1, j2, j3⟩ | h⟩
          · exact ⟨a, j, j1, by omega, j3⟩
          · exact ⟨a, t, k1, by omega, by rw [hx]; exact h⟩
        · rintro ⟨a, j, j1, j2, j3⟩
          by_cases hj : j = t
          · rw [hj, hx] at j3; exact ⟨a, Or.inr j3⟩
          · exact ⟨a, Or.inl ⟨j, j1, by omega, j3⟩⟩
      have mc : s'.commloadintn = sumI t0 (t + 1) (fun i => linkTo b.s part.get 1 (queu.get i)) := by
        rw [m2, sumI_succ k1, ic, hx]
      by_cases he : head ≤ s'.tail
      · rw [if_pos he, Holds_pure, Loop.Sat_brk]
        have : head = t + 1 := by omega
        rw [this]
        refine ⟨m1'.fbnd.1, m1'.fbnd.2, m1'.enum.congr ?_, mc⟩
        intro x
        rw [m1'.mark]
      · rw [if_neg he, Holds_pure, Loop.Sat_next]
        exact ⟨⟨t + 1, by omega, by omega, m1', mc⟩, by omega⟩
  · refine ⟨t0, Int.le_refl _, hlt, ⟨h1, h2, by rw [h3]; exact ⟨rfl, rfl⟩, ?_, ?_⟩, by rw [sumI_empty (Int.le_refl _), h6]⟩
    · rw [h4]
      refine (Enum.empty _).congr ?_
      intro x
      refine ⟨False.elim, ?_⟩
      rintro (⟨i, i1, i2, _⟩ | ⟨a, c, d⟩)
      · omega
      · exact h5 x a c d
    · intro x
      constructor
      · rintro ⟨a, c, d⟩; exact absurd d (h5 x a c)
      · rintro ⟨_, i, i1, i2, _⟩; omega
  · omega

end Scotch.Bipart
