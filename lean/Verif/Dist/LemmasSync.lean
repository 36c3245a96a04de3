import Verif.Dist.LemmasHalo

/-! # Distributed graphs: what is received -/

set_option autoImplicit false
set_option linter.unusedSimpArgs false

namespace Scotch.Dist
open Local

section
variable {d : DGraph}

theorem DGraph.Consistent.mono (h : d.Consistent) {p q : Int} (p1 : 0 ≤ p) (p2 : p ≤ q) (p3 : q ≤ d.procglbnbr) : d.procvrttab.get p ≤ d.procvrttab.get q := by
  obtain ⟨n, rfl⟩ : ∃ n : Nat, q = p + n := ⟨(q - p).toNat, by omega⟩
  clear p2
  induction n with
  | zero => simp
  | succ n ih =>
    have e : p + ((n + 1 : Nat) : Int) = p + n + 1 := by omega
    rw [e] at p3 ⊢
    have h1 := ih (by omega)
    have h2 := h.room (p + n) ⟨by omega, by omega⟩
    have h3 := h.nbr0 (p + n) ⟨by omega, by omega⟩
    omega

theorem DGraph.Consistent.glb_own (h : d.Consistent) {q u : Int} (hq : d.Proc q) (hu : (d.loc q).Vertex u) : Own d.procvrttab d.procglbnbr q (d.glb q u) := by
  have h1 := h.room q hq
  have h2 := h.based q hq
  have h3 := h.nnd q hq
  have h4 := hu.1
  have h5 := hu.2
  unfold DGraph.glb
  exact ⟨hq, by omega, by omega⟩

theorem DGraph.Consistent.ok (h : d.Consistent) {p : Int} (hp : d.Proc p) : (d.local' p).Ok where
  pos := h.pos
  me := hp
  vlo := h.vlo
  vhi := h.vhi
  mono := fun a b a1 a2 a3 => h.mono a1 a2 a3
  base0 := by show 0 ≤ (d.loc p).baseval; rw [h.based p hp]; exact h.base0
  alloc := h.alloc p hp
  nbr0 := h.nbr0 p hp
  nnd := h.nnd p hp
  ord := h.ord p hp
  edge := h.edge p hp
  dest := by
    intro u e hu e1 e2
    obtain ⟨q, u', hq, hu', hw, _⟩ := h.sym p hp u e _ ⟨hu, e1, e2, rfl⟩
    have ho := h.glb_own hq hu'
    show d.procvrttab.get 0 ≤ (d.loc p).dest e ∧ (d.loc p).dest e < d.procvrttab.get d.procglbnbr
    rw [hw]
    have := h.mono (p := 0) (q := q) (by omega) hq.1 (by have := hq.2; omega)
    have := h.mono (p := q + 1) (q := d.procglbnbr) (by have := hq.1; omega) (by have := hq.2; omega) (by omega)
    exact ⟨by have := ho.2.1; omega, by have := ho.2.2; omega⟩

theorem own_unique (h : d.Consistent) {p q w : Int} (h1 : Own d.procvrttab d.procglbnbr p w) (h2 : Own d.procvrttab d.procglbnbr q w) : p = q :=
  Own.unique (L := d.local' p) (h.ok h1.1) h1 h2

theorem remote_iff (h : d.Consistent) {p q w : Int} (hp : d.Proc p) (ho : Own d.procvrttab d.procglbnbr q w) : (d.local' p).Remote w ↔ q ≠ p := by
  constructor
  · intro hr e
    subst e
    exact hr ho.2
  · intro hne hl
    exact hne (own_unique h ho ⟨hp, hl⟩)

/-- The vertices that process `q` sends to `p` are the ghost vertices of `p` that `q` owns. -/
theorem sends_eq (h : d.Consistent) {p q : Int} (hp : d.Proc p) (hq : d.Proc q) {G : Ghost} {W : List Int} (hW : Numbered (d.local' p) G W) :
    part d.procvrttab W q = ((d.local' q).sends p (d.loc q).vertnnd).map (d.glb q) := by
  apply asc_ext
  · exact List.Pairwise.filter _ hW.asc
  · rw [List.pairwise_map]
    have hs : ((d.local' q).sends p (d.loc q).vertnnd).Pairwise (· < ·) := by
      unfold Local.sends
      refine List.Pairwise.filter _ ?_
      rw [List.pairwise_iff_getElem]
      intro i j hi hj hij
      rw [seg_getElem, seg_getElem]
      omega
    refine hs.imp ?_
    intro a b hab
    unfold DGraph.glb
    omega
  · intro w
    unfold part
    simp only [List.mem_filter, decide_eq_true_eq, List.mem_map]
    constructor
    · rintro ⟨hw, hr⟩
      obtain ⟨u, e, e1, e2, e3, e4, e5⟩ := (hW.mem w).1 hw
      obtain ⟨q', u', hq', hu', hww, e', he'⟩ := h.sym p hp u e w ⟨e1, e2, e3, e4⟩
      have ho := h.glb_own hq' hu'
      rw [← hww] at ho
      have : q' = q := own_unique h ho ⟨hq, hr⟩
      subst this
      have hne : q' ≠ p := (remote_iff h hp ho).1 e5
      obtain ⟨a1, a2, a3, a4⟩ := he'
      have hop := h.glb_own hp e1
      refine ⟨u', ?_, hww.symm⟩
      rw [mem_sends]
      refine ⟨a1, e', a2, a3, ?_, ?_⟩
      · show (d.local' q').Remote ((d.loc q').dest e')
        rw [a4]
        exact (remote_iff h hq' hop).2 (fun e => hne e.symm)
      · show Own d.procvrttab d.procglbnbr p ((d.loc q').dest e')
        rw [a4]
        exact hop
    · rintro ⟨u', hu', rfl⟩
      rw [mem_sends] at hu'
      obtain ⟨b, e', a2, a3, a4, a5⟩ := hu'
      have hu' : (d.loc q).Vertex u' := b
      obtain ⟨p', u, hp', hu, hww, e, he⟩ := h.sym q hq u' e' _ ⟨hu', a2, a3, rfl⟩
      have ho := h.glb_own hp' hu
      have : p' = p := own_unique h (by rw [← hww] at ho; exact ho) a5
      subst this
      have hoq := h.glb_own hq hu'
      refine ⟨(hW.mem _).2 ⟨u, e, he.1, he.2.1, he.2.2.1, he.2.2.2, ?_⟩, hoq.2⟩
      refine (remote_iff h hp hoq).2 ?_
      exact fun e => (remote_iff h hq a5).1 a4 e.symm

section
variable {α : Type}

/-- Value of the vertex whose global number is given: that of its owner. -/
def Val (d : DGraph) (attr : Int → Arr α) (val : Int → α) : Prop :=
  ∀ q u, d.Proc q → (d.loc q).Vertex u → val (d.glb q u) = (attr q).get (u - d.base)

theorem receive_holds (h : d.Consistent) {p q : Int} (hp : d.Proc p) (hq : d.Proc q) {Gp Gq : Ghost} {W W' : List Int} (hW : Numbered (d.local' p) Gp W)
    (hW' : Numbered (d.local' q) Gq W') {attr : Int → Arr α} {val : Int → α} (hval : Val d attr val) {m : Message α} (hm : Posted (d.local' q) Gq (attr q) m)
    {dsp : Arr Int} (d1 : dsp.lo = 0) (d2 : dsp.hi = d.procglbnbr)
    (d3 : ∀ q, 0 ≤ q → q < d.procglbnbr → dsp.get q = (d.loc p).vertnbr + sumI 0 q Gp.procrcvtab.get) {a : Arr α}
    (ha : a.lo ≤ 0 ∧ (d.loc p).vertnbr + W.length ≤ a.hi) :
    Holds (receive p q Gp dsp m a) (fun r => r.lo = a.lo ∧ r.hi = a.hi ∧ ∀ i,
      ((d.loc p).vertnbr + (below W (d.procvrttab.get q)).length ≤ i → i < (d.loc p).vertnbr + (below W (d.procvrttab.get q)).length + (part d.procvrttab W q).length →
        ∃ k, ∃ hk : k < W.length, i = (d.loc p).vertnbr + k ∧ r.get i = val W[k]) ∧
      (¬ ((d.loc p).vertnbr + (below W (d.procvrttab.get q)).length ≤ i ∧ i < (d.loc p).vertnbr + (below W (d.procvrttab.get q)).length + (part d.procvrttab W q).length) →
        r.get i = a.get i)) := by
  obtain ⟨q1, q2⟩ := id hq
  obtain ⟨p1, p2⟩ := id hp
  have hn0 := h.nbr0 p hp
  have hseq := sends_eq h hp hq hW
  have hrcv : Gp.procrcvtab.get q = (part d.procvrttab W q).length := hW.rcv q q1 q2
  have hsnd : Gq.procsndtab.get p = ((d.local' q).sends p (d.loc q).vertnnd).length := hW'.snd p p1 p2
  have hcnt : Gp.procrcvtab.get q = Gq.procsndtab.get p := by rw [hrcv, hsnd, hseq, List.length_map]
  have hd := d3 q q1 q2
  have hbef : sumI 0 q Gp.procrcvtab.get = (below W (d.procvrttab.get q)).length := hW.before (h.ok hp) q1 (Int.le_of_lt q2)
  rw [hbef] at hd
  obtain ⟨hb1, hb2⟩ := hW.block (h.ok hp) q1 q2
  have hvrt : (d.local' p).procvrttab = d.procvrttab := rfl
  rw [hvrt] at hb1
  simp only [hvrt] at hb2
  have e1 : Gp.procrcvtab.lo = 0 := hW.rlo
  have e2 : Gp.procrcvtab.hi = d.procglbnbr := hW.rhi
  have e3 : m.procsndtab.lo = 0 := by rw [hm.snd]; exact hW'.dlo.1
  have e4 : m.procsndtab.hi = d.procglbnbr := by rw [hm.snd]; exact hW'.dlo.2
  have e5 : m.senddsptab.lo = 0 := hm.lo
  have e6 : m.senddsptab.hi = d.procglbnbr := hm.hi
  have e7 : m.procsndtab.get p = Gq.procsndtab.get p := by rw [hm.snd]
  have e8 : m.senddsptab.get p = sumI 0 p Gq.procsndtab.get := hm.dsp p p1 p2
  have hs0 : ∀ i, 0 ≤ i → i < d.procglbnbr → 0 ≤ Gq.procsndtab.get i := by
    intro i i1 i2
    have : Gq.procsndtab.get i = ((d.local' q).sends i (d.loc q).vertnnd).length := hW'.snd i i1 i2
    omega
  have ho0 : 0 ≤ sumI 0 p Gq.procsndtab.get := sumI_nonneg fun i i1 i2 => hs0 i i1 (by omega)
  have hoh : sumI 0 p Gq.procsndtab.get + Gq.procsndtab.get p ≤ sumI 0 d.procglbnbr Gq.procsndtab.get := by
    rw [sumI_split (lo := 0) (mid := p + 1) (hi := d.procglbnbr) (by omega) (by omega), sumI_succ p1]
    have : 0 ≤ sumI (p + 1) d.procglbnbr Gq.procsndtab.get := sumI_nonneg fun i i1 i2 => hs0 i (by omega) i2
    omega
  have e9 : m.attrsndtab.lo = 0 := hm.alo
  have e10 : m.attrsndtab.hi = sumI 0 d.procglbnbr Gq.procsndtab.get := hm.ahi
  unfold receive
  simp only [Holds_bind, Holds_rd, Holds_ite, e1, e2, e3, e4, e5, e6, e7, e8, d1, d2]
  refine ⟨hq, hp, fun hne => absurd hcnt hne, fun _ => ⟨hq, hp, ?_⟩⟩
  rw [hd]
  refine Holds_forUp (I := fun k r => r.lo = a.lo ∧ r.hi = a.hi ∧ ∀ i,
      ((d.loc p).vertnbr + (below W (d.procvrttab.get q)).length ≤ i → i < (d.loc p).vertnbr + (below W (d.procvrttab.get q)).length + k →
        ∃ k, ∃ hk : k < W.length, i = (d.loc p).vertnbr + k ∧ r.get i = val W[k]) ∧
      (¬ ((d.loc p).vertnbr + (below W (d.procvrttab.get q)).length ≤ i ∧ i < (d.loc p).vertnbr + (below W (d.procvrttab.get q)).length + k) → r.get i = a.get i)) (by omega) ?_ ?_ ?_
  · exact ⟨rfl, rfl, fun i => ⟨fun h1 h2 => by omega, fun _ => rfl⟩⟩
  · rintro k r k1 k2 ⟨r1, r2, r3⟩
    rw [hrcv] at k2
    simp only [Holds_bind, Holds_rd, Holds_wr, e9, e10, r1, r2]
    refine ⟨by omega, by omega, r1, r2, fun i => ?_⟩
    obtain ⟨n, rfl⟩ : ∃ n : Nat, k = n := ⟨k.toNat, by omega⟩
    rw [Arr.set_get]
    by_cases hi : i = (d.loc p).vertnbr + ↑(below W (d.procvrttab.get q)).length + ↑n
    · rw [if_pos hi]
      refine ⟨fun _ _ => ?_, fun hc => by omega⟩
      have hnp : n < (part d.procvrttab W q).length := by omega
      have hns : n < ((d.local' q).sends p (d.loc q).vertnnd).length := by rw [hseq, List.length_map] at hnp; exact hnp
      refine ⟨(below W (d.procvrttab.get q)).length + n, by omega, by omega, ?_⟩
      rw [hb2 n hnp (by omega)]
      have hv := hm.val p p1 p2 n hns
      have hv' : m.attrsndtab.get (sumI 0 p Gq.procsndtab.get + ↑n) = (attr q).get (((d.local' q).sends p (d.loc q).vertnnd)[n] - (d.loc q).baseval) := hv
      rw [hv', h.based q hq]
      have hmem := List.getElem_mem hns
      have hvx : (d.loc q).Vertex (((d.local' q).sends p (d.loc q).vertnnd)[n]) := (mem_sends.1 hmem).1
      rw [← hval q _ hq hvx]
      congr 1
      simp only [hseq, List.getElem_map]
    · rw [if_neg hi]
      refine ⟨fun h1 h2 => (r3 i).1 h1 (by omega), fun hc => (r3 i).2 (by omega)⟩
  · rintro r ⟨r1, r2, r3⟩
    rw [hrcv] at r3
    exact ⟨r1, r2, r3⟩

/-- Attributes after some messages have been received: those of processes `q` that satisfy `D`. -/
structure Recv (d : DGraph) (p : Int) (W : List Int) (val : Int → α) (a r : Arr α) (D : Int → Prop) : Prop where
  lo : r.lo = a.lo
  hi : r.hi = a.hi
  keep : ∀ i, i < (d.loc p).vertnbr → r.get i = a.get i
  got : ∀ q, d.Proc q → D q → ∀ k (hk : k < W.length), Own d.procvrttab d.procglbnbr q W[k] → r.get ((d.loc p).vertnbr + k) = val W[k]

/-- Ghost vertices of `q` are those of its block. -/
theorem own_block (h : d.Consistent) {p q : Int} (hp : d.Proc p) (hq : d.Proc q) {G : Ghost} {W : List Int} (hW : Numbered (d.local' p) G W) {k : Nat} (hk : k < W.length) :
    Own d.procvrttab d.procglbnbr q W[k] ↔ (below W (d.procvrttab.get q)).length ≤ k ∧ k < (below W (d.procvrttab.get q)).length + (part d.procvrttab W q).length := by
  obtain ⟨q1, q2⟩ := id hq
  obtain ⟨hb1, hb2⟩ := hW.block (h.ok hp) q1 q2
  have hvrt : (d.local' p).procvrttab = d.procvrttab := rfl
  rw [hvrt] at hb1
  simp only [hvrt] at hb2
  constructor
  · intro ho
    have hm : W[k] ∈ part d.procvrttab W q := by
      unfold part
      rw [List.mem_filter]
      exact ⟨List.getElem_mem hk, by simpa using ho.2⟩
    obtain ⟨j, j1, j2⟩ := List.getElem_of_mem hm
    have h1 := hb2 j j1 (by omega)
    rw [j2] at h1
    have : (below W (d.procvrttab.get q)).length + j = k := by
      have hn : W.Nodup := hW.asc.imp (fun h => by omega)
      exact (List.Nodup.getElem_inj_iff hn).1 h1
    omega
  · rintro ⟨k1, k2⟩
    have h1 := hb2 (k - (below W (d.procvrttab.get q)).length) (by omega) (by omega)
    have e : (below W (d.procvrttab.get q)).length + (k - (below W (d.procvrttab.get q)).length) = k := by omega
    simp only [e] at h1
    have hm := List.getElem_mem (l := part d.procvrttab W q) (n := k - (below W (d.procvrttab.get q)).length) (by omega)
    rw [← h1] at hm
    unfold part at hm
    rw [List.mem_filter] at hm
    exact ⟨hq, by simpa using hm.2⟩

theorem Recv.step (h : d.Consistent) {p q : Int} (hp : d.Proc p) (hq : d.Proc q) {G : Ghost} {W : List Int} (hW : Numbered (d.local' p) G W) {val : Int → α} {a r t : Arr α} {D : Int → Prop} (hr : Recv d p W val a r D)
    (ht : t.lo = r.lo ∧ t.hi = r.hi ∧ ∀ i,
      ((d.loc p).vertnbr + (below W (d.procvrttab.get q)).length ≤ i → i < (d.loc p).vertnbr + (below W (d.procvrttab.get q)).length + (part d.procvrttab W q).length →
        ∃ k, ∃ hk : k < W.length, i = (d.loc p).vertnbr + k ∧ t.get i = val W[k]) ∧
      (¬ ((d.loc p).vertnbr + (below W (d.procvrttab.get q)).length ≤ i ∧ i < (d.loc p).vertnbr + (below W (d.procvrttab.get q)).length + (part d.procvrttab W q).length) →
        t.get i = r.get i)) : Recv d p W val a t (fun q' => D q' ∨ q' = q) := by
  obtain ⟨t1, t2, t3⟩ := ht
  refine ⟨by rw [t1, hr.lo], by rw [t2, hr.hi], fun i hi => ?_, fun q' hq' hD k hk ho => ?_⟩
  · rw [(t3 i).2 (by omega)]
    exact hr.keep i hi
  · by_cases hqq : q' = q
    · subst hqq
      have := (own_block h hp hq' hW hk).1 ho
      obtain ⟨k', k1, k2, k3⟩ := (t3 ((d.loc p).vertnbr + k)).1 (by omega) (by omega)
      have : k' = k := by omega
      subst this
      exact k3
    · have hno : ¬ Own d.procvrttab d.procglbnbr q W[k] := fun ho' => hqq (own_unique h ho ho')
      rw [own_block h hp hq hW hk] at hno
      rw [(t3 _).2 (by omega)]
      exact hr.got q' hq' (hD.resolve_right hqq) k hk ho

theorem haloSync_holds (h : d.Consistent) {p : Int} (hp : d.Proc p) {G : Int → Ghost} {W : Int → List Int} (hW : ∀ q, d.Proc q → Numbered (d.local' q) (G q) (W q))
    {attr : Int → Arr α} {val : Int → α} (hval : Val d attr val) {m : Int → Message α} (hm : ∀ q, d.Proc q → Posted (d.local' q) (G q) (attr q) (m q))
    (ha : (attr p).lo ≤ 0 ∧ (d.loc p).vertnbr + (W p).length ≤ (attr p).hi) (flag : Bool) (jdsp : Int → Int) :
    Holds (haloSync flag d.procglbnbr (d.loc p).vertnbr p G m jdsp (attr p)) (fun r => Recv d p (W p) val (attr p) r (fun _ => True)) := by
  have hWp := hW p hp
  have e1 : (G p).procrcvtab.lo = 0 := hWp.rlo
  have e2 : (G p).procrcvtab.hi = d.procglbnbr := hWp.rhi
  unfold haloSync
  rw [Holds_bind]
  refine (cumul_holds h.pos (by rw [e1]) (by rw [e2])).mono ?_
  rintro dsp ⟨d1, d2, d3⟩
  rw [Holds_ite]
  refine ⟨fun _ => ?_, fun _ => ?_⟩
  · unfold ptop
    have n0 : 0 ≤ (G p).procngbnbr := hWp.n0
    have nb : (G p).procngbnbr ≤ d.procglbnbr := hWp.nb
    have nlo := hWp.nlo
    have nhi : d.procglbnbr ≤ (G p).procngbtab.hi := hWp.nhi
    refine Holds_forUp (I := fun i r => Recv d p (W p) val (attr p) r (fun q => ∃ j, (G p).procngbnbr - i ≤ j ∧ j < (G p).procngbnbr ∧ (G p).procngbtab.get j = q)) n0 ?_ ?_ ?_
    · refine ⟨rfl, rfl, fun _ _ => rfl, ?_⟩
      rintro q hq ⟨j, j1, j2, _⟩
      omega
    · intro i r i1 i2 hr
      rw [Holds_bind, Holds_rd]
      refine ⟨⟨by omega, by omega⟩, ?_⟩
      have hq : d.Proc ((G p).procngbtab.get ((G p).procngbnbr - 1 - i)) := hWp.nrng _ (by omega) (by omega)
      have hpart := (hWp.ngb _ hq.1 hq.2).2 ⟨_, by omega, by omega, rfl⟩
      generalize hqe : (G p).procngbtab.get ((G p).procngbnbr - 1 - i) = q at hq hpart ⊢
      have hpost : posts p (G q) = true := by
        have hps : part d.procvrttab (W q) p ≠ [] := by
          have hpart : part d.procvrttab (W p) q ≠ [] := hpart
          obtain ⟨w, w1, w2⟩ := part_nil_iff.1 hpart
          obtain ⟨u, e, b1, b2, b3, b4, b5⟩ := (hWp.mem w).1 w1
          obtain ⟨q', u', hq', hu', hww, e', c1, c2, c3, c4⟩ := h.sym p hp u e w ⟨b1, b2, b3, b4⟩
          have ho := h.glb_own hq' hu'
          rw [← hww] at ho
          have : q' = q := own_unique h ho ⟨hq, w2⟩
          subst this
          have hop := h.glb_own hp b1
          refine part_nil_iff.2 ⟨d.glb p u, ((hW q' hq').mem _).2 ⟨u', e', c1, c2, c3, c4, ?_⟩, hop.2⟩
          exact (remote_iff h hq' hop).2 (fun e => (remote_iff h hp ho).1 b5 e.symm)
        obtain ⟨j, j1, j2, j3⟩ := ((hW q hq).ngb p hp.1 hp.2).1 hps
        unfold posts
        rw [List.any_eq_true]
        refine ⟨j.toNat, List.mem_range.2 (by omega), ?_⟩
        rw [show ((j.toNat : Nat) : Int) = j by omega, j3]
        simp
      rw [if_pos hpost]
      refine (receive_holds h hp hq hWp (hW q hq) hval (hm q hq) d1 d2 d3 (by rw [hr.lo, hr.hi]; exact ha)).mono ?_
      intro t ht
      have hs := hr.step h hp hq hWp ht
      refine ⟨hs.lo, hs.hi, hs.keep, fun q' hq' hD => hs.got q' hq' ?_⟩
      obtain ⟨j, j1, j2, j3⟩ := hD
      by_cases hj : j = (G p).procngbnbr - 1 - i
      · subst hj
        exact Or.inr (by rw [← j3, hqe])
      · exact Or.inl ⟨j, by omega, j2, j3⟩
    · intro r hr
      refine ⟨hr.lo, hr.hi, hr.keep, fun q hq _ k hk ho => hr.got q hq ?_ k hk ho⟩
      have hps : part d.procvrttab (W p) q ≠ [] := part_nil_iff.2 ⟨_, List.getElem_mem hk, ho.2⟩
      obtain ⟨j, j1, j2, j3⟩ := (hWp.ngb q hq.1 hq.2).1 hps
      exact ⟨j, by omega, j2, j3⟩
  · unfold alltoallv
    refine Holds_forUp (I := fun i r => Recv d p (W p) val (attr p) r (fun q => q < i)) (Int.le_of_lt h.pos) ?_ ?_ ?_
    · exact ⟨rfl, rfl, fun _ _ => rfl, fun q hq hl => by have := hq.1; omega⟩
    · intro q r q1 q2 hr
      have hq : d.Proc q := ⟨q1, q2⟩
      refine (receive_holds h hp hq hWp (hW q hq) hval (hm q hq) d1 d2 d3 (by rw [hr.lo, hr.hi]; exact ha)).mono ?_
      intro t ht
      have hs := hr.step h hp hq hWp ht
      exact ⟨hs.lo, hs.hi, hs.keep, fun q' hq' hD => hs.got q' hq' (by omega)⟩
    · intro r hr
      exact ⟨hr.lo, hr.hi, hr.keep, fun q hq _ => hr.got q hq hq.2⟩

end
end

end Scotch.Dist
