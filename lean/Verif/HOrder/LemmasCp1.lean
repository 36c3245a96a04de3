import Verif.HOrder.ModelCp
import Verif.HOrder.SpecOrder
import Verif.Mesh.LemmasCheck

/-! # Compressed graphs: hash tables and mates -/

set_option autoImplicit false
set_option linter.unusedSimpArgs false

namespace Scotch.HOrder
open Graph
open Coarsen (land maskLoop IsMask land_mask)
open Hash (Tab Path probe)

/-! ## Masks -/

theorem maskLoop_gen (d : Int) : ∀ (n : Nat) (msk b : Int), IsMask msk → b ≤ msk → 0 ≤ b → 1 ≤ msk → 1 ≤ n → d ≤ msk + n - 1 → (msk = b ∨ msk / 2 < d) →
    Holds (maskLoop d n msk) (fun m => d ≤ m ∧ b ≤ m ∧ IsMask m ∧ (m = b ∨ m / 2 < d)) := by
  intro n
  induction n with
  | zero => intro msk b _ _ _ _ h; omega
  | succ n ih =>
    intro msk b h1 h2 h0 hp h3 h4 h5
    unfold maskLoop
    by_cases h : msk < d
    · rw [if_pos h]
      exact ih _ b h1.double (by omega) h0 (by omega) (by omega) (by omega) (by omega)
    · rw [if_neg h, Holds_ok]
      exact ⟨by omega, h2, h1, h5⟩

theorem cpHashMask_holds (d : Int) : Holds (cpHashMask d) (fun m => 4 * d + 3 ≤ m ∧ 63 ≤ m ∧ IsMask m) := by
  unfold cpHashMask
  rw [Holds_bind]
  refine Holds.mono (maskLoop_gen d (d.toNat + 1) 15 15 ⟨4, by decide⟩ (by omega) (by omega) (by omega) (by omega) (by omega) (Or.inl rfl)) ?_
  rintro m ⟨h1, h2, h3, _⟩
  rw [Holds_pure]
  refine ⟨by omega, by omega, ?_⟩
  have := h3.double.double
  rwa [show (m * 2 + 1) * 2 + 1 = m * 4 + 3 by omega] at this

theorem cpHaspMask_holds {gint n : Int} (hg : 1 ≤ gint) (hn : 1 ≤ n) : Holds (cpHaspMask gint n) (fun m => 0 ≤ m ∧ m + 1 ≤ n * gint) := by
  unfold cpHaspMask
  rw [Holds_bind]
  refine Holds.mono (maskLoop_gen n (n.toNat + 1) 1 1 ⟨1, by decide⟩ (by omega) (by omega) (by omega) (by omega) (by omega) (Or.inl rfl)) ?_
  rintro m ⟨h1, h2, _, h4⟩
  rw [Holds_pure]
  have k1 : (m / 2 + 1) * gint ≤ n * gint := Int.mul_le_mul_of_nonneg_right (by omega) (by omega)
  rw [Int.add_mul, Int.one_mul] at k1
  have k2 : 0 ≤ m / 2 * gint := Int.mul_nonneg (by omega) (by omega)
  generalize m / 2 * gint = x at *
  generalize n * gint = y at *
  split <;> omega

theorem land_le (a : Int) {m : Int} (h : 0 ≤ m) : 0 ≤ land a m ∧ land a m ≤ m := by
  unfold land
  have : a.toNat &&& m.toNat ≤ m.toNat := Nat.and_le_right
  omega

/-! ## Sums -/

variable {h : Hgraph}

/-- What is known of the graph. -/
structure CpH (h : Hgraph) : Prop where
  cons : HCons h
  alloc : HAlloc h
  base : 0 ≤ h.s.baseval
  some : 1 ≤ h.vnohnbr

namespace CpH
theorem w (H : CpH h) : ConsE h.s := Graph.consE_iff.2 H.cons.whole
theorem u (H : CpH h) : ConsE (unhalo h) := Graph.consE_iff.2 H.cons.part
theorem nnd (H : CpH h) : h.vnohnnd = h.s.baseval + h.vnohnbr := H.u.vertnnd
theorem wnnd (H : CpH h) : h.s.vertnnd = h.s.baseval + h.s.vertnbr := H.w.vertnnd
theorem le (H : CpH h) : h.vnohnnd ≤ h.s.vertnnd := by
  have := H.cons.nbr.2
  have := H.nnd
  have := H.wnnd
  omega
theorem vtx (H : CpH h) {v : Int} (h1 : h.s.baseval ≤ v) (h2 : v < h.vnohnnd) : h.s.Vertex v := ⟨h1, by have := H.le; omega⟩
end CpH

theorem cpSums_holds (H : CpH h) {p : CpPara} (hp : 1 ≤ p.gint) (junk : Int → Int) : Holds (cpSums p h junk) (fun a => a.hsum.lo = h.s.baseval ∧ a.hsum.hi = h.vnohnnd) := by
  have hn := H.nnd
  have hw := H.wnnd
  have h1 := H.some
  have h2 := H.cons.nbr
  unfold cpSums
  rw [Holds_bind]
  refine Holds.mono (cpHaspMask_holds hp (by omega)) ?_
  rintro m ⟨m1, m2⟩
  rw [if_pos m2, Holds_bind, Holds_pure]
  refine Holds_forUp (fun _ s => (s.hasp.lo = 0 ∧ s.hasp.hi = h.s.vertnbr * p.gint) ∧ s.hsum.lo = h.s.baseval ∧ s.hsum.hi = h.vnohnnd) (by omega) ⟨⟨rfl, rfl⟩, rfl, by dsimp only; omega⟩ ?_ (fun s hs => hs.2)
  rintro v s v1 v2 ⟨⟨b1, b2⟩, b3, b4⟩
  have hv := H.vtx v1 v2
  unfold cpSum
  rw [Holds_bind]
  refine Holds_forArcs H.alloc.whole hv (H.w.range v hv).2 (fun _ _ => True) trivial (fun e x _ _ _ => by rw [Holds_pure]; trivial) ?_
  intro x _
  obtain ⟨l1, l2⟩ := land_le (x / 32) m1
  rw [Arr.wr_ok _ _ (by omega) (by omega), ok_bind, Arr.rd_ok _ (by omega) (by omega), ok_bind]
  dsimp only
  rw [Arr.wr_ok _ _ (by omega) (by omega), ok_bind, Holds_pure]
  exact ⟨⟨b1, b2⟩, b3, b4⟩

/-! ## Hash table -/

/-- The cells of vertex `v` hold keys `keys`. -/
structure CpTab (msk v : Int) (keys : List Int) (tab : Arr CpCell) : Prop where
  lo : tab.lo = 0
  hi : tab.hi = msk + 1
  keys : Tab cpPrime (msk + 1) (fun x => (tab.get x).vertnum = v) (fun x => (tab.get x).vertend) keys
  old : ∀ x, 0 ≤ x → x < msk + 1 → (tab.get x).vertnum ≤ v

theorem CpTab.start {msk v : Int} {tab : Arr CpCell} (hm : IsMask msk) (h1 : tab.lo = 0) (h2 : tab.hi = msk + 1) (h3 : ∀ x, 0 ≤ x → x < msk + 1 → (tab.get x).vertnum < v) : CpTab msk v [] tab :=
  ⟨h1, h2, Tab.empty (by have := hm.nonneg; omega) (fun x x1 x2 hx => by have := h3 x x1 x2; omega), fun x x1 x2 => by have := h3 x x1 x2; omega⟩

theorem CpTab.add {msk v w : Int} {keys : List Int} {tab : Arr CpCell} (T : CpTab msk v keys tab) {d : Nat} (hp : Path cpPrime (msk + 1) (fun x => (tab.get x).vertnum = v) (fun x => (tab.get x).vertend) w d)
    (hf : ¬ (tab.get (probe cpPrime (msk + 1) w d)).vertnum = v) :
    Holds (tab.wr (probe cpPrime (msk + 1) w d) ⟨v, w⟩) (CpTab msk v (keys ++ [w])) := by
  have hin := Hash.probe_in (prime := cpPrime) T.keys.pos w d
  rw [Arr.wr_ok _ _ (by rw [T.lo]; omega) (by rw [T.hi]; omega), Holds_ok]
  refine ⟨T.lo, T.hi, ?_, ?_⟩
  · refine T.keys.insert hp hf ?_ ?_ ?_
    · intro y
      rw [Arr.set_get]
      by_cases ey : y = probe cpPrime (msk + 1) w d
      · rw [if_pos ey]; simp [ey]
      · rw [if_neg ey]; simp [ey]
    · intro y ey
      rw [Arr.set_get_ne _ _ ey]
    · rw [Arr.set_get_same]
  · intro y y1 y2
    rw [Arr.set_get]
    by_cases ey : y = probe cpPrime (msk + 1) w d
    · rw [if_pos ey]
    · rw [if_neg ey]; exact T.old y y1 y2

theorem start_slot {msk w : Int} (hm : IsMask msk) (hw : 0 ≤ w) : land (w * cpPrime) msk = probe cpPrime (msk + 1) w 0 := by
  rw [land_mask hm (by unfold cpPrime; omega)]
  unfold probe
  simp

theorem cpPut_holds {msk v w : Int} {keys : List Int} {tab : Arr CpCell} (hm : IsMask msk) (T : CpTab msk v keys tab) (hlen : (keys.length : Int) < msk + 1) (hw : 0 ≤ w) (hk : w ∉ keys) :
    Holds (cpPut msk v w tab) (CpTab msk v (keys ++ [w])) := by
  have hmn := hm.nonneg
  unfold cpPut
  rw [Holds_bind, start_slot hm hw]
  refine (Hash.find_holds T.keys hm rfl hlen w ?_ (msk.toNat + 2) 0 (by omega) (fun d' h => by omega)).mono ?_
  · intro x x1 x2
    rw [Holds_bind, Arr.rd_ok _ (by rw [T.lo]; omega) (by rw [T.hi]; omega), Holds_ok]
    by_cases hn : (tab.get x).vertnum = v
    · have hne : (tab.get x).vertend ≠ w := fun he => hk ((T.keys.mem w).2 ⟨x, x1, x2, hn, he⟩)
      rw [if_pos hn, Holds_pure]; simp [hn, hne]
    · rw [if_neg hn, Holds_pure]; simp [hn]
  · rintro ⟨x, b⟩ ⟨d, d1, d2, d3, d4⟩
    dsimp only at d1 d3 d4 ⊢
    cases b with
    | true => subst d1; exact T.add d2 (d3 rfl)
    | false =>
      have := d4 rfl
      subst d1
      have hin := Hash.probe_in (prime := cpPrime) T.keys.pos w d
      exact absurd ((T.keys.mem w).2 ⟨_, hin.1, hin.2, this.1, this.2⟩) hk

theorem cpFind_holds {msk v w : Int} {keys : List Int} {tab : Arr CpCell} (hm : IsMask msk) (T : CpTab msk v keys tab) (hlen : (keys.length : Int) < msk + 1) (hw : 0 ≤ w) :
    Holds (cpFind tab msk v w) (fun r => (r.2 = true ↔ w ∉ keys) ∧ (r.2 = true → Holds (tab.wr r.1 ⟨v, w⟩) (CpTab msk v (keys ++ [w])))) := by
  have hmn := hm.nonneg
  unfold cpFind
  rw [start_slot hm hw]
  refine (Hash.find_holds T.keys hm rfl hlen w ?_ (msk.toNat + 2) 0 (by omega) (fun d' h => by omega)).mono ?_
  · intro x x1 x2
    rw [Holds_bind, Arr.rd_ok _ (by rw [T.lo]; omega) (by rw [T.hi]; omega), Holds_ok]
    by_cases hn : (tab.get x).vertnum = v
    · rw [if_neg (by omega)]
      by_cases he : (tab.get x).vertend = w
      · rw [if_pos he, Holds_pure]; simp [hn, he]
      · rw [if_neg he, Holds_pure]; simp [hn, he]
    · rw [if_pos hn, Holds_pure]; simp [hn]
  · rintro ⟨x, b⟩ ⟨d, d1, d2, d3, d4⟩
    dsimp only at d1 d3 d4 ⊢
    subst d1
    cases b with
    | true =>
      refine ⟨⟨fun _ => T.keys.not_mem d2 (d3 rfl), fun _ => rfl⟩, fun _ => T.add d2 (d3 rfl)⟩
    | false =>
      have := d4 rfl
      have hin := Hash.probe_in (prime := cpPrime) T.keys.pos w d
      refine ⟨⟨(fun h => by cases h), fun hk => absurd ((T.keys.mem w).2 ⟨_, hin.1, hin.2, this.1, this.2⟩) hk⟩, fun h => by cases h⟩

/-! ## Twins -/

/-- Vertices that are neighbours, and have the same other neighbours. -/
def Twin (g : Graph) (u v : Int) : Prop := ∀ x, (x = u ∨ Adj g u x) ↔ (x = v ∨ Adj g v x)

theorem Twin.refl (g : Graph) (u : Int) : Twin g u u := fun _ => Iff.rfl
theorem Twin.symm {g : Graph} {u v : Int} (t : Twin g u v) : Twin g v u := fun x => (t x).symm
theorem Twin.trans {g : Graph} {u v w : Int} (t : Twin g u v) (t' : Twin g v w) : Twin g u w := fun x => (t x).trans (t' x)

/-- Ends of the arcs of a vertex. -/
def ends (g : Graph) (v : Int) : List Int := seg g.dest (g.vert v) (g.vend v)

theorem mem_ends (g : Graph) (v x : Int) : x ∈ ends g v ↔ Adj g v x := mem_seg _ _ _ _

theorem ends_nodup {g : Graph} (hc : ConsE g) {v : Int} (hv : g.Vertex v) : (ends g v).Nodup := Mesh.seg_nodup.2 (fun i j i1 i2 j1 j2 he => hc.simple v hv i j i1 i2 j1 j2 he)

theorem twin_of_subset {g : Graph} (hc : ConsE g) {v m : Int} (hv : g.Vertex v) (hm : g.Vertex m) (hadj : Adj g v m) (hdeg : g.vend v - g.vert v = g.vend m - g.vert m) (hsub : ∀ x, Adj g m x → x = v ∨ Adj g v x) : Twin g v m := by
  have nv : (v :: ends g v).Nodup := List.nodup_cons.2 ⟨fun h => (hc.adj_vertex hv ((mem_ends g v v).1 h)).2 rfl, ends_nodup hc hv⟩
  have nm : (m :: ends g m).Nodup := List.nodup_cons.2 ⟨fun h => (hc.adj_vertex hm ((mem_ends g m m).1 h)).2 rfl, ends_nodup hc hm⟩
  have hs : (m :: ends g m) ⊆ (v :: ends g v) := by
    intro x hx
    rw [List.mem_cons, mem_ends] at hx ⊢
    rcases hx with rfl | hx
    · exact Or.inr hadj
    · exact hsub x hx
  have l1 := seg_length g.dest (hc.range v hv).2
  have l2 := seg_length g.dest (hc.range m hm).2
  have hp := (List.subperm_of_subset nm hs).perm_of_length_le (by rw [List.length_cons, List.length_cons]; unfold ends; omega)
  intro x
  have := hp.mem_iff (a := x)
  rw [List.mem_cons, List.mem_cons, mem_ends, mem_ends] at this
  exact this.symm

/-! ## Mates -/

/-- The mates of vertex `v`. -/
structure Mates (g : Graph) (v : Int) (φ : Int → Int) (mate : Arr CpMate) (n : Int) : Prop where
  lo : mate.lo = 0
  hi : mate.hi = g.degrmax
  nn : 0 ≤ n ∧ n ≤ g.degrmax
  mate : ∀ k, 0 ≤ k → k < n → (mate.get k).coarvertend = φ (mate.get k).finevertend ∧ g.baseval ≤ (mate.get k).finevertend ∧ (mate.get k).finevertend < v ∧ Adj g v (mate.get k).finevertend ∧
    g.vend v - g.vert v = g.vend (mate.get k).finevertend - g.vert (mate.get k).finevertend

theorem rdDegr_eq {g : Graph} (ha : Allocated g) {v : Int} (hv : g.Vertex v) : rdDegr g v = .ok (g.vend v - g.vert v) := by
  unfold rdDegr
  rw [rdVend_eq ha hv, ok_bind, rdVert_eq ha hv, ok_bind]
  rfl

theorem cpMates_holds (H : CpH h) {v : Int} (v1 : h.s.baseval ≤ v) (v2 : v < h.vnohnnd) {hsum coar : Arr Int} (s1 : hsum.lo = h.s.baseval) (s2 : hsum.hi = h.vnohnnd) (c1 : coar.lo = h.s.baseval) (c2 : coar.hi = h.s.vertnnd)
    (x : Int) {mate : Arr CpMate} (m1 : mate.lo = 0) (m2 : mate.hi = h.s.degrmax) :
    Holds (h.s.forArcs v (mate, (0 : Int)) (cpMateArc h.s v (h.s.vend v - h.s.vert v) x hsum coar)) (fun r => Mates h.s v coar.get r.1 r.2) := by
  have hv := H.vtx v1 v2
  have hle := H.le
  refine Holds_forArcs H.alloc.whole hv (H.w.range v hv).2 (fun e r => Mates h.s v coar.get r.1 r.2 ∧ r.2 ≤ e - h.s.vert v) ⟨⟨m1, m2, ⟨Int.le_refl _, H.w.degrmax.1⟩, fun k k1 k2 => by omega⟩, by dsimp only; omega⟩ ?_ (fun r hr => hr.1)
  rintro e ⟨mt, n⟩ e1 e2 ⟨M, hn⟩
  dsimp only at M hn ⊢
  have hd := (H.w.degrmax).2 v hv
  have hw := (H.w.inside v e hv e1 e2).1
  have hadj : Adj h.s v (h.s.dest e) := ⟨e, e1, e2, rfl⟩
  generalize h.s.dest e = w at *
  have hskip : Holds (Except.ok (mt, n) : Except Fault (Arr CpMate × Int)) (fun r : Arr CpMate × Int => Mates h.s v coar.get r.1 r.2 ∧ r.2 ≤ e + 1 - h.s.vert v) := by
    rw [Holds_ok]; exact ⟨M, by dsimp only; omega⟩
  have hwb := hw.1
  unfold cpMateArc
  by_cases hwv : w < v
  · rw [if_pos hwv, Arr.rd_ok _ (by omega) (by omega), ok_bind]
    by_cases hx : x = hsum.get w
    · rw [if_pos hx, rdDegr_eq H.alloc.whole hw, ok_bind]
      by_cases hdg : h.s.vend v - h.s.vert v = h.s.vend w - h.s.vert w
      · rw [if_pos hdg, Arr.rd_ok _ (by omega) (by omega), ok_bind, Holds_bind]
        dsimp only
        refine Holds_forUpB (fun _ _ => True) (fun _ => True) M.nn.1 trivial ?_ ?_ ?_
        · intro k u k1 k2 _
          rw [Arr.rd_ok _ (by rw [M.lo]; exact k1) (by rw [M.hi]; omega), ok_bind]
          split
          · rw [Holds_pure]; trivial
          · rw [Holds_pure]; trivial
        · intro _ _
          dsimp only
          have hnn := M.nn.1
          rw [Arr.wr_ok _ _ (by rw [M.lo]; exact hnn) (by rw [M.hi]; omega), ok_bind, Holds_pure]
          refine ⟨⟨M.lo, M.hi, ⟨by dsimp only; omega, by dsimp only; omega⟩, ?_⟩, by dsimp only; omega⟩
          intro k k1 k2
          dsimp only at k2 ⊢
          rw [Arr.set_get]
          by_cases hk : k = n
          · rw [if_pos hk]; exact ⟨rfl, hwb, hwv, hadj, hdg⟩
          · rw [if_neg hk]; exact M.mate k k1 (by omega)
        · intro _ _; exact hskip
      · rw [if_neg hdg]; exact hskip
    · rw [if_neg hx]; exact hskip
  · rw [if_neg hwv]; exact hskip

theorem cpTry_holds (H : CpH h) {v msk : Int} (v1 : h.s.baseval ≤ v) (v2 : v < h.vnohnnd) (hm : IsMask msk) {φ : Int → Int} {keys : List Int} {tab : Arr CpCell} (T : CpTab msk v keys tab) (hlen : (keys.length : Int) < msk + 1)
    (hkeys : ∀ x, x ∈ keys ↔ x = v ∨ Adj h.s v x) {mate : Arr CpMate} : ∀ n : Nat, Mates h.s v φ mate n →
    Holds (cpTry h.s tab mate msk v n) (fun r => ∀ c, r = some c → ∃ m, h.s.baseval ≤ m ∧ m < v ∧ c = φ m ∧ Twin h.s v m) := by
  intro n
  induction n with
  | zero =>
    intro _
    unfold cpTry
    rw [Holds_pure]
    intro c hc; cases hc
  | succ n ih =>
    intro M
    have hn := M.nn.2
    obtain ⟨q1, q2, q3, q4, q5⟩ := M.mate n (by omega) (by omega)
    unfold cpTry
    rw [Arr.rd_ok _ (by rw [M.lo]; omega) (by rw [M.hi]; omega), ok_bind]
    generalize hmm : mate.get (n : Int) = mm at *
    have hmv := H.vtx q2 (by omega)
    have hv := H.vtx v1 v2
    rw [rdVert_eq H.alloc.whole hmv, ok_bind, rdVend_eq H.alloc.whole hmv, ok_bind, Holds_bind]
    refine Holds_forUpB (fun e _ => ∀ e', h.s.vert mm.finevertend ≤ e' → e' < e → h.s.dest e' ∈ keys) (fun _ => True) (H.w.range _ hmv).2 (fun e' a b => by omega) ?_ ?_ ?_
    · intro e _ e1 e2 hI
      unfold cpSame
      rw [rdEdge_eq H.alloc.whole hmv e1 e2, ok_bind, Holds_bind]
      have hwv := (H.w.inside _ e hmv e1 e2).1
      refine Holds.mono (cpFind_holds hm T hlen (by have := hwv.1; have := H.base; omega)) ?_
      rintro r ⟨r1, _⟩
      by_cases hr : r.2 = true
      · rw [if_pos hr, Holds_pure]; trivial
      · rw [if_neg hr, Holds_pure]
        intro e' a b
        by_cases hee : e' = e
        · rw [hee]
          apply Classical.byContradiction
          intro hnk
          exact hr (r1.2 hnk)
        · exact hI e' a (by omega)
    · intro _ hI
      dsimp only
      rw [Holds_pure]
      intro c hc
      cases hc
      refine ⟨mm.finevertend, q2, q3, q1, twin_of_subset H.w hv hmv q4 q5 ?_⟩
      rintro x ⟨e, e1, e2, rfl⟩
      exact (hkeys _).1 (hI e e1 e2)
    · intro _ _
      dsimp only
      exact ih ⟨M.lo, M.hi, by omega, fun k k1 k2 => M.mate k k1 (by omega)⟩

end Scotch.HOrder
