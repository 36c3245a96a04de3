import Verif.HOrder.LemmasCp3

/-! # Compressed graphs: loops that build them -/

set_option autoImplicit false
set_option linter.unusedSimpArgs false

namespace Scotch.HOrder
open Graph
open Coarsen (land maskLoop IsMask land_mask)

variable {h : Hgraph} {φ ρ : Int → Int} {K : Int}

/-- Ends `keys` have been written from `n0` on; cells before are those of `f`. -/
structure EInv (E n0 : Int) (f : Int → Int) (keys : List Int) (a : CpArc) : Prop where
  elo : a.edge.lo = 1
  ehi : a.edge.hi = 1 + E
  num : a.num = n0 + keys.length
  low : ∀ x, x < n0 → a.edge.get x = f x
  list : seg a.edge.get n0 a.num = keys

theorem EInv.init {E n0 : Int} {a : CpArc} (h1 : a.edge.lo = 1) (h2 : a.edge.hi = 1 + E) (h3 : a.num = n0) : EInv E n0 a.edge.get [] a :=
  ⟨h1, h2, by simp [h3], fun _ _ => rfl, by rw [h3, seg_empty _ (Int.le_refl _)]⟩

theorem EInv.push {E n0 : Int} {f : Int → Int} {keys : List Int} {a : CpArc} (I : EInv E n0 f keys a) (d : Int) {a' : CpArc} (h1 : a'.edge = a.edge.set a.num d) (h2 : a'.num = a.num + 1) : EInv E n0 f (keys ++ [d]) a' := by
  have hn := I.num
  refine ⟨?_, ?_, ?_, ?_, ?_⟩
  · rw [h1]; exact I.elo
  · rw [h1]; exact I.ehi
  · rw [h2, List.length_append]; simp; omega
  · intro x hx
    rw [h1, Arr.set_get_ne _ _ (by omega)]
    exact I.low x hx
  · rw [h2, seg_succ _ (by omega), h1, Arr.set_get_same]
    congr 1
    refine Eq.trans (seg_congr ?_) I.list
    intro i i1 i2
    exact Arr.set_get_ne _ _ (by omega)

theorem cpAdd_holds {msk c d E n0 : Int} {f : Int → Int} {keys : List Int} {a : CpArc} (hm : IsMask msk) (T : CpTab msk c keys a.tab) (I : EInv E n0 f keys a) (hn0 : 1 ≤ n0) (hlen : (keys.length : Int) < msk + 1) (hd : 0 ≤ d)
    (hroom : n0 + ((Hash.ins keys [d]).length : Int) ≤ 1 + E) :
    Holds (cpAdd msk c d a) (fun a' => CpTab msk c (Hash.ins keys [d]) a'.tab ∧ EInv E n0 f (Hash.ins keys [d]) a' ∧ a'.vsiz = a.vsiz) := by
  have hn := I.num
  unfold cpAdd
  rw [Holds_bind]
  refine (cpFind_holds hm T hlen hd).mono ?_
  rintro r ⟨r1, r2⟩
  rw [show [d] = [] ++ [d] from rfl, Hash.ins_snoc, Hash.ins_nil] at hroom ⊢
  by_cases hr : r.2 = true
  · rw [if_pos hr]
    have hk := r1.1 hr
    rw [if_neg hk, List.length_append] at hroom
    rw [if_neg hk]
    rw [List.length_singleton] at hroom
    push_cast at hroom
    rw [Holds_bind]
    refine (r2 hr).mono ?_
    intro tab T'
    rw [Arr.wr_ok _ _ (by rw [I.elo]; omega) (by rw [I.ehi]; omega), ok_bind, Holds_pure]
    exact ⟨T', I.push d rfl rfl, rfl⟩
  · rw [if_neg hr, if_pos (Classical.byContradiction fun hk => hr (r1.2 hk)), Holds_pure]
    exact ⟨T, I, rfl⟩

/-- First ends of a list give first keys. -/
theorem ins_prefix_le (l l' : List Int) : (Hash.ins [] l).length ≤ (Hash.ins [] (l ++ l')).length := by
  rw [Hash.ins_append]; exact ins_grow _ _

/-- The array of compressed vertices. -/
structure CoarOk (h : Hgraph) (φ : Int → Int) (coar : Arr Int) : Prop where
  lo : coar.lo = h.s.baseval
  hi : coar.hi = h.s.vertnnd
  get : ∀ v, h.s.Vertex v → coar.get v = φ v

theorem CoarOk.rd {coar : Arr Int} (A : CoarOk h φ coar) {v : Int} (hv : h.s.Vertex v) : coar.rd v = .ok (φ v) := by
  rw [Arr.rd_ok _ (by rw [A.lo]; exact hv.1) (by rw [A.hi]; exact hv.2), A.get v hv]

/-- Neighbours that are not in the halo. -/
theorem cpArcs1_holds (C : Cx h φ ρ K) {coar : Arr Int} (A : CoarOk h φ coar) {msk c E n0 : Int} (h1 : 1 ≤ c) (h2 : c < K) (hm : IsMask msk) (hmsk : h.s.degrmax ≤ msk) (hn0 : 1 ≤ n0) (hroom : n0 + ((A1 h φ ρ c).length : Int) ≤ 1 + E)
    {f : Int → Int} {a : CpArc} (T : CpTab msk c [] a.tab) (I : EInv E n0 f [] a) {z1 z2 : Int} (s1 : a.vsiz.lo = z1) (s2 : a.vsiz.hi = z2) (s3 : z1 ≤ c ∧ c < z2) (s4 : a.vsiz.get c = 1) :
    Holds ((unhalo h).forArcs (ρ c) a (cpArc1 msk c coar)) (fun a' => CpTab msk c (A1 h φ ρ c) a'.tab ∧ EInv E n0 f (A1 h φ ρ c) a' ∧ a'.vsiz.lo = z1 ∧ a'.vsiz.hi = z2 ∧ a'.vsiz.get c = csize h φ c ∧
      ∀ x, x ≠ c → a'.vsiz.get x = a.vsiz.get x) := by
  obtain ⟨r1, r2, r3, _⟩ := C.cls.rep c h1 h2
  have hrv : (unhalo h).Vertex (ρ c) := ⟨r1, r2⟩
  have hr := (C.H.u.range (ρ c) hrv).2
  have hcs := C.csize_arcs h1 h2
  have hlA : ((A1 h φ ρ c).length : Int) ≤ h.s.degrmax := by
    have := C.cadj_deg h1 (by unfold cnnd; have := C.H.le; omega)
    unfold cadj at this
    rw [if_pos h2, List.length_append] at this
    push_cast at this
    omega
  let L : Int → List Int := fun e => ((seg (unhalo h).dest ((unhalo h).vert (ρ c)) e).map φ).filter (· ≠ c)
  have hL : A1 h φ ρ c = Hash.ins [] (L ((unhalo h).vend (ρ c))) := rfl
  have hlen : ∀ e, (unhalo h).vert (ρ c) ≤ e → e ≤ (unhalo h).vend (ρ c) → (Hash.ins [] (L e)).length ≤ (A1 h φ ρ c).length := by
    intro e e1 e2
    rw [hL]
    have : L ((unhalo h).vend (ρ c)) = L e ++ ((seg (unhalo h).dest e ((unhalo h).vend (ρ c))).map φ).filter (· ≠ c) := by
      show ((seg _ _ _).map φ).filter _ = _
      rw [seg_append _ e1 e2, List.map_append, List.filter_append]
    rw [this]
    exact ins_prefix_le _ _
  refine Holds_forArcs C.H.alloc.part hrv hr
    (fun e a' => CpTab msk c (Hash.ins [] (L e)) a'.tab ∧ EInv E n0 f (Hash.ins [] (L e)) a' ∧ a'.vsiz.lo = z1 ∧ a'.vsiz.hi = z2 ∧ a'.vsiz.get c = 1 + sumI ((unhalo h).vert (ρ c)) e (fun e => if φ (h.s.dest e) = c then 1 else 0) ∧
      ∀ x, x ≠ c → a'.vsiz.get x = a.vsiz.get x) ?_ ?_ ?_
  · have : L ((unhalo h).vert (ρ c)) = [] := by show ((seg _ _ _).map φ).filter _ = _; rw [seg_empty _ (Int.le_refl _)]; rfl
    rw [this, Hash.ins_nil, sumI_empty (Int.le_refl _)]
    exact ⟨T, I, s1, s2, by omega, fun _ _ => rfl⟩
  · rintro e s e1 e2 ⟨i1, i2, i3, i4, i5, i6⟩
    have hw := (C.H.u.inside (ρ c) e hrv e1 e2).1
    have hwv : h.s.Vertex (h.s.dest e) := C.H.vtx hw.1 hw.2
    have hLs : L (e + 1) = L e ++ [φ (h.s.dest e)].filter (· ≠ c) := by
      show ((seg _ _ _).map φ).filter _ = _
      rw [seg_succ _ e1, List.map_append, List.filter_append]
      rfl
    have hls := hlen (e + 1) (by omega) (by omega)
    have hle := hlen e (by omega) (by omega)
    unfold cpArc1
    rw [show (unhalo h).dest e = h.s.dest e from rfl, A.rd hwv, ok_bind]
    by_cases he : φ (h.s.dest e) = c
    · have hLs' : L (e + 1) = L e := by
        rw [hLs, List.filter_cons_of_neg (by simp [he])]; simp
      rw [if_pos he, Arr.rd_ok _ (by omega) (by omega), ok_bind, Arr.wr_ok _ _ (by omega) (by omega), ok_bind, Holds_pure, hLs', sumI_succ e1, if_pos he]
      refine ⟨i1, ⟨i2.elo, i2.ehi, i2.num, i2.low, i2.list⟩, i3, i4, ?_, ?_⟩
      · dsimp only
        rw [Arr.set_get_same, i5]; omega
      · intro x hx
        dsimp only
        rw [Arr.set_get_ne _ _ hx]; exact i6 x hx
    · have hLs' : L (e + 1) = L e ++ [φ (h.s.dest e)] := by
        rw [hLs, List.filter_cons_of_pos (by simp [he])]; simp
      rw [if_neg he]
      rw [hLs', Hash.ins_append] at hls ⊢
      have hnum := C.num hwv
      refine (cpAdd_holds hm i1 i2 hn0 (by omega) (by omega) (by omega)).mono ?_
      rintro s' ⟨j1, j2, j3⟩
      rw [j3, sumI_succ e1, if_neg he]
      exact ⟨j1, j2, i3, i4, by omega, i6⟩
  · rintro s ⟨i1, i2, i3, i4, i5, i6⟩
    exact ⟨i1, i2, i3, i4, by omega, i6⟩

/-- Neighbours that are in the halo. -/
theorem cpArcs2_holds (C : Cx h φ ρ K) {coar : Arr Int} (A : CoarOk h φ coar) {c E n0 : Int} (h1 : 1 ≤ c) (h2 : c < K) (hn0 : 1 ≤ n0) (hroom : n0 + ((cadj h φ ρ K c).length : Int) ≤ 1 + E)
    {f : Int → Int} {a : CpArc} (I : EInv E n0 f (A1 h φ ρ c) a) :
    Holds (forUp ((unhalo h).vend (ρ c)) (h.s.vend (ρ c)) a fun e a => do
      let d ← coar.rd (← h.s.edgetax.rd e)
      return { a with edge := ← a.edge.wr a.num d, num := a.num + 1 }) (fun a' => EInv E n0 f (cadj h φ ρ K c) a' ∧ a'.tab = a.tab ∧ a'.vsiz = a.vsiz) := by
  obtain ⟨r1, r2, r3, _⟩ := C.cls.rep c h1 h2
  have hrv := C.H.vtx r1 r2
  have hend := C.H.cons.ends (ρ c) ⟨r1, r2⟩
  have hvr := (C.H.u.range (ρ c) ⟨r1, r2⟩).2
  have a2 := C.A2_length h1 h2
  unfold cadj at hroom ⊢
  rw [if_pos h2, List.length_append] at hroom
  rw [if_pos h2]
  push_cast at hroom
  refine Holds_forUp (fun e a' => EInv E n0 f (A1 h φ ρ c ++ (seg h.s.dest ((unhalo h).vend (ρ c)) e).map φ) a' ∧ a'.tab = a.tab ∧ a'.vsiz = a.vsiz) hend.1 ?_ ?_ ?_
  · rw [seg_empty _ (Int.le_refl _), List.map_nil, List.append_nil]
    exact ⟨I, rfl, rfl⟩
  · rintro e s e1 e2 ⟨i1, i2, i3⟩
    have e1' : h.s.vert (ρ c) ≤ e := by show (unhalo h).vert (ρ c) ≤ e; omega
    have hw := (C.H.w.inside (ρ c) e hrv e1' e2).1
    have hn := i1.num
    have hsl := seg_length h.s.dest (lo := (unhalo h).vend (ρ c)) (hi := e) (by omega)
    rw [List.length_append, List.length_map] at hn
    push_cast at hn
    rw [Graph.rdEdge_eq C.H.alloc.whole hrv e1' e2, ok_bind, A.rd hw, ok_bind, Arr.wr_ok _ _ (by rw [i1.elo]; omega) (by rw [i1.ehi]; omega), ok_bind, Holds_pure, seg_succ _ e1, List.map_append, ← List.append_assoc]
    exact ⟨i1.push _ rfl rfl, i2, i3⟩
  · rintro s hs
    exact hs

/-- Neighbours of a halo vertex. -/
theorem cpArcs3_holds (C : Cx h φ ρ K) {coar : Arr Int} (A : CoarOk h φ coar) {msk v E n0 : Int} (v1 : h.vnohnnd ≤ v) (v2 : v < h.s.vertnnd) (hm : IsMask msk) (hmsk : h.s.degrmax ≤ msk) (hn0 : 1 ≤ n0)
    (hroom : n0 + ((A3 h φ K (K + (v - h.vnohnnd))).length : Int) ≤ 1 + E)
    {f : Int → Int} {a : CpArc} (T : CpTab msk (K + (v - h.vnohnnd)) [] a.tab) (I : EInv E n0 f [] a) :
    Holds (h.s.forArcs v a fun _ w a => do cpAdd msk (K + (v - h.vnohnnd)) (← coar.rd w) a) (fun a' => CpTab msk (K + (v - h.vnohnnd)) (A3 h φ K (K + (v - h.vnohnnd))) a'.tab ∧
      EInv E n0 f (A3 h φ K (K + (v - h.vnohnnd))) a' ∧ a'.vsiz = a.vsiz) := by
  have hnn := C.H.nnd
  have hs := C.H.some
  have hrv : h.s.Vertex v := ⟨by omega, v2⟩
  have hr := (C.H.w.range v hrv).2
  have hlA := C.A3_length (c := K + (v - h.vnohnnd)) (by omega) (by unfold cnnd; omega)
  rw [show K + (v - h.vnohnnd) - K + h.vnohnnd = v by omega] at hlA
  have hdm := C.H.w.degrmax.2 v hrv
  unfold deg at hlA
  let L : Int → List Int := fun e => (seg h.s.dest (h.s.vert v) e).map φ
  have hL : A3 h φ K (K + (v - h.vnohnnd)) = Hash.ins [] (L (h.s.vend v)) := by
    unfold A3 ends
    rw [show K + (v - h.vnohnnd) - K + h.vnohnnd = v by omega]
  have hlen : ∀ e, h.s.vert v ≤ e → e ≤ h.s.vend v → (Hash.ins [] (L e)).length ≤ (A3 h φ K (K + (v - h.vnohnnd))).length := by
    intro e e1 e2
    rw [hL]
    have : L (h.s.vend v) = L e ++ (seg h.s.dest e (h.s.vend v)).map φ := by
      show (seg _ _ _).map φ = _
      rw [seg_append _ e1 e2, List.map_append]
    rw [this]
    exact ins_prefix_le _ _
  refine Holds_forArcs C.H.alloc.whole hrv hr (fun e a' => CpTab msk (K + (v - h.vnohnnd)) (Hash.ins [] (L e)) a'.tab ∧ EInv E n0 f (Hash.ins [] (L e)) a' ∧ a'.vsiz = a.vsiz) ?_ ?_ ?_
  · have : L (h.s.vert v) = [] := by show (seg _ _ _).map φ = _; rw [seg_empty _ (Int.le_refl _)]; rfl
    rw [this, Hash.ins_nil]
    exact ⟨T, I, rfl⟩
  · rintro e s e1 e2 ⟨i1, i2, i3⟩
    have hwv := (C.H.w.inside v e hrv e1 e2).1
    have hLs : L (e + 1) = L e ++ [φ (h.s.dest e)] := by
      show (seg _ _ _).map φ = _
      rw [seg_succ _ e1, List.map_append]
      rfl
    have hls := hlen (e + 1) (by omega) (by omega)
    have hle := hlen e (by omega) (by omega)
    have hnum := C.num hwv
    rw [A.rd hwv, ok_bind]
    rw [hLs, Hash.ins_append] at hls ⊢
    refine (cpAdd_holds hm i1 i2 hn0 (by omega) (by omega) (by omega)).mono ?_
    rintro s' ⟨j1, j2, j3⟩
    exact ⟨j1, j2, j3.trans i3⟩
  · rintro s hs
    rw [hL]; exact hs

/-- Compressed vertices before `c` have been built. -/
structure CVInv (h : Hgraph) (φ ρ : Int → Int) (K E msk c : Int) (s : CpV) : Prop where
  num : s.c = c
  lists : Lists 1 c (cadj h φ ρ K) s.vert.get s.a.edge.get s.a.num
  tlo : s.a.tab.lo = 0
  thi : s.a.tab.hi = msk + 1
  old : ∀ x, 0 ≤ x → x < msk + 1 → (s.a.tab.get x).vertnum < c
  elo : s.a.edge.lo = 1
  ehi : s.a.edge.hi = 1 + E
  vlo : s.vert.lo = 1
  vhi : s.vert.hi = cnnd h K + 1 + 1
  zlo : s.a.vsiz.lo = 1
  zhi : s.a.vsiz.hi = 1 + cnnd h K
  siz : ∀ d, 1 ≤ d → d < c → s.a.vsiz.get d = csize h φ d
  nh : s.vnhd = none → h.s.vertnbr = h.vnohnbr
  hh : ∀ t, s.vnhd = some t → t.lo = 1 ∧ t.hi = K ∧ ∀ d, 1 ≤ d → d < c → d < K → t.get d = s.vert.get d + (A1 h φ ρ d).length

theorem lists_congr {α : Type} {base v num : Int} {adj : Int → List α} {vert vert' : Int → Int} {edge : Int → α} (L : Lists base v adj vert edge num) (he : ∀ u, base ≤ u → u < v → vert' u = vert u) : Lists base v adj vert' edge num :=
  ⟨L.next, fun u u1 u2 => by rw [he u u1 u2]; exact L.start u u1 u2, fun u u1 u2 => by rw [he u u1 u2]; exact L.lists u u1 u2⟩

theorem CVInv.room {E msk c : Int} {s : CpV} (I : CVInv h φ ρ K E msk c s) (hE : sumI 1 (cnnd h K) (fun c => ((cadj h φ ρ K c).length : Int)) ≤ E) (h1 : 1 ≤ c) (h2 : c < cnnd h K) : 1 ≤ s.a.num ∧ s.a.num + ((cadj h φ ρ K c).length : Int) ≤ 1 + E := by
  have := I.lists.next
  have := len_mono (adj := cadj h φ ρ K) h1 h2
  have := len_nonneg (base := 1) (adj := cadj h φ ρ K) c
  omega

end Scotch.HOrder
