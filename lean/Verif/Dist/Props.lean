import Verif.Dist.LemmasSync
import Verif.Graph.Decide

/-!
# C42 and C53 — distributed graphs: ranges, ownership, ghost vertices and halo exchange

C42: the global numbers devoted to processes are disjoint, contiguous and cover all vertices; the owner of a number is found; every arc end gets a local number, ghost vertices being numbered after local ones, grouped by owner.

C53: after a halo exchange, each process has, for the end of each of its arcs, the value recorded by the owner of this vertex.

A process that fails to allocate memory is not always noticed by the others (`C42_failure_missed`): the test of `dgraphBuild2` does not read the cells it should.
-/

set_option autoImplicit false
set_option linter.unusedSimpArgs false

namespace Scotch.Dist

/-! ## Theorems -/

/-- Ranges: consecutive, starting from the base value, and as large as asked for. -/
theorem C42_ranges (P base : Int) (nbr max : Int → Int) (j1 j2 j3 : Int → Int) (hP : 0 < P)
    (hr : ∀ p, 0 ≤ p → p < P → 0 ≤ nbr p ∧ nbr p ≤ max p ∧ max p < 2147483648) :
    Holds (build2 P base nbr max j1 j2 j3) (fun o => ∃ r, o = some r ∧ r.procdsptab.get 0 = base ∧ r.procvrttab.get 0 = base ∧
      (∀ p, 0 ≤ p → p < P → r.procdsptab.get (p + 1) = r.procdsptab.get p + nbr p ∧ r.procvrttab.get (p + 1) = r.procvrttab.get p + max p ∧
        r.proccnttab.get p = nbr p) ∧
      (∀ w, r.procvrttab.get 0 ≤ w → w < r.procvrttab.get P → Holds (ownerOf r.procvrttab P w) (fun q =>
        (0 ≤ q ∧ q < P ∧ r.procvrttab.get q ≤ w ∧ w < r.procvrttab.get (q + 1)) ∧
        ∀ q', 0 ≤ q' → q' < P → r.procvrttab.get q' ≤ w → w < r.procvrttab.get (q' + 1) → q' = q))) := by
  refine (build2_holds hP hr).mono ?_
  rintro o ⟨r, rfl, h1, h2, ⟨h3, h4⟩, h5⟩
  refine ⟨r, rfl, h1, h2, h5, fun w w1 w2 => ?_⟩
  have hstep : ∀ (p : Int) (n : Nat), 0 ≤ p → p + n ≤ P → r.procvrttab.get p ≤ r.procvrttab.get (p + n) := by
    intro p n p1
    induction n with
    | zero => intro _; simp
    | succ n ih =>
      intro hn
      have e : p + ((n + 1 : Nat) : Int) = p + n + 1 := by omega
      rw [e] at hn ⊢
      have := ih (by omega)
      have := (h5 (p + n) (by omega) (by omega)).2.1
      have := hr (p + n) (by omega) (by omega)
      omega
  have hmono : ∀ p q, 0 ≤ p → p ≤ q → q ≤ P → r.procvrttab.get p ≤ r.procvrttab.get q := by
    intro p q p1 p2 p3
    have := hstep p (q - p).toNat p1 (by omega)
    rw [show p + ((q - p).toNat : Int) = q by omega] at this
    exact this
  refine (ownerOf_holds hP (by rw [h3]) (by rw [h4]; omega) w1 w2).mono ?_
  rintro q ⟨⟨q1, q2⟩, q3, q4⟩
  refine ⟨⟨q1, q2, q3, q4⟩, fun q' b1 b2 b3 b4 => ?_⟩
  by_cases hlt : q < q'
  · have := hmono (q + 1) q' (by omega) (by omega) (by omega); omega
  · by_cases hgt : q' < q
    · have := hmono (q' + 1) q (by omega) (by omega) (by omega); omega
    · omega

/-- Ghost vertices: the end of an arc gets the local number of the vertex when the process owns it; else, a number after
those of local vertices. The list `W` of ghost vertices, in the order of their numbers, has ascending global numbers and contains each remote neighbour once. -/
theorem C42_ghost (d : DGraph) (h : d.Consistent) (p : Int) (hp : d.Proc p) (gst ngb : Arr Int) (jsort : Int → Int × Int) (jsid : Int → Int) (k : Nat)
    (hg : ∀ u e, (d.loc p).Vertex u → (d.loc p).vert u ≤ e → e < (d.loc p).vend u → gst.lo ≤ e ∧ e < gst.hi) (hn : ngb.lo ≤ 0 ∧ d.procglbnbr ≤ ngb.hi)
    (hk : (d.loc p).edgenbr < 2 ^ k) :
    Holds (ghst (d.local' p) gst ngb jsort jsid k) (fun G => ∃ W : List Int, W.Pairwise (· < ·) ∧
      (∀ w, w ∈ W ↔ ∃ u e q u', d.Arc p u e w ∧ d.Proc q ∧ (d.loc q).Vertex u' ∧ w = d.glb q u' ∧ q ≠ p) ∧
      (∀ u e q u', d.Arc p u e (d.glb q u') → d.Proc q → (d.loc q).Vertex u' →
        if q = p then G.edgegsttax.get e = u' else ∃ k, ∃ _ : k < W.length, G.edgegsttax.get e = (d.loc p).vertnnd + k ∧ W[k] = d.glb q u') ∧
      G.vertgstnbr = (d.loc p).vertnbr + W.length) := by
  refine (ghst_holds (h.ok hp) jsort jsid hg hn hk).mono ?_
  rintro G ⟨W, hW⟩
  refine ⟨W, hW.asc, fun w => ?_, fun u e q u' ha hq hu' => ?_, hW.nbr⟩
  · rw [hW.mem]
    constructor
    · rintro ⟨u, e, e1, e2, e3, e4, e5⟩
      obtain ⟨q, u', hq, hu', hw, _⟩ := h.sym p hp u e w ⟨e1, e2, e3, e4⟩
      have ho := h.glb_own hq hu'
      rw [← hw] at ho
      exact ⟨u, e, q, u', ⟨e1, e2, e3, e4⟩, hq, hu', hw, (remote_iff h hp ho).1 e5⟩
    · rintro ⟨u, e, q, u', ⟨e1, e2, e3, e4⟩, hq, hu', hw, hne⟩
      have ho := h.glb_own hq hu'
      rw [← hw] at ho
      exact ⟨u, e, e1, e2, e3, e4, (remote_iff h hp ho).2 hne⟩
  · obtain ⟨e1, e2, e3, e4⟩ := ha
    have ho := h.glb_own hq hu'
    by_cases hqp : q = p
    · rw [if_pos hqp]
      subst hqp
      have hl : ¬ (d.local' q).Remote ((d.local' q).g.dest e) := by
        show ¬ (d.local' q).Remote ((d.loc q).dest e)
        rw [e4, remote_iff h hq ho]
        exact fun hn => hn rfl
      have := hW.loc u e e1 e2 e3 hl
      rw [this]
      show (d.loc q).dest e - (d.procvrttab.get q - (d.loc q).baseval) = u'
      rw [e4, h.based q hq]
      unfold DGraph.glb
      omega
    · rw [if_neg hqp]
      have hr : (d.local' p).Remote ((d.local' p).g.dest e) := by
        show (d.local' p).Remote ((d.loc p).dest e)
        rw [e4]
        exact (remote_iff h hp ho).2 hqp
      obtain ⟨k, k1, k2, k3⟩ := hW.rem u e e1 e2 e3 hr
      exact ⟨k, k1, k2, by rw [k3]; exact e4⟩

/-- Halo exchange, with either kind of communication: every process keeps the values of its vertices and, at the index of the end of each of its arcs,
it has the value recorded by the owner of this vertex. All exchanges end, and read and write inside of their arrays. -/
theorem C53_halo {α : Type} (d : DGraph) (h : d.Consistent) (gst ngb : Int → Arr Int) (jsort : Int → Int × Int) (jsid : Int → Int) (k : Nat)
    (hg : ∀ p, d.Proc p → ∀ u e, (d.loc p).Vertex u → (d.loc p).vert u ≤ e → e < (d.loc p).vend u → (gst p).lo ≤ e ∧ e < (gst p).hi)
    (hn : ∀ p, d.Proc p → (ngb p).lo ≤ 0 ∧ d.procglbnbr ≤ (ngb p).hi) (hk : ∀ p, d.Proc p → (d.loc p).edgenbr < 2 ^ k) :
    ∃ G : Int → Ghost, (∀ p, d.Proc p → ghst (d.local' p) (gst p) (ngb p) jsort jsid k = .ok (G p)) ∧
      ∀ (attr : Int → Arr α) (jsnd : Int → α) (jdsp : Int → Int), (∀ p, d.Proc p → (attr p).lo ≤ 0 ∧ (G p).vertgstnbr ≤ (attr p).hi) →
        ∃ m : Int → Message α, (∀ p, d.Proc p → message d.procglbnbr (G p) (attr p) jsnd jdsp = .ok (m p)) ∧
          ∀ flag p, d.Proc p → Holds (haloSync flag d.procglbnbr (d.loc p).vertnbr p G m jdsp (attr p)) (fun r =>
            (∀ i, i < (d.loc p).vertnbr → r.get i = (attr p).get i) ∧
            ∀ u e q u', d.Arc p u e (d.glb q u') → d.Proc q → (d.loc q).Vertex u' → r.get ((G p).edgegsttax.get e - d.base) = (attr q).get (u' - d.base)) := by
  have hG : ∀ p, ∃ G W, d.Proc p → ghst (d.local' p) (gst p) (ngb p) jsort jsid k = .ok G ∧ Numbered (d.local' p) G W := by
    intro p
    by_cases hp : d.Proc p
    · obtain ⟨G, h1, W, h2⟩ := Holds_iff_exists.1 (ghst_holds (h.ok hp) jsort jsid (hg p hp) (hn p hp) (hk p hp))
      exact ⟨G, W, fun _ => ⟨h1, h2⟩⟩
    · exact ⟨⟨ngb p, 0, ngb p, 0, ngb p, ngb p, 0, ngb p, 0⟩, [], fun hp' => absurd hp' hp⟩
  obtain ⟨G, hG⟩ := Classical.axiomOfChoice hG
  obtain ⟨Wf, hG⟩ := Classical.axiomOfChoice hG
  refine ⟨G, fun p hp => (hG p hp).1, ?_⟩
  intro attr jsnd jdsp ha
  have hW : ∀ p, d.Proc p → Numbered (d.local' p) (G p) (Wf p) := fun p hp => (hG p hp).2
  have hnbr : ∀ p, d.Proc p → (G p).vertgstnbr = (d.loc p).vertnbr + (Wf p).length := fun p hp => (hW p hp).nbr
  have hM : ∀ p, ∃ m, d.Proc p → message d.procglbnbr (G p) (attr p) jsnd jdsp = .ok m ∧ Posted (d.local' p) (G p) (attr p) m := by
    intro p
    by_cases hp : d.Proc p
    · have := ha p hp
      have := hnbr p hp
      obtain ⟨m, h1, h2⟩ := Holds_iff_exists.1 (message_holds (h.ok hp) (hW p hp) (attr := attr p) (jsnd := jsnd) (jdsp := jdsp) ⟨(ha p hp).1, by show (d.loc p).vertnbr ≤ _; omega⟩)
      exact ⟨m, fun _ => ⟨h1, h2⟩⟩
    · exact ⟨⟨ngb p, ngb p, attr p⟩, fun hp' => absurd hp' hp⟩
  obtain ⟨m, hM⟩ := Classical.axiomOfChoice hM
  refine ⟨m, fun p hp => (hM p hp).1, ?_⟩
  intro flag p hp
  -- the value of a global vertex
  have hval : ∀ w, ∃ x : α, ∀ q u, d.Proc q → (d.loc q).Vertex u → w = d.glb q u → x = (attr q).get (u - d.base) := by
    intro w
    by_cases hw : ∃ q u, d.Proc q ∧ (d.loc q).Vertex u ∧ w = d.glb q u
    · obtain ⟨q, u, hq, hu, rfl⟩ := hw
      refine ⟨(attr q).get (u - d.base), fun q' u' hq' hu' e => ?_⟩
      have e1 : q = q' := own_unique h (h.glb_own hq hu) (by rw [e]; exact h.glb_own hq' hu')
      subst e1
      unfold DGraph.glb at e
      have : u = u' := by omega
      rw [this]
    · exact ⟨jsnd 0, fun q u hq hu e => absurd ⟨q, u, hq, hu, e⟩ hw⟩
  obtain ⟨val, hval⟩ := Classical.axiomOfChoice hval
  have hval : Val d attr val := fun q u hq hu => hval _ q u hq hu rfl
  have hap := ha p hp
  rw [hnbr p hp] at hap
  refine (haloSync_holds h hp (W := Wf) hW hval (fun q hq => (hM q hq).2) hap flag jdsp).mono ?_
  intro r hr
  refine ⟨hr.keep, ?_⟩
  rintro u e q u' ⟨e1, e2, e3, e4⟩ hq hu'
  have ho := h.glb_own hq hu'
  have hb := h.based p hp
  have hnn := h.nnd p hp
  by_cases hqp : q = p
  · subst hqp
    have hl : ¬ (d.local' q).Remote ((d.local' q).g.dest e) := by
      show ¬ (d.local' q).Remote ((d.loc q).dest e)
      rw [e4, remote_iff h hq ho]
      exact fun hn => hn rfl
    have := (hW q hq).loc u e e1 e2 e3 hl
    rw [this]
    have e5 : (d.local' q).g.dest e - ((d.local' q).procvrttab.get (d.local' q).proclocnum - (d.local' q).g.baseval) = u' := by
      show (d.loc q).dest e - (d.procvrttab.get q - (d.loc q).baseval) = u'
      rw [e4, hb]
      unfold DGraph.glb
      omega
    rw [e5]
    exact hr.keep _ (by have := hu'.2; omega)
  · have hrm : (d.local' p).Remote ((d.local' p).g.dest e) := by
      show (d.local' p).Remote ((d.loc p).dest e)
      rw [e4]
      exact (remote_iff h hp ho).2 hqp
    obtain ⟨k, k1, k2, k3⟩ := (hW p hp).rem u e e1 e2 e3 hrm
    rw [k2]
    have e5 : (d.local' p).g.vertnnd + (k : Int) - d.base = (d.loc p).vertnbr + k := by
      show (d.loc p).vertnnd + (k : Int) - d.base = _
      omega
    have e6 : (d.local' p).g.dest e = d.glb q u' := e4
    rw [e6] at k3
    rw [e5, hr.got q hq trivial k k1 (by rw [k3]; exact ho), k3]
    exact hval q u' hq hu'

/-! ## Examples -/

/-- Local sizes of three processes, one of which has no vertex. -/
def exNbr (p : Int) : Int := if p = 1 then 0 else 2

example : Holds (build2 3 1 exNbr exNbr (fun _ => 7) (fun _ => 7) (fun _ => 7)) (fun o => ∃ r, o = some r ∧ r.procvrttab.toList = [1, 3, 3, 5] ∧ r.proccnttab.toList = [2, 0, 2]) := by
  rw [Holds_iff_exists]
  refine ⟨_, rfl, _, rfl, ?_, ?_⟩ <;> decide +kernel

/-- The process that owns vertex 3 is the last one, not the empty one. -/
example : ownerOf (Arr.ofList 0 [1, 3, 3, 5]) 3 3 = .ok 2 := by decide +kernel

/-- Process 1, out of two, failed to allocate its memory; the other ones do not notice. -/
theorem C42_failure_missed : ∃ r, build2 2 0 (fun p => if p = 1 then -1 else 2) (fun p => if p = 1 then -1 else 2) (fun _ => 0) (fun _ => 0) (fun _ => 0) = .ok (some r) ∧ r.procvrttab.toList = [0, 2, 1] :=
  ⟨_, rfl, by decide +kernel⟩

/-- Local graph given by its adjacency lists, in compact form. -/
def mkGraph (base : Int) (vert edge : List Int) : Graph :=
  { baseval := base, vertnbr := vert.length - 1, vertnnd := base + (vert.length - 1), verttax := Arr.ofList base vert, vendtax := none, velotax := none, velosum := vert.length - 1,
    vnumtax := none, vlbltax := none, edgenbr := edge.length, edgetax := Arr.ofList base edge, edlotax := none, edlosum := edge.length, degrmax := 2 }

/-- Cycle 1–2–4–5, on three processes, the second one being empty; the first process has room for three vertices. -/
def exD : DGraph :=
  { procglbnbr := 3, procvrttab := Arr.ofList 0 [1, 4, 4, 6],
    loc := fun p => if p = 0 then mkGraph 1 [1, 3, 5] [2, 5, 1, 4] else if p = 1 then mkGraph 1 [1] [] else mkGraph 1 [1, 3, 5] [2, 5, 4, 1] }

theorem exD_cons : exD.Consistent := by
  have hv : ∀ p, exD.Proc p → p = 0 ∨ p = 1 ∨ p = 2 := by
    rintro p ⟨h1, h2⟩
    have : p < 3 := h2
    omega
  have hu2 : ∀ u, (mkGraph 1 [1, 3, 5] [2, 5, 1, 4]).Vertex u → u = 1 ∨ u = 2 := by
    rintro u ⟨h1, h2⟩
    have h1 : 1 ≤ u := h1
    have h2 : u < 1 + (3 - 1) := h2
    omega
  have hu2' : ∀ u, (mkGraph 1 [1, 3, 5] [2, 5, 4, 1]).Vertex u → u = 1 ∨ u = 2 := by
    rintro u ⟨h1, h2⟩
    have h1 : 1 ≤ u := h1
    have h2 : u < 1 + (3 - 1) := h2
    omega
  have hu0 : ∀ u, ¬ (mkGraph 1 [1] []).Vertex u := by
    rintro u ⟨h1, h2⟩
    have h1 : 1 ≤ u := h1
    have h2 : u < 1 + (1 - 1) := h2
    omega
  have hl0 : exD.loc 0 = mkGraph 1 [1, 3, 5] [2, 5, 1, 4] := rfl
  have hl1 : exD.loc 1 = mkGraph 1 [1] [] := rfl
  have hl2 : exD.loc 2 = mkGraph 1 [1, 3, 5] [2, 5, 4, 1] := rfl
  refine ⟨by decide, by decide, by decide, by decide, ?_, ?_, ?_, ?_, ?_, ?_, ?_, ?_⟩
  · intro p hp
    rcases hv p hp with rfl | rfl | rfl
    · exact Graph.allocB_sound (by rw [hl0]; decide +kernel)
    · exact Graph.allocB_sound (by rw [hl1]; decide +kernel)
    · exact Graph.allocB_sound (by rw [hl2]; decide +kernel)
  · intro p hp; rcases hv p hp with rfl | rfl | rfl <;> rfl
  · intro p hp; rcases hv p hp with rfl | rfl | rfl <;> decide
  · intro p hp; rcases hv p hp with rfl | rfl | rfl <;> rfl
  · intro p hp; rcases hv p hp with rfl | rfl | rfl <;> decide +kernel
  · intro p hp u hu
    rcases hv p hp with rfl | rfl | rfl
    · rw [hl0] at hu ⊢; rcases hu2 u hu with rfl | rfl <;> decide +kernel
    · rw [hl1] at hu; exact absurd hu (hu0 u)
    · rw [hl2] at hu ⊢; rcases hu2' u hu with rfl | rfl <;> decide +kernel
  · intro p hp
    rcases hv p hp with rfl | rfl | rfl <;> · simp only [hl0, hl1, hl2]; decide +kernel
  · have harc : ∀ p u e q u', exD.Proc p → (exD.loc p).Vertex u → (exD.loc p).vert u ≤ e → e < (exD.loc p).vend u → exD.Proc q → (exD.loc q).Vertex u' →
        (exD.loc p).dest e = exD.glb q u' → exD.Arc p u e (exD.glb q u') := fun p u e q u' _ hu e1 e2 _ _ hd => ⟨hu, e1, e2, hd⟩
    have hP0 : exD.Proc 0 := ⟨by decide, by decide⟩
    have hP2 : exD.Proc 2 := ⟨by decide, by decide⟩
    have v01 : (exD.loc 0).Vertex 1 := by decide +kernel
    have v02 : (exD.loc 0).Vertex 2 := by decide +kernel
    have v21 : (exD.loc 2).Vertex 1 := by decide +kernel
    have v22 : (exD.loc 2).Vertex 2 := by decide +kernel
    rintro p hp u e w ⟨hu, e1, e2, rfl⟩
    rcases hv p hp with rfl | rfl | rfl
    · rw [hl0] at hu e1 e2
      rcases hu2 u hu with rfl | rfl
      · have a1 : 1 ≤ e := e1
        have a2 : e < 3 := e2
        rcases (by omega : e = 1 ∨ e = 2) with rfl | rfl
        · exact ⟨0, 2, hP0, v02, by decide +kernel, 3, harc 0 2 3 0 1 hP0 v02 (by decide +kernel) (by decide +kernel) hP0 v01 (by decide +kernel)⟩
        · exact ⟨2, 2, hP2, v22, by decide +kernel, 4, harc 2 2 4 0 1 hP2 v22 (by decide +kernel) (by decide +kernel) hP0 v01 (by decide +kernel)⟩
      · have a1 : 3 ≤ e := e1
        have a2 : e < 5 := e2
        rcases (by omega : e = 3 ∨ e = 4) with rfl | rfl
        · exact ⟨0, 1, hP0, v01, by decide +kernel, 1, harc 0 1 1 0 2 hP0 v01 (by decide +kernel) (by decide +kernel) hP0 v02 (by decide +kernel)⟩
        · exact ⟨2, 1, hP2, v21, by decide +kernel, 1, harc 2 1 1 0 2 hP2 v21 (by decide +kernel) (by decide +kernel) hP0 v02 (by decide +kernel)⟩
    · rw [hl1] at hu; exact absurd hu (hu0 u)
    · rw [hl2] at hu e1 e2
      rcases hu2' u hu with rfl | rfl
      · have a1 : 1 ≤ e := e1
        have a2 : e < 3 := e2
        rcases (by omega : e = 1 ∨ e = 2) with rfl | rfl
        · exact ⟨0, 2, hP0, v02, by decide +kernel, 4, harc 0 2 4 2 1 hP0 v02 (by decide +kernel) (by decide +kernel) hP2 v21 (by decide +kernel)⟩
        · exact ⟨2, 2, hP2, v22, by decide +kernel, 3, harc 2 2 3 2 1 hP2 v22 (by decide +kernel) (by decide +kernel) hP2 v21 (by decide +kernel)⟩
      · have a1 : 3 ≤ e := e1
        have a2 : e < 5 := e2
        rcases (by omega : e = 3 ∨ e = 4) with rfl | rfl
        · exact ⟨2, 1, hP2, v21, by decide +kernel, 2, harc 2 1 2 2 2 hP2 v21 (by decide +kernel) (by decide +kernel) hP2 v22 (by decide +kernel)⟩
        · exact ⟨0, 1, hP0, v01, by decide +kernel, 2, harc 0 1 2 2 2 hP0 v01 (by decide +kernel) (by decide +kernel) hP2 v22 (by decide +kernel)⟩

/-- The ends of the arcs of the last process get local numbers 4, 2, 1 and 3, where 3 and 4 are the ghost vertices of global numbers 1 and 2. -/
example : (ghst (exD.local' 2) (Arr.const 1 5 0) (Arr.const 0 3 0) (fun _ => (0, 0)) (fun _ => 0) 3).map (fun G => (G.edgegsttax.toList, G.vertgstnbr)) = .ok ([4, 2, 1, 3], 4) := by
  decide +kernel

end Scotch.Dist
