import Verif.Gain.Lemmas

set_option autoImplicit false
set_option linter.unusedSimpArgs false

namespace Scotch.Gain

/-- List of links that have been copied `d` further, but whose `next` fields have not been updated. -/
def Raw (nx : Ptr → Ptr) (d : Int) : Int → List Int → Prop
  | p, [] => nx (.link p) = .dummy
  | p, q :: qs => nx (.link p) = .link q ∧ Raw nx d (q + d) qs

theorem Raw.frame {nx nx' : Ptr → Ptr} {d : Int} : ∀ {ls : List Int} {p : Int}, Raw nx d p ls → nx' (.link p) = nx (.link p) →
    (∀ l ∈ ls, nx' (.link (l + d)) = nx (.link (l + d))) → Raw nx' d p ls := by
  intro ls
  induction ls with
  | nil => intro p h hp _; exact hp.trans h
  | cons l ls ih =>
    intro p h hp hn
    exact ⟨hp.trans h.1, ih h.2 (hn l (by simp)) (fun x hx => hn x (List.mem_cons_of_mem _ hx))⟩

/-- Fields that lists do not use. -/
def cfg (t : Tabl) : Bool × Int × Int × Int × Int × Int := (t.logflag, t.subbits, t.submask, t.totsize, t.tend, t.tabl)

theorem moveChain_spec (d : Int) : ∀ (ls : List Int) (k : Nat) (p : Int) (u : Tabl), ls.length ≤ k → Raw u.next d p ls →
    (∀ x ∈ ls, x + d ≠ p) → ls.Nodup →
    let u' := moveChain d k p u
    Chain u'.next u'.prev (.link p) (ls.map (· + d)) ∧
    (∀ q, q ≠ .link p → (∀ x ∈ ls, q ≠ .link (x + d)) → u'.next q = u.next q) ∧
    (∀ q, (∀ x ∈ ls, q ≠ .link (x + d)) → u'.prev q = u.prev q) ∧
    cfg u' = cfg u ∧ u'.tmin = u.tmin ∧ u'.tmax = u.tmax ∧ u'.ltab = u.ltab := by
  intro ls
  induction ls with
  | nil =>
    intro k p u _ hr _ _
    have hr' : u.next (.link p) = .dummy := hr
    cases k with
    | zero => exact ⟨hr, fun _ _ _ => rfl, fun _ _ => rfl, rfl, rfl, rfl, rfl⟩
    | succ k =>
      have hmc : moveChain d (k + 1) p u = u := by simp only [moveChain, hr']
      rw [hmc]
      exact ⟨hr, fun _ _ _ => rfl, fun _ _ => rfl, rfl, rfl, rfl, rfl⟩
  | cons y ls ih =>
    intro k p u hk hr hp hnd
    cases k with
    | zero => simp at hk
    | succ k =>
      have hr1 : u.next (.link p) = .link y := hr.1
      have hyp : y + d ≠ p := hp y (by simp)
      have hy := (List.nodup_cons.1 hnd).1
      simp only [moveChain, hr1]
      have hraw : Raw (setF u.next (.link p) (.link (y + d))) d (y + d) ls := by
        refine hr.2.frame ?_ ?_
        · rw [setF_ne _ _ (by simpa using hyp)]
        · intro x hx
          rw [setF_ne _ _ (by simpa using hp x (List.mem_cons_of_mem _ hx))]
      obtain ⟨c1, c2, c3, c4, c5, c6, c7⟩ := ih k (y + d)
        { u with next := setF u.next (.link p) (.link (y + d)), prev := setF u.prev (.link (y + d)) (.link p) }
        (by simp at hk; omega) hraw
        (by intro x hx e
            have e' : x + d = y + d := e
            have : x = y := by omega
            subst this; exact hy hx)
        (List.nodup_cons.1 hnd).2
      dsimp only at c1 c2 c3 c4 c5 c6 c7
      refine ⟨⟨?_, ?_, c1⟩, ?_, ?_, c4, c5, c6, c7⟩
      · rw [c2]
        · rw [setF_same]
        · simpa using fun e => hyp e.symm
        · intro x hx e; injection e with e; exact hp x (List.mem_cons_of_mem _ hx) e.symm
      · rw [c3]
        · rw [setF_same]
        · intro x hx e; injection e with e
          have e2 : y + d = x + d := e
          have e3 : y = x := by omega
          subst e3; exact hy hx
      · intro q hq hqs
        rw [c2 q (hqs y (by simp)) (fun x hx => hqs x (List.mem_cons_of_mem _ hx))]
        rw [setF_ne _ _ hq]
      · intro q hqs
        rw [c3 q (fun x hx => hqs x (List.mem_cons_of_mem _ hx))]
        rw [setF_ne _ _ (hqs y (by simp))]

/-- Entry whose links have been copied. -/
def RawEntr (u : Tabl) (d : Int) (i : Int) (ls : List Int) : Prop :=
  u.next (.entr i) = headP ls ∧ match ls with
    | [] => True
    | l :: ls => u.prev (.link (l + d)) = .entr i ∧ Raw u.next d (l + d) ls

theorem moveFrom_spec (d : Int) (len : Nat) (B : Int → List Int) : ∀ (k : Nat) (e : Int) (u : Tabl),
    (∀ i, e ≤ i → i < e + k → (B i).length ≤ len ∧ (B i).Nodup ∧ RawEntr u d i (B i)) →
    (∀ i j x, e ≤ i → i < e + k → e ≤ j → j < e + k → x ∈ B i → x ∈ B j → i = j) →
    let u' := moveFrom d len k e u
    (∀ i, e ≤ i → i < e + k → Chain u'.next u'.prev (.entr i) ((B i).map (· + d))) ∧
    (∀ q, (∀ i, e ≤ i → i < e + k → q ≠ .entr i ∧ ∀ x ∈ B i, q ≠ .link (x + d)) → u'.next q = u.next q ∧ u'.prev q = u.prev q) ∧
    cfg u' = cfg u ∧ u'.tmin = u.tmin ∧ u'.tmax = u.tmax ∧ u'.ltab = u.ltab := by
  intro k
  induction k with
  | zero =>
    intro e u _ _
    refine ⟨fun i h1 h2 => by omega, fun _ _ => ⟨rfl, rfl⟩, rfl, rfl, rfl, rfl⟩
  | succ k ih =>
    intro e u h hdis
    obtain ⟨hl, hnd, hraw⟩ := h e (by omega) (by omega)
    have hdis' : ∀ i j x, e + 1 ≤ i → i < e + 1 + k → e + 1 ≤ j → j < e + 1 + k → x ∈ B i → x ∈ B j → i = j :=
      fun i j x a b c f g h => hdis i j x (by omega) (by omega) (by omega) (by omega) g h
    cases hb : B e with
    | nil =>
      rw [hb] at hraw
      have h0 : u.next (.entr e) = .dummy := hraw.1
      simp only [moveFrom, h0]
      obtain ⟨c1, c2, c3⟩ := ih (e + 1) u (fun i h1 h2 => h i (by omega) (by omega)) hdis'
      refine ⟨?_, ?_, c3⟩
      · intro i h1 h2
        by_cases hie : i = e
        · subst hie
          rw [hb]
          show _ = _
          rw [(c2 (.entr i) (fun j h3 h4 => ⟨by intro e'; injection e' with e'; omega, fun x _ => by simp⟩)).1]
          exact h0
        · exact c1 i (by omega) (by omega)
      · intro q hq
        exact c2 q (fun i h1 h2 => hq i (by omega) (by omega))
    | cons l ls =>
      rw [hb] at hraw hl hnd
      have h0 : u.next (.entr e) = .link l := hraw.1
      simp only [moveFrom, h0]
      have hlls := (List.nodup_cons.1 hnd).1
      obtain ⟨m1, m2, m3, m4, m5, m6, m7⟩ := moveChain_spec d ls len (l + d)
        { u with next := setF u.next (.entr e) (.link (l + d)) } (by simp at hl; omega)
        (hraw.2.2.frame (by dsimp only; rw [setF_ne _ _ (by simp)]) (fun x _ => by dsimp only; rw [setF_ne _ _ (by simp)]))
        (by intro x hx e'
            have e'' : x + d = l + d := e'
            have : x = l := by omega
            subst this; exact hlls hx)
        (List.nodup_cons.1 hnd).2
      generalize hv : moveChain d len (l + d) { u with next := setF u.next (.entr e) (.link (l + d)) } = v at m1 m2 m3 m4 m5 m6 m7
      dsimp only at m1 m2 m3 m4 m5 m6 m7
      have hfar : ∀ i, e + 1 ≤ i → i < e + 1 + k → ∀ x ∈ B i, ∀ y ∈ l :: ls, x + d ≠ y + d := by
        intro i h1 h2 x hx y hy e'
        have : x = y := by omega
        subst this
        have := hdis i e x (by omega) (by omega) (by omega) (by omega) hx (by rw [hb]; exact hy)
        omega
      have hvraw : ∀ i, e + 1 ≤ i → i < e + 1 + k → RawEntr v d i (B i) := by
        intro i h1 h2
        obtain ⟨_, _, r1, r2⟩ := h i (by omega) (by omega)
        have hf := hfar i h1 h2
        refine ⟨?_, ?_⟩
        · rw [m2 _ (by simp) (fun x _ => by simp), setF_ne _ _ (by intro e'; injection e' with e'; omega)]
          exact r1
        · cases hbi : B i with
          | nil => trivial
          | cons y ys =>
            rw [hbi] at r2 hf
            have hnx : ∀ x ∈ y :: ys, v.next (.link (x + d)) = u.next (.link (x + d)) := by
              intro x hx
              rw [m2 _ (by intro e'; injection e' with e'; exact hf x hx l (by simp) e')
                (fun z hz => by intro e'; injection e' with e'; exact hf x hx z (by simp [hz]) e')]
              rw [setF_ne _ _ (by simp)]
            refine ⟨?_, r2.2.frame (hnx y (by simp)) (fun x hx => hnx x (by simp [hx]))⟩
            rw [m3 _ (fun z hz => by intro e'; injection e' with e'; exact hf y (by simp) z (by simp [hz]) e')]
            exact r2.1
      obtain ⟨c1, c2, c3, c4, c5, c6⟩ := ih (e + 1) v
        (fun i h1 h2 => ⟨(h i (by omega) (by omega)).1, (h i (by omega) (by omega)).2.1, hvraw i h1 h2⟩) hdis'
      refine ⟨?_, ?_, c3.trans m4, c4.trans m5, c5.trans m6, c6.trans m7⟩
      · intro i h1 h2
        by_cases hie : i = e
        · subst hie
          rw [hb]
          have hun : ∀ q, (q = Ptr.entr i ∨ ∃ x ∈ l :: ls, q = Ptr.link (x + d)) → ∀ j, i + 1 ≤ j → j < i + 1 + k →
              q ≠ Ptr.entr j ∧ ∀ x ∈ B j, q ≠ Ptr.link (x + d) := by
            intro q hq j h3 h4
            rcases hq with rfl | ⟨x, hx, rfl⟩
            · exact ⟨by intro e'; injection e' with e'; omega, fun x _ => by simp⟩
            · refine ⟨by simp, ?_⟩
              intro z hz e'
              injection e' with e'
              exact hfar j h3 h4 z hz x hx e'.symm
          have hbase : Chain v.next v.prev (.entr i) ((l :: ls).map (· + d)) := by
            refine ⟨?_, ?_, m1⟩
            · rw [m2 _ (by simp) (fun x _ => by simp), setF_same]
            · rw [m3 _ (fun z hz => by
                intro e'; injection e' with e'
                have e2 : l + d = z + d := e'
                have e3 : l = z := by omega
                subst e3; exact hlls hz)]
              exact hraw.2.1
          refine hbase.frame ?_ ?_ ?_
          · exact (c2 _ (hun _ (Or.inl rfl))).1
          · intro y hy
            obtain ⟨x, hx, rfl⟩ := List.mem_map.1 hy
            exact (c2 _ (hun _ (Or.inr ⟨x, hx, rfl⟩))).1
          · intro y hy
            obtain ⟨x, hx, rfl⟩ := List.mem_map.1 hy
            exact (c2 _ (hun _ (Or.inr ⟨x, hx, rfl⟩))).2
        · exact c1 i (by omega) (by omega)
      · intro q hq
        obtain ⟨a1, a2⟩ := c2 q (fun i h1 h2 => hq i (by omega) (by omega))
        obtain ⟨q1, q2⟩ := hq e (by omega) (by omega)
        rw [hb] at q2
        refine ⟨?_, ?_⟩
        · rw [a1, m2 q (q2 l (by simp)) (fun x hx => q2 x (by simp [hx])), setF_ne _ _ q1]
        · rw [a2, m3 q (fun x hx => q2 x (by simp [hx]))]

/-- Table `u` is table `t` after its links have been copied `d` further: only the links of the table are known. -/
structure Copied (t u : Tabl) (B : Int → List Int) (d : Int) : Prop where
  cfg : cfg u = cfg t
  tmin : u.tmin = t.tmin
  tmax : u.tmax = t.tmax
  entr : ∀ i, 0 ≤ i → i < t.totsize → u.next (.entr i) = t.next (.entr i)
  next : ∀ i, 0 ≤ i → i < t.totsize → ∀ l ∈ B i, u.next (.link (l + d)) = t.next (.link l)
  prev : ∀ i, 0 ≤ i → i < t.totsize → ∀ l ∈ B i, u.prev (.link (l + d)) = t.prev (.link l)
  ltab : ∀ i, 0 ≤ i → i < t.totsize → ∀ l ∈ B i, u.ltab (l + d) = t.ltab l

theorem Chain.raw {nx pv nx' : Ptr → Ptr} {d : Int} : ∀ {ls : List Int} {p : Int}, Chain nx pv (.link p) ls →
    (∀ x ∈ p :: ls, nx' (.link (x + d)) = nx (.link x)) → Raw nx' d (p + d) ls := by
  intro ls
  induction ls with
  | nil => intro p h hn; exact (hn p (by simp)).trans h
  | cons l ls ih =>
    intro p h hn
    exact ⟨(hn p (by simp)).trans h.1, ih h.2.2 (fun x hx => hn x (List.mem_cons_of_mem _ hx))⟩

theorem move_rep {t u : Tabl} {B : Int → List Int} {d : Int} (h : Rep t B) (hc : Copied t u B d) {len : Nat}
    (hlen : ∀ i, 0 ≤ i → i < t.totsize → (B i).length ≤ len) :
    Rep (move d len u) (fun i => (B i).map (· + d)) ∧ Gain.cfg (move d len u) = Gain.cfg t := by
  have hm := h.tmin
  have hM := h.tmax
  have hte := h.tend
  have hsz : u.totsize = t.totsize := congrArg (fun c => c.2.2.2.1) hc.cfg
  obtain ⟨c1, c2, c3, c4, c5, c6⟩ := moveFrom_spec d len B (u.tmax - u.tmin + 1).toNat u.tmin u
    (by
      intro i h1 h2
      rw [hc.tmin] at h1
      rw [hc.tmin, hc.tmax] at h2
      have i0 : 0 ≤ i := by omega
      have i1 : i < t.totsize := by omega
      refine ⟨hlen i i0 i1, h.nodup i i0 i1, ?_, ?_⟩
      · rw [hc.entr i i0 i1]; exact (h.chain i i0 i1).head
      · cases hb : B i with
        | nil => trivial
        | cons l ls =>
          have hch := h.chain i i0 i1
          rw [hb] at hch
          refine ⟨?_, hch.2.2.raw (fun x hx => hc.next i i0 i1 x (by rw [hb]; exact hx))⟩
          rw [hc.prev i i0 i1 l (by rw [hb]; simp)]
          exact hch.2.1)
    (by
      intro i j x h1 h2 h3 h4 hx hy
      rw [hc.tmin] at h1 h2 h3 h4
      rw [hc.tmax] at h2 h4
      have a := h.tab i (by omega) (by omega) x hx
      have b := h.tab j (by omega) (by omega) x hy
      omega)
  have hcfg : Gain.cfg (move d len u) = Gain.cfg t := c3.trans hc.cfg
  have hsz' : (move d len u).totsize = t.totsize := congrArg (fun c => c.2.2.2.1) hcfg
  have hte' : (move d len u).tend = t.tend := congrArg (fun c => c.2.2.2.2.1) hcfg
  have hm' : (move d len u).tmin = t.tmin := c4.trans hc.tmin
  have hM' : (move d len u).tmax = t.tmax := c5.trans hc.tmax
  refine ⟨⟨by rw [hsz']; exact h.size, by rw [hsz', hte']; exact hte, ?_, ?_, ?_, ?_, ?_, ?_⟩, hcfg⟩
  · intro i i0 i1
    rw [hsz'] at i1
    by_cases hin : t.tmin ≤ i ∧ i ≤ t.tmax
    · refine c1 i (by rw [hc.tmin]; omega) (by rw [hc.tmin, hc.tmax]; omega)
    · have hb : B i = [] := by
        apply Classical.byContradiction
        intro hb
        exact hin (h.rng i i0 i1 hb)
      (try dsimp only)
      rw [hb]
      show (move d len u).next (.entr i) = .dummy
      unfold move
      rw [(c2 (.entr i) (fun j h1 h2 => ⟨by
        intro e; injection e with e
        rw [hc.tmin] at h1 h2
        rw [hc.tmax] at h2
        omega, fun x _ => by simp⟩)).1, hc.entr i i0 i1]
      have := h.chain i i0 i1
      rw [hb] at this
      exact this
  · intro i i0 i1 l hl
    rw [hsz'] at i1
    obtain ⟨x, hx, rfl⟩ := List.mem_map.1 hl
    show (move d len u).ltab _ = i
    unfold move
    rw [c6, hc.ltab i i0 i1 x hx]
    exact h.tab i i0 i1 x hx
  · intro i i0 i1
    rw [hsz'] at i1
    exact List.Pairwise.map _ (fun a b hab e => hab (by have := e; omega)) (h.nodup i i0 i1)
  · rw [hm', hte']; exact hm
  · rw [hM', hte']; exact hM
  · intro i i0 i1 hb
    rw [hsz'] at i1
    rw [hm', hM']
    exact h.rng i i0 i1 (fun e => hb (by (try dsimp only); rw [e]; rfl))

end Scotch.Gain
