import Verif.Kmap.LemmasPart
import Mathlib.Data.List.Perm.Basic

/-! # Static mapping: mapping version -/

set_option autoImplicit false
set_option linter.unusedSimpArgs false

namespace Scotch.Kmap

variable {D : Type} {o : ArchOps D} {n : Int} {w : Int → Int} {Valid : D → Prop} {Has : D → Int → Prop}

/-- Parts and domains agree with the cuts. -/
structure Core (Valid : D → Prop) (Has : D → Int → Prop) (free : Int → Prop) (domnorg : D) (log : List (Cut D)) (t : Int → D) (p : Int → Int) (N : Int) : Prop where
  dom : ∀ i, 0 ≤ i → i < N → Valid (t i)
  part : ∀ v, free v → 0 ≤ p v ∧ p v < N ∧ ∀ k, Has (t (p v)) k ↔ Has domnorg k ∧ ∀ c ∈ log, c.Allows Has v k
  disj : ∀ i j, 0 ≤ i → i < N → 0 ≤ j → j < N → i ≠ j → ∀ k, ¬ (Has (t i) k ∧ Has (t j) k)
  cuts : ∀ c ∈ log, Proper c.g ∧ ∀ v, Verts c.g v → free v

theorem allows_snoc {log : List (Cut D)} {c : Cut D} {v k : Int} : (∀ e ∈ log ++ [c], e.Allows Has v k) ↔ (∀ e ∈ log, e.Allows Has v k) ∧ c.Allows Has v k := by
  constructor
  · intro h
    exact ⟨fun e he => h e (List.mem_append.2 (Or.inl he)), h c (List.mem_append.2 (Or.inr (List.mem_singleton.2 rfl)))⟩
  · rintro ⟨h1, h2⟩ e he
    rcases List.mem_append.1 he with he | he
    · exact h1 e he
    · rw [List.mem_singleton.1 he]; exact h2

variable {free : Int → Prop} {domnorg : D} {log : List (Cut D)} {t : Int → D} {p : Int → Int} {N : Int}

theorem Core.snoc_cuts (C : Core Valid Has free domnorg log t p N) {c : Cut D} (hg : Proper c.g) (hf : ∀ v, Verts c.g v → free v) : ∀ e ∈ log ++ [c], Proper e.g ∧ ∀ v, Verts e.g v → free v := by
  intro e he
  rcases List.mem_append.1 he with he | he
  · exact C.cuts e he
  · rw [List.mem_singleton.1 he]; exact ⟨hg, hf⟩

theorem Core.same (C : Core Valid Has free domnorg log t p N) {c : Cut D} (hg : Proper c.g) {num : Int} (h0 : 0 ≤ num) (hN : num < N)
    (hv : ∀ v, Verts c.g v ↔ free v ∧ p v = num) {d : D} (hd : Valid d) (hside : ∀ x, c.g.Vertex x → c.side x = d) (hsub : ∀ k, Has d k → Has (t num) k) {t' : Int → D}
    (ht1 : t' num = d) (ht : ∀ i, i ≠ num → t' i = t i) : Core Valid Has free domnorg (log ++ [c]) t' p N := by
  refine ⟨?_, ?_, ?_, C.snoc_cuts hg (fun v h => ((hv v).1 h).1)⟩
  · intro i i1 i2
    by_cases e : i = num
    · rw [e, ht1]; exact hd
    · rw [ht i e]; exact C.dom i i1 i2
  · intro v hf
    obtain ⟨p1, p2, p3⟩ := C.part v hf
    refine ⟨p1, p2, fun k => ?_⟩
    rw [allows_snoc]
    by_cases e : p v = num
    · rw [e, ht1]
      rw [e] at p3
      obtain ⟨x, hx, rfl⟩ := (hv v).2 ⟨hf, e⟩
      rw [Cut.allows_of_vertex hg hx, hside x hx]
      have := p3 k
      have := hsub k
      constructor
      · intro h; exact ⟨((p3 k).1 (hsub k h)).1, ((p3 k).1 (hsub k h)).2, h⟩
      · intro h; exact h.2.2
    · rw [ht _ e, p3 k]
      have := Cut.allows_of_not (Has := Has) (c := c) (v := v) (fun h => e ((hv v).1 h).2) k
      constructor
      · intro h; exact ⟨h.1, h.2, this⟩
      · intro h; exact ⟨h.1, h.2.1⟩
  · intro i j i1 i2 j1 j2 hij k
    have old := C.disj i j i1 i2 j1 j2 hij k
    by_cases e : i = num
    · subst e
      rw [ht1, ht j (Ne.symm hij)]
      exact fun h => old ⟨hsub k h.1, h.2⟩
    · rw [ht i e]
      by_cases e2 : j = num
      · subst e2
        rw [ht1]
        exact fun h => old ⟨h.1, hsub k h.2⟩
      · rw [ht j e2]; exact old

theorem Core.split (C : Core Valid Has free domnorg log t p N) {c : Cut D} (hg : Proper c.g) {num : Int} (h0 : 0 ≤ num) (hN : num < N)
    (hv : ∀ v, Verts c.g v ↔ free v ∧ p v = num) (hd0 : Valid c.d0) (hd1 : Valid c.d1) (hp : ∀ x, c.g.Vertex x → c.part.get x = 0 ∨ c.part.get x = 1)
    (hsub : ∀ k, Has (t num) k ↔ Has c.d0 k ∨ Has c.d1 k) (hdis : ∀ k, ¬ (Has c.d0 k ∧ Has c.d1 k)) {t' : Int → D} {p' : Int → Int}
    (ht0 : t' num = c.d0) (ht1 : t' N = c.d1) (ht : ∀ i, i ≠ num → i ≠ N → t' i = t i)
    (hp1 : ∀ x, c.g.Vertex x → c.part.get x = 1 → p' (org c.g x) = N) (hp0 : ∀ v, (∀ x, c.g.Vertex x → org c.g x = v → c.part.get x ≠ 1) → p' v = p v) :
    Core Valid Has free domnorg (log ++ [c]) t' p' (N + 1) := by
  refine ⟨?_, ?_, ?_, C.snoc_cuts hg (fun v h => ((hv v).1 h).1)⟩
  · intro i i1 i2
    by_cases e : i = num
    · rw [e, ht0]; exact hd0
    · by_cases e2 : i = N
      · rw [e2, ht1]; exact hd1
      · rw [ht i e e2]; exact C.dom i i1 (by omega)
  · intro v hf
    obtain ⟨p1, p2, p3⟩ := C.part v hf
    by_cases e : p v = num
    · obtain ⟨x, hx, rfl⟩ := (hv v).2 ⟨hf, e⟩
      rw [e] at p3
      have hall := fun k => Cut.allows_of_vertex (Has := Has) hg hx (k := k)
      rcases hp x hx with e0 | e1
      · have hs : c.side x = c.d0 := if_pos e0
        have hpp : p' (org c.g x) = num := by
          rw [hp0 _ (fun y hy hyx => by rw [hg.inj y x hy hx hyx, e0]; decide)]
          exact e
        rw [hpp, ht0]
        refine ⟨h0, by omega, fun k => ?_⟩
        rw [allows_snoc, hall k, hs]
        have h1 := p3 k
        have h2 := hsub k
        constructor
        · intro h; have := h1.1 (h2.2 (Or.inl h)); exact ⟨this.1, this.2, h⟩
        · intro h; exact h.2.2
      · have hs : c.side x = c.d1 := if_neg (by omega)
        rw [hp1 x hx e1, ht1]
        refine ⟨by omega, by omega, fun k => ?_⟩
        rw [allows_snoc, hall k, hs]
        have h1 := p3 k
        have h2 := hsub k
        constructor
        · intro h; have := h1.1 (h2.2 (Or.inr h)); exact ⟨this.1, this.2, h⟩
        · intro h; exact h.2.2
    · have hn : ¬ Verts c.g v := fun h => e ((hv v).1 h).2
      have hpp : p' v = p v := hp0 v (fun x hx hxv => absurd ⟨x, hx, hxv⟩ hn)
      rw [hpp, ht _ e (by omega)]
      refine ⟨p1, by omega, fun k => ?_⟩
      rw [allows_snoc, p3 k]
      have := Cut.allows_of_not (Has := Has) (c := c) (v := v) hn k
      constructor
      · intro h; exact ⟨h.1, h.2, this⟩
      · intro h; exact ⟨h.1, h.2.1⟩
  · -- domains of parts, as sub-domains of the former ones
    have up : ∀ i, 0 ≤ i → i < N + 1 → ∀ k, Has (t' i) k → (i = N ∧ Has c.d1 k) ∨ (i = num ∧ Has c.d0 k) ∨ (i ≠ N ∧ i ≠ num ∧ Has (t i) k) := by
      intro i i1 i2 k hk
      by_cases e : i = num
      · rw [e, ht0] at hk; exact Or.inr (Or.inl ⟨e, hk⟩)
      · by_cases e2 : i = N
        · rw [e2, ht1] at hk; exact Or.inl ⟨e2, hk⟩
        · rw [ht i e e2] at hk; exact Or.inr (Or.inr ⟨e2, e, hk⟩)
    rintro i j i1 i2 j1 j2 hij k ⟨hi, hj⟩
    rcases up i i1 i2 k hi with ⟨a, b⟩ | ⟨a, b⟩ | ⟨a, a', b⟩
    · rcases up j j1 j2 k hj with ⟨e, f⟩ | ⟨e, f⟩ | ⟨e, e', f⟩
      · exact hij (a.trans e.symm)
      · exact hdis k ⟨f, b⟩
      · exact C.disj num j h0 hN j1 (by omega) (Ne.symm e') k ⟨(hsub k).2 (Or.inr b), f⟩
    · rcases up j j1 j2 k hj with ⟨e, f⟩ | ⟨e, f⟩ | ⟨e, e', f⟩
      · exact hdis k ⟨b, f⟩
      · exact hij (a.trans e.symm)
      · exact C.disj num j h0 hN j1 (by omega) (Ne.symm e') k ⟨(hsub k).2 (Or.inl b), f⟩
    · rcases up j j1 j2 k hj with ⟨e, f⟩ | ⟨e, f⟩ | ⟨e, e', f⟩
      · exact C.disj i num i1 (by omega) h0 hN a' k ⟨b, (hsub k).2 (Or.inr f)⟩
      · exact C.disj i num i1 (by omega) h0 hN a' k ⟨b, (hsub k).2 (Or.inl f)⟩
      · exact C.disj i j i1 (by omega) j1 (by omega) hij k ⟨b, f⟩

/-! ## Jobs -/

/-- Number of processors. -/
noncomputable def tl (n : Int) (Has : D → Int → Prop) (d : D) : Int := tally n (fun _ => 1) (Has d)

structure JobOk (n : Int) (Valid : D → Prop) (Has : D → Int → Prop) (free : Int → Prop) (t : Int → D) (p : Int → Int) (N : Int) (j : Job D) : Prop where
  g : Proper j.g
  num : 0 ≤ j.num ∧ j.num < N
  dom : j.dom = t j.num
  verts : ∀ v, Verts j.g v ↔ free v ∧ p v = j.num
  big : 2 ≤ tl n Has j.dom

/-- Invariant of the pool, the jobs of which are those of `L`. -/
structure PInv (n : Int) (Valid : D → Prop) (Has : D → Int → Prop) (lo hi : Int) (free : Int → Prop) (domnorg : D) (L : List (Job D)) (s : Pool D) : Prop where
  core : Core Valid Has free domnorg s.log s.t0.get s.parttax.get s.domnnbr
  plo : s.parttax.lo = lo
  phi : s.parttax.hi = hi
  t0lo : s.t0.lo = 0
  t0hi : s.t0.hi = s.domnmax
  t1lo : s.t1.lo = 0
  t1hi : s.t1.hi = s.domnmax
  nbr : 0 ≤ s.domnnbr ∧ s.domnnbr ≤ s.domnmax
  jobs : ∀ j ∈ L, JobOk n Valid Has free s.t0.get s.parttax.get s.domnnbr j
  nodup : (L.map Job.num).Nodup
  term : ∀ i, 0 ≤ i → i < s.domnnbr → (∀ j ∈ L, j.num ≠ i) → ∃ k, ∀ j, Has (s.t0.get i) j ↔ j = k

theorem PInv.perm {lo hi : Int} {L L' : List (Job D)} {s : Pool D} (h : PInv n Valid Has lo hi free domnorg L s) (hp : L'.Perm L) : PInv n Valid Has lo hi free domnorg L' s :=
  ⟨h.core, h.plo, h.phi, h.t0lo, h.t0hi, h.t1lo, h.t1hi, h.nbr, fun j hj => h.jobs j (hp.mem_iff.1 hj), (hp.map _).nodup_iff.2 h.nodup,
    fun i i1 i2 hj => h.term i i1 i2 (fun j hm => hj j (hp.mem_iff.2 hm))⟩

/-- Jobs that remain are not affected by the processing of another one. -/
theorem JobOk.keep {t' : Int → D} {p' : Int → Int} {N' : Int} {j : Job D} (h : JobOk n Valid Has free t p N j) (hN : N ≤ N') (ht : t' j.num = t j.num)
    (hp : ∀ v, free v → (p' v = j.num ↔ p v = j.num)) : JobOk n Valid Has free t' p' N' j :=
  ⟨h.g, ⟨h.num.1, by have := h.num.2; omega⟩, h.dom.trans ht.symm, fun v => by rw [h.verts v]; exact ⟨fun ⟨a, b⟩ => ⟨a, (hp v a).2 b⟩, fun ⟨a, b⟩ => ⟨a, (hp v a).1 b⟩⟩, h.big⟩

theorem tl_single (hA : ArchLaws o n w Valid Has) {d : D} (hd : Valid d) {k : Int} (h : ∀ j, Has d j ↔ j = k) : tl n Has d = 1 := by
  have hk := hA.within d k hd ((h k).2 rfl)
  unfold tl
  rw [tally_congr (Q := fun j => j = k) (fun j _ _ => h j), tally_single hk.1 hk.2]

theorem single_of_tl (hA : ArchLaws o n w Valid Has) {d : D} (hd : Valid d) (h : tl n Has d ≤ 1) : ∃ k, ∀ j, Has d j ↔ j = k := by
  obtain ⟨r, -, hr⟩ := Holds_iff_exists.1 (hA.bipart d hd)
  match r with
  | none => exact hr
  | some (d0, d1) =>
    obtain ⟨v0, v1, e0, e1, hu, hdis⟩ := hr
    have := tally_halves hA v0 v1 e0 e1 hu hdis
    unfold tl at h
    omega

/-- Work left. -/
noncomputable def load (n : Int) (Has : D → Int → Prop) (L : List (Job D)) : Int := (L.map fun j => 2 * tl n Has j.dom - 1).sum

theorem load_nil : load n Has ([] : List (Job D)) = 0 := rfl
theorem load_cons (j : Job D) (L : List (Job D)) : load n Has (j :: L) = 2 * tl n Has j.dom - 1 + load n Has L := by unfold load; simp
theorem load_append (A B : List (Job D)) : load n Has (A ++ B) = load n Has A + load n Has B := by unfold load; simp
theorem load_perm {A B : List (Job D)} (h : A.Perm B) : load n Has A = load n Has B := by unfold load; exact (h.map _).sum_eq
theorem load_nonneg {L : List (Job D)} (h : ∀ j ∈ L, 1 ≤ tl n Has j.dom) : 0 ≤ load n Has L := by
  induction L with
  | nil => exact Int.le_refl 0
  | cons j L ih =>
    rw [load_cons]
    have := h j (List.mem_cons_self ..)
    have := ih (fun i hi => h i (List.mem_cons_of_mem _ hi))
    omega

/-- What the processing of job `j` must ensure. -/
def Stepped (n : Int) (Valid : D → Prop) (Has : D → Int → Prop) (lo hi : Int) (fl : Flags) (free : Int → Prop) (domnorg : D) (A : List (Job D)) (d : D) (s s' : Pool D) : Prop :=
  ∃ js, PInv n Valid Has lo hi free domnorg (js ++ A) s' ∧ load n Has js < 2 * tl n Has d - 1 ∧
    (s'.q0 ++ s'.q1).Perm (js ++ (s.q0 ++ s.q1)) ∧ (fl.jobtie = true → s.q1 = [] → s'.q1 = [])

theorem poolAdd_q (fl : Flags) (js : List (Job D)) (s : Pool D) : ((poolAdd fl js s).q0 ++ (poolAdd fl js s).q1).Perm (js ++ (s.q0 ++ s.q1)) := by
  unfold poolAdd
  split
  · dsimp only; rw [List.append_assoc]
  · dsimp only
    rw [← List.append_assoc, ← List.append_assoc]
    exact List.Perm.append_right _ List.perm_append_comm

theorem poolAdd_tie (fl : Flags) (js : List (Job D)) (s : Pool D) (h : fl.jobtie = true) (hq : s.q1 = []) : (poolAdd fl js s).q1 = [] := by
  unfold poolAdd
  rw [if_pos h]
  exact hq

theorem poolAdd_inv {lo hi : Int} {fl : Flags} {js L : List (Job D)} {s : Pool D} (h : PInv n Valid Has lo hi free domnorg L s) : PInv n Valid Has lo hi free domnorg L (poolAdd fl js s) := by
  unfold poolAdd
  split
  · exact ⟨h.core, h.plo, h.phi, h.t0lo, h.t0hi, h.t1lo, h.t1hi, h.nbr, h.jobs, h.nodup, h.term⟩
  · exact ⟨h.core, h.plo, h.phi, h.t0lo, h.t0hi, h.t1lo, h.t1hi, h.nbr, h.jobs, h.nodup, h.term⟩

theorem jobSame_holds (hA : ArchLaws o n w Valid Has) (fl : Flags) {lo hi : Int} {j : Job D} {A : List (Job D)} {s : Pool D} (h : PInv n Valid Has lo hi free domnorg (j :: A) s)
    {d d0 d1 : D} {part : Arr Int} (hd : Valid d) (hside : ∀ x, j.g.Vertex x → (⟨j.g, d0, d1, part⟩ : Cut D).side x = d) (hsub : ∀ k, Has d k → Has j.dom k) (hlt : tl n Has d < tl n Has j.dom) (k : Nat) :
    Holds (jobSame o fl j d { s with calls := k, log := s.log ++ [⟨j.g, d0, d1, part⟩] }) (Stepped n Valid Has lo hi fl free domnorg A j.dom s) := by
  have hj := h.jobs j (List.mem_cons_self ..)
  have hnd := h.nodup
  rw [List.map_cons, List.nodup_cons] at hnd
  have hne : ∀ i ∈ A, i.num ≠ j.num := fun i hi e => hnd.1 (by rw [← e]; exact List.mem_map_of_mem hi)
  have h1 := h.nbr
  have h2 := h.t0lo
  have h3 := h.t0hi
  have h4 := hj.num
  unfold jobSame
  dsimp only
  rw [s.t0.wr_ok d (by omega) (by omega)]
  -- the pool, with the domain updated
  have core : Core Valid Has free domnorg (s.log ++ [⟨j.g, d0, d1, part⟩]) (s.t0.set j.num d).get s.parttax.get s.domnnbr :=
    h.core.same (c := ⟨j.g, d0, d1, part⟩) hj.g h4.1 h4.2 hj.verts hd hside (fun k hk => by rw [← hj.dom]; exact hsub k hk) (Arr.set_get_same _ _ _) (fun i hi => Arr.set_get_ne _ _ hi)
  have keep : ∀ i ∈ A, JobOk n Valid Has free (s.t0.set j.num d).get s.parttax.get s.domnnbr i := by
    intro i hi
    exact (h.jobs i (List.mem_cons_of_mem _ hi)).keep (Int.le_refl _) (Arr.set_get_ne _ _ (hne i hi)) (fun v _ => Iff.rfl)
  show Holds (o.size d >>= fun z => if z ≤ 1 then _ else _) _
  rw [Holds_bind]
  refine (hA.size d hd).mono ?_
  intro z hz
  by_cases hz1 : z ≤ 1
  · rw [if_pos hz1]
    have hs1 := single_of_tl hA hd (by rw [show tl n Has d = z from hz.symm]; exact hz1)
    refine ⟨[], ⟨core, h.plo, h.phi, h.t0lo, h.t0hi, h.t1lo, h.t1hi, h.nbr, by rw [List.nil_append]; exact keep, by rw [List.nil_append]; exact hnd.2, ?_⟩, ?_, List.Perm.refl _, fun _ h => h⟩
    · intro i i1 i2 hi
      show ∃ k, ∀ j', Has ((s.t0.set j.num d).get i) j' ↔ j' = k
      by_cases e : i = j.num
      · rw [e, Arr.set_get_same]; exact hs1
      · rw [Arr.set_get_ne _ _ e]
        refine h.term i i1 i2 ?_
        intro j' hj'
        rcases List.mem_cons.1 hj' with rfl | hj'
        · exact Ne.symm e
        · exact hi j' hj'
    · rw [load_nil]; have := hj.big; omega
  · rw [if_neg hz1]
    refine ⟨[{ j with dom := d }], poolAdd_inv ⟨core, h.plo, h.phi, h.t0lo, h.t0hi, h.t1lo, h.t1hi, h.nbr, ?_, ?_, ?_⟩, ?_, poolAdd_q _ _ _, fun ht hq => poolAdd_tie _ _ _ ht hq⟩
    · intro i hi
      rcases List.mem_cons.1 hi with rfl | hi
      · exact ⟨hj.g, hj.num, (Arr.set_get_same _ _ _).symm, hj.verts, by have : tl n Has d = z := hz.symm; show 2 ≤ tl n Has d; omega⟩
      · exact keep i hi
    · exact h.nodup
    · intro i i1 i2 hi
      show ∃ k, ∀ j', Has ((s.t0.set j.num d).get i) j' ↔ j' = k
      have e : i ≠ j.num := fun e => hi _ (List.mem_cons_self ..) e.symm
      rw [Arr.set_get_ne _ _ e]
      refine h.term i i1 i2 ?_
      intro j' hj'
      rcases List.mem_cons.1 hj' with rfl | hj'
      · exact Ne.symm e
      · exact hi j' (List.mem_cons_of_mem _ hj')
    · rw [load_cons, load_nil]; show 2 * tl n Has d - 1 + 0 < _; omega

/-! ## Split of a job -/

theorem jobSub_holds (hA : ArchLaws o n w Valid Has) {env : Env D} (he : env.Ok) (k i : Nat) {g : Graph} (hg : Proper g) {part : Arr Int} (hp : part.lo ≤ g.baseval ∧ g.vertnnd ≤ part.hi) {num size : Int} {d : D}
    (hd : Valid d) (hs : size = (ofPart g part i).length) : Holds (jobSub o env k i g part num size d) fun js =>
      (js = [] ∧ ∃ k, ∀ j, Has d j ↔ j = k) ∨ ∃ h, js = [⟨num, h, d⟩] ∧ Proper h ∧ (∀ v, Verts h v ↔ ∃ x, g.Vertex x ∧ org g x = v ∧ part.get x = i) ∧ 2 ≤ tl n Has d := by
  unfold jobSub
  rw [Holds_bind]
  refine (hA.size d hd).mono ?_
  intro z hz
  have hz' : tl n Has d = z := hz.symm
  by_cases hz1 : z ≤ 1
  · rw [if_pos hz1]
    exact Or.inl ⟨rfl, single_of_tl hA hd (by omega)⟩
  · rw [if_neg hz1, Holds_bind]
    refine (induce_holds hg he.al _ hp hs).mono ?_
    rintro h ⟨h1, -, h2⟩
    exact Or.inr ⟨h, rfl, h1, h2, by omega⟩

/-- Writing of parts. -/
theorem partLoop_holds {g : Graph} (hg : Proper g) {a : Arr Int} (ha : ∀ v, Verts g v → a.lo ≤ v ∧ v < a.hi) {body : Int → Arr Int → M (Arr Int)} {val : Int → Int}
    (hb : ∀ x, g.Vertex x → ∀ b : Arr Int, b.lo = a.lo → b.hi = a.hi → b.get (org g x) = a.get (org g x) → Holds (body x b) fun b' => b'.lo = a.lo ∧ b'.hi = a.hi ∧ b'.get (org g x) = val x ∧ ∀ v, v ≠ org g x → b'.get v = b.get v) :
    Holds (forUp g.baseval g.vertnnd a body) fun a' => a'.lo = a.lo ∧ a'.hi = a.hi ∧ (∀ x, g.Vertex x → a'.get (org g x) = val x) ∧ ∀ v, ¬ Verts g v → a'.get v = a.get v := by
  have hnn := hg.cons.vertnnd
  have hnb := hg.cons.vertnbr
  refine Holds_forUp (fun i (b : Arr Int) => b.lo = a.lo ∧ b.hi = a.hi ∧ (∀ x, g.Vertex x → x < i → b.get (org g x) = val x) ∧ (∀ x, g.Vertex x → i ≤ x → b.get (org g x) = a.get (org g x)) ∧
    ∀ v, ¬ Verts g v → b.get v = a.get v) (by omega) ⟨rfl, rfl, (fun x hx h => by unfold Graph.Vertex at hx; omega), fun x _ _ => rfl, fun v _ => rfl⟩ ?_ ?_
  · rintro i b h1 h2 ⟨i1, i2, i3, i4, i5⟩
    have hv : g.Vertex i := ⟨h1, h2⟩
    refine (hb i hv b i1 i2 (i4 i hv (Int.le_refl _))).mono ?_
    rintro b' ⟨b1, b2, b3, b4⟩
    have hne : ∀ x, g.Vertex x → x ≠ i → org g x ≠ org g i := fun x hx hxi e => hxi (hg.inj x i hx hv e)
    refine ⟨b1, b2, ?_, ?_, ?_⟩
    · intro x hx hxi
      by_cases e : x = i
      · rw [e]; exact b3
      · rw [b4 _ (hne x hx e)]; exact i3 x hx (by omega)
    · intro x hx hxi
      rw [b4 _ (hne x hx (by omega))]; exact i4 x hx (by omega)
    · intro v hnv
      rw [b4 v (fun e => hnv ⟨i, hv, e.symm⟩)]; exact i5 v hnv
  · rintro b ⟨b1, b2, b3, -, b5⟩
    exact ⟨b1, b2, fun x hx => b3 x hx hx.2, b5⟩

theorem partOne_holds {g : Graph} (hg : Proper g) {part a : Arr Int} (hp : part.lo ≤ g.baseval ∧ g.vertnnd ≤ part.hi) (n1 : Int) (ha : ∀ v, Verts g v → a.lo ≤ v ∧ v < a.hi) :
    Holds (partOne g part n1 a) fun a' => a'.lo = a.lo ∧ a'.hi = a.hi ∧ (∀ x, g.Vertex x → a'.get (org g x) = if part.get x = 1 then n1 else a.get (org g x)) ∧ ∀ v, ¬ Verts g v → a'.get v = a.get v := by
  unfold partOne
  refine partLoop_holds hg ha ?_
  intro x hx b b1 b2 b3
  rw [part.rd_ok (by unfold Graph.Vertex at hx; omega) (by unfold Graph.Vertex at hx; omega)]
  show Holds (if part.get x = 1 then (orgNum g x >>= fun y => b.wr y n1) else pure b) _
  have := ha _ ⟨x, hx, rfl⟩
  by_cases e : part.get x = 1
  · rw [if_pos e, orgNum_holds hg.alloc hx]
    show Holds (b.wr (org g x) n1) _
    rw [b.wr_ok n1 (by omega) (by omega), Holds_ok]
    exact ⟨b1, b2, by rw [if_pos e]; exact Arr.set_get_same _ _ _, fun v hv => Arr.set_get_ne _ _ hv⟩
  · rw [if_neg e]
    exact ⟨b1, b2, by rw [if_neg e]; exact b3, fun v hv => rfl⟩

theorem partBoth_holds {g : Graph} (hg : Proper g) {part a : Arr Int} (hp : part.lo ≤ g.baseval ∧ g.vertnnd ≤ part.hi) (hp01 : ∀ x, g.Vertex x → part.get x = 0 ∨ part.get x = 1) (n0 n1 : Int)
    (ha : ∀ v, Verts g v → a.lo ≤ v ∧ v < a.hi) (h0 : ∀ v, Verts g v → a.get v = n0) :
    Holds (partBoth g part n0 n1 a) fun a' => a'.lo = a.lo ∧ a'.hi = a.hi ∧ (∀ x, g.Vertex x → a'.get (org g x) = if part.get x = 1 then n1 else a.get (org g x)) ∧ ∀ v, ¬ Verts g v → a'.get v = a.get v := by
  unfold partBoth
  refine partLoop_holds hg ha ?_
  intro x hx b b1 b2 b3
  rw [part.rd_ok (by unfold Graph.Vertex at hx; omega) (by unfold Graph.Vertex at hx; omega)]
  show Holds (orgNum g x >>= fun y => b.wr y _) _
  have := ha _ ⟨x, hx, rfl⟩
  rw [orgNum_holds hg.alloc hx]
  show Holds (b.wr (org g x) _) _
  rw [b.wr_ok _ (by omega) (by omega), Holds_ok]
  refine ⟨b1, b2, ?_, fun v hv => Arr.set_get_ne _ _ hv⟩
  rw [Arr.set_get_same, h0 _ ⟨x, hx, rfl⟩]
  rcases hp01 x hx with e | e
  · rw [e, if_pos rfl, if_neg (by decide)]; omega
  · rw [e, if_neg (by decide), if_pos rfl]; omega

theorem jobSplit_holds (hA : ArchLaws o n w Valid Has) {env : Env D} (he : env.Ok) (fl : Flags) {lo hi : Int} {j : Job D} {A : List (Job D)} {s : Pool D} (h : PInv n Valid Has lo hi free domnorg (j :: A) s)
    (hfree : ∀ v, free v → lo ≤ v ∧ v < hi) {d0 d1 : D} {part : Arr Int} {size0 : Int} (v0 : Valid d0) (v1 : Valid d1) (e0 : ∃ k, Has d0 k) (e1 : ∃ k, Has d1 k)
    (hu : ∀ k, Has j.dom k ↔ Has d0 k ∨ Has d1 k) (hdis : ∀ k, ¬ (Has d0 k ∧ Has d1 k)) (hp : part.lo ≤ j.g.baseval ∧ j.g.vertnnd ≤ part.hi)
    (hp01 : ∀ x, j.g.Vertex x → part.get x = 0 ∨ part.get x = 1) (hsz : size0 = (ofPart j.g part 0).length) (k k' : Nat) :
    Holds (jobSplit o env fl k j d0 d1 part size0 { s with calls := k', log := s.log ++ [⟨j.g, d0, d1, part⟩] }) (Stepped n Valid Has lo hi fl free domnorg A j.dom s) := by
  have hj := h.jobs j (List.mem_cons_self ..)
  have hnd := h.nodup
  rw [List.map_cons, List.nodup_cons] at hnd
  have hne : ∀ i ∈ A, i.num ≠ j.num := fun i hi e => hnd.1 (by rw [← e]; exact List.mem_map_of_mem hi)
  have h4 := hj.num
  obtain ⟨t1, t2, t3⟩ := tally_halves hA v0 v1 e0 e1 hu hdis
  unfold jobSplit
  dsimp only
  -- the pool, with enough room
  generalize hs' : (if s.domnnbr = s.domnmax then poolResize env.junk { s with calls := k', log := s.log ++ [⟨j.g, d0, d1, part⟩] } else { s with calls := k', log := s.log ++ [⟨j.g, d0, d1, part⟩] }) = s'
  have hs : s'.parttax = s.parttax ∧ s'.domnnbr = s.domnnbr ∧ s.domnnbr < s'.domnmax ∧ s'.t0.lo = 0 ∧ s'.t0.hi = s'.domnmax ∧ s'.t1.lo = 0 ∧ s'.t1.hi = s'.domnmax ∧ s'.log = s.log ++ [⟨j.g, d0, d1, part⟩] ∧
      s'.q0 = s.q0 ∧ s'.q1 = s.q1 ∧ ∀ i, i < s.domnnbr → s'.t0.get i = s.t0.get i := by
    subst hs'
    have h1 := h.nbr
    have h3 := h.t0hi
    by_cases e : s.domnnbr = s.domnmax
    · rw [if_pos e]
      unfold poolResize
      dsimp only
      refine ⟨rfl, rfl, by omega, h.t0lo, rfl, h.t1lo, rfl, rfl, rfl, rfl, fun i hi => grow_get _ _ _ _ (by omega)⟩
    · rw [if_neg e]
      exact ⟨rfl, rfl, by show s.domnnbr < s.domnmax; omega, h.t0lo, h.t0hi, h.t1lo, h.t1hi, rfl, rfl, rfl, fun i hi => rfl⟩
  obtain ⟨s1, s2, s3, s4, s5, s6, s7, s8, s9, s10, s11⟩ := hs
  clear hs'
  rw [s2]
  -- write of the domain in the other array
  have hw1 : Holds (wr1 fl s' s.domnnbr j.dom) fun u => u.parttax = s'.parttax ∧ u.domnnbr = s'.domnnbr ∧ u.domnmax = s'.domnmax ∧ u.t0.lo = 0 ∧ u.t0.hi = s'.domnmax ∧ u.t1.lo = 0 ∧ u.t1.hi = s'.domnmax ∧ u.log = s'.log ∧
      u.q0 = s'.q0 ∧ u.q1 = s'.q1 ∧ ∀ i, i < s.domnnbr → u.t0.get i = s'.t0.get i := by
    unfold wr1
    split
    · rw [s'.t0.wr_ok j.dom (by omega) (by omega)]
      exact ⟨rfl, rfl, rfl, s4, s5, s6, s7, rfl, rfl, rfl, fun i hi => Arr.set_get_ne _ _ (by omega)⟩
    · rw [s'.t1.wr_ok j.dom (by omega) (by omega)]
      exact ⟨rfl, rfl, rfl, s4, s5, s6, s7, rfl, rfl, rfl, fun i hi => rfl⟩
  rw [Holds_bind]
  refine hw1.mono ?_
  rintro u ⟨u1, u2, u3, u4, u5, u6, u7, u8, u9, u10, u11⟩
  rw [u.t0.wr_ok d0 (by omega) (by omega)]
  show Holds ((u.t0.set j.num d0).wr s.domnnbr d1 >>= _) _
  rw [(u.t0.set j.num d0).wr_ok d1 (by show u.t0.lo ≤ _; omega) (by show _ < u.t0.hi; omega)]
  show Holds (partUpd fl j.g part j.num s.domnnbr u.parttax >>= _) _
  rw [u1, s1]
  have hwr : Holds (partUpd fl j.g part j.num s.domnnbr s.parttax) fun a' => a'.lo = s.parttax.lo ∧ a'.hi = s.parttax.hi ∧
      (∀ x, j.g.Vertex x → a'.get (org j.g x) = if part.get x = 1 then s.domnnbr else s.parttax.get (org j.g x)) ∧ ∀ v, ¬ Verts j.g v → a'.get v = s.parttax.get v := by
    have ha : ∀ v, Verts j.g v → s.parttax.lo ≤ v ∧ v < s.parttax.hi := fun v hv => by rw [h.plo, h.phi]; exact hfree v ((hj.verts v).1 hv).1
    unfold partUpd
    split
    · exact partOne_holds hj.g hp _ ha
    · exact partBoth_holds hj.g hp hp01 _ _ ha (fun v hv => ((hj.verts v).1 hv).2)
  rw [Holds_bind]
  refine hwr.mono ?_
  rintro a ⟨a1, a2, a3, a4⟩
  have hlen := ofPart_len hj.g.cons hp01
  rw [Holds_bind]
  refine (jobSub_holds hA he k 1 hj.g hp v1 (num := s.domnnbr) (size := j.g.vertnbr - size0) (by rw [hsz]; push_cast; omega)).mono ?_
  intro js1 hjs1
  rw [Holds_bind]
  refine (jobSub_holds hA he k 0 hj.g hp v0 (num := j.num) (size := size0) (by rw [hsz]; rfl)).mono ?_
  intro js0 hjs0
  -- the new arrays
  generalize hT : ((u.t0.set j.num d0).set s.domnnbr d1) = T
  have T0 : T.get j.num = d0 := by rw [← hT, Arr.set_get_ne _ _ (by omega)]; exact Arr.set_get_same _ _ _
  have T1 : T.get s.domnnbr = d1 := by rw [← hT]; exact Arr.set_get_same _ _ _
  have Tn : ∀ i, i ≠ j.num → i ≠ s.domnnbr → i < s.domnnbr → T.get i = s.t0.get i := by
    intro i i1 i2 i3
    rw [← hT, Arr.set_get_ne _ _ i2, Arr.set_get_ne _ _ i1, u11 i i3, s11 i i3]
  have hp1 : ∀ x, j.g.Vertex x → part.get x = 1 → a.get (org j.g x) = s.domnnbr := fun x hx e => by rw [a3 x hx, if_pos e]
  have hp0 : ∀ v, (∀ x, j.g.Vertex x → org j.g x = v → part.get x ≠ 1) → a.get v = s.parttax.get v := by
    intro v hv
    by_cases e : Verts j.g v
    · obtain ⟨x, hx, rfl⟩ := e
      rw [a3 x hx, if_neg (hv x hx rfl)]
    · exact a4 v e
  have core : Core Valid Has free domnorg (s.log ++ [⟨j.g, d0, d1, part⟩]) (fun i => if i < s.domnnbr ∨ i = s.domnnbr then T.get i else s.t0.get i) a.get (s.domnnbr + 1) := by
    refine h.core.split (c := ⟨j.g, d0, d1, part⟩) hj.g h4.1 h4.2 hj.verts v0 v1 hp01 (fun k => by rw [← hj.dom]; exact hu k) hdis ?_ ?_ ?_ hp1 hp0
    · rw [if_pos (by omega)]; exact T0
    · rw [if_pos (Or.inr rfl)]; exact T1
    · intro i i1 i2
      by_cases e : i < s.domnnbr
      · rw [if_pos (Or.inl e)]; exact Tn i i1 i2 e
      · rw [if_neg (by omega)]
  have core : Core Valid Has free domnorg (s.log ++ [⟨j.g, d0, d1, part⟩]) T.get a.get (s.domnnbr + 1) := by
    have hc : ∀ i, i < s.domnnbr + 1 → (if i < s.domnnbr ∨ i = s.domnnbr then T.get i else s.t0.get i) = T.get i := fun i hi => if_pos (by omega)
    refine ⟨?_, ?_, ?_, core.cuts⟩
    · intro i i1 i2
      have := core.dom i i1 i2
      rwa [hc i i2] at this
    · intro v hv
      have := core.part v hv
      rwa [hc _ this.2.1] at this
    · intro i i' i1 i2 i3 i4 i5 k
      have := core.disj i i' i1 i2 i3 i4 i5 k
      rwa [hc _ i2, hc _ i4] at this
  have keep : ∀ i ∈ A, JobOk n Valid Has free T.get a.get (s.domnnbr + 1) i := by
    intro i hi
    have hi' := h.jobs i (List.mem_cons_of_mem _ hi)
    have hin := hi'.num
    refine hi'.keep (by omega) (Tn _ (hne i hi) (by omega) (by omega)) ?_
    intro v hv
    by_cases e : Verts j.g v
    · have hjn := ((hj.verts v).1 e).2
      obtain ⟨x, hx, rfl⟩ := e
      have := hne i hi
      rw [a3 x hx]
      split
      · omega
      · exact Iff.rfl
    · rw [a4 v e]
  have ok1 : ∀ q, Proper q → (∀ v, Verts q v ↔ ∃ x, j.g.Vertex x ∧ org j.g x = v ∧ part.get x = ((1 : Nat) : Int)) → 2 ≤ tl n Has d1 → JobOk n Valid Has free T.get a.get (s.domnnbr + 1) ⟨s.domnnbr, q, d1⟩ := by
    intro q hq hv hb
    refine ⟨hq, ⟨by show 0 ≤ s.domnnbr; omega, by show s.domnnbr < s.domnnbr + 1; omega⟩, T1.symm, ?_, hb⟩
    intro v
    rw [hv v]
    constructor
    · rintro ⟨x, hx, rfl, e⟩
      exact ⟨((hj.verts _).1 ⟨x, hx, rfl⟩).1, hp1 x hx e⟩
    · rintro ⟨hf, e⟩
      change a.get v = s.domnnbr at e
      by_cases ev : Verts j.g v
      · have hjn := ((hj.verts v).1 ev).2
        obtain ⟨x, hx, rfl⟩ := ev
        rw [a3 x hx] at e
        by_cases e1 : part.get x = 1
        · exact ⟨x, hx, rfl, e1⟩
        · rw [if_neg e1] at e; omega
      · rw [a4 v ev] at e
        have := (h.core.part v hf).2.1
        omega
  have ok0 : ∀ q, Proper q → (∀ v, Verts q v ↔ ∃ x, j.g.Vertex x ∧ org j.g x = v ∧ part.get x = ((0 : Nat) : Int)) → 2 ≤ tl n Has d0 → JobOk n Valid Has free T.get a.get (s.domnnbr + 1) ⟨j.num, q, d0⟩ := by
    intro q hq hv hb
    refine ⟨hq, ⟨h4.1, by show j.num < s.domnnbr + 1; omega⟩, T0.symm, ?_, hb⟩
    intro v
    rw [hv v]
    constructor
    · rintro ⟨x, hx, rfl, e⟩
      have hjn := (hj.verts _).1 ⟨x, hx, rfl⟩
      refine ⟨hjn.1, ?_⟩
      show a.get _ = j.num
      rw [a3 x hx, if_neg (by rw [e]; decide)]
      exact hjn.2
    · rintro ⟨hf, e⟩
      change a.get v = j.num at e
      by_cases ev : Verts j.g v
      · obtain ⟨x, hx, rfl⟩ := ev
        rw [a3 x hx] at e
        rcases hp01 x hx with e1 | e1
        · exact ⟨x, hx, rfl, e1⟩
        · rw [if_pos e1] at e; omega
      · rw [a4 v ev] at e
        exact absurd ((hj.verts v).2 ⟨hf, e⟩) ev
  have hA' : ∀ i ∈ A, i.num < s.domnnbr := fun i hi => (h.jobs i (List.mem_cons_of_mem _ hi)).num.2
  refine ⟨js0 ++ js1, poolAdd_inv ⟨?_, a1.trans h.plo, a2.trans h.phi, ?_, ?_, ?_, ?_, ?_, ?_, ?_, ?_⟩, ?_, ?_, ?_⟩
  · show Core Valid Has free domnorg u.log T.get a.get (s.domnnbr + 1)
    rw [u8, s8]; exact core
  · show T.lo = 0
    rw [← hT]; exact u4
  · show T.hi = u.domnmax
    rw [← hT]; exact u5.trans u3.symm
  · exact u6
  · exact u7.trans u3.symm
  · have := h.nbr; show 0 ≤ s.domnnbr + 1 ∧ s.domnnbr + 1 ≤ u.domnmax; omega
  · show ∀ i ∈ (js0 ++ js1) ++ A, JobOk n Valid Has free T.get a.get (s.domnnbr + 1) i
    intro i hi
    rcases List.mem_append.1 hi with hi | hi
    · rcases List.mem_append.1 hi with hi | hi
      · rcases hjs0 with ⟨rfl, -⟩ | ⟨q, rfl, q1, q2, q3⟩
        · cases hi
        · rw [List.mem_singleton.1 hi]; exact ok0 q q1 q2 q3
      · rcases hjs1 with ⟨rfl, -⟩ | ⟨q, rfl, q1, q2, q3⟩
        · cases hi
        · rw [List.mem_singleton.1 hi]; exact ok1 q q1 q2 q3
    · exact keep i hi
  · have hj0 : j.num ∉ A.map Job.num := hnd.1
    have hj1 : s.domnnbr ∉ A.map Job.num := by
      intro hm
      obtain ⟨i, i1, i2⟩ := List.mem_map.1 hm
      have := hA' i i1
      omega
    have hne' : j.num ≠ s.domnnbr := by omega
    rcases hjs0 with ⟨rfl, -⟩ | ⟨q, rfl, q1, q2, q3⟩ <;> rcases hjs1 with ⟨rfl, -⟩ | ⟨q', rfl, q1', q2', q3'⟩ <;>
      simp only [List.nil_append, List.cons_append, List.map_cons, List.nodup_cons, List.mem_cons, not_or]
    · exact hnd.2
    · exact ⟨hj1, hnd.2⟩
    · exact ⟨hj0, hnd.2⟩
    · exact ⟨⟨hne', hj0⟩, hj1, hnd.2⟩
  · show ∀ i, 0 ≤ i → i < s.domnnbr + 1 → (∀ j' ∈ (js0 ++ js1) ++ A, j'.num ≠ i) → ∃ k, ∀ j', Has (T.get i) j' ↔ j' = k
    intro i i1 i2 hi
    by_cases e : i = j.num
    · rw [e, T0]
      rcases hjs0 with ⟨rfl, hk⟩ | ⟨q, rfl, q1, q2, q3⟩
      · exact hk
      · exact absurd e.symm (hi ⟨j.num, q, d0⟩ (by simp))
    by_cases e2 : i = s.domnnbr
    · rw [e2, T1]
      rcases hjs1 with ⟨rfl, hk⟩ | ⟨q, rfl, q1, q2, q3⟩
      · exact hk
      · exact absurd e2.symm (hi ⟨s.domnnbr, q, d1⟩ (by simp))
    · rw [Tn i e e2 (by omega)]
      refine h.term i i1 (by omega) ?_
      intro j' hj'
      rcases List.mem_cons.1 hj' with rfl | hj'
      · exact Ne.symm e
      · exact hi j' (List.mem_append.2 (Or.inr hj'))
  · rw [load_append]
    have l0 : load n Has js0 ≤ 2 * tl n Has d0 - 1 := by
      rcases hjs0 with ⟨rfl, -⟩ | ⟨q, rfl, q1, q2, q3⟩
      · rw [load_nil]; unfold tl; omega
      · rw [load_cons, load_nil]; show 2 * tl n Has d0 - 1 + 0 ≤ _; omega
    have l1 : load n Has js1 ≤ 2 * tl n Has d1 - 1 := by
      rcases hjs1 with ⟨rfl, -⟩ | ⟨q, rfl, q1, q2, q3⟩
      · rw [load_nil]; unfold tl; omega
      · rw [load_cons, load_nil]; show 2 * tl n Has d1 - 1 + 0 ≤ _; omega
    unfold tl at *
    omega
  · have := poolAdd_q fl (js0 ++ js1) { u with domnnbr := s.domnnbr + 1, t0 := T, parttax := a }
    dsimp only at this
    have hq : u.q0 ++ u.q1 = s.q0 ++ s.q1 := by rw [u9, u10, s9, s10]
    rw [hq] at this
    exact this
  · intro ht hq
    exact poolAdd_tie _ _ _ ht (by show u.q1 = []; rw [u10, s10]; exact hq)

/-! ## Runs -/

theorem jobRun_holds (hA : ArchLaws o n w Valid Has) {env : Env D} (he : env.Ok) (fl : Flags) {lo hi : Int} {j : Job D} {A : List (Job D)} {s : Pool D} (h : PInv n Valid Has lo hi free domnorg (j :: A) s)
    (hfree : ∀ v, free v → lo ≤ v ∧ v < hi) : Holds (jobRun o env fl j s) fun r => ∃ s', r = some s' ∧ Stepped n Valid Has lo hi fl free domnorg A j.dom s s' := by
  have hj := h.jobs j (List.mem_cons_self ..)
  have hv : Valid j.dom := by rw [hj.dom]; exact h.core.dom _ hj.num.1 hj.num.2
  unfold jobRun
  rw [Holds_bind]
  refine (hA.bipart j.dom hv).mono ?_
  intro r hr
  match r with
  | none =>
    obtain ⟨k, hk⟩ := hr
    have := tl_single hA hv hk
    have := hj.big
    omega
  | some (d0, d1) =>
    obtain ⟨v0, v1, e0, e1, hu, hdis⟩ := hr
    obtain ⟨t1, t2, t3⟩ := tally_halves hA v0 v1 e0 e1 hu hdis
    dsimp only
    rw [Holds_bind]
    refine (he.bip [s.calls] j.g d0 d1 hj.g.cons hj.g.alloc hj.g.base).mono ?_
    rintro _ ⟨part, size0, rfl, hp1, hp2, hp01, hsz⟩
    dsimp only
    have hlen := ofPart_len hj.g.cons hp01
    by_cases c0 : size0 = 0
    · rw [if_pos c0, Holds_bind]
      have hside : ∀ x, j.g.Vertex x → (⟨j.g, d0, d1, part⟩ : Cut D).side x = d1 := by
        intro x hx
        refine if_neg ?_
        intro e
        have : x ∈ ofPart j.g part 0 := (mem_ofPart ..).2 ⟨hx, e⟩
        rw [List.length_eq_zero_iff.1 (by omega : (ofPart j.g part 0).length = 0)] at this
        cases this
      refine (jobSame_holds hA fl h v1 hside (fun k hk => (hu k).2 (Or.inr hk)) (by unfold tl; omega) _).mono ?_
      intro s' hs'
      exact ⟨s', rfl, hs'⟩
    · rw [if_neg c0]
      by_cases c1 : size0 = j.g.vertnbr
      · rw [if_pos c1, Holds_bind]
        have hside : ∀ x, j.g.Vertex x → (⟨j.g, d0, d1, part⟩ : Cut D).side x = d0 := by
          intro x hx
          refine if_pos ?_
          rcases hp01 x hx with e | e
          · exact e
          · have : x ∈ ofPart j.g part 1 := (mem_ofPart ..).2 ⟨hx, e⟩
            rw [List.length_eq_zero_iff.1 (by omega : (ofPart j.g part 1).length = 0)] at this
            cases this
        refine (jobSame_holds hA fl h v0 hside (fun k hk => (hu k).2 (Or.inl hk)) (by unfold tl; omega) _).mono ?_
        intro s' hs'
        exact ⟨s', rfl, hs'⟩
      · rw [if_neg c1, Holds_bind]
        refine (jobSplit_holds hA he fl h hfree v0 v1 e0 e1 hu hdis ⟨hp1, hp2⟩ hp01 hsz s.calls _).mono ?_
        intro s' hs'
        exact ⟨s', rfl, hs'⟩

theorem poolGet_none {i : Nat} {q : List (Job D)} (h : poolGet i q = none) : q = [] := by
  unfold poolGet at h
  rw [Option.map_eq_none_iff, List.getElem?_eq_none_iff] at h
  cases q with
  | nil => rfl
  | cons a l =>
    have := Nat.mod_lt i (show 0 < (a :: l).length by simp)
    omega

theorem poolGet_some {i : Nat} {q q' : List (Job D)} {j : Job D} (h : poolGet i q = some (j, q')) : q.Perm (j :: q') := by
  unfold poolGet at h
  rw [Option.map_eq_some_iff] at h
  obtain ⟨a, h1, h2⟩ := h
  rw [List.getElem?_eq_some_iff] at h1
  obtain ⟨hl, rfl⟩ := h1
  injection h2 with h2 h3
  subst h2 h3
  exact (List.getElem_cons_eraseIdx_perm hl).symm

/-- Invariant of the pool. -/
def Run (n : Int) (Valid : D → Prop) (Has : D → Int → Prop) (lo hi : Int) (fl : Flags) (free : Int → Prop) (domnorg : D) (s : Pool D) : Prop :=
  PInv n Valid Has lo hi free domnorg (s.q0 ++ s.q1) s ∧ (fl.jobtie = true → s.q1 = [])

/-- State of the pool when there is no job left. -/
def Over (n : Int) (Valid : D → Prop) (Has : D → Int → Prop) (lo hi : Int) (fl : Flags) (free : Int → Prop) (domnorg : D) (r : Int × Pool D) : Prop :=
  r.1 = 0 ∧ ∃ s, PInv n Valid Has lo hi free domnorg [] s ∧ r.2 = poolSwap fl s

open Classical in
noncomputable def meas (n : Int) (Has : D → Int → Prop) (s : Pool D) : Nat := (2 * load n Has (s.q0 ++ s.q1) + if s.q0 = [] then 1 else 0).toNat

theorem poolStep_holds (hA : ArchLaws o n w Valid Has) {env : Env D} (he : env.Ok) (fl : Flags) (hfl : fl.maptie = true ∨ fl.jobtie = true) {lo hi : Int} (hfree : ∀ v, free v → lo ≤ v ∧ v < hi)
    (s : Pool D) (h : Run n Valid Has lo hi fl free domnorg s) :
    Holds (poolStep o env fl s) (Loop.Sat (fun s' => Run n Valid Has lo hi fl free domnorg s' ∧ meas n Has s' < meas n Has s) (Over n Valid Has lo hi fl free domnorg)) := by
  obtain ⟨hI, hT⟩ := h
  unfold poolStep
  cases hq : poolGet (env.pick s.calls) s.q0 with
  | none =>
    have hq0 := poolGet_none hq
    dsimp only
    by_cases e : (poolSwap fl s).q0.length = 0
    · rw [if_pos e]
      refine ⟨rfl, s, ?_, rfl⟩
      have : s.q0 ++ s.q1 = [] := by
        rw [hq0]
        by_cases ht : fl.jobtie = true
        · rw [hT ht]; rfl
        · have : (poolSwap fl s).q0 = s.q1 := by unfold poolSwap; rw [if_neg ht]; split <;> rfl
          rw [this] at e
          rw [List.length_eq_zero_iff.1 e]; rfl
      rw [← this]; exact hI
    · rw [if_neg e]
      have ht : ¬ fl.jobtie = true := by
        intro ht
        refine e ?_
        have : (poolSwap fl s).q0 = s.q0 := by unfold poolSwap; rw [if_pos ht]; split <;> rfl
        rw [this, hq0]; rfl
      have hm : fl.maptie = true := by rcases hfl with h | h; exact h; exact absurd h ht
      have hsw : poolSwap fl s = { s with q0 := s.q1, q1 := s.q0 } := by unfold poolSwap; simp [ht, hm]
      rw [hsw] at e ⊢
      change ¬ s.q1.length = 0 at e
      have hperm : (s.q1 ++ s.q0).Perm (s.q0 ++ s.q1) := List.perm_append_comm
      refine ⟨⟨?_, fun h => absurd h ht⟩, ?_⟩
      · have := hI.perm hperm
        exact ⟨this.core, this.plo, this.phi, this.t0lo, this.t0hi, this.t1lo, this.t1hi, this.nbr, this.jobs, this.nodup, this.term⟩
      · have h0 : 0 ≤ load n Has (s.q0 ++ s.q1) := load_nonneg (fun j hj => by have := (hI.jobs j hj).big; omega)
        unfold meas
        dsimp only
        rw [load_perm hperm, if_pos hq0, if_neg (fun h => e (by rw [h]; rfl))]
        omega
  | some jq =>
    obtain ⟨j, q⟩ := jq
    dsimp only
    have hperm : (s.q0 ++ s.q1).Perm (j :: (q ++ s.q1)) := (poolGet_some hq).append_right s.q1
    have hI' : PInv n Valid Has lo hi free domnorg (j :: (q ++ s.q1)) { s with q0 := q } := by
      have := hI.perm hperm.symm
      exact ⟨this.core, this.plo, this.phi, this.t0lo, this.t0hi, this.t1lo, this.t1hi, this.nbr, this.jobs, this.nodup, this.term⟩
    rw [Holds_bind]
    refine (jobRun_holds hA he fl hI' hfree).mono ?_
    rintro _ ⟨s', rfl, js, hP, hl, hpm, htie⟩
    dsimp only at hpm htie
    refine ⟨⟨hP.perm hpm, fun h => htie h (hT h)⟩, ?_⟩
    have h0 : 0 ≤ load n Has (s'.q0 ++ s'.q1) := by
      rw [load_perm hpm]
      exact load_nonneg (fun j hj => by have := (hP.jobs j hj).big; omega)
    have h1 := load_perm (n := n) (Has := Has) hpm
    have h2 := load_perm (n := n) (Has := Has) hperm
    rw [load_append js] at h1
    rw [load_cons] at h2
    unfold meas
    split <;> split <;> omega

theorem fill0_holds (b c : Int) (hc : 0 ≤ c) {a : Arr Int} (h1 : a.lo ≤ b) (h2 : b + c ≤ a.hi) :
    Holds (fill0 b c a) fun a' => a'.lo = a.lo ∧ a'.hi = a.hi ∧ (∀ v, b ≤ v → v < b + c → a'.get v = 0) ∧ ∀ v, v < b ∨ b + c ≤ v → a'.get v = a.get v := by
  unfold fill0
  refine Holds_forUp (fun i (x : Arr Int) => x.lo = a.lo ∧ x.hi = a.hi ∧ (∀ v, b ≤ v → v < i → x.get v = 0) ∧ ∀ v, v < b ∨ i ≤ v → x.get v = a.get v) (by omega)
    ⟨rfl, rfl, fun v h h' => by omega, fun v _ => rfl⟩ ?_ ?_
  · rintro i x i1 i2 ⟨x1, x2, x3, x4⟩
    rw [x.wr_ok 0 (by omega) (by omega), Holds_ok]
    refine ⟨x1, x2, ?_, ?_⟩
    · intro v v1 v2
      by_cases e : v = i
      · rw [e]; exact Arr.set_get_same _ _ _
      · rw [Arr.set_get_ne _ _ e]; exact x3 v v1 (by omega)
    · intro v hv
      rw [Arr.set_get_ne _ _ (by omega)]; exact x4 v (by omega)
  · rintro x ⟨x1, x2, x3, x4⟩
    exact ⟨x1, x2, x3, x4⟩

/-- Recursive bipartitioning, mapping version. -/
theorem rbMap_holds (hA : ArchLaws o n w Valid Has) {env : Env D} (he : env.Ok) (fl : Flags) {fuel : Nat} {s g : Graph} (hsc : s.Consistent) (hg : Proper g) {domnorg : D} (hd : Valid domnorg)
    (hfl : fl.maptie = true ∨ (fl.jobtie = true ∧ 2 ≤ tl n Has domnorg))
    (hf : 4 * tl n Has domnorg ≤ fuel) {m : Mapping D} (h1 : m.domntab.lo = 0) (h2 : m.domntab.hi = m.domnmax) (h3 : 1 ≤ m.domnmax)
    (h4 : m.parttax.lo ≤ s.baseval) (h5 : s.vertnnd ≤ m.parttax.hi) (hin : ∀ v, Verts g v → s.Vertex v) :
    Holds (rbMap o env fl fuel s g domnorg m) fun r => r.1 = 0 ∧ Done Valid Has m.parttax.lo m.parttax.hi (Verts g) domnorg r.2.2 r.2.1 := by
  have hnn := hsc.vertnnd
  have hnb := hsc.vertnbr
  unfold rbMap mapFrst
  rw [Holds_bind, Holds_bind, m.domntab.wr_ok domnorg (by omega) (by omega), Holds_ok, Holds_bind]
  refine (fill0_holds s.baseval s.vertnbr (by omega) h4 (by omega)).mono ?_
  rintro a ⟨a1, a2, a3, -⟩
  show Holds (o.size domnorg >>= _) _
  have hz0 : ∀ v, Verts g v → a.get v = 0 := fun v hv => a3 v (hin v hv).1 (by have := (hin v hv).2; omega)
  have hcore : Core Valid Has (Verts g) domnorg [] (m.domntab.set 0 domnorg).get a.get 1 := by
    refine ⟨?_, ?_, ?_, fun c h => by cases h⟩
    · intro i i1 i2
      obtain rfl : i = 0 := by omega
      rw [Arr.set_get_same]; exact hd
    · intro v hv
      rw [hz0 v hv, Arr.set_get_same]
      exact ⟨by omega, by omega, fun k => ⟨fun h => ⟨h, fun c h => by cases h⟩, fun h => h.1⟩⟩
    · intro i j i1 i2 j1 j2 hij; omega
  rw [Holds_bind]
  refine (hA.size domnorg hd).mono ?_
  intro z hz
  have hz : z = tl n Has domnorg := hz
  dsimp only
  have fin : ∀ (log : List (Cut D)) (m' : Mapping D), Core Valid Has (Verts g) domnorg log m'.domntab.get m'.parttax.get m'.domnnbr → m'.parttax.lo = m.parttax.lo → m'.parttax.hi = m.parttax.hi → m'.domntab.lo = 0 →
      m'.domntab.hi = m'.domnmax → 0 ≤ m'.domnnbr ∧ m'.domnnbr ≤ m'.domnmax → (∀ i, 0 ≤ i → i < m'.domnnbr → ∃ k, ∀ j, Has (m'.domntab.get i) j ↔ j = k) →
      Done Valid Has m.parttax.lo m.parttax.hi (Verts g) domnorg log m' := by
    intro log m' c q1 q2 q3 q4 q5 q6
    exact ⟨q1, q2, q3, q4, q5, fun i i1 i2 => ⟨c.dom i i1 i2, q6 i i1 i2⟩, c.part, c.disj, c.cuts⟩
  by_cases hz1 : z ≤ 1
  · rw [if_pos hz1]
    have hm : fl.maptie = true := by rcases hfl with h | ⟨-, h⟩; exact h; omega
    refine ⟨rfl, ?_⟩
    unfold poolExit
    dsimp only
    rw [if_pos hm]
    refine fin _ _ hcore a1 a2 h1 h2 ⟨by show (0 : Int) ≤ 1; omega, h3⟩ ?_
    intro i i1 i2
    change i < 1 at i2
    obtain rfl : i = 0 := by omega
    show ∃ k, ∀ j, Has ((m.domntab.set 0 domnorg).get 0) j ↔ j = k
    rw [Arr.set_get_same]
    exact single_of_tl hA hd (by omega)
  · rw [if_neg hz1, Holds_bind]
    have hfl' : fl.maptie = true ∨ fl.jobtie = true := hfl.imp id And.left
    refine Holds.mono (Holds_loopM (Q := Over n Valid Has m.parttax.lo m.parttax.hi fl (Verts g) domnorg) (Run n Valid Has m.parttax.lo m.parttax.hi fl (Verts g) domnorg) (meas n Has)
      (fun s' hs' => poolStep_holds hA he fl hfl' (fun v hv => by have := hin v hv; unfold Graph.Vertex at this; omega) s' hs') fuel _ ?_ ?_) ?_
    · refine ⟨⟨hcore, a1, a2, h1, h2, rfl, rfl, ⟨by show (0 : Int) ≤ 1; omega, h3⟩, ?_, by simp, ?_⟩, fun _ => rfl⟩
      · intro j hj
        dsimp only at hj
        rw [List.append_nil, List.mem_singleton] at hj
        subst hj
        refine ⟨hg, ⟨by show (0 : Int) ≤ 0; omega, by show (0 : Int) < 1; omega⟩, (Arr.set_get_same _ _ _).symm, fun v => ?_, by show 2 ≤ tl n Has domnorg; omega⟩
        exact ⟨fun h => ⟨h, hz0 v h⟩, fun h => h.1⟩
      · intro i i1 i2 hi
        change i < 1 at i2
        obtain rfl : i = 0 := by omega
        exact absurd rfl (hi ⟨0, g, domnorg⟩ (by simp))
    · unfold meas
      dsimp only
      rw [List.append_nil, load_cons, load_nil, if_neg (by simp)]
      dsimp only
      omega
    · rintro ⟨c, s'⟩ ⟨hc, u, hu, hs'⟩
      dsimp only at hc hs'
      subst hc hs'
      refine ⟨rfl, ?_⟩
      have hterm : ∀ i, 0 ≤ i → i < u.domnnbr → ∃ k, ∀ j, Has (u.t0.get i) j ↔ j = k := fun i i1 i2 => hu.term i i1 i2 (fun j hj => by cases hj)
      have hlog : (poolSwap fl u).log = u.log := by unfold poolSwap; split <;> split <;> rfl
      have hexit : poolExit fl (poolSwap fl u) = ⟨u.parttax, u.t0, u.domnnbr, u.domnmax⟩ := by
        unfold poolExit poolSwap
        cases fl.maptie <;> cases fl.jobtie <;> rfl
      dsimp only
      rw [hlog, hexit]
      exact fin _ _ hu.core hu.plo hu.phi hu.t0lo hu.t0hi hu.nbr hterm

end Scotch.Kmap
