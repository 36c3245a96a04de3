import Verif.Match.Spec
import Verif.Graph.Lemmas

set_option autoImplicit false
set_option linter.unusedSimpArgs false

namespace Scotch.Match

theorem Compat.symm {E : Env} {a b : Int} (h : Compat E a b) : Compat E b a :=
  fun hf => ⟨fun t ht => ((h hf).1 t ht).symm, fun t ht => ((h hf).2 t ht).symm⟩

theorem Adj.symm {g : Graph} (hc : g.Consistent) {v w : Int} (hv : g.Vertex v) (h : Adj g v w) : Adj g w v ∧ g.Vertex w ∧ w ≠ v := by
  obtain ⟨l, hl⟩ := h
  have h1 := hc.inside v _ hv hl
  exact ⟨⟨l, hc.symm v _ hv hl⟩, h1.1, h1.2⟩

/-- A partial matching: vertices without a mate have a negative one. -/
structure Part (E : Env) (m : Int → Int) : Prop where
  val : ∀ x, E.g.Vertex x → 0 ≤ m x → E.g.Vertex (m x) ∧ m (m x) = x ∧ Good E x (m x)
  max : ∀ x y, E.g.Vertex x → Adj E.g x y → Compat E x y → m x = x → 0 ≤ m y ∧ m y ≠ y

def cntOf (E : Env) (m : Int → Int) : Int := sumI E.g.baseval E.g.vertnnd (fun x => if 0 ≤ m x ∧ x ≤ m x then 1 else 0)

def put2 (m : Int → Int) (v b : Int) : Int → Int := fun x => if x = v then b else if x = b then v else m x

theorem Good.symm {E : Env} (hc : E.g.Consistent) {v w : Int} (hv : E.g.Vertex v) (h : Good E v w) : Good E w v := by
  rcases h with h | ⟨h1, h2 | ⟨h2, h3⟩⟩
  · exact Or.inl h.symm
  · exact Or.inr ⟨h1.symm, Or.inl (h2.symm hc hv).1⟩
  · exact Or.inr ⟨h1.symm, Or.inr ⟨h2, h3.symm⟩⟩

theorem Part.put {E : Env} (V : Valid E) {m : Int → Int} (P : Part E m) {v b : Int} (hv : E.g.Vertex v) (hb : E.g.Vertex b) (hmv : m v < 0) (hmb : m b < 0)
    (hg : Good E v b) (hmax : b = v → ∀ y, Adj E.g v y → Compat E v y → 0 ≤ m y) : Part E (put2 m v b) ∧ cntOf E (put2 m v b) = cntOf E m + 1 := by
  have hb0 : 0 ≤ b := by have := hb.1; have := V.base; omega
  have hv0 : 0 ≤ v := by have := hv.1; have := V.base; omega
  refine ⟨⟨?_, ?_⟩, ?_⟩
  · intro x hx h0
    unfold put2 at h0 ⊢
    by_cases e1 : x = v
    · subst e1
      simp only [if_true]
      refine ⟨hb, ?_, hg⟩
      by_cases e2 : b = x
      · simp [e2]
      · simp [e2]
    · by_cases e2 : x = b
      · subst e2
        simp only [e1, if_false, if_true]
        exact ⟨hv, trivial, hg.symm V.cons hv⟩
      · simp only [e1, e2, if_false] at h0 ⊢
        obtain ⟨h1, h2, h3⟩ := P.val x hx h0
        refine ⟨h1, ?_, h3⟩
        have n1 : m x ≠ v := by intro e; rw [e] at h2; have := hx.1; have := V.base; omega
        have n2 : m x ≠ b := by intro e; rw [e] at h2; have := hx.1; have := V.base; omega
        simp only [n1, n2, if_false]; exact h2
  · intro x y hx hadj hc he
    obtain ⟨hadj', hy, hyx⟩ := hadj.symm V.cons hx
    unfold put2 at he ⊢
    by_cases e1 : x = v
    · subst e1
      simp only [if_true] at he
      have h1 := hmax he y hadj hc
      have n2 : y ≠ b := by rw [he]; exact hyx
      simp only [hyx, n2, if_false]
      refine ⟨h1, fun e => ?_⟩
      have := (P.max y x hy hadj' hc.symm e).1
      omega
    · by_cases e2 : x = b
      · subst e2; simp only [e1, if_false, if_true] at he; exact absurd he.symm e1
      · simp only [e1, e2, if_false] at he
        have h1 := P.max x y hx hadj hc he
        have n1 : y ≠ v := by intro e; rw [e] at h1; omega
        have n2 : y ≠ b := by intro e; rw [e] at h1; omega
        simp only [n1, n2, if_false]; exact h1
  · unfold cntOf
    have hst : ∀ (f : Int → Int) (a : Int) (d : Int), E.g.Vertex a → sumI E.g.baseval E.g.vertnnd (fun x => if x = a then d else f x) = sumI E.g.baseval E.g.vertnnd f - f a + d := by
      intro f a d ha
      have := sumI_update (lo := E.g.baseval) (hi := E.g.vertnnd) ha.1 ha.2 f d
      exact this
    have e1 : (fun x => if 0 ≤ put2 m v b x ∧ x ≤ put2 m v b x then (1 : Int) else 0) =
        (fun x => if x = v then (if v ≤ b then 1 else 0) else
          (fun x => if x = b then (if b ≤ v then 1 else 0) else (if 0 ≤ m x ∧ x ≤ m x then 1 else 0)) x) := by
      funext x
      unfold put2
      by_cases h1 : x = v
      · subst h1; simp [hb0]
      · by_cases h2 : x = b
        · subst h2; simp [h1, hv0]
        · simp [h1, h2]
    rw [e1, hst _ v _ hv, hst _ b _ hb]
    have h1 : ¬ (0 ≤ m b ∧ b ≤ m b) := by omega
    have h2 : ¬ (0 ≤ m v ∧ v ≤ m v) := by omega
    by_cases e : v = b
    · subst e; simp only [h1, if_false, if_true, Int.le_refl]; omega
    · simp only [e, h1, h2, if_false]
      by_cases h : v ≤ b
      · have : ¬ b ≤ v := by omega
        simp only [h, this, if_true, if_false]; omega
      · have : b ≤ v := by omega
        simp only [h, this, if_true, if_false]; omega

theorem put2_nonneg {m : Int → Int} {v b x : Int} (hv : 0 ≤ v) (hb : 0 ≤ b) (h : 0 ≤ m x) : 0 ≤ put2 m v b x := by
  unfold put2; split
  · exact hb
  · split
    · exact hv
    · exact h

/-! ## Search -/

theorem sameTax_holds {tax : Option (Arr Int)} {g : Graph} (h : ∀ t, tax = some t → t.lo ≤ g.baseval ∧ g.vertnnd ≤ t.hi) {a b : Int} (ha : g.Vertex a) (hb : g.Vertex b) :
    Holds (sameTax tax a b) (fun r => r = true ↔ ∀ t, tax = some t → t.get a = t.get b) := by
  have := ha.1; have := ha.2; have := hb.1; have := hb.2
  unfold sameTax
  cases tax with
  | none => msimp; simp
  | some t =>
    have := h t rfl
    msimp
    refine ⟨by omega, by omega, ?_⟩
    simp

theorem compatible_holds {E : Env} (V : Valid E) {a b : Int} (ha : E.g.Vertex a) (hb : E.g.Vertex b) :
    Holds (compatible E a b) (fun r => r = true ↔ Compat E a b) := by
  unfold compatible
  cases hf : E.fix with
  | false =>
    rw [if_neg (by simp)]
    msimp
    simp [Compat, hf]
  | true =>
    rw [if_pos rfl]
    msimp
    refine (sameTax_holds V.pfix ha hb).mono ?_
    intro r hr
    by_cases h1 : r = true
    · rw [if_pos h1]
      refine (sameTax_holds V.paro ha hb).mono ?_
      intro r' hr'
      rw [hr']
      simp only [Compat, hf, forall_const]
      exact ⟨fun h => ⟨hr.1 h1, h⟩, fun h => h.2⟩
    · rw [if_neg h1]
      msimp
      simp only [Compat, hf, forall_const]
      constructor
      · intro h; cases h
      · intro h; exact absurd (hr.2 h.1) h1

/-- Bounds of an array indexed by vertices. -/
def Covers (g : Graph) (a : Arr Int) : Prop := a.lo ≤ g.baseval ∧ g.vertnnd ≤ a.hi

/-- Index of a queue, with respect to the current one. -/
def Ix (dlt qnum i : Int) : Prop := (i - qnum) % dlt = 0

/-- Queue entries from `qnum` to `nnd` are vertices. -/
structure QOk (g : Graph) (queue : Arr Int) (dlt qnum nnd : Int) : Prop where
  step : dlt = 1 ∨ dlt = 2
  ix : Ix dlt qnum nnd
  lo : queue.lo ≤ qnum
  hi : nnd - dlt < queue.hi
  vert : ∀ i, qnum ≤ i → i < nnd → Ix dlt qnum i → g.Vertex (queue.get i)

theorem trimEnd_holds {g : Graph} {mate queue : Arr Int} {dlt qnum : Int} (hm : Covers g mate) : ∀ (fuel : Nat) (nnd : Int),
    QOk g queue dlt qnum nnd → qnum ≤ nnd → nnd - qnum < fuel →
    Holds (trimEnd mate queue dlt qnum fuel nnd) (fun r => qnum ≤ r ∧ r ≤ nnd ∧ Ix dlt qnum r ∧
      ∀ i, r ≤ i → i < nnd → Ix dlt qnum i → 0 ≤ mate.get (queue.get i)) := by
  intro fuel
  induction fuel with
  | zero => intro nnd _ h1 h2; omega
  | succ fuel ih =>
    intro nnd Q h1 h2
    unfold trimEnd
    by_cases hgt : nnd > qnum
    · rw [if_pos hgt]
      have hd := Q.step
      have hix := Q.ix
      unfold Ix at hix
      have hi0 : qnum ≤ nnd - dlt ∧ Ix dlt qnum (nnd - dlt) := by
        unfold Ix
        rcases hd with e | e <;> subst e <;> omega
      have hv := Q.vert (nnd - dlt) hi0.1 (by rcases hd with e | e <;> omega) hi0.2
      have hlo := Q.lo
      have hhi := Q.hi
      have := hv.1
      have := hv.2
      have := hm.1
      have := hm.2
      msimp
      refine ⟨by omega, by omega, ?_⟩
      by_cases hge : mate.get (queue.get (nnd - dlt)) ≥ 0
      · rw [if_pos hge]
        refine (ih (nnd - dlt) ⟨Q.step, hi0.2, Q.lo, by rcases hd with e | e <;> omega, fun i a b c => Q.vert i a (by rcases hd with e | e <;> omega) c⟩ hi0.1
          (by rcases hd with e | e <;> omega)).mono ?_
        rintro r ⟨r1, r2, r3, r4⟩
        refine ⟨r1, by rcases hd with e | e <;> omega, r3, ?_⟩
        intro i a b c
        by_cases hlt : i < nnd - dlt
        · exact r4 i a hlt c
        · have : i = nnd - dlt := by
            unfold Ix at c
            rcases hd with e | e <;> subst e <;> omega
          rw [this]; exact hge
      · rw [if_neg hge]
        msimp
        exact ⟨by omega, by omega, Q.ix, fun i a b => by omega⟩
    · rw [if_neg hgt]
      msimp
      exact ⟨h1, by omega, Q.ix, fun i a b => by omega⟩

theorem isoLoop_holds {E : Env} (V : Valid E) {mate queue : Arr Int} {dlt qnum v : Int} (hm : Covers E.g mate) (hvv : E.g.Vertex v) : ∀ (fuel : Nat) (nnd : Int),
    QOk E.g queue dlt qnum nnd → qnum ≤ nnd → nnd - qnum < fuel →
    Holds (isoLoop E mate queue dlt qnum v fuel nnd) (fun r => match r with
      | none => True
      | some (x, c) => qnum ≤ c ∧ c < nnd ∧ Ix dlt qnum c ∧ queue.get c = x ∧ mate.get x < 0 ∧ Compat E x v ∧
        (E.fix = false → ∀ i, c < i → i < nnd → Ix dlt qnum i → 0 ≤ mate.get (queue.get i))) := by
  intro fuel
  induction fuel with
  | zero => intro nnd _ h1 h2; omega
  | succ fuel ih =>
    intro nnd Q h1 h2
    unfold isoLoop
    by_cases hgt : nnd > qnum
    · rw [if_pos hgt]
      have hd := Q.step
      have hix := Q.ix
      unfold Ix at hix
      have hi0 : qnum ≤ nnd - dlt ∧ Ix dlt qnum (nnd - dlt) := by
        unfold Ix
        rcases hd with e | e <;> subst e <;> omega
      have hv := Q.vert (nnd - dlt) hi0.1 (by rcases hd with e | e <;> omega) hi0.2
      have hlo := Q.lo
      have hhi := Q.hi
      have := hv.1
      have := hv.2
      have := hm.1
      have := hm.2
      have hrec : (E.fix = false → 0 ≤ mate.get (queue.get (nnd - dlt))) → Holds (isoLoop E mate queue dlt qnum v fuel (nnd - dlt)) (fun r => match r with
          | none => True
          | some (x, c) => qnum ≤ c ∧ c < nnd ∧ Ix dlt qnum c ∧ queue.get c = x ∧ mate.get x < 0 ∧ Compat E x v ∧
            (E.fix = false → ∀ i, c < i → i < nnd → Ix dlt qnum i → 0 ≤ mate.get (queue.get i))) := by
        intro hskip
        refine (ih (nnd - dlt) ⟨Q.step, hi0.2, Q.lo, by rcases hd with e | e <;> omega, fun i a b c => Q.vert i a (by rcases hd with e | e <;> omega) c⟩ hi0.1
          (by rcases hd with e | e <;> omega)).mono ?_
        intro r hr
        cases r with
        | none => trivial
        | some p =>
          obtain ⟨x, c⟩ := p
          obtain ⟨r1, r2, r3, r4, r5, r6, r7⟩ := hr
          refine ⟨r1, by rcases hd with e | e <;> omega, r3, r4, r5, r6, ?_⟩
          intro hf i a b c'
          by_cases hlt : i < nnd - dlt
          · exact r7 hf i a hlt c'
          · have : i = nnd - dlt := by
              unfold Ix at c'
              rcases hd with e | e <;> subst e <;> omega
            rw [this]; exact hskip hf
      msimp
      refine ⟨by omega, by omega, ?_⟩
      by_cases hneg : mate.get (queue.get (nnd - dlt)) < 0
      · rw [if_pos hneg]
        msimp
        refine (compatible_holds V hv hvv).mono ?_
        intro r hr
        by_cases hrt : r = true
        · rw [if_pos hrt]
          msimp
          refine ⟨hi0.1, by rcases hd with e | e <;> omega, hi0.2, trivial, hneg, hr.1 hrt, ?_⟩
          intro _ i a b c
          exfalso
          unfold Ix at c
          rcases hd with e | e <;> subst e <;> omega
        · rw [if_neg hrt]
          apply hrec
          intro hf
          exfalso
          apply hrt
          rw [hr]
          intro hf'
          rw [hf] at hf'; cases hf'
      · rw [if_neg hneg]
        exact hrec (fun _ => by omega)
    · rw [if_neg hgt]
      msimp

/-- Arcs `[e, e + k)` belong to vertex `v`. -/
def ArcsOf (g : Graph) (v e : Int) (k : Nat) : Prop := g.vert v ≤ e ∧ e + k ≤ g.vend v

theorem mem_arcs (g : Graph) (v e : Int) : e ∈ g.arcs v ↔ g.vert v ≤ e ∧ e < g.vend v := by
  unfold Graph.arcs
  simp only [List.mem_map, List.mem_range]
  constructor
  · rintro ⟨k, h1, h2⟩; omega
  · rintro ⟨h1, h2⟩; exact ⟨(e - g.vert v).toNat, by omega, by omega⟩

theorem nbr_of_arc {g : Graph} {v e : Int} (h1 : g.vert v ≤ e) (h2 : e < g.vend v) : (g.dest e, g.edlo e) ∈ g.nbrs v :=
  List.mem_map.2 ⟨e, (mem_arcs g v e).2 ⟨h1, h2⟩, rfl⟩

theorem nbrTest_holds {E : Env} (V : Valid E) {mate : Arr Int} (hm : Covers E.g mate) {v e edlobst : Int} (hv : E.g.Vertex v) (h1 : E.g.vert v ≤ e) (h2 : e < E.g.vend v) :
    Holds (nbrTest E mate v e edlobst) (fun r => match r with
      | none => 0 ≤ mate.get (E.g.dest e) ∨ ¬ Compat E (E.g.dest e) v ∨ (E.g.edlotax.isSome = true ∧ 0 ≤ edlobst)
      | some (x, l) => x = E.g.dest e ∧ mate.get x < 0 ∧ Compat E x v) := by
  have hn := nbr_of_arc h1 h2
  obtain ⟨hd, hdv⟩ := V.cons.inside v _ hv hn
  have hl := V.cons.edlo v _ hv hn
  dsimp only at hd hdv hl
  have hed := V.alloc.edge v hv (by omega)
  have := hd.1
  have := hd.2
  have := hm.1
  have := hm.2
  unfold nbrTest
  msimp
  refine ⟨by omega, ?_⟩
  have hde : E.g.edgetax.get e = E.g.dest e := rfl
  rw [hde]
  refine ⟨by omega, ?_⟩
  by_cases hneg : mate.get (E.g.dest e) < 0
  · rw [if_pos hneg]
    msimp
    refine (compatible_holds V hd hv).mono ?_
    intro r hr
    by_cases hrt : r = true
    · rw [if_pos hrt]
      cases hlo : E.g.edlotax with
      | none =>
        msimp
        exact ⟨trivial, hneg, hr.1 hrt⟩
      | some a =>
        have hea := V.alloc.edlo a hlo v hv (by omega)
        msimp
        refine ⟨by omega, ?_⟩
        by_cases hbet : a.get e > edlobst
        · rw [if_pos hbet]
          msimp
          exact ⟨trivial, hneg, hr.1 hrt⟩
        · rw [if_neg hbet]
          msimp
          have : E.g.edlo e = a.get e := by unfold Graph.edlo; rw [hlo]
          exact Or.inr (Or.inr ⟨rfl, by omega⟩)
    · rw [if_neg hrt]
      msimp
      exact Or.inr (Or.inl (fun h => hrt (hr.2 h)))
  · rw [if_neg hneg]
    msimp
    exact Or.inl (by omega)

theorem nbrLoop_holds {E : Env} (V : Valid E) {mate : Arr Int} (hm : Covers E.g mate) {v : Int} (hv : E.g.Vertex v) : ∀ (k : Nat) (e bst edlobst : Int),
    E.g.vert v ≤ e → e + k ≤ E.g.vend v →
    Holds (nbrLoop E mate v k e bst edlobst) (fun r =>
      (r = bst ∧ (edlobst < 0 → ∀ i, e ≤ i → i < e + k → Compat E (E.g.dest i) v → 0 ≤ mate.get (E.g.dest i))) ∨
      (∃ i, e ≤ i ∧ i < e + k ∧ E.g.dest i = r ∧ mate.get r < 0 ∧ Compat E r v)) := by
  intro k
  induction k with
  | zero =>
    intro e bst edlobst _ _
    unfold nbrLoop
    rw [Holds_ok]
    exact Or.inl ⟨rfl, fun _ i h1 h2 => by omega⟩
  | succ k ih =>
    intro e bst edlobst h1 h2
    unfold nbrLoop
    rw [Holds_bind]
    refine (nbrTest_holds V hm hv h1 (by omega)).mono ?_
    intro r hr
    cases r with
    | none =>
      dsimp only at hr ⊢
      refine (ih (e + 1) bst edlobst (by omega) (by omega)).mono ?_
      rintro r (⟨a1, a2⟩ | ⟨i, a1, a2, a3⟩)
      · refine Or.inl ⟨a1, fun hneg i b1 b2 b3 => ?_⟩
        by_cases hie : i = e
        · subst hie
          rcases hr with hr | hr | hr
          · exact hr
          · exact absurd b3 hr
          · omega
        · exact a2 hneg i (by omega) (by omega) b3
      · exact Or.inr ⟨i, by omega, by omega, a3⟩
    | some p =>
      obtain ⟨x, l⟩ := p
      obtain ⟨b1, b2, b3⟩ := hr
      have hx : ∃ i, e ≤ i ∧ i < e + (k + 1 : Nat) ∧ E.g.dest i = x ∧ mate.get x < 0 ∧ Compat E x v := ⟨e, by omega, by omega, b1.symm, b2, b3⟩
      dsimp only
      cases hlo : E.g.edlotax with
      | none => dsimp only; rw [Holds_pure]; exact Or.inr hx
      | some a =>
        dsimp only
        refine (ih (e + 1) x l (by omega) (by omega)).mono ?_
        rintro r (⟨a1, _⟩ | ⟨i, a1, a2, a3⟩)
        · subst a1; exact Or.inr hx
        · exact Or.inr ⟨i, by omega, by omega, a3⟩

theorem nbrs_nil {g : Graph} {v : Int} (h : g.vert v = g.vend v) : Isolated g v := by
  unfold Isolated Graph.nbrs Graph.arcs
  rw [h]; simp

theorem rdVend_holds {g : Graph} (A : g.Allocated) {v : Int} (hv : g.Vertex v) : g.rdVend v = .ok (g.vend v) := by
  have := hv.1
  have := hv.2
  unfold Graph.rdVend Graph.vend
  cases he : g.vendtax with
  | none =>
    have := A.vhi' he
    have := A.vlo
    exact Arr.rd_ok _ (by omega) (by omega)
  | some a =>
    have := A.ends a he
    exact Arr.rd_ok _ (by omega) (by omega)

/-- What the search for a mate ensures. -/
structure Found (E : Env) (m1 m2 queue : Arr Int) (dlt qnum nnd v : Int) (r : Int × Int) : Prop where
  vert : E.g.Vertex r.1
  good : Good E v r.1
  free : r.1 ≠ v → m2.get r.1 < 0
  nnd1 : qnum ≤ r.2
  nnd2 : r.2 ≤ nnd
  ix : Ix dlt qnum r.2
  skip : ∀ i, r.2 ≤ i → i < nnd → Ix dlt qnum i → 0 ≤ m1.get (queue.get i) ∨ 0 ≤ m2.get (queue.get i) ∨ queue.get i = r.1
  self : r.1 = v → ∀ y, Adj E.g v y → Compat E v y → 0 ≤ m2.get y

theorem findMate_holds {E : Env} (V : Valid E) (seq : Bool) {m1 m2 queue : Arr Int} {dlt qnum nnd v : Int} (hm1 : Covers E.g m1) (hm2 : Covers E.g m2)
    (Q : QOk E.g queue dlt qnum nnd) (hle : qnum ≤ nnd) (hv : E.g.Vertex v) :
    Holds (findMate E seq m1 m2 queue dlt qnum nnd v) (fun r => Found E m1 m2 queue dlt qnum nnd v r ∧ (seq = false → ∀ i, r.2 ≤ i → i < nnd → Ix dlt qnum i → 0 ≤ m1.get (queue.get i))) := by
  have h1 := hv.1
  have h2 := hv.2
  have h3 := V.alloc.vlo
  have h4 := V.alloc.vhi
  unfold findMate
  rw [Holds_bind, Arr.rd_ok _ (by omega) (by omega), Holds_ok, Holds_bind, rdVend_holds V.alloc hv, Holds_ok]
  have hvr : E.g.verttax.get v = E.g.vert v := rfl
  rw [hvr]
  have hself : Good E v v := Or.inl rfl
  by_cases hiso : E.g.vert v = E.g.vend v
  · rw [if_pos hiso]
    have hI := nbrs_nil hiso
    have hnone : ∀ y, Adj E.g v y → Compat E v y → 0 ≤ m2.get y := by
      rintro y ⟨l, hl⟩ _
      unfold Isolated at hI
      rw [hI] at hl; simp at hl
    by_cases hnm : E.nomerge = true
    · rw [if_pos hnm, Holds_pure]
      exact ⟨⟨hv, hself, fun h => absurd rfl h, hle, Int.le_refl _, Q.ix, fun i a b => by dsimp only at a; omega, fun _ => hnone⟩, fun _ i a b => by dsimp only at a; omega⟩
    · rw [if_neg hnm, Holds_bind]
      refine (trimEnd_holds hm1 _ nnd Q hle (by omega)).mono ?_
      rintro nnd' ⟨t1, t2, t3, t4⟩
      have hd := Q.step
      have Q' : QOk E.g queue dlt qnum nnd' := ⟨Q.step, t3, Q.lo, by have := Q.hi; omega, fun i a b c => Q.vert i a (by omega) c⟩
      rw [Holds_bind]
      refine (isoLoop_holds V hm2 hv _ nnd' Q' t1 (by omega)).mono ?_
      intro r hr
      cases r with
      | none =>
        dsimp only
        rw [Holds_pure]
        exact ⟨⟨hv, hself, fun h => absurd rfl h, t1, t2, t3, fun i a b c => Or.inl (t4 i a b c), fun _ => hnone⟩, fun _ i a b c => t4 i a b c⟩
      | some p =>
        obtain ⟨x, c⟩ := p
        obtain ⟨r1, r2, r3, r4, r5, r6, r7⟩ := hr
        dsimp only
        rw [Holds_pure]
        have hx : E.g.Vertex x := by rw [← r4]; exact Q'.vert c r1 r2 r3
        have hgood : Good E v x := by
          by_cases e : x = v
          · exact Or.inl e
          · refine Or.inr ⟨r6.symm, Or.inr ⟨?_, Or.inl hI⟩⟩
            cases hb : E.nomerge with
            | false => rfl
            | true => exact absurd hb hnm
        by_cases hsf : (seq && !E.fix) = true
        · have hna : nndAfter seq E.fix nnd' c = c := by unfold nndAfter; rw [if_pos hsf]
          have hsq : seq = true ∧ E.fix = false := by
            cases seq <;> cases hf : E.fix <;> simp [hf] at hsf ⊢
          rw [hna]
          refine ⟨⟨hx, hgood, fun _ => r5, r1, by dsimp only; omega, r3, ?_, fun _ => hnone⟩, ?_⟩
          · intro i a b d
            dsimp only at a
            by_cases hin : i < nnd'
            · by_cases hic : i = c
              · rw [hic]; exact Or.inr (Or.inr r4)
              · exact Or.inr (Or.inl (r7 hsq.2 i (by omega) hin d))
            · exact Or.inl (t4 i (by omega) b d)
          · intro hs; rw [hsq.1] at hs; cases hs
        · have hna : nndAfter seq E.fix nnd' c = nnd' := by unfold nndAfter; rw [if_neg hsf]
          rw [hna]
          exact ⟨⟨hx, hgood, fun _ => r5, t1, t2, t3, fun i a b d => Or.inl (t4 i a b d), fun _ => hnone⟩, fun _ i a b d => t4 i a b d⟩
  · rw [if_neg hiso, Holds_bind]
    have hrng := V.cons.range v hv
    refine (nbrLoop_holds V hm2 hv (E.g.vend v - E.g.vert v).toNat (E.g.vert v) v (-1) (by omega) (by omega)).mono ?_
    rintro r hr
    rw [Holds_pure]
    have harc : ∀ i, E.g.vert v ≤ i → i < E.g.vert v + (E.g.vend v - E.g.vert v).toNat → E.g.vert v ≤ i ∧ i < E.g.vend v := fun i a b => by omega
    refine ⟨⟨?_, ?_, ?_, hle, Int.le_refl _, Q.ix, fun i a b => by dsimp only at a; omega, ?_⟩, fun _ i a b => by dsimp only at a; omega⟩
    · rcases hr with ⟨e, _⟩ | ⟨i, a1, a2, a3, _⟩
      · rw [e]; exact hv
      · obtain ⟨b1, b2⟩ := harc i a1 a2
        rw [← a3]; exact (V.cons.inside v _ hv (nbr_of_arc b1 b2)).1
    · rcases hr with ⟨e, _⟩ | ⟨i, a1, a2, a3, a4, a5⟩
      · rw [e]; exact hself
      · obtain ⟨b1, b2⟩ := harc i a1 a2
        exact Or.inr ⟨a5.symm, Or.inl ⟨E.g.edlo i, by rw [← a3]; exact nbr_of_arc b1 b2⟩⟩
    · intro hne
      rcases hr with ⟨e, _⟩ | ⟨i, a1, a2, a3, a4, a5⟩
      · exact absurd e hne
      · exact a4
    · intro he y ⟨l, hl⟩ hcy
      rcases hr with ⟨_, hall⟩ | ⟨i, a1, a2, a3, a4, a5⟩
      · obtain ⟨i, hi, hie⟩ := List.mem_map.1 hl
        have := (mem_arcs E.g v i).1 hi
        have hd : E.g.dest i = y := congrArg Prod.fst hie
        rw [← hd]
        exact hall (by omega) i this.1 (by omega) (by rw [hd]; exact hcy.symm)
      · exfalso
        obtain ⟨b1, b2⟩ := harc i a1 a2
        have := (V.cons.inside v _ hv (nbr_of_arc b1 b2)).2
        exact this (a3.trans he)

end Scotch.Match
