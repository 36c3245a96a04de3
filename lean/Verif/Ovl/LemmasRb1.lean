import Verif.Ovl.LemmasCost
import Verif.Kmap.Lemmas
import Verif.Kmap.LemmasGp
import Verif.Separ.LemmasBasic

/-! # Partitioning with overlap: accesses to shared arrays -/

set_option autoImplicit false
set_option linter.unusedSimpArgs false

namespace Scotch.Ovl
open Graph Bipart
open Kmap (org Proper Verts ofPart mem_ofPart)

section Mt
variable {α β : Type} {nul tot : Bool}

theorem Mt_pure (a : α) (Q : α → Prop) : Mt nul tot (pure a : M α) Q ↔ Q a := Iff.rfl

theorem Mt_bind (x : M α) (f : α → M β) (Q : β → Prop) : Mt nul tot (x >>= f) Q ↔ Mt nul tot x (fun a => Mt nul tot (f a) Q) := by
  cases x with
  | ok a => exact Iff.rfl
  | error e => cases e <;> exact Iff.rfl

theorem Mt.of_holds {x : M α} {Q : α → Prop} (h : Holds x Q) : Mt nul tot x Q := by
  cases x with
  | ok a => exact h
  | error e => exact False.elim h

theorem Mt.of_meets {x : M α} {Q : α → Prop} (h : Meets tot x Q) : Mt nul tot x Q := by
  cases tot
  · cases x with
    | ok a => exact h
    | error e =>
      have : e = .fuel := h
      subst this
      rfl
  · exact Mt.of_holds h

theorem Mt.mono {x : M α} {P Q : α → Prop} (h : Mt nul tot x P) (k : ∀ a, P a → Q a) : Mt nul tot x Q := by
  cases x with
  | ok a => exact k a h
  | error e => cases e <;> exact h

theorem Mt_ite {c : Prop} [Decidable c] {x y : M α} {Q : α → Prop} : Mt nul tot (if c then x else y) Q ↔ (c → Mt nul tot x Q) ∧ (¬ c → Mt nul tot y Q) := by
  by_cases h : c
  · rw [if_pos h]; exact ⟨fun k => ⟨fun _ => k, fun n => absurd h n⟩, fun k => k.1 h⟩
  · rw [if_neg h]; exact ⟨fun k => ⟨fun n => absurd n h, fun _ => k⟩, fun k => k.2 h⟩

end Mt

theorem orgNum_eq {g : Graph} (ha : g.Allocated) {x : Int} (hx : g.Vertex x) : orgNum g x = .ok (org g x) := Kmap.orgNum_holds ha hx

/-- Value that is written in the cell of a vertex. -/
def Act.W : Act → Int → Int → Prop
  | .fron _ _ _, _, _ => False
  | .sepFron g tab nbr, v, x => x = -1 ∧ ∃ i, 0 ≤ i ∧ i < nbr ∧ org g (tab.get i) = v
  | .one g part val dom, v, x => ∃ u, g.Vertex u ∧ org g u = v ∧ part.get u ≠ 1 - val ∧ x = if part.get u = val then dom else -1
  | .both g part dom, v, x => ∃ u, g.Vertex u ∧ org g u = v ∧ x = if part.get u < 2 then dom + part.get u else -1

/-- Vertices that are added to the frontier. -/
def Act.F : Act → Int → Prop
  | .fron g tab nbr, v => ∃ i, 0 ≤ i ∧ i < nbr ∧ org g (tab.get i) = v
  | .sepFron g tab nbr, v => ∃ i, 0 ≤ i ∧ i < nbr ∧ org g (tab.get i) = v
  | .one _ _ _ _, _ => False
  | .both _ _ _, _ => False

/-- A list of vertices. -/
structure TabOk (g : Graph) (tab : Arr Int) (nbr : Int) : Prop where
  nonneg : 0 ≤ nbr
  room : 0 < nbr → tab.lo ≤ 0 ∧ nbr ≤ tab.hi
  vert : ∀ i, 0 ≤ i → i < nbr → g.Vertex (tab.get i)
  inj : ∀ i j, 0 ≤ i → i < nbr → 0 ≤ j → j < nbr → tab.get i = tab.get j → i = j

/-- Arguments are right. -/
def Act.Ok : Act → Prop
  | .fron g tab nbr => Proper g ∧ TabOk g tab nbr
  | .sepFron g tab nbr => Proper g ∧ TabOk g tab nbr
  | .one g part _ _ => Proper g ∧ part.lo ≤ g.baseval ∧ g.vertnnd ≤ part.hi
  | .both g part _ => Proper g ∧ part.lo ≤ g.baseval ∧ g.vertnnd ≤ part.hi

/-- Shared arrays: `lo` and `hi` are the bounds of the numbers of vertices of the partitioned graph, and `S` is the current frontier. -/
structure ShOk (lo hi : Int) (S : Int → Prop) (s0 s : Shared) : Prop where
  part : s.part.lo = s0.part.lo ∧ s.part.hi = s0.part.hi
  fron : s.fron.lo = s0.fron.lo ∧ s.fron.hi = s0.fron.hi
  inside : ∀ v, S v → lo ≤ v ∧ v < hi
  enum : Enum s.fron s.nbr S

/-- Effect on the part array. -/
def Wrote (W : Int → Int → Prop) (a a' : Arr Int) : Prop := (∀ v, (∃ x, W v x) → W v (a'.get v)) ∧ ∀ v, (¬ ∃ x, W v x) → a'.get v = a.get v

theorem Wrote.congr {W W' : Int → Int → Prop} {a a' : Arr Int} (h : Wrote W a a') (e : ∀ v x, W v x ↔ W' v x) : Wrote W' a a' := by
  obtain ⟨h1, h2⟩ := h
  refine ⟨?_, ?_⟩
  · rintro v ⟨x, hx⟩
    exact (e _ _).1 (h1 v ⟨x, (e _ _).2 hx⟩)
  · intro v hv
    exact h2 v (fun ⟨x, hx⟩ => hv ⟨x, (e _ _).1 hx⟩)

/-- One more cell. -/
theorem Wrote.set {W W' : Int → Int → Prop} {a a' : Arr Int} {v x : Int} (h : Wrote W a a') (e : ∀ u y, W' u y ↔ W u y ∨ (u = v ∧ y = x)) : Wrote W' a (a'.set v x) := by
  obtain ⟨h1, h2⟩ := h
  refine ⟨?_, ?_⟩
  · rintro u ⟨y, hy⟩
    rw [Arr.set_get]
    split
    · next hu => exact (e _ _).2 (Or.inr ⟨hu, rfl⟩)
    · next hu =>
      rcases (e u y).1 hy with h | ⟨h, -⟩
      · exact (e _ _).2 (Or.inl (h1 u ⟨y, h⟩))
      · exact absurd h hu
  · intro u hu
    have : u ≠ v := fun h => hu ⟨x, (e _ _).2 (Or.inr ⟨h, rfl⟩)⟩
    rw [Arr.set_get_ne _ _ this]
    exact h2 u (fun ⟨y, hy⟩ => hu ⟨y, (e _ _).2 (Or.inl hy)⟩)

/-- Elements of a list whose index is less than `k`. -/
def Below (g : Graph) (tab : Arr Int) (k v : Int) : Prop := ∃ i, 0 ≤ i ∧ i < k ∧ org g (tab.get i) = v

theorem Below.next {g : Graph} {tab : Arr Int} {k v : Int} (hk : 0 ≤ k) : Below g tab (k + 1) v ↔ Below g tab k v ∨ v = org g (tab.get k) := by
  constructor
  · rintro ⟨i, h1, h2, h3⟩
    by_cases h : i = k
    · rw [h] at h3; exact Or.inr h3.symm
    · exact Or.inl ⟨i, h1, by omega, h3⟩
  · rintro (⟨i, h1, h2, h3⟩ | h)
    · exact ⟨i, h1, by omega, h3⟩
    · exact ⟨k, hk, by omega, h.symm⟩

theorem not_below {g : Graph} {tab : Arr Int} {nbr k : Int} (hg : Proper g) (ht : TabOk g tab nbr) (k0 : 0 ≤ k) (k1 : k < nbr) : ¬ Below g tab k (org g (tab.get k)) := by
  rintro ⟨i, h1, h2, h3⟩
  have := ht.inj i k h1 (by omega) k0 k1 (hg.inj _ _ (ht.vert i h1 (by omega)) (ht.vert k k0 k1) h3)
  omega

variable {lo hi : Int} {S : Int → Prop} {s0 s : Shared}

theorem run_holds (a : Act) (ha : a.Ok) (hp : s0.part.lo ≤ lo ∧ hi ≤ s0.part.hi) (hf : s0.fron.lo ≤ 0 ∧ hi - lo ≤ s0.fron.hi) (hW : ∀ v x, a.W v x → lo ≤ v ∧ v < hi) (hF : ∀ v, a.F v → lo ≤ v ∧ v < hi)
    (hd : ∀ v, a.F v → ¬ S v) (I : ShOk lo hi S s0 s) : Holds (a.run s) (fun s' => ShOk lo hi (fun v => S v ∨ a.F v) s0 s' ∧ Wrote a.W s.part s'.part) := by
  have i1 := I.part
  have i2 := I.fron
  have n0 := I.enum.1
  cases a with
  | fron g tab nbr =>
    obtain ⟨hg, ht⟩ := ha
    change Holds (forUp 0 nbr s.fron _ >>= _) _
    rw [Holds_bind]
    refine Holds_forUp (fun k (a : Arr Int) => (a.lo = s0.fron.lo ∧ a.hi = s0.fron.hi) ∧ Enum a (s.nbr + k) (fun v => S v ∨ Below g tab k v)) ht.nonneg ?_ ?_ ?_
    · refine ⟨i2, ?_⟩
      rw [Int.add_zero]
      exact I.enum.congr fun v => ⟨Or.inl, fun h => h.elim id (fun ⟨i, h1, h2, _⟩ => by omega)⟩
    · rintro k a k0 k1 ⟨e1, e2⟩
      have hrm := ht.room (by omega)
      have hv := ht.vert k k0 k1
      have hx := hF (org g (tab.get k)) ⟨k, k0, k1, rfl⟩
      have hns : ¬ (S (org g (tab.get k)) ∨ Below g tab k (org g (tab.get k))) := by
        rintro (h | h)
        · exact hd _ ⟨k, k0, k1, rfl⟩ h
        · exact not_below hg ht k0 k1 h
      have hlt := e2.lt (lo := lo) (hi := hi) (x := org g (tab.get k)) (by
        rintro v (h | ⟨i, h1, h2, h3⟩)
        · exact I.inside v h
        · exact hF v ⟨i, h1, by omega, h3⟩) hns hx.1 hx.2
      rw [Arr.rd_ok _ (by omega) (by omega), ok_bind, orgNum_eq hg.alloc hv, ok_bind, Arr.wr_ok _ _ (by omega) (by omega), Holds_ok]
      refine ⟨e1, ?_⟩
      rw [← Int.add_assoc]
      refine (e2.push hns).congr fun v => ?_
      rw [Below.next k0, or_assoc]
    · rintro a ⟨e1, e2⟩
      rw [Holds_pure]
      refine ⟨⟨i1, e1, ?_, e2⟩, ?_, fun v _ => rfl⟩
      · rintro v (h | h)
        · exact I.inside v h
        · exact hF v h
      · rintro v ⟨x, hx⟩
        exact False.elim hx
  | sepFron g tab nbr =>
    obtain ⟨hg, ht⟩ := ha
    change Holds (forUp 0 nbr (s.fron, s.part) _ >>= _) _
    rw [Holds_bind]
    refine Holds_forUp (fun k (r : Arr Int × Arr Int) => (r.1.lo = s0.fron.lo ∧ r.1.hi = s0.fron.hi) ∧ (r.2.lo = s0.part.lo ∧ r.2.hi = s0.part.hi) ∧ Enum r.1 (s.nbr + k) (fun v => S v ∨ Below g tab k v) ∧
      Wrote (fun v x => x = -1 ∧ Below g tab k v) s.part r.2) ht.nonneg ?_ ?_ ?_
    · refine ⟨i2, i1, ?_, ?_, fun v _ => rfl⟩
      · rw [Int.add_zero]
        exact I.enum.congr fun v => ⟨Or.inl, fun h => h.elim id (fun ⟨i, h1, h2, _⟩ => by omega)⟩
      · rintro v ⟨x, -, i, h1, h2, -⟩
        omega
    · rintro k ⟨a, c⟩ k0 k1 ⟨e1, e2, e3, e4⟩
      dsimp only at e1 e2 e3 e4 ⊢
      have hrm := ht.room (by omega)
      have hv := ht.vert k k0 k1
      have hx := hF (org g (tab.get k)) ⟨k, k0, k1, rfl⟩
      have hns : ¬ (S (org g (tab.get k)) ∨ Below g tab k (org g (tab.get k))) := by
        rintro (h | h)
        · exact hd _ ⟨k, k0, k1, rfl⟩ h
        · exact not_below hg ht k0 k1 h
      have hlt := e3.lt (lo := lo) (hi := hi) (x := org g (tab.get k)) (by
        rintro v (h | ⟨i, h1, h2, h3⟩)
        · exact I.inside v h
        · exact hF v ⟨i, h1, by omega, h3⟩) hns hx.1 hx.2
      rw [Arr.rd_ok _ (by omega) (by omega), ok_bind, orgNum_eq hg.alloc hv, ok_bind, Arr.wr_ok _ _ (by omega) (by omega), ok_bind, Arr.wr_ok _ _ (by omega) (by omega), ok_bind, Holds_pure]
      refine ⟨e1, e2, ?_, ?_⟩
      · dsimp only
        rw [← Int.add_assoc]
        refine (e3.push hns).congr fun v => ?_
        rw [Below.next k0, or_assoc]
      · refine e4.set fun u y => ?_
        rw [Below.next k0]
        constructor
        · rintro ⟨h1, h2 | h2⟩
          · exact Or.inl ⟨h1, h2⟩
          · exact Or.inr ⟨h2, h1⟩
        · rintro (⟨h1, h2⟩ | ⟨h2, h1⟩)
          · exact ⟨h1, Or.inl h2⟩
          · exact ⟨h1, Or.inr h2⟩
    · rintro ⟨a, c⟩ ⟨e1, e2, e3, e4⟩
      rw [Holds_pure]
      refine ⟨⟨e2, e1, ?_, e3⟩, e4⟩
      rintro v (h | h)
      · exact I.inside v h
      · exact hF v h
  | one g part val dom =>
    obtain ⟨hg, h1, h2⟩ := ha
    have hnn := hg.cons.vertnnd
    have hn0 := hg.cons.vertnbr
    change Holds (forUp g.baseval g.vertnnd s.part _ >>= _) _
    rw [Holds_bind]
    refine Holds_forUp (fun k (a : Arr Int) => (a.lo = s0.part.lo ∧ a.hi = s0.part.hi) ∧ Wrote (fun v x => ∃ u, u < k ∧ g.Vertex u ∧ org g u = v ∧ part.get u ≠ 1 - val ∧ x = if part.get u = val then dom else -1) s.part a) (by omega) ?_ ?_ ?_
    · refine ⟨i1, ?_, fun v _ => rfl⟩
      rintro v ⟨x, u, hu, hu2, -⟩
      have := hu2.1
      omega
    · rintro k a k0 k1 ⟨e1, e2⟩
      have hk : g.Vertex k := ⟨k0, k1⟩
      rw [Arr.rd_ok _ (by omega) (by omega), ok_bind, Holds_ite]
      refine ⟨fun hne => ?_, fun he => ?_⟩
      · have hx := hW (org g k) _ ⟨k, hk, rfl, hne, rfl⟩
        rw [orgNum_eq hg.alloc hk, ok_bind, Arr.wr_ok _ _ (by omega) (by omega), Holds_ok]
        refine ⟨e1, e2.set fun u y => ?_⟩
        constructor
        · rintro ⟨w, w1, w2, w3, w4, w5⟩
          by_cases h : w = k
          · rw [h] at w3 w5; exact Or.inr ⟨w3.symm, w5⟩
          · exact Or.inl ⟨w, by omega, w2, w3, w4, w5⟩
        · rintro (⟨w, w1, w2⟩ | ⟨rfl, rfl⟩)
          · exact ⟨w, by omega, w2⟩
          · exact ⟨k, by omega, hk, rfl, hne, rfl⟩
      · rw [Holds_pure]
        refine ⟨e1, e2.congr fun v x => ?_⟩
        constructor
        · rintro ⟨w, w1, w2⟩
          exact ⟨w, by omega, w2⟩
        · rintro ⟨w, w1, w2, w3, w4, w5⟩
          refine ⟨w, ?_, w2, w3, w4, w5⟩
          have : w ≠ k := fun h => he (by rw [← h]; exact w4)
          omega
    · rintro a ⟨e1, e2⟩
      rw [Holds_pure]
      refine ⟨⟨e1, i2, ?_, ?_⟩, e2.congr fun v x => ?_⟩
      · rintro v (h | h)
        · exact I.inside v h
        · exact False.elim h
      · exact I.enum.congr fun v => ⟨Or.inl, fun h => h.elim id False.elim⟩
      · exact ⟨fun ⟨w, _, w2⟩ => ⟨w, w2⟩, fun ⟨w, w2⟩ => ⟨w, w2.1.2, w2⟩⟩
  | both g part dom =>
    obtain ⟨hg, h1, h2⟩ := ha
    have hnn := hg.cons.vertnnd
    have hn0 := hg.cons.vertnbr
    change Holds (forUp g.baseval g.vertnnd s.part _ >>= _) _
    rw [Holds_bind]
    refine Holds_forUp (fun k (a : Arr Int) => (a.lo = s0.part.lo ∧ a.hi = s0.part.hi) ∧ Wrote (fun v x => ∃ u, u < k ∧ g.Vertex u ∧ org g u = v ∧ x = if part.get u < 2 then dom + part.get u else -1) s.part a) (by omega) ?_ ?_ ?_
    · refine ⟨i1, ?_, fun v _ => rfl⟩
      rintro v ⟨x, u, hu, hu2, -⟩
      have := hu2.1
      omega
    · rintro k a k0 k1 ⟨e1, e2⟩
      have hk : g.Vertex k := ⟨k0, k1⟩
      have hx := hW (org g k) _ ⟨k, hk, rfl, rfl⟩
      rw [Arr.rd_ok _ (by omega) (by omega), ok_bind, orgNum_eq hg.alloc hk, ok_bind, Arr.wr_ok _ _ (by omega) (by omega), Holds_ok]
      refine ⟨e1, e2.set fun u y => ?_⟩
      constructor
      · rintro ⟨w, w1, w2, w3, w5⟩
        by_cases h : w = k
        · rw [h] at w3 w5; exact Or.inr ⟨w3.symm, w5⟩
        · exact Or.inl ⟨w, by omega, w2, w3, w5⟩
      · rintro (⟨w, w1, w2⟩ | ⟨rfl, rfl⟩)
        · exact ⟨w, by omega, w2⟩
        · exact ⟨k, by omega, hk, rfl, rfl⟩
    · rintro a ⟨e1, e2⟩
      rw [Holds_pure]
      refine ⟨⟨e1, i2, ?_, ?_⟩, e2.congr fun v x => ?_⟩
      · rintro v (h | h)
        · exact I.inside v h
        · exact False.elim h
      · exact I.enum.congr fun v => ⟨Or.inl, fun h => h.elim id False.elim⟩
      · exact ⟨fun ⟨w, _, w2⟩ => ⟨w, w2⟩, fun ⟨w, w2⟩ => ⟨w, w2.1.2, w2⟩⟩

/-- No vertex is added twice to the frontier. -/
def Apart (l : List Act) : Prop := l.Pairwise fun a b => ∀ v, ¬ (a.F v ∧ b.F v)

theorem runAll_holds : ∀ (l : List Act) (S : Int → Prop) (s : Shared), (∀ a ∈ l, a.Ok ∧ (∀ v x, a.W v x → lo ≤ v ∧ v < hi) ∧ (∀ v, a.F v → lo ≤ v ∧ v < hi)) → Apart l → (∀ a ∈ l, ∀ v, a.F v → ¬ S v) →
    s0.part.lo ≤ lo ∧ hi ≤ s0.part.hi → s0.fron.lo ≤ 0 ∧ hi - lo ≤ s0.fron.hi → ShOk lo hi S s0 s →
    Holds (runAll l s) (fun s' => ShOk lo hi (fun v => S v ∨ ∃ a ∈ l, a.F v) s0 s' ∧ (∀ v, (∃ a ∈ l, ∃ x, a.W v x) → ∃ a ∈ l, a.W v (s'.part.get v)) ∧ ∀ v, (¬ ∃ a ∈ l, ∃ x, a.W v x) → s'.part.get v = s.part.get v) := by
  intro l
  induction l with
  | nil =>
    intro S s _ _ _ _ _ I
    refine ⟨⟨I.part, I.fron, ?_, ?_⟩, ?_, fun v _ => rfl⟩
    · rintro v (h | ⟨a, ha, -⟩)
      · exact I.inside v h
      · cases ha
    · exact I.enum.congr fun v => ⟨Or.inl, fun h => h.elim id (fun ⟨a, ha, _⟩ => by cases ha)⟩
    · rintro v ⟨a, ha, -⟩
      cases ha
  | cons a l ih =>
    intro S s hl hA hS hp hf I
    obtain ⟨p1, p2⟩ := List.pairwise_cons.1 hA
    obtain ⟨q1, q2, q3⟩ := hl a List.mem_cons_self
    rw [runAll, Holds_bind]
    refine (run_holds a q1 hp hf q2 q3 (hS a List.mem_cons_self) I).mono ?_
    rintro s1 ⟨I1, w1, w2⟩
    refine (ih _ s1 (fun c hc => hl c (List.mem_cons_of_mem _ hc)) p2 ?_ hp hf I1).mono ?_
    · rintro c hc v hv (h | h)
      · exact hS c (List.mem_cons_of_mem _ hc) v hv h
      · exact p1 c hc v ⟨h, hv⟩
    · rintro s' ⟨I2, w3, w4⟩
      refine ⟨⟨I2.part, I2.fron, ?_, I2.enum.congr fun v => ?_⟩, ?_, ?_⟩
      · rintro v (h | ⟨c, hc, h⟩)
        · exact I.inside v h
        · exact (hl c hc).2.2 v h
      · constructor
        · rintro ((h | h) | ⟨c, hc, h⟩)
          · exact Or.inl h
          · exact Or.inr ⟨a, List.mem_cons_self, h⟩
          · exact Or.inr ⟨c, List.mem_cons_of_mem _ hc, h⟩
        · rintro (h | ⟨c, hc, h⟩)
          · exact Or.inl (Or.inl h)
          · rcases List.mem_cons.1 hc with rfl | hc
            · exact Or.inl (Or.inr h)
            · exact Or.inr ⟨c, hc, h⟩
      · rintro v ⟨c, hc, hx⟩
        by_cases h : ∃ c ∈ l, ∃ x, c.W v x
        · obtain ⟨c', hc', h'⟩ := w3 v h
          exact ⟨c', List.mem_cons_of_mem _ hc', h'⟩
        · rcases List.mem_cons.1 hc with rfl | hc
          · refine ⟨c, List.mem_cons_self, ?_⟩
            rw [w4 v h]
            exact w1 v hx
          · exact absurd ⟨c, hc, hx⟩ h
      · intro v hv
        rw [w4 v (fun ⟨c, hc, h⟩ => hv ⟨c, List.mem_cons_of_mem _ hc, h⟩)]
        exact w2 v (fun h => hv ⟨a, List.mem_cons_self, h⟩)

end Scotch.Ovl
