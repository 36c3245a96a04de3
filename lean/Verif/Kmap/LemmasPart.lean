import Verif.Kmap.Lemmas

/-! # Static mapping: partitioning version -/

set_option autoImplicit false
set_option linter.unusedSimpArgs false

namespace Scotch.Kmap

variable {D : Type} {o : ArchOps D} {n : Int} {w : Int → Int} {Valid : D → Prop} {Has : D → Int → Prop}

/-- Original vertices of a split. -/
def InS (s : Split D) (v : Int) : Prop := ∃ x, s.g.Vertex x ∧ org s.g x = v ∧ ∀ p, s.part = some p → p.get x = s.val

structure SplitOk (s : Split D) : Prop where
  g : Proper s.g
  part : ∀ p, s.part = some p → p.lo ≤ s.g.baseval ∧ s.g.vertnnd ≤ p.hi ∧ s.nbr = (ofPart s.g p s.val).length

theorem InS_dom (s : Split D) (d : D) (v : Int) : InS { s with dom := d } v ↔ InS s v := Iff.rfl

theorem SplitOk.dom {s : Split D} (h : SplitOk s) (d : D) : SplitOk { s with dom := d } := ⟨h.g, h.part⟩

theorem indGraph_holds {env : Env D} (he : env.Ok) (p : List Nat) {s : Split D} (hs : SplitOk s) :
    Holds (indGraph env p s) fun h => Proper h ∧ ∀ v, Verts h v ↔ InS s v := by
  unfold indGraph
  cases hp : s.part with
  | none =>
    refine ⟨hs.g, fun v => ?_⟩
    unfold Verts InS
    constructor
    · rintro ⟨x, h1, h2⟩
      exact ⟨x, h1, h2, fun p h => by rw [hp] at h; cases h⟩
    · rintro ⟨x, h1, h2, -⟩
      exact ⟨x, h1, h2⟩
  | some a =>
    obtain ⟨h1, h2, h3⟩ := hs.part a hp
    dsimp only
    by_cases hlt : s.nbr < s.g.vertnbr
    · rw [if_pos hlt]
      refine (induce_holds hs.g he.al _ ⟨h1, h2⟩ h3).mono ?_
      rintro h ⟨i1, -, i2⟩
      refine ⟨i1, fun v => ?_⟩
      rw [i2]
      unfold InS
      constructor
      · rintro ⟨x, x1, x2, x3⟩
        exact ⟨x, x1, x2, fun q hq => by rw [hp] at hq; cases hq; exact x3⟩
      · rintro ⟨x, x1, x2, x3⟩
        exact ⟨x, x1, x2, x3 a hp⟩
    · rw [if_neg hlt]
      refine ⟨hs.g, fun v => ?_⟩
      have := ofPart_full hs.g.cons (part := a) (val := s.val) (by omega)
      unfold Verts InS
      constructor
      · rintro ⟨x, x1, x2⟩
        exact ⟨x, x1, x2, fun q hq => by rw [hp] at hq; cases hq; exact this x x1⟩
      · rintro ⟨x, x1, x2, -⟩
        exact ⟨x, x1, x2⟩

theorem Cut.allows_of_vertex {c : Cut D} (hc : Proper c.g) {x : Int} (hx : c.g.Vertex x) {k : Int} : c.Allows Has (org c.g x) k ↔ Has (c.side x) k := by
  unfold Cut.Allows
  constructor
  · intro h; exact h x hx rfl
  · intro h y hy e
    rw [hc.inj y x hy hx e]
    exact h

theorem Cut.allows_of_not {c : Cut D} {v : Int} (h : ¬ Verts c.g v) (k : Int) : c.Allows Has v k := fun x hx e => absurd ⟨x, hx, e⟩ h

/-- Outcome of the recursion. -/
structure Leaves (Valid : D → Prop) (Has : D → Int → Prop) (s : Split D) (ls : List (Split D)) (log : List (Cut D)) : Prop where
  ok : ∀ l ∈ ls, SplitOk l ∧ Valid l.dom ∧ ∃ k, ∀ j, Has l.dom j ↔ j = k
  into : ∀ l ∈ ls, ∀ v, InS l v → InS s v
  onto : ∀ v, InS s v → ∃ l ∈ ls, InS l v
  disj : ls.Pairwise fun a b => ∀ v, ¬ (InS a v ∧ InS b v)
  exact : ∀ l ∈ ls, ∀ v, InS l v → ∀ k, Has l.dom k ↔ Has s.dom k ∧ ∀ c ∈ log, c.Allows Has v k
  cuts : ∀ c ∈ log, Proper c.g ∧ ∀ v, Verts c.g v → InS s v
  nopart : ∀ l ∈ ls, l.part = none → ls = [l]
  hasp : s.part ≠ none → ∀ l ∈ ls, l.part ≠ none
  sub : ∀ l ∈ ls, ∀ k, Has l.dom k → Has s.dom k
  ddisj : ls.Pairwise fun a b => ∀ k, ¬ (Has a.dom k ∧ Has b.dom k)

theorem tally_halves {d d0 d1 : D} (hA : ArchLaws o n w Valid Has) (v0 : Valid d0) (v1 : Valid d1) (e0 : ∃ k, Has d0 k) (e1 : ∃ k, Has d1 k)
    (hu : ∀ k, Has d k ↔ Has d0 k ∨ Has d1 k) (hdis : ∀ k, ¬ (Has d0 k ∧ Has d1 k)) :
    tally n (fun _ => 1) (Has d) = tally n (fun _ => 1) (Has d0) + tally n (fun _ => 1) (Has d1) ∧ 1 ≤ tally n (fun _ => 1) (Has d0) ∧ 1 ≤ tally n (fun _ => 1) (Has d1) := by
  obtain ⟨k0, e0⟩ := e0
  obtain ⟨k1, e1⟩ := e1
  have w0 := hA.within d0 k0 v0 e0
  have w1 := hA.within d1 k1 v1 e1
  refine ⟨?_, tally_one_pos w0.1 w0.2 e0, tally_one_pos w1.1 w1.2 e1⟩
  rw [tally_congr (Q := fun k => Has d0 k ∨ Has d1 k) (fun j _ _ => hu j), tally_or hdis]

theorem tally_pos (hA : ArchLaws o n w Valid Has) {d : D} (hd : Valid d) : 1 ≤ tally n (fun _ => 1) (Has d) := by
  obtain ⟨k, -, hk⟩ := Holds_iff_exists.1 (hA.num d hd)
  have := hA.within d k hd hk
  exact tally_one_pos this.1 this.2 hk

/-- A cut with all vertices on one side. -/
theorem Leaves.one {s : Split D} {ls : List (Split D)} {log : List (Cut D)} {d d0 d1 : D} {h : Graph} {part : Arr Int} (hh : Proper h) (hv : ∀ v, Verts h v ↔ InS s v)
    (hsub : ∀ k, Has d k → Has s.dom k) (hside : ∀ x, h.Vertex x → (⟨h, d0, d1, part⟩ : Cut D).side x = d)
    (L : Leaves Valid Has { s with dom := d } ls log) : Leaves Valid Has s ls (⟨h, d0, d1, part⟩ :: log) := by
  refine ⟨L.ok, L.into, L.onto, L.disj, ?_, ?_, L.nopart, L.hasp, fun l hl k hk => hsub k (L.sub l hl k hk), L.ddisj⟩
  · intro l hl v hlv k
    rw [L.exact l hl v hlv k]
    have hin := (hv v).2 (L.into l hl v hlv)
    obtain ⟨x, hx, rfl⟩ := hin
    have ha := Cut.allows_of_vertex (Has := Has) (c := ⟨h, d0, d1, part⟩) hh hx (k := k)
    rw [hside x hx] at ha
    simp only [List.mem_cons, forall_eq_or_imp]
    rw [ha]
    constructor
    · rintro ⟨a, b⟩; exact ⟨hsub k a, a, b⟩
    · rintro ⟨-, a, b⟩; exact ⟨a, b⟩
  · intro c hc
    rcases List.mem_cons.1 hc with rfl | hc
    · exact ⟨hh, fun v h => (hv v).1 h⟩
    · exact L.cuts c hc

/-- A cut in two halves. -/
theorem Leaves.two {s : Split D} {l0 l1 : List (Split D)} {log0 log1 : List (Cut D)} {d0 d1 : D} {h : Graph} {part : Arr Int} {n0 n1 : Int} (hh : Proper h) (hv : ∀ v, Verts h v ↔ InS s v)
    (hsub : ∀ k, Has s.dom k ↔ Has d0 k ∨ Has d1 k) (hdis : ∀ k, ¬ (Has d0 k ∧ Has d1 k)) (hp : ∀ v, h.Vertex v → part.get v = 0 ∨ part.get v = 1)
    (L0 : Leaves Valid Has ⟨h, some part, 0, n0, d0⟩ l0 log0) (L1 : Leaves Valid Has ⟨h, some part, 1, n1, d1⟩ l1 log1) :
    Leaves Valid Has s (l0 ++ l1) (⟨h, d0, d1, part⟩ :: (log0 ++ log1)) := by
  have in0 : ∀ {i : Int} {m : Int} {d : D} v, InS (⟨h, some part, i, m, d⟩ : Split D) v ↔ ∃ x, h.Vertex x ∧ org h x = v ∧ part.get x = i := by
    intro i m d v
    unfold InS
    constructor
    · rintro ⟨x, x1, x2, x3⟩; exact ⟨x, x1, x2, x3 part rfl⟩
    · rintro ⟨x, x1, x2, x3⟩; exact ⟨x, x1, x2, fun q hq => by cases hq; exact x3⟩
  have dis : ∀ v, InS (⟨h, some part, 0, n0, d0⟩ : Split D) v → InS (⟨h, some part, 1, n1, d1⟩ : Split D) v → False := by
    intro v a b
    obtain ⟨x, x1, x2, x3⟩ := (in0 v).1 a
    obtain ⟨y, y1, y2, y3⟩ := (in0 v).1 b
    have := hh.inj x y x1 y1 (x2.trans y2.symm)
    rw [this, y3] at x3
    omega
  refine ⟨?_, ?_, ?_, ?_, ?_, ?_, ?_, ?_, ?_, ?_⟩
  · intro l hl
    rcases List.mem_append.1 hl with hl | hl
    · exact L0.ok l hl
    · exact L1.ok l hl
  · intro l hl v hlv
    apply (hv v).1
    rcases List.mem_append.1 hl with hl | hl
    · obtain ⟨x, x1, x2, -⟩ := (in0 v).1 (L0.into l hl v hlv); exact ⟨x, x1, x2⟩
    · obtain ⟨x, x1, x2, -⟩ := (in0 v).1 (L1.into l hl v hlv); exact ⟨x, x1, x2⟩
  · intro v hsv
    obtain ⟨x, x1, x2⟩ := (hv v).2 hsv
    rcases hp x x1 with e | e
    · obtain ⟨l, hl, hlv⟩ := L0.onto v ((in0 v).2 ⟨x, x1, x2, e⟩)
      exact ⟨l, List.mem_append.2 (Or.inl hl), hlv⟩
    · obtain ⟨l, hl, hlv⟩ := L1.onto v ((in0 v).2 ⟨x, x1, x2, e⟩)
      exact ⟨l, List.mem_append.2 (Or.inr hl), hlv⟩
  · rw [List.pairwise_append]
    refine ⟨L0.disj, L1.disj, ?_⟩
    rintro a ha b hb v ⟨h1, h2⟩
    exact dis v (L0.into a ha v h1) (L1.into b hb v h2)
  · intro l hl v hlv k
    rcases List.mem_append.1 hl with hl | hl
    · have hi := L0.into l hl v hlv
      rw [L0.exact l hl v hlv k]
      obtain ⟨x, hx, rfl, h0⟩ := (in0 v).1 hi
      have ha := Cut.allows_of_vertex (Has := Has) (c := ⟨h, d0, d1, part⟩) hh hx (k := k)
      rw [show (⟨h, d0, d1, part⟩ : Cut D).side x = d0 by unfold Cut.side; exact if_pos h0] at ha
      simp only [List.mem_cons, forall_eq_or_imp, List.mem_append]
      rw [ha, hsub]
      constructor
      · rintro ⟨a, b⟩
        refine ⟨Or.inl a, a, ?_⟩
        rintro c (hc | hc)
        · exact b c hc
        · exact Cut.allows_of_not (fun hn => dis _ hi ((L1.cuts c hc).2 _ hn)) k
      · rintro ⟨-, a, b⟩; exact ⟨a, fun c hc => b c (Or.inl hc)⟩
    · have hi := L1.into l hl v hlv
      rw [L1.exact l hl v hlv k]
      obtain ⟨x, hx, rfl, h0⟩ := (in0 v).1 hi
      have ha := Cut.allows_of_vertex (Has := Has) (c := ⟨h, d0, d1, part⟩) hh hx (k := k)
      rw [show (⟨h, d0, d1, part⟩ : Cut D).side x = d1 by unfold Cut.side; exact if_neg (by dsimp only; omega)] at ha
      simp only [List.mem_cons, forall_eq_or_imp, List.mem_append]
      rw [ha, hsub]
      constructor
      · rintro ⟨a, b⟩
        refine ⟨Or.inr a, a, ?_⟩
        rintro c (hc | hc)
        · exact Cut.allows_of_not (fun hn => dis _ ((L0.cuts c hc).2 _ hn) hi) k
        · exact b c hc
      · rintro ⟨-, a, b⟩; exact ⟨a, fun c hc => b c (Or.inr hc)⟩
  · intro c hc
    rcases List.mem_cons.1 hc with rfl | hc
    · exact ⟨hh, fun v h => (hv v).1 h⟩
    · rcases List.mem_append.1 hc with hc | hc
      · refine ⟨(L0.cuts c hc).1, fun v h => (hv v).1 ?_⟩
        obtain ⟨x, x1, x2, -⟩ := (in0 v).1 ((L0.cuts c hc).2 v h); exact ⟨x, x1, x2⟩
      · refine ⟨(L1.cuts c hc).1, fun v h => (hv v).1 ?_⟩
        obtain ⟨x, x1, x2, -⟩ := (in0 v).1 ((L1.cuts c hc).2 v h); exact ⟨x, x1, x2⟩
  · intro l hl hn
    rcases List.mem_append.1 hl with hl | hl
    · exact absurd hn (L0.hasp (fun h => by cases h) l hl)
    · exact absurd hn (L1.hasp (fun h => by cases h) l hl)
  · intro _ l hl
    rcases List.mem_append.1 hl with hl | hl
    · exact L0.hasp (fun h => by cases h) l hl
    · exact L1.hasp (fun h => by cases h) l hl
  · intro l hl k hk
    rw [hsub]
    rcases List.mem_append.1 hl with hl | hl
    · exact Or.inl (L0.sub l hl k hk)
    · exact Or.inr (L1.sub l hl k hk)
  · rw [List.pairwise_append]
    refine ⟨L0.ddisj, L1.ddisj, ?_⟩
    rintro a ha b hb k ⟨h1, h2⟩
    exact hdis k ⟨L0.sub a ha k h1, L1.sub b hb k h2⟩

theorem part2_holds (hA : ArchLaws o n w Valid Has) {env : Env D} (he : env.Ok) : ∀ (f : Nat) (p : List Nat) (s : Split D), SplitOk s → Valid s.dom →
    tally n (fun _ => 1) (Has s.dom) ≤ f → Holds (part2 o env f p s) fun r => r.1 = 0 ∧ Leaves Valid Has s r.2.1 r.2.2 := by
  intro f
  induction f with
  | zero => intro p s _ hd hf; have := tally_pos hA hd; omega
  | succ f ih =>
    intro p s hs hd hf
    rw [part2, Holds_bind]
    refine (hA.bipart s.dom hd).mono ?_
    intro r hr
    match r with
    | none =>
      refine ⟨rfl, ?_⟩
      refine ⟨?_, ?_, ?_, List.pairwise_singleton _ _, ?_, ?_, ?_, ?_, ?_, List.pairwise_singleton _ _⟩
      · intro l hl; rw [List.mem_singleton.1 hl]; exact ⟨hs, hd, hr⟩
      · intro l hl v h; rw [List.mem_singleton.1 hl] at h; exact h
      · intro v h; exact ⟨s, List.mem_singleton.2 rfl, h⟩
      · intro l hl v _ k; rw [List.mem_singleton.1 hl]; exact ⟨fun h => ⟨h, fun c hc => by cases hc⟩, fun h => h.1⟩
      · intro c hc; cases hc
      · intro l hl _; rw [List.mem_singleton.1 hl]
      · intro h l hl; rw [List.mem_singleton.1 hl]; exact h
      · intro l hl k; rw [List.mem_singleton.1 hl]; exact id
    | some (d0, d1) =>
      obtain ⟨v0, v1, e0, e1, hu, hdis⟩ := hr
      obtain ⟨t1, t2, t3⟩ := tally_halves hA v0 v1 e0 e1 hu hdis
      dsimp only
      rw [Holds_bind]
      refine (indGraph_holds he p hs).mono ?_
      rintro h ⟨hh, hv⟩
      rw [Holds_bind]
      refine (he.bip p h d0 d1 hh.cons hh.alloc hh.base).mono ?_
      rintro _ ⟨part, size0, rfl, p1, p2, p3, p4⟩
      dsimp only
      have hlen := ofPart_len hh.cons p3
      by_cases hz : size0 = 0
      · rw [if_pos hz, Holds_bind]
        have hone := ofPart_full hh.cons (part := part) (val := 1) (by omega)
        refine (ih (0 :: p) { s with dom := d1 } (hs.dom d1) v1 (by dsimp only; push_cast at hf; omega)).mono ?_
        rintro ⟨c, ls, log⟩ ⟨rfl, L⟩
        refine ⟨rfl, L.one hh hv (fun k hk => (hu k).2 (Or.inr hk)) ?_⟩
        intro x hx
        unfold Cut.side
        exact if_neg (by dsimp only; rw [hone x hx]; decide)
      rw [if_neg hz]
      by_cases hz2 : size0 = h.vertnbr
      · rw [if_pos hz2, Holds_bind]
        have hone := ofPart_full hh.cons (part := part) (val := 0) (by omega)
        refine (ih (0 :: p) { s with dom := d0 } (hs.dom d0) v0 (by dsimp only; push_cast at hf; omega)).mono ?_
        rintro ⟨c, ls, log⟩ ⟨rfl, L⟩
        refine ⟨rfl, L.one hh hv (fun k hk => (hu k).2 (Or.inl hk)) ?_⟩
        intro x hx
        unfold Cut.side
        exact if_pos (hone x hx)
      rw [if_neg hz2, Holds_bind]
      refine (ih (1 :: p) ⟨h, some part, 0, size0, d0⟩ ⟨hh, fun q hq => by cases hq; exact ⟨p1, p2, p4⟩⟩ v0 (by dsimp only; push_cast at hf; omega)).mono ?_
      rintro ⟨c0, l0, log0⟩ ⟨rfl, L0⟩
      dsimp only
      rw [if_neg (fun h => h.1 rfl), Holds_bind]
      refine (ih (2 :: p) ⟨h, some part, 1, h.vertnbr - size0, d1⟩ ⟨hh, fun q hq => by cases hq; exact ⟨p1, p2, by dsimp only; omega⟩⟩ v1 (by dsimp only; push_cast at hf; omega)).mono ?_
      rintro ⟨c1, l1, log1⟩ ⟨rfl, L1⟩
      refine ⟨?_, L0.two hh hv hu hdis p3 L1⟩
      dsimp only
      rw [if_neg (fun h => h rfl)]

/-! ## Recording of terminal domains -/

/-- What recursive bipartitioning yields on the vertices that satisfy `free`. -/
structure Done (Valid : D → Prop) (Has : D → Int → Prop) (lo hi : Int) (free : Int → Prop) (domnorg : D) (log : List (Cut D)) (m : Mapping D) : Prop where
  plo : m.parttax.lo = lo
  phi : m.parttax.hi = hi
  dlo : m.domntab.lo = 0
  dhi : m.domntab.hi = m.domnmax
  nbr : 0 ≤ m.domnnbr ∧ m.domnnbr ≤ m.domnmax
  dom : ∀ i, 0 ≤ i → i < m.domnnbr → Valid (m.domntab.get i) ∧ ∃ k, ∀ j, Has (m.domntab.get i) j ↔ j = k
  part : ∀ v, free v → 0 ≤ m.parttax.get v ∧ m.parttax.get v < m.domnnbr ∧ ∀ k, Has (m.domntab.get (m.parttax.get v)) k ↔ Has domnorg k ∧ ∀ c ∈ log, c.Allows Has v k
  disj : ∀ i j, 0 ≤ i → i < m.domnnbr → 0 ≤ j → j < m.domnnbr → i ≠ j → ∀ k, ¬ (Has (m.domntab.get i) k ∧ Has (m.domntab.get j) k)
  cuts : ∀ c ∈ log, Proper c.g ∧ ∀ v, Verts c.g v → free v

/-- Writing of the vertices of a part. -/
theorem part3Write_holds {s : Split D} (hs : SplitOk s) (k : Int) {a : Arr Int} (ha : ∀ v, InS s v → a.lo ≤ v ∧ v < a.hi) (hk : s.part = none → k = 0) :
    Holds (part3Write s k a) fun a' => a'.lo = a.lo ∧ a'.hi = a.hi ∧ (∀ v, InS s v → a'.get v = k) ∧ ∀ v, ¬ InS s v → a'.get v = a.get v := by
  have hnn := hs.g.cons.vertnnd
  have hnb := hs.g.cons.vertnbr
  -- common invariant
  have main : ∀ body : Int → Arr Int → M (Arr Int), (∀ x, s.g.Vertex x → (∀ p, s.part = some p → p.get x = s.val) → ∀ b : Arr Int, body x b = b.wr (org s.g x) k) →
      (∀ x, s.g.Vertex x → ¬ (∀ p, s.part = some p → p.get x = s.val) → ∀ b : Arr Int, body x b = .ok b) →
      Holds (forUp s.g.baseval s.g.vertnnd a body) fun a' => a'.lo = a.lo ∧ a'.hi = a.hi ∧ (∀ v, InS s v → a'.get v = k) ∧ ∀ v, ¬ InS s v → a'.get v = a.get v := by
    intro body hb1 hb2
    refine Holds_forUp (fun i (b : Arr Int) => b.lo = a.lo ∧ b.hi = a.hi ∧ (∀ x, s.g.Vertex x → x < i → (∀ p, s.part = some p → p.get x = s.val) → b.get (org s.g x) = k) ∧
      ∀ v, ¬ InS s v → b.get v = a.get v) (by omega) ⟨rfl, rfl, (fun x hx h => by unfold Graph.Vertex at hx; omega), fun v _ => rfl⟩ ?_ ?_
    · rintro i b h1 h2 ⟨i1, i2, i3, i4⟩
      have hv : s.g.Vertex i := ⟨h1, h2⟩
      by_cases hc : ∀ p, s.part = some p → p.get i = s.val
      · rw [hb1 i hv hc b]
        have hin : InS s (org s.g i) := ⟨i, hv, rfl, hc⟩
        have := ha _ hin
        rw [b.wr_ok k (by omega) (by omega), Holds_ok]
        refine ⟨i1, i2, ?_, ?_⟩
        · intro x hx hxi hxp
          by_cases e : org s.g x = org s.g i
          · rw [e]; exact Arr.set_get_same _ _ _
          · rw [Arr.set_get_ne _ _ e]
            by_cases e2 : x = i
            · exact absurd (by rw [e2]) e
            · exact i3 x hx (by omega) hxp
        · intro v hv'
          rw [Arr.set_get_ne _ _ (fun e => hv' (by rw [e]; exact hin))]
          exact i4 v hv'
      · rw [hb2 i hv hc b, Holds_ok]
        refine ⟨i1, i2, ?_, i4⟩
        intro x hx hxi hxp
        by_cases e2 : x = i
        · rw [e2] at hxp; exact absurd hxp hc
        · exact i3 x hx (by omega) hxp
    · rintro b ⟨i1, i2, i3, i4⟩
      refine ⟨i1, i2, ?_, i4⟩
      rintro v ⟨x, hx, rfl, hxp⟩
      exact i3 x hx hx.2 hxp
  unfold part3Write
  cases hp : s.part with
  | none =>
    have hall : ∀ x, ∀ p, s.part = some p → p.get x = s.val := fun x p h => by rw [hp] at h; cases h
    cases hvn : s.g.vnumtax with
    | none =>
      have hk0 := hk hp
      unfold fill0
      rw [← hnn]
      refine main _ ?_ ?_
      · intro x hx _ b
        have : org s.g x = x := by unfold org; rw [hvn]
        rw [this, hk0]
      · intro x hx hn; exact absurd (hall x) hn
    | some vn =>
      refine main _ ?_ ?_
      · intro x hx _ b
        have := orgNum_holds hs.g.alloc hx
        unfold orgNum at this
        rw [hvn] at this
        dsimp only at this
        show (vn.rd x >>= fun y => b.wr y k) = _
        rw [this]
        rfl
      · intro x hx hn; exact absurd (hall x) hn
  | some p =>
    obtain ⟨h1, h2, -⟩ := hs.part p hp
    refine main _ ?_ ?_
    · intro x hx hc b
      rw [p.rd_ok (by unfold Graph.Vertex at hx; omega) (by unfold Graph.Vertex at hx; omega)]
      show (if p.get x = s.val then (orgNum s.g x >>= fun y => b.wr y k) else pure b) = _
      rw [if_pos (hc p hp), orgNum_holds hs.g.alloc hx]
      rfl
    · intro x hx hc b
      rw [p.rd_ok (by unfold Graph.Vertex at hx; omega) (by unfold Graph.Vertex at hx; omega)]
      show (if p.get x = s.val then (orgNum s.g x >>= fun y => b.wr y k) else pure b) = _
      rw [if_neg (fun e => hc (fun q hq => by rw [hp] at hq; cases hq; exact e))]
      rfl

/-- Growth keeps the cells. -/
theorem grow_get (junk : Int → D) (a : Arr D) (m i : Int) (h : i < a.hi) : (grow junk a m).get i = a.get i := if_pos h

/-- State after the recording of the parts of `done`. -/
structure Rec (lo hi : Int) (don : List (Split D)) (m : Mapping D) : Prop where
  plo : m.parttax.lo = lo
  phi : m.parttax.hi = hi
  dlo : m.domntab.lo = 0
  dhi : m.domntab.hi = m.domnmax
  nbr : m.domnnbr = don.length
  max : m.domnnbr ≤ m.domnmax
  dom : ∀ i (h : i < don.length), m.domntab.get i = don[i].dom
  part : ∀ i (h : i < don.length), ∀ v, InS don[i] v → m.parttax.get v = i

theorem part3_holds {lo hi : Int} {don : List (Split D)} {m : Mapping D} (hr : Rec lo hi don m) (junk : Int → D) {s : Split D} (hs : SplitOk s) (hin : ∀ v, InS s v → lo ≤ v ∧ v < hi)
    (hdis : ∀ d ∈ don, ∀ v, ¬ (InS d v ∧ InS s v)) (hn : s.part = none → don = []) : Holds (part3 junk s m) (Rec lo hi (don ++ [s])) := by
  obtain ⟨r1, r2, r3, r4, r5, r6, r7, r8⟩ := hr
  unfold part3
  dsimp only
  -- resized mapping
  generalize hm' : (if m.domnnbr ≥ m.domnmax then mapResize junk m (m.domnnbr + m.domnnbr / 4 + 8) else m) = m'
  have hm : m'.parttax = m.parttax ∧ m'.domntab.lo = 0 ∧ m'.domntab.hi = m'.domnmax ∧ m.domnnbr < m'.domnmax ∧ ∀ i, i < m.domnnbr → m'.domntab.get i = m.domntab.get i := by
    subst hm'
    by_cases hc : m.domnnbr ≥ m.domnmax
    · rw [if_pos hc]
      refine ⟨rfl, r3, rfl, ?_, ?_⟩
      · show m.domnnbr < m.domnnbr + m.domnnbr / 4 + 8
        omega
      · intro i hi
        exact grow_get _ _ _ _ (by omega)
    · rw [if_neg hc]
      exact ⟨rfl, r3, r4, by omega, fun i _ => rfl⟩
  obtain ⟨e1, e2, e3, e4, e5⟩ := hm
  rw [m'.domntab.wr_ok s.dom (by omega) (by omega)]
  show Holds (part3Write s m.domnnbr m'.parttax >>= _) _
  rw [Holds_bind, e1]
  refine (part3Write_holds hs m.domnnbr (fun v hv => by have := hin v hv; omega) (fun h => by have := hn h; subst this; simpa using r5)).mono ?_
  rintro a ⟨a1, a2, a3, a4⟩
  refine ⟨a1.trans r1, a2.trans r2, e2, e3, by simp [r5], by show m.domnnbr + 1 ≤ m'.domnmax; omega, ?_, ?_⟩
  · intro i hi
    by_cases h : i < don.length
    · rw [List.getElem_append_left h, ← r7 i h]
      show (m'.domntab.set m.domnnbr s.dom).get i = _
      rw [Arr.set_get_ne _ _ (by omega)]
      exact e5 i (by omega)
    · have : i = don.length := by simp at hi; omega
      subst this
      rw [List.getElem_append_right (by omega)]
      simp only [Nat.sub_self, List.getElem_cons_zero]
      show (m'.domntab.set m.domnnbr s.dom).get _ = _
      rw [r5]
      exact Arr.set_get_same _ _ _
  · intro i hi v hv
    by_cases h : i < don.length
    · rw [List.getElem_append_left h] at hv
      show a.get v = _
      rw [a4 v (fun h2 => hdis _ (List.getElem_mem h) v ⟨hv, h2⟩)]
      exact r8 i h v hv
    · have : i = don.length := by simp at hi; omega
      subst this
      rw [List.getElem_append_right (by omega)] at hv
      simp only [Nat.sub_self, List.getElem_cons_zero] at hv
      show a.get v = _
      rw [a3 v hv, r5]

theorem runAll_holds {lo hi : Int} (junk : Int → D) : ∀ (ls don : List (Split D)) (m : Mapping D), Rec lo hi don m → (∀ s ∈ ls, SplitOk s ∧ ∀ v, InS s v → lo ≤ v ∧ v < hi) →
    (don ++ ls).Pairwise (fun a b => ∀ v, ¬ (InS a v ∧ InS b v)) → (∀ s ∈ ls, s.part = none → don ++ ls = [s]) → Holds (runAll junk ls m) (Rec lo hi (don ++ ls)) := by
  intro ls
  induction ls with
  | nil => intro don m hr _ _ _; rw [List.append_nil]; exact hr
  | cons s ls ih =>
    intro don m hr hok hd hn
    rw [runAll, Holds_bind]
    have hs := hok s (List.mem_cons_self ..)
    refine (part3_holds hr junk hs.1 hs.2 ?_ ?_).mono ?_
    · intro d hdm v hv
      exact (List.pairwise_append.1 hd).2.2 d hdm s (List.mem_cons_self ..) v hv
    · intro hp
      have := hn s (List.mem_cons_self ..) hp
      have hl := congrArg List.length this
      simp at hl
      exact List.eq_nil_of_length_eq_zero (by omega)
    · intro m' hr'
      have e : don ++ s :: ls = (don ++ [s]) ++ ls := by simp
      rw [e] at hd hn ⊢
      refine ih (don ++ [s]) m' hr' (fun t ht => hok t (List.mem_cons_of_mem _ ht)) hd ?_
      intro t ht hp
      exact hn t (List.mem_cons_of_mem _ ht) hp

theorem rbPart_holds (hA : ArchLaws o n w Valid Has) {env : Env D} (he : env.Ok) {fuel : Nat} {g : Graph} (hg : Proper g) {domnorg : D} (hd : Valid domnorg)
    (hf : tally n (fun _ => 1) (Has domnorg) ≤ fuel) {m : Mapping D} (h1 : m.domntab.lo = 0) (h2 : m.domntab.hi = m.domnmax) (h3 : 0 ≤ m.domnmax)
    (hin : ∀ v, Verts g v → m.parttax.lo ≤ v ∧ v < m.parttax.hi) :
    Holds (rbPart o env fuel g domnorg m) fun r => r.1 = 0 ∧ Done Valid Has m.parttax.lo m.parttax.hi (Verts g) domnorg r.2.2 r.2.1 := by
  unfold rbPart
  rw [Holds_bind]
  have hs : SplitOk (⟨g, none, 0, g.vertnbr, domnorg⟩ : Split D) := ⟨hg, fun p h => by cases h⟩
  have hS : ∀ v, InS (⟨g, none, 0, g.vertnbr, domnorg⟩ : Split D) v ↔ Verts g v := by
    intro v
    unfold InS Verts
    constructor
    · rintro ⟨x, x1, x2, -⟩; exact ⟨x, x1, x2⟩
    · rintro ⟨x, x1, x2⟩; exact ⟨x, x1, x2, fun p h => by cases h⟩
  refine (part2_holds hA he fuel [] _ hs hd hf).mono ?_
  rintro ⟨c, ls, log⟩ ⟨rfl, L⟩
  dsimp only at L ⊢
  have hperm := he.order ls
  have hsymm : ∀ {P : Split D → Int → Prop} {a b : Split D}, (∀ v, ¬ (P a v ∧ P b v)) → (∀ v, ¬ (P b v ∧ P a v)) := fun h v hv => h v ⟨hv.2, hv.1⟩
  have hd' : (env.order ls).Pairwise (fun a b => ∀ v, ¬ (InS a v ∧ InS b v)) := (hperm.pairwise_iff (fun {a b} h => hsymm (P := InS) h)).2 L.disj
  have hdd : (env.order ls).Pairwise (fun a b => ∀ k, ¬ (Has a.dom k ∧ Has b.dom k)) := (hperm.pairwise_iff (fun {a b} h => hsymm (P := fun s => Has s.dom) h)).2 L.ddisj
  rw [Holds_bind]
  refine (runAll_holds (lo := m.parttax.lo) (hi := m.parttax.hi) env.junk (env.order ls) [] { m with domnnbr := 0 } ?_ ?_ (by simpa using hd') ?_).mono ?_
  · exact ⟨rfl, rfl, h1, h2, rfl, h3, (fun i h => absurd h (Nat.not_lt_zero _)), fun i h => absurd h (Nat.not_lt_zero _)⟩
  · intro s hsm
    have hsm' := hperm.mem_iff.1 hsm
    exact ⟨(L.ok s hsm').1, fun v hv => hin v ((hS v).1 (L.into s hsm' v hv))⟩
  · intro s hsm hp
    have := L.nopart s (hperm.mem_iff.1 hsm) hp
    rw [this] at hperm ⊢
    rw [List.nil_append]
    exact List.perm_singleton.1 hperm
  · intro m' hr
    rw [List.nil_append] at hr
    refine ⟨rfl, hr.plo, hr.phi, hr.dlo, hr.dhi, ⟨by have := hr.nbr; show 0 ≤ m'.domnnbr; omega, hr.max⟩, ?_, ?_, ?_, ?_⟩
    · intro i i1 i2
      have := hr.nbr
      change i < m'.domnnbr at i2
      obtain ⟨i, rfl⟩ : ∃ k : Nat, i = k := ⟨i.toNat, by omega⟩
      have hi : i < (env.order ls).length := by omega
      show Valid (m'.domntab.get i) ∧ _
      rw [hr.dom i hi]
      exact (L.ok _ (hperm.mem_iff.1 (List.getElem_mem hi))).2
    · intro v hv
      obtain ⟨l, hl, hlv⟩ := L.onto v ((hS v).2 hv)
      obtain ⟨i, hi, rfl⟩ := List.getElem_of_mem (hperm.mem_iff.2 hl)
      have := hr.nbr
      show 0 ≤ m'.parttax.get v ∧ m'.parttax.get v < m'.domnnbr ∧ ∀ k, Has (m'.domntab.get (m'.parttax.get v)) k ↔ _
      rw [hr.part i hi v hlv]
      refine ⟨by omega, by omega, ?_⟩
      rw [hr.dom i hi]
      exact L.exact _ hl v hlv
    · intro i j i1 i2 j1 j2 hij k
      have := hr.nbr
      change i < m'.domnnbr at i2
      change j < m'.domnnbr at j2
      obtain ⟨i, rfl⟩ : ∃ k : Nat, i = k := ⟨i.toNat, by omega⟩
      obtain ⟨j, rfl⟩ : ∃ k : Nat, j = k := ⟨j.toNat, by omega⟩
      have hi : i < (env.order ls).length := by omega
      have hj : j < (env.order ls).length := by omega
      show ¬ (Has (m'.domntab.get i) k ∧ Has (m'.domntab.get j) k)
      rw [hr.dom i hi, hr.dom j hj]
      rcases Nat.lt_or_gt_of_ne (fun e : i = j => hij (by rw [e])) with h | h
      · exact List.pairwise_iff_getElem.1 hdd i j hi hj h k
      · exact fun hh => List.pairwise_iff_getElem.1 hdd j i hj hi h k ⟨hh.2, hh.1⟩
    · intro c hc
      exact ⟨(L.cuts c hc).1, fun v h => (hS v).1 ((L.cuts c hc).2 v h)⟩

end Scotch.Kmap
