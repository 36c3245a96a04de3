import Verif.Dist.FoldGive2

set_option autoImplicit false
set_option linter.unusedSimpArgs false

namespace Scotch.Fold

/-- Invariant of the main loop. -/
structure CI (f : FoldIn) (T : Int → Int × Int) (cm a0 : Int) (c : Ctl) : Prop where
  cb : CB f T cm a0 (-1) c
  ij : c.sortrcvnum ≤ c.sortrcvnnd + 2
  cur : c.sortrcvnum ≤ c.sortrcvnnd → Cur T c (c.tab.get c.sortrcvnum).1 ∧
    ((c.tab.get c.sortrcvnum).1 = (T c.sortrcvnum).1 ∨ (c.tab.get c.sortrcvnum).1 < 0)
  com0 : 0 ≤ c.commrcvnum
  com1 : c.commrcvnum < cm
  com2 : c.commrcvnum ≤ used f c
  comn : 0 < c.commrcvnum → c.sortrcvnum ≤ c.sortrcvnnd ∧ (c.tab.get c.sortrcvnum).1 < 0

section
variable {f : FoldIn} {T : Int → Int × Int} {cm a0 x : Int} {both : Bool} {adj0 n0 i0 w : Int}

/-- The current sender has sent all it had to. -/
theorem Post.close (hf : f.Ok) (hT : Srt f T) {s : Inn} (h : Post f T cm a0 x both adj0 n0 i0 s)
    (hs : both = false → adj0 = f.vrt (T x).2 ∧ n0 = f.cnt (T x).2)
    (hb : both = true → adj0 = f.vrt (T x).2 + f.cnt (T x).2 - n0 ∧ n0 ≤ (T x).1) : CB f T cm a0 (-1) s.c := by
  have c := h.cb
  have hlen := h.sx.len
  have htt := h.sx.tt
  have hz := h.snb
  have hl := h.len
  have hxb := h.xb.xb
  obtain ⟨q1, q2, q3, q4, q5, q6⟩ := hf.ranges
  refine { lo := c.lo, hi := c.hi, key := c.key, same := c.same, a1 := c.a1, ab := c.ab, b1 := c.b1, i1 := c.i1, j0 := c.j0, j1 := c.j1, gd := c.gd, mv := c.mv, s1 := c.s1, s2 := ?_, r1 := ?_, r2 := c.r2, r4 := c.r4 }
  · intro k k0 k1 _ k2
    by_cases e : k = x
    · subst e
      have hbf : both = false := by
        rw [Bool.eq_false_iff]
        exact fun hh => q5 k k0 k1 (hxb.1 hh)
      obtain ⟨e1, e2⟩ := hs hbf
      refine ⟨?_, h.sx.row, by omega, by omega⟩
      rw [← e1]; exact h.sx.ch
    · exact c.s2 k k0 k1 e k2
  · intro k k0 k1 _
    by_cases e : k = x
    · subst e
      have hbt : both = true := hxb.2 ⟨by have := c.j0; omega, k1⟩
      obtain ⟨e1, e2⟩ := hb hbt
      refine ⟨⟨?_, h.sx.row, by omega, Or.inl h.sx.rcv⟩, by omega⟩
      have : f.vrt (T k).2 + f.cnt (T k).2 - tot (sends s.c.moves (T k).2) = adj0 := by omega
      rw [this]; exact h.sx.ch
    · exact c.r1 k k0 k1 e

theorem tail_holds (hf : f.Ok) (ha0 : f.procsndbas ≤ a0) (hcm : 4 ≤ cm) {s : Inn} (h : Post f T cm a0 x both adj0 n0 i0 s)
    (hc : CB f T cm a0 (-1) s.c) :
    Holds (tail s) (fun c => CI f T cm a0 c ∧ Frame s.c c) := by
  obtain ⟨q1, q2, q3, q4, q5, q6⟩ := hf.ranges
  have hi1 := hc.i1
  have hj1 := hc.j1
  have hj0 := hc.j0
  have hlo := hc.lo
  have hhi := hc.hi
  have hij := h.ij
  have hab := hc.ab
  have hb1 := hc.b1
  have ha1 := hc.a1
  unfold tail
  rw [Holds_ite]
  refine ⟨fun hp => ?_, fun hp => ?_⟩
  · rcases h.st with ⟨h0, _⟩ | ⟨_, h1, h2, h3, h4⟩
    · omega
    rw [Arr.rd_ok _ (by omega) (by omega), ok_bind, Holds_ite]
    refine ⟨fun hn => ?_, fun hn => ?_⟩
    · rw [Arr.wr_ok _ _ (by omega) (by omega), ok_bind, Holds_pure]
      refine ⟨{ cb := ?_, ij := by dsimp only; omega, cur := fun _ => ?_, com0 := by dsimp only; omega, com1 := h2, com2 := h3, comn := fun _ => ?_ }, ⟨rfl, rfl, rfl, Int.le_refl _, Int.le_refl _⟩⟩
      · refine { lo := hlo, hi := hhi, key := ?_, same := ?_, a1 := hc.a1, ab := hc.ab, b1 := hc.b1, i1 := hc.i1, j0 := hc.j0, j1 := hc.j1, gd := hc.gd, mv := hc.mv, s1 := hc.s1, s2 := hc.s2, r1 := hc.r1, r2 := hc.r2, r4 := hc.r4 }
        · intro k k0 k1
          dsimp only
          by_cases e : k = s.c.sortrcvnum
          · subst e; rw [Arr.set_get_same]; exact hc.key _ k0 k1
          · rw [Arr.set_get_ne _ _ e]; exact hc.key k k0 k1
        · intro k k0 k1 k2
          dsimp only at k2 ⊢
          rw [Arr.set_get_ne _ _ (by omega)]
          exact hc.same k k0 k1 k2
      · dsimp only
        rw [Arr.set_get_same]
        exact ⟨h4, Or.inr hn⟩
      · dsimp only
        rw [Arr.set_get_same]
        exact ⟨h1, hn⟩
    · rw [Holds_pure]
      refine ⟨{ cb := hc.advance h4 (by omega) (fun _ => by omega) 0, ij := by dsimp only; omega, cur := fun hh => ?_, com0 := Int.le_refl _, com1 := by dsimp only; omega, com2 := by unfold used at h3 ⊢; dsimp only; omega, comn := fun hh => absurd hh (by dsimp only; omega) }, ⟨rfl, rfl, rfl, Int.le_refl _, by dsimp only; omega⟩⟩
      dsimp only at hh ⊢
      obtain ⟨d1, d2⟩ := hc.cur hf (by omega)
      rw [d2]
      exact ⟨d1, Or.inl rfl⟩
  · rcases h.st with ⟨h0, h1⟩ | ⟨h0, _⟩
    · rw [Holds_pure]
      refine ⟨{ cb := hc, ij := by omega, cur := fun hh => ?_, com0 := by omega, com1 := by omega, com2 := ?_, comn := fun hh => by omega }, Frame.refl _⟩
      · obtain ⟨d1, d2⟩ := h1 hh
        rw [d2]
        exact ⟨d1, Or.inl rfl⟩
      · unfold used
        omega
    · omega

/-- Meaning of the choice of a sender. -/
def PickOk (f : FoldIn) (T : Int → Int × Int) (cm a0 : Int) (c : Ctl) : Pick → Prop
  | .redo => c.sortrcvnnd < c.sortrcvnum ∧ c.sortsndbas ≤ c.sortsndnnd
  | .done => c.sortsndnnd < c.sortsndbas
  | .go x n both c' => c.sortrcvnum ≤ c.sortrcvnnd ∧ CB f T cm a0 x c' ∧ XB f x both c' ∧ used f c' = used f c + 1 ∧ 0 < n ∧
    c'.tab = c.tab ∧ c'.sortrcvnum = c.sortrcvnum ∧ c'.commrcvnum = c.commrcvnum ∧ c'.moves = c.moves ∧ c'.vertglbdlt = c.vertglbdlt ∧
    c'.sortsndbas = c.sortsndbas ∧
    ((both = false ∧ c.sortsndbas ≤ c.sortsndnnd ∧ x = c.sortsndnnd ∧ c'.sortsndnnd = c.sortsndnnd - 1 ∧ c'.sortrcvnnd = c.sortrcvnnd ∧ n = (T x).1) ∨
      (both = true ∧ x = c.sortrcvnnd ∧ c'.sortsndnnd = c.sortsndnnd ∧ c'.sortrcvnnd = c.sortrcvnnd - 1 ∧ n = (T x).1 - c.vertglbdlt ∧ c.tab.get x = T x))

theorem pick_holds (hf : f.Ok) (hT : Srt f T) (ha0 : f.procsndbas ≤ a0) (hpos : ∀ k, a0 ≤ k → k < f.procsndnnd → 0 < (T k).1)
    {c : Ctl} (h : CI f T cm a0 c) : Holds (pick c) (PickOk f T cm a0 c) := by
  obtain ⟨q1, q2, q3, q4, q5, q6⟩ := hf.ranges
  have hc := h.cb
  have hi1 := hc.i1
  have hj1 := hc.j1
  have hj0 := hc.j0
  have hlo := hc.lo
  have hhi := hc.hi
  have hab := hc.ab
  have hb1 := hc.b1
  have ha1 := hc.a1
  have hgd := hc.gd
  have hsnd : Holds (pickSnd c) (fun a => (c.sortsndbas ≤ c.sortsndnnd ∧ a = ((T c.sortsndnnd).1, { c with sortsndnnd := c.sortsndnnd - 1 }) ∧ 0 < a.1) ∨
      (c.sortsndnnd < c.sortsndbas ∧ a = (0, c))) := by
    unfold pickSnd
    rw [Holds_ite]
    refine ⟨fun hh => ?_, fun hh => ?_⟩
    · have e : c.tab.get c.sortsndnnd = T c.sortsndnnd := hc.same _ (by omega) (by omega) (by
        have := q5 c.sortsndnnd (by omega) (by omega)
        unfold FoldIn.Rcv at this
        omega)
      rw [Arr.rd_ok _ (by omega) (by omega), ok_bind, Holds_pure, e]
      exact Or.inl ⟨hh, rfl, hpos _ (by omega) (by omega)⟩
    · rw [Holds_pure]
      exact Or.inr ⟨by omega, rfl⟩
  have goB : ∀ b', b' = c.sortsndnnd → c.sortrcvnum ≤ c.sortrcvnnd → (c.tab.get c.sortrcvnnd).1 > c.vertglbdlt →
      PickOk f T cm a0 c (.go c.sortrcvnnd ((c.tab.get c.sortrcvnnd).1 - c.vertglbdlt) true { c with sortsndnnd := b', sortrcvnnd := c.sortrcvnnd - 1 }) := by
    intro b' hb' hij ht
    have e : c.tab.get c.sortrcvnnd = T c.sortrcvnnd := by
      by_cases e : c.sortrcvnnd = c.sortrcvnum
      · have := (h.cur hij).2
        rw [← e] at this
        have e1 : (c.tab.get c.sortrcvnnd).1 = (T c.sortrcvnnd).1 := by rcases this with g | g <;> omega
        exact Prod.ext e1 (hc.key _ (by omega) (by omega))
      · exact hc.same _ (by omega) (by omega) (by omega)
    rw [e] at ht ⊢
    subst hb'
    refine ⟨hij, ?_, ⟨by omega, by omega, ?_, by dsimp only; omega, ⟨fun _ => ⟨by omega, by omega⟩, fun _ => rfl⟩⟩, by unfold used; dsimp only; omega, by omega, rfl, rfl, rfl, rfl, rfl, rfl, Or.inr ⟨rfl, rfl, rfl, rfl, rfl, e⟩⟩
    · refine { lo := hlo, hi := hhi, key := hc.key, same := hc.same, a1 := hc.a1, ab := hc.ab, b1 := hc.b1, i1 := hc.i1, j0 := by dsimp only; omega, j1 := by dsimp only; omega, gd := hc.gd, mv := hc.mv, s1 := hc.s1, s2 := ?_, r1 := ?_, r2 := ?_, r4 := ?_ }
      · exact fun k k0 k1 _ k2 => hc.s2 k k0 k1 (by omega) k2
      · intro k k0 k1 k2
        dsimp only at k0
        exact hc.r1 k (by omega) k1 (by omega)
      · exact fun k k0 k1 k2 => hc.r2 k k0 k1 (by dsimp only at k2; omega)
      · exact fun k k0 k1 => hc.r4 k k0 (by dsimp only at k1; omega)
    · dsimp only
      intro hh
      exact q5 c.sortrcvnnd (by omega) (by omega) ⟨by omega, by omega⟩
  unfold pick
  rw [Holds_bind]
  refine hsnd.mono ?_
  intro a ha
  rw [Holds_ite]
  refine ⟨fun hij => ?_, fun hij => ?_⟩
  · rw [Arr.rd_ok _ (by omega) (by omega), ok_bind, Holds_ite]
    refine ⟨fun ht => ?_, fun ht => ?_⟩
    · rw [if_neg (by omega), Holds_pure]
      rcases ha with ⟨a1, rfl, a2⟩ | ⟨a1, rfl⟩
      · rw [if_pos a2]
        exact goB _ (by dsimp only; omega) hij ht.2
      · rw [if_neg (by dsimp only; omega)]
        exact goB _ rfl hij ht.2
    · rw [Holds_ite]
      refine ⟨fun h0 => ?_, fun h0 => ?_⟩
      · rw [Holds_pure]
        rcases ha with ⟨a1, _, a2⟩ | ⟨a1, _⟩
        · omega
        · exact a1
      · rw [Holds_pure]
        rcases ha with ⟨a1, rfl, a2⟩ | ⟨a1, rfl⟩
        · refine ⟨hij, ?_, ⟨by omega, by omega, by dsimp only; omega, ?_, ⟨fun hh => (by cases hh), fun hh => absurd hh (q5 _ (by omega) (by omega))⟩⟩, by unfold used; dsimp only; omega, a2, rfl, rfl, rfl, rfl, rfl, rfl, Or.inl ⟨rfl, a1, rfl, rfl, rfl, rfl⟩⟩
          · refine { lo := hlo, hi := hhi, key := hc.key, same := hc.same, a1 := hc.a1, ab := by dsimp only; omega, b1 := by dsimp only; omega, i1 := hc.i1, j0 := hc.j0, j1 := hc.j1, gd := hc.gd, mv := hc.mv, s1 := ?_, s2 := ?_, r1 := ?_, r2 := hc.r2, r4 := hc.r4 }
            · exact fun k k0 k1 => hc.s1 k k0 (by dsimp only at k1; omega)
            · intro k k0 k1 k2 k3
              exact hc.s2 k k0 k1 (by omega) (by dsimp only at k3; omega)
            · intro k k0 k1 k2
              dsimp only at k0
              exact hc.r1 k k0 k1 (by omega)
          · have := q5 c.sortsndnnd (by omega) (by omega)
            unfold FoldIn.Rcv at this
            dsimp only
            omega
        · omega
  · rw [Holds_ite]
    refine ⟨fun h0 => ?_, fun h0 => ?_⟩
    · rw [Holds_pure]
      rcases ha with ⟨a1, rfl, a2⟩ | ⟨a1, rfl⟩
      · exact ⟨by omega, a1⟩
      · dsimp only at h0; omega
    · rw [Holds_pure]
      rcases ha with ⟨a1, rfl, a2⟩ | ⟨a1, rfl⟩
      · omega
      · exact a1

end

end Scotch.Fold
