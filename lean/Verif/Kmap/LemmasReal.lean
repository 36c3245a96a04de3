import Verif.Kmap.Spec
import Verif.Post

/-! # Static mapping: the recorded cuts are the ones of the method -/

set_option autoImplicit false

namespace Scotch.Kmap

variable {D : Type} (o : ArchOps D) (env : Env D)

theorem Post_self {α : Type} (x : M α) : Post x (fun a => x = .ok a) := Post_iff.2 (fun _ e => e)

theorem Post_true {α : Type} (x : M α) : Post x (fun _ => True) := Post_iff.2 (fun _ _ => trivial)

theorem part2_real : ∀ (fuel : Nat) (p : List Nat) (s : Split D), Post (part2 o env fuel p s) fun r => ∀ c ∈ r.2.2, Cut.Real o env c := by
  intro fuel
  induction fuel with
  | zero => intro p s; exact trivial
  | succ f ih =>
    intro p s
    rw [part2, Post_bind]
    refine (Post_self _).mono ?_
    rintro (_ | ⟨d0, d1⟩) hd
    · dsimp only
      rw [Post_pure]
      intro c hc
      cases hc
    · dsimp only
      rw [Post_bind]
      refine (Post_true _).mono ?_
      intro h _
      rw [Post_bind]
      refine (Post_self _).mono ?_
      rintro (_ | ⟨part, size0⟩) hb
      · dsimp only
        rw [Post_pure]
        intro c hc
        cases hc
      · dsimp only
        have hr : Cut.Real o env ⟨h, d0, d1, part⟩ := ⟨p, size0, s.dom, hd, hb⟩
        rw [Post_ite]
        refine ⟨fun _ => ?_, fun _ => ?_⟩
        · rw [Post_bind]
          refine (ih _ _).mono ?_
          rintro ⟨c, ls, log⟩ hl
          rw [Post_pure]
          exact List.forall_mem_cons.2 ⟨hr, hl⟩
        rw [Post_ite]
        refine ⟨fun _ => ?_, fun _ => ?_⟩
        · rw [Post_bind]
          refine (ih _ _).mono ?_
          rintro ⟨c, ls, log⟩ hl
          rw [Post_pure]
          exact List.forall_mem_cons.2 ⟨hr, hl⟩
        · rw [Post_bind]
          refine (ih _ _).mono ?_
          rintro ⟨c, ls, log⟩ hl
          dsimp only
          rw [Post_ite]
          refine ⟨fun _ => ?_, fun _ => ?_⟩
          · rw [Post_pure]
            exact List.forall_mem_cons.2 ⟨hr, hl⟩
          · rw [Post_bind]
            refine (ih _ _).mono ?_
            rintro ⟨c', ls', log'⟩ hl'
            rw [Post_pure]
            refine List.forall_mem_cons.2 ⟨hr, ?_⟩
            intro x hx
            rcases List.mem_append.1 hx with hx | hx
            · exact hl x hx
            · exact hl' x hx

theorem rbPart_real (fuel : Nat) (g : Graph) (d : D) (m : Mapping D) : Post (rbPart o env fuel g d m) fun r => ∀ c ∈ r.2.2, Cut.Real o env c := by
  unfold rbPart
  rw [Post_bind]
  refine (part2_real o env _ _ _).mono ?_
  rintro ⟨c, ls, log⟩ hl
  dsimp only
  rw [Post_bind]
  refine (Post_true _).mono ?_
  intro m' _
  rw [Post_pure]
  exact hl

theorem poolAdd_log (fl : Flags) (js : List (Job D)) (s : Pool D) : (poolAdd fl js s).log = s.log := by
  unfold poolAdd; split <;> rfl

theorem poolSwap_log (fl : Flags) (s : Pool D) : (poolSwap fl s).log = s.log := by
  unfold poolSwap; dsimp only; split <;> split <;> rfl

theorem jobSame_log (fl : Flags) (j : Job D) (d : D) (s : Pool D) : Post (jobSame o fl j d s) fun s' => s'.log = s.log := by
  unfold jobSame
  rw [Post_bind]
  refine (Post_true _).mono ?_
  intro t _
  dsimp only
  rw [Post_bind]
  refine (Post_true _).mono ?_
  intro z _
  rw [Post_ite]
  exact ⟨fun _ => rfl, fun _ => poolAdd_log _ _ _⟩

theorem wr1_log (fl : Flags) (s : Pool D) (num : Int) (d : D) : Post (wr1 fl s num d) fun s' => s'.log = s.log := by
  unfold wr1
  rw [Post_ite]
  refine ⟨fun _ => ?_, fun _ => ?_⟩
  · rw [Post_bind]
    exact (Post_true _).mono (fun _ _ => rfl)
  · rw [Post_bind]
    exact (Post_true _).mono (fun _ _ => rfl)

theorem jobSplit_log (fl : Flags) (k : Nat) (j : Job D) (d0 d1 : D) (part : Arr Int) (size0 : Int) (s : Pool D) : Post (jobSplit o env fl k j d0 d1 part size0 s) fun s' => s'.log = s.log := by
  unfold jobSplit
  dsimp only
  have e : (if s.domnnbr = s.domnmax then poolResize env.junk s else s).log = s.log := by split <;> rfl
  generalize (if s.domnnbr = s.domnmax then poolResize env.junk s else s) = s1 at e ⊢
  rw [Post_bind]
  refine (wr1_log _ _ _ _).mono ?_
  intro s2 h2
  rw [Post_bind]; refine (Post_true _).mono (fun t0 _ => ?_)
  rw [Post_bind]; refine (Post_true _).mono (fun t1 _ => ?_)
  rw [Post_bind]; refine (Post_true _).mono (fun a _ => ?_)
  rw [Post_bind]; refine (Post_true _).mono (fun j1 _ => ?_)
  rw [Post_bind]; refine (Post_true _).mono (fun j0 _ => ?_)
  rw [Post_pure, poolAdd_log]
  show s2.log = s.log
  rw [h2, e]

theorem jobRun_real (fl : Flags) (j : Job D) (s : Pool D) (hs : ∀ c ∈ s.log, Cut.Real o env c) : Post (jobRun o env fl j s) fun r => ∀ s', r = some s' → ∀ c ∈ s'.log, Cut.Real o env c := by
  unfold jobRun
  rw [Post_bind]
  refine (Post_self _).mono ?_
  rintro (_ | ⟨d0, d1⟩) hd
  · dsimp only
    rw [Post_pure]
    intro s' e; cases e
  · dsimp only
    rw [Post_bind]
    refine (Post_self _).mono ?_
    rintro (_ | ⟨part, size0⟩) hb
    · dsimp only
      rw [Post_pure]
      intro s' e; cases e
    · dsimp only
      have hl : ∀ c ∈ s.log ++ [⟨j.g, d0, d1, part⟩], Cut.Real o env c := by
        intro c hc
        rcases List.mem_append.1 hc with hc | hc
        · exact hs c hc
        · rw [List.mem_singleton] at hc
          subst hc
          exact ⟨[s.calls], size0, j.dom, hd, hb⟩
      have hk : ∀ (x : M (Pool D)), Post x (fun s' => s'.log = s.log ++ [⟨j.g, d0, d1, part⟩]) → Post (do return some (← x)) fun r => ∀ s', r = some s' → ∀ c ∈ s'.log, Cut.Real o env c := by
        intro x hx
        rw [Post_bind]
        refine hx.mono ?_
        intro s' h'
        rw [Post_pure]
        intro s'' e
        injection e with e
        subst e
        rw [h']
        exact hl
      rw [Post_ite]
      refine ⟨fun _ => hk _ (jobSame_log _ _ _ _ _), fun _ => ?_⟩
      rw [Post_ite]
      exact ⟨fun _ => hk _ (jobSame_log _ _ _ _ _), fun _ => hk _ (jobSplit_log _ _ _ _ _ _ _ _ _ _)⟩

theorem rbMap_real (fl : Flags) (fuel : Nat) (s g : Graph) (d : D) (m : Mapping D) : Post (rbMap o env fl fuel s g d m) fun r => ∀ c ∈ r.2.2, Cut.Real o env c := by
  unfold rbMap
  rw [Post_bind]; refine (Post_true _).mono (fun m1 _ => ?_)
  dsimp only
  rw [Post_bind]; refine (Post_true _).mono (fun z _ => ?_)
  rw [Post_ite]
  refine ⟨fun _ => ?_, fun _ => ?_⟩
  · rw [Post_pure]
    intro c hc; cases hc
  · rw [Post_bind]
    refine (Post_iff.2 (loopM_partial (Q := fun r => ∀ c ∈ r.2.log, Cut.Real o env c) (fun s => ∀ c ∈ s.log, Cut.Real o env c) ?_ fuel _ · ?_)).mono ?_
    · intro s l hs hl
      refine (Post_iff (Q := Loop.Sat (fun s => ∀ c ∈ s.log, Cut.Real o env c) (fun r => ∀ c ∈ r.2.log, Cut.Real o env c))).1 ?_ l hl
      unfold poolStep
      split
      · dsimp only
        rw [Post_ite]
        refine ⟨fun _ => ?_, fun _ => ?_⟩
        · rw [Post_pure, Loop.Sat_brk]
          show ∀ c ∈ (poolSwap fl s).log, _
          rw [poolSwap_log]; exact hs
        · rw [Post_pure, Loop.Sat_next]
          rw [poolSwap_log]; exact hs
      · rename_i j q _
        rw [Post_bind]
        refine (jobRun_real o env fl j _ ?_).mono ?_
        · exact hs
        · rintro (_ | s') h'
          · dsimp only
            rw [Post_pure, Loop.Sat_brk]
            exact hs
          · dsimp only
            rw [Post_pure, Loop.Sat_next]
            exact h' s' rfl
    · intro c hc; cases hc
    · rintro ⟨c, p⟩ hp
      exact hp

theorem mapRb_real (fl : Flags) (apart : Bool) (fuel : Nat) (junk avg : Int → Int) (g : Graph) (d : D) (vfixnbr : Int) (pfix : Option (Arr Int)) :
    Post (mapRb o env fl apart fuel junk avg g d vfixnbr pfix) fun r => ∀ c ∈ r.2.2, Cut.Real o env c := by
  unfold mapRb
  rw [Post_bind]; refine (Post_true _).mono (fun z _ => ?_)
  dsimp only
  rw [Post_bind]; refine (Post_true _).mono (fun hv _ => ?_)
  have hfin : ∀ (r : Int × Mapping D × List (Cut D)), (∀ c ∈ r.2.2, Cut.Real o env c) → Post (do
      let m ← rbMerge o env g pfix hv.2 r.2.1
      let (frontab, fronnbr) ← kgraphFron g m ⟨0, g.vertnbr, junk⟩
      let (commload, a, d) ← kgraphCost o avg g m ⟨0, m.domnmax, junk⟩ ⟨0, m.domnmax, junk⟩
      return (r.1, (⟨m, frontab, fronnbr, a, d, commload⟩ : Kgraph D), r.2.2)) fun r => ∀ c ∈ r.2.2, Cut.Real o env c := by
    rintro ⟨c, m, log⟩ hl
    dsimp only
    rw [Post_bind]; refine (Post_true _).mono (fun m1 _ => ?_)
    rw [Post_bind]; refine (Post_true _).mono (fun r1 _ => ?_)
    rw [Post_bind]; refine (Post_true _).mono (fun r2 _ => ?_)
    exact hl
  obtain ⟨h, vf⟩ := hv
  dsimp only
  by_cases c : apart = true
  · rw [if_pos c, Post_bind]
    exact (rbPart_real o env fuel h d _).mono hfin
  · rw [if_neg c, Post_bind]
    exact (rbMap_real o env fl fuel g h d _).mono hfin

end Scotch.Kmap
