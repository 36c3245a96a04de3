import Verif.HOrder.LemmasGpMain
import Verif.HOrder.LemmasNd
import Verif.HOrder.LemmasCcOrder
import Verif.HOrder.LemmasCp8
import Verif.HOrder.LemmasHx6
import Verif.Separ.LemmasSt

/-! # Ordering strategies: lemmas -/

set_option autoImplicit false
set_option linter.unusedSimpArgs false

namespace Scotch.HOrder
open Graph

theorem sepOf_ok {cls : Graph → Prop} {tot : Bool} {senv : Separ.SEnv} (he : senv.Ok cls) (fuel : Nat) {s : Separ.SStrat} {sure : Bool} (hg : Separ.SGood cls tot sure s) : SepOk cls tot sure (sepOf senv fuel s) := by
  intro t b R hcls
  unfold sepOf
  rw [Meets_bind]
  refine Meets.mono (Separ.separateSt_meets he fuel s hg [t] b R hcls) ?_
  rintro ⟨o, b'⟩ ⟨h1, h2, h3⟩
  dsimp only at h1 h2 h3 ⊢
  by_cases ho : o = 0
  · rw [if_pos ho, Meets_pure]
    refine ⟨fun _ h => (by cases h), ?_⟩
    intro x hx
    cases hx
    exact ⟨h1, h3 ho⟩
  · rw [if_neg ho, Meets_pure]
    refine ⟨fun hs => absurd (h2 hs) ho, ?_⟩
    intro x hx
    cases hx

theorem keepsBlock_of {env : Env} (st : Strat) : Flat st → KeepsBlock (orderSt env st) := by
  have hsi : KeepsBlock orderSi := by
    intro h ordenum o c r hr
    unfold orderSi at hr
    cases hx : (forUp h.s.baseval h.vnohnnd o.peritab fun v p => do p.wr (ordenum + (v - h.s.baseval)) (← rdOnum h.s v)) with
    | error e => rw [hx] at hr; cases hr
    | ok p => rw [hx] at hr; cases hr; rfl
  have hz : ∀ (f : Method), KeepsBlock f → KeepsBlock (fun h ordenum o c => if h.vnohnbr = 0 then return (0, o, c) else f h ordenum o c) := by
    intro f hf h ordenum o c r hr
    dsimp only at hr
    by_cases h0 : h.vnohnbr = 0
    · rw [if_pos h0] at hr; cases hr; rfl
    · rw [if_neg h0] at hr; exact hf _ _ _ _ _ hr
  have hone : KeepsBlock (fun _ _ o c => return (1, o, c)) := by
    intro h ordenum o c r hr
    cases hr; rfl
  induction st with
  | empty => intro _ h ordenum o c r hr; unfold orderSt at hr; exact hz _ hsi _ _ _ _ _ hr
  | si => intro _ h ordenum o c r hr; unfold orderSt at hr; exact hz _ hsi _ _ _ _ _ hr
  | gp p =>
    intro _ h ordenum o c r hr
    unfold orderSt at hr
    refine hz (orderGp env p) ?_ _ _ _ _ _ hr
    clear hr
    intro h ordenum o c r hr
    unfold orderGp at hr
    dsimp only at hr
    cases hx : loopM (gpComp h p (ordenum + h.vnohnbr) (h.vnohnbr.toNat + 1)) (h.vnohnbr.toNat + 1) ⟨⟨⟨⟨0, h.vnohnbr, env.junk o.tick⟩, 0, 0, Arr.const h.s.baseval (h.s.baseval + h.vnohnbr) 0, Arr.const h.s.baseval (h.s.baseval + h.vnohnbr) 0⟩, o.peritab, ordenum⟩, h.s.baseval⟩ with
    | error e => rw [hx] at hr; cases hr
    | ok p => rw [hx] at hr; cases hr; rfl
  | cond t a b iha ihb =>
    rintro ⟨fa, fb⟩ h ordenum o c r hr
    unfold orderSt at hr
    by_cases h0 : h.vnohnbr = 0
    · rw [if_pos h0] at hr; cases hr; rfl
    rw [if_neg h0] at hr
    cases ht : t h with
    | none => rw [ht] at hr; cases hr; rfl
    | some v =>
      rw [ht] at hr
      cases v with
      | true => exact iha fa _ _ _ _ _ hr
      | false => exact ihb fb _ _ _ _ _ hr
  | cond1 t a iha =>
    intro fa h ordenum o c r hr
    unfold orderSt at hr
    by_cases h0 : h.vnohnbr = 0
    · rw [if_pos h0] at hr; cases hr; rfl
    rw [if_neg h0] at hr
    cases ht : t h with
    | none => rw [ht] at hr; cases hr; rfl
    | some v =>
      rw [ht] at hr
      cases v with
      | true => exact iha fa _ _ _ _ _ hr
      | false => cases hr; rfl
  | concat => intro _ h ordenum o c r hr; unfold orderSt at hr; exact hz _ hone _ ordenum _ _ _ hr
  | select => intro _ h ordenum o c r hr; unfold orderSt at hr; exact hz _ hone _ ordenum _ _ _ hr
  | cc s ih => intro hf; exact hf.elim
  | nd sep ole ose ih1 ih2 => intro hf; exact hf.elim
  | cp p cpr unc ih1 ih2 => intro hf; exact hf.elim
  | kp n part => intro hf; exact hf.elim
  | bl fuel m s ih => intro hf; exact hf.elim
  | hx hd p kern => intro hf; exact hf.elim
  | ext f => intro hf; exact hf.elim

theorem orderSt_orders {env : Env} (hal : env.al = 1 ∨ env.al = 2) {cls : Graph → Prop} (hcl : Hered cls) {tot : Bool} (st : Strat) : ∀ {sure top : Bool}, Good cls tot sure top st → Orders cls tot sure top (orderSt env st) := by
  induction st with
  | empty =>
    intro sure top _ h ordenum o hc ha hb hn h1 h2 ht hcls
    unfold orderSt
    rw [if_neg (by omega)]
    exact orderSi_orders cls tot sure top h ordenum o hc ha hb hn h1 h2 ht hcls
  | si =>
    intro sure top _ h ordenum o hc ha hb hn h1 h2 ht hcls
    unfold orderSt
    rw [if_neg (by omega)]
    exact orderSi_orders cls tot sure top h ordenum o hc ha hb hn h1 h2 ht hcls
  | gp p =>
    intro sure top _ h ordenum o hc ha hb hn h1 h2 ht hcls
    unfold orderSt
    rw [if_neg (by omega)]
    exact orderGp_orders env p cls tot sure top h ordenum o hc ha hb hn h1 h2 ht hcls
  | cc s ih =>
    intro sure top hg h ordenum o hc ha hb hn h1 h2 ht hcls
    obtain ⟨ht1, hg⟩ := hg
    subst ht1
    unfold orderSt
    rw [if_neg (by omega)]
    exact orderCc_orders env hcl (ih hg) h ordenum o hc ha hb hn h1 h2 ht hcls
  | nd sep ole ose ih1 ih2 =>
    intro sure top hg h ordenum o hc ha hb hn h1 h2 ht hcls
    obtain ⟨hs, g1, g2⟩ := hg
    unfold orderSt
    rw [if_neg (by omega)]
    exact orderNd_orders hal hcl top hs (ih1 g1) (ih2 g2) h ordenum o hc ha hb hn h1 h2 ht hcls
  | cp p cpr unc ih1 ih2 =>
    intro sure top hg h ordenum o hc ha hb hn h1 h2 ht hcls
    obtain ⟨ht1, hp, hk, g1, g2⟩ := hg
    subst ht1
    unfold orderSt
    rw [if_neg (by omega)]
    exact orderCp_orders env hp hk (ih1 g1) (ih2 g2) h ordenum o hc ha hb hn h1 h2 ht hcls
  | kp n part =>
    intro sure top hg h ordenum o hc ha hb hn h1 h2 ht hcls
    unfold orderSt
    rw [if_neg (by omega)]
    exact orderKp_orders top n hg h ordenum o hc ha hb hn h1 h2 ht hcls
  | bl fuel m s ih =>
    intro sure top hg h ordenum o hc ha hb hn h1 h2 ht hcls
    obtain ⟨g1, g2, g3, g4⟩ := hg
    unfold orderSt
    rw [if_neg (by omega)]
    exact orderBl_orders fuel g1 (ih g3) (keepsBlock_of s g2) g4 h ordenum o hc ha hb hn h1 h2 ht hcls
  | hx hd p kern =>
    intro sure top hg h ordenum o hc ha hb hn h1 h2 ht hcls
    obtain ⟨g1, g2, g3⟩ := hg
    unfold orderSt
    rw [if_neg (by omega)]
    exact orderHx_orders env top p g1 g2 g3 h ordenum o hc ha hb hn h1 h2 ht hcls
  | cond t a b ih1 ih2 =>
    intro sure top hg h ordenum o hc ha hb hn h1 h2 ht hcls
    obtain ⟨hs, g1, g2⟩ := hg
    unfold orderSt
    rw [if_neg (by omega)]
    cases hth : t h with
    | none =>
      dsimp only
      rw [Meets_pure]
      refine ⟨fun hsu => absurd hth (hs hsu h), fun hx => ?_⟩
      dsimp only at hx
      omega
    | some v =>
      cases v with
      | true => exact ih1 g1 h ordenum o hc ha hb hn h1 h2 ht hcls
      | false => exact ih2 g2 h ordenum o hc ha hb hn h1 h2 ht hcls
  | cond1 t a ih => intro sure top hg; exact hg.elim
  | concat =>
    intro sure top hg h ordenum o hc ha hb hn h1 h2 ht hcls
    unfold orderSt
    rw [if_neg (by omega), Meets_pure]
    have hg : sure = false := hg
    refine ⟨fun hsu => ?_, fun hx => ?_⟩
    · rw [hg] at hsu; exact absurd hsu (by decide)
    · dsimp only at hx; omega
  | select =>
    intro sure top hg h ordenum o hc ha hb hn h1 h2 ht hcls
    unfold orderSt
    rw [if_neg (by omega), Meets_pure]
    have hg : sure = false := hg
    refine ⟨fun hsu => ?_, fun hx => ?_⟩
    · rw [hg] at hsu; exact absurd hsu (by decide)
    · dsimp only at hx; omega
  | ext f =>
    intro sure top hg h ordenum o hc ha hb hn h1 h2 ht hcls
    unfold orderSt
    rw [if_neg (by omega)]
    exact hg h ordenum o hc ha hb hn h1 h2 ht hcls

end Scotch.HOrder
