import Verif.Separ.LemmasFm2

/-! # Fiduccia-Mattheyses refinement of separators: neighbours of the vertex that moves -/

set_option autoImplicit false
set_option linter.unusedSimpArgs false

namespace Scotch.Separ
open Graph
open Bipart (FmVals FmSlot FmSave FmSt FmCur Fm FmOwn FmKey FmTab fmFree fmSearch fmPrime FmOwn_set FmKey_set over)
open Hash (Tab probe probe_in)

variable {b : Vgraph} {g : Graph} {c : Int} {keys : List Int} {s : Fm} {h hv : Int} {R : Int → FmVals → Prop} {P P0 pb : Int → Int} {F Fb : Int → Int → Int} {ch : List Int}

/-- Neighbours of `v` that have been handled. -/
def Proc (g : Graph) (v e x : Int) : Prop := ∃ i, g.vert v ≤ i ∧ i < e ∧ g.dest i = x

open Classical in
/-- Parts in the course of the loop. -/
noncomputable def PE (g : Graph) (v p : Int) (P0 : Int → Int) (e x : Int) : Int := if Proc g v e x ∧ P0 x = 1 - p then 2 else P0 x

open Classical in
/-- Gains in the course of the loop. -/
noncomputable def FE (g : Graph) (v p : Int) (P0 : Int → Int) (e j x : Int) : Int :=
  if j = p then near g (PE g v p P0 e) (1 - p) x - g.velo x else near g P0 p x - g.velo x + (if Proc g v e x then g.velo v else 0)

theorem Proc_succ {v e : Int} (e1 : g.vert v ≤ e) (x : Int) : Proc g v (e + 1) x ↔ Proc g v e x ∨ x = g.dest e := arc_ext e1 x

theorem Proc_start (v x : Int) : ¬ Proc g v (g.vert v) x := by
  rintro ⟨i, i1, i2, _⟩
  omega

theorem Proc_new (hc : ConsE g) {v e : Int} (hv : g.Vertex v) (e1 : g.vert v ≤ e) (e2 : e < g.vend v) : ¬ Proc g v e (g.dest e) := by
  rintro ⟨i, k1, k2, k3⟩
  have := hc.simple v hv i e k1 (by omega) e1 e2 k3
  omega

theorem PE_start (v p x : Int) : PE g v p P0 (g.vert v) x = P0 x := by
  unfold PE
  rw [if_neg (fun z => Proc_start _ _ z.1)]

theorem PE_enter {v p e : Int} (e1 : g.vert v ≤ e) (h : P0 (g.dest e) = 1 - p) : PE g v p P0 (e + 1) = upd (PE g v p P0 e) (g.dest e) 2 := by
  funext x
  unfold PE upd
  rw [Proc_succ e1]
  by_cases hx : x = g.dest e
  · rw [if_pos hx, if_pos ⟨Or.inr hx, by rw [hx]; exact h⟩]
  · rw [if_neg hx]
    dsimp only
    by_cases k : Proc g v e x ∧ P0 x = 1 - p
    · rw [if_pos k, if_pos ⟨Or.inl k.1, k.2⟩]
    · rw [if_neg k, if_neg (fun z => k ⟨z.1.resolve_right hx, z.2⟩)]

theorem PE_stay {v p e : Int} (e1 : g.vert v ≤ e) (h : P0 (g.dest e) ≠ 1 - p) : PE g v p P0 (e + 1) = PE g v p P0 e := by
  funext x
  unfold PE
  rw [Proc_succ e1]
  by_cases k : Proc g v e x ∧ P0 x = 1 - p
  · rw [if_pos k, if_pos ⟨Or.inl k.1, k.2⟩]
  · rw [if_neg k, if_neg]
    rintro ⟨z1, z2⟩
    rcases z1 with z | z
    · exact k ⟨z, z2⟩
    · rw [z] at z2; exact h z2

theorem PE_new (hc : ConsE g) {v p e : Int} (hv : g.Vertex v) (e1 : g.vert v ≤ e) (e2 : e < g.vend v) : PE g v p P0 e (g.dest e) = P0 (g.dest e) := by
  unfold PE
  rw [if_neg (fun z => Proc_new hc hv e1 e2 z.1)]

theorem PE_parts {v p e : Int} (hp : Parts g P0) : Parts g (PE g v p P0 e) := by
  intro x hx
  unfold PE
  split
  · simp
  · exact hp x hx

theorem PE_cases (v p e x : Int) : PE g v p P0 e x = 2 ∨ PE g v p P0 e x = P0 x := by
  unfold PE
  split
  · exact Or.inl rfl
  · exact Or.inr rfl

/-- New slot. -/
theorem SMid.insert (hc : ConsE g) (hb : 0 ≤ g.baseval) (M : SMid g c keys R P F hv s ch) {w : Int} (hw : g.Vertex w) (hcp : 0 < c) {d : Nat} (hd : Hash.Path fmPrime (s.msk + 1) (FmOwn s.hash) (FmKey s.hash) w d)
    (hh : h = probe fmPrime (s.msk + 1) w d) (hf : ¬ FmOwn s.hash h) {x : FmSlot} (xv : x.vertnum = w) (xm : x.mswp = (s.hash.get h).mswp) (xs : x.st = .free) (hx : R w x.v) (hq : Vals g P F w x.v) :
    SMid g (c - 1) (keys ++ [w]) R P F hv { s with hash := s.hash.set h x, nbr := s.nbr + 1 } ch := by
  have hw0 : 0 ≤ w := by have := hw.1; omega
  have hr := probe_in (prime := fmPrime) M.geo.tab.pos w d
  rw [← hh] at hr
  have hne : ∀ y, FmOwn s.hash y → y ≠ h := by
    intro y hy e
    rw [e] at hy
    exact hf hy
  have hge : ∀ y, y ≠ h → (s.hash.set h x).get y = s.hash.get y := fun y c => Arr.set_get_ne _ _ c
  have hgh : (s.hash.set h x).get h = x := Arr.set_get_same _ _ _
  have hmv : x.mswp ≠ s.mswp := by
    rw [xm, (M.geo.mswp h hr.1 hr.2).2 hf]
    have := M.geo.mpos
    omega
  refine ⟨M.geo.insert hc hb hw hcp hd hh hf xv xm (by rw [xs]; exact not_locked_free), M.sv.insert hf xv hw0 hmv hx, M.vl.insert xv ⟨hq, fun z => by rw [xs] at z; simp at z⟩, M.nodup, ?_, ?_, ?_⟩
  · intro y hy
    obtain ⟨a1, a2, a3, a4⟩ := M.chain y hy
    have := hge y (hne y a2)
    unfold FmOwn FmKey
    dsimp only
    rw [this]
    exact ⟨a1, a2, a3, a4⟩
  · intro y y1 y2
    unfold FmOwn
    dsimp only
    by_cases e : y = h
    · rw [e, hgh, xs]
      intro _ z
      simp at z
    · rw [hge y e]
      exact M.such y y1 y2
  · obtain ⟨a1, a2, a3, a4⟩ := M.move
    have := hge hv (hne hv a2)
    unfold FmOwn
    dsimp only
    rw [this]
    exact ⟨a1, a2, a3, a4⟩

/-- Result of the loop on the neighbours of `v`. -/
structure Nbrs (b : Vgraph) (pb : Int → Int) (Fb : Int → Int → Int) (v p : Int) (P0 : Int → Int) (hv : Int) (s : Fm) (n c : Int) (keys : List Int) (e : Int) (r : Fm × List Int) : Prop where
  mid : SMid b.s c keys (Vals b.s pb Fb) (PE b.s v p P0 e) (FE b.s v p P0 e) hv r.1 r.2
  keep : SKeep s r.1
  out : ∀ x, b.s.Vertex x → x ∉ keys → PE b.s v p P0 e x = b.part x ∧ pb x = b.part x ∧ b.part x ≠ 2
  len : (keys.length : Int) + c ≤ n

theorem sfArcs_holds (hc : ConsE b.s) (ha : Alloc b) (hb : 0 ≤ b.s.baseval) {v p : Int} (hp : p = 0 ∨ p = 1) (hvv : b.s.Vertex v) (hP : Parts b.s P0) (hs : Separated b.s P0) (hPv : P0 v = 2) (hkv : FmKey s.hash hv = v)
    (M : SMid b.s c keys (Vals b.s pb Fb) P0 (fun i x => near b.s P0 (1 - i) x - b.s.velo x) hv s []) (hout : ∀ x, b.s.Vertex x → x ∉ keys → P0 x = b.part x ∧ pb x = b.part x ∧ b.part x ≠ 2)
    (hcd : b.s.vend v - b.s.vert v ≤ c) :
    Holds (b.s.forArcs v (s, []) (sfArc b p (- b.s.velo v))) (fun r => ∃ keys', Nbrs b pb Fb v p P0 hv s (keys.length + c) (c - (b.s.vend v - b.s.vert v)) keys' (b.s.vend v) r) := by
  rw [sep_adj] at hs
  have hrange := (hc.range v hvv).2
  have hself : ∀ x, b.s.Vertex x → ¬ b.s.Adj x x := by
    rintro x hx ⟨i, i1, i2, i3⟩
    exact (hc.inside x i hx i1 i2).2 i3
  refine Holds_forArcs ha.graph hvv hrange (fun e (r : Fm × List Int) => ∃ keys', Nbrs b pb Fb v p P0 hv s (keys.length + c) (c - (e - b.s.vert v)) keys' e r) ?_ ?_ ?_
  · refine ⟨keys, ?_, SKeep.refl s, fun x hx hk => by rw [PE_start]; exact hout x hx hk, by omega⟩
    rw [show c - (b.s.vert v - b.s.vert v) = c by omega]
    refine M.congr (fun x _ => PE_start _ _ _) ?_
    intro x _ hx j hj
    unfold FE
    have e : PE b.s v p P0 (b.s.vert v) = P0 := funext (PE_start v p)
    rw [e, if_neg (Proc_start v x)]
    by_cases c1 : j = p
    · rw [if_pos c1, c1]
    · rw [if_neg c1, show 1 - j = p by omega]; omega
  · rintro e ⟨t, l⟩ e1 e2 ⟨keys', M1, K1, out1, len1⟩
    dsimp only at M1 K1
    obtain ⟨hw, hne⟩ := hc.inside v e hvv e1 e2
    have hadj : b.s.Adj v (b.s.dest e) := ⟨e, e1, e2, rfl⟩
    have hpw := PE_new (P0 := P0) (p := p) hc hvv e1 e2
    have hen := PE_enter (P0 := P0) (p := p) (v := v) e1
    have hst := PE_stay (P0 := P0) (p := p) (v := v) e1
    have hps := Proc_succ (g := b.s) (v := v) e1
    have hpn := Proc_new hc hvv e1 e2
    generalize b.s.dest e = w at hw hne hadj hpw hen hst hps hpn ⊢
    have hcc : c - (e + 1 - b.s.vert v) = c - (e - b.s.vert v) - 1 := by omega
    have hcp : 0 < c - (e - b.s.vert v) := by omega
    rw [hcc]
    generalize c - (e - b.s.vert v) = c1 at M1 hcp len1
    have hm1 := K1.msk
    have hlo := M1.geo.hlo
    have hhi := M1.geo.hhi
    have hP2 := hP w hw
    have hkv1 : PE b.s v p P0 e (FmKey t.hash hv) = 2 := by
      rw [(K1.own hv M.move.2.1).2, hkv]
      rcases PE_cases (g := b.s) (P0 := P0) v p e v with z | z
      · exact z
      · rw [z]; exact hPv
    -- a vertex that stays where it is
    have stay : P0 w ≠ 1 - p → P0 w ≠ 2 → Nbrs b pb Fb v p P0 hv s (keys.length + c) (c1 - 1) keys' (e + 1) (t, l) := by
      intro h1 h2
      refine ⟨?_, K1, by rw [hst h1]; exact out1, by omega⟩
      dsimp only
      refine (M1.fewer (by omega) (by omega)).congr (fun x _ => by rw [hst h1]) ?_
      intro x _ hx j hj
      unfold FE
      rw [hst h1]
      by_cases c2 : j = p
      · rw [if_pos c2, if_pos c2]
      · rw [if_neg c2, if_neg c2]
        have : x ≠ w := by
          intro z
          rw [z, hpw] at hx
          exact h2 hx
        have : Proc b.s v (e + 1) x ↔ Proc b.s v e x := by
          rw [hps]; exact ⟨fun z => z.resolve_right this, Or.inl⟩
        by_cases kk : Proc b.s v e x <;> [rw [if_pos kk, if_pos (this.2 kk)]; rw [if_neg kk, if_neg (fun z => kk (this.1 z))]]
    -- a vertex that enters the separator
    have enter : ∀ (c2 : Int) (keys2 : List Int) (t2 : Fm) (h : Int), SMid b.s c2 keys2 (Vals b.s pb Fb) (PE b.s v p P0 e) (FE b.s v p P0 e) hv t2 l → SKeep s t2 → P0 w = 1 - p → 0 ≤ h → h < t2.msk + 1 → FmOwn t2.hash h → FmKey t2.hash h = w →
        (∀ x, b.s.Vertex x → x ∉ keys2 → PE b.s v p P0 e x = b.part x ∧ pb x = b.part x ∧ b.part x ≠ 2) → FmKey t2.hash hv = v → (keys2.length : Int) + c2 ≤ keys.length + c → Holds (sfEnter b p (- b.s.velo v) w h (t2, l)) (Nbrs b pb Fb v p P0 hv s (keys.length + c) c2 keys2 (e + 1)) := by
      intro c2 keys2 t2 h M2 K2 h1 hh1 hh2 ho hk out2 hkv2 len2
      refine (sfEnter_holds hc ha hb M2 hh1 hh2 ho hw hk hp (PE_parts hP) (by rw [hpw]; exact h1) ?_ ?_ (fun x hx hxk => by rw [(out2 x hx hxk).1]; exact (out2 x hx hxk).2.2) ?_).mono ?_
      · rw [hkv2]
        rcases PE_cases (g := b.s) (P0 := P0) v p e v with z | z
        · exact z
        · rw [z]; exact hPv
      · intro x hx
        have := hs w x hw hx
        rcases PE_cases (g := b.s) (P0 := P0) v p e x with z | z
        · rw [z]; omega
        · rw [z]; omega
      · rintro y ⟨y1, y2, y3⟩ hy
        refine ⟨y1, y2, fun z => ?_⟩
        rw [y1] at hy
        exact absurd z hy
      rintro r ⟨⟨F2, hF2, hF2', hF2x, M3⟩, K3⟩
      refine ⟨?_, K2.trans K3, ?_, len2⟩
      · rw [hen h1]
        refine M3.congr (fun _ _ => rfl) ?_
        intro x hxv hx j hj
        unfold FE
        rw [hen h1]
        by_cases c3 : x = w
        · rw [c3]
          by_cases c4 : j = p
          · rw [if_pos c4, c4, hF2]
            congr 1
            apply near_congr
            intro y _ hy
            rw [upd_ne _ _ (by intro z; rw [z] at hy; exact hself w hw hy)]
          · rw [if_neg c4, show j = 1 - p by omega, hF2', if_pos ((hps w).2 (Or.inr rfl)), near_zero]
            · omega
            · intro y _ hy
              have := hs w y hw hy
              omega
        · have hx' : PE b.s v p P0 e x = 2 := by rwa [upd_ne _ _ c3] at hx
          by_cases c4 : j = p
          · rw [if_pos c4, c4]
            rw [near_upd hw]
            rw [if_neg (show ¬ (b.s.Adj x w ∧ 2 = 1 - p) by omega)]
            by_cases c5 : b.s.Adj w x
            · rw [(hF2x p x c3).1 ⟨rfl, c5⟩, if_pos ⟨hc.adj_symm hw c5, by rw [hpw]; exact h1⟩]
              unfold FE
              rw [if_pos rfl]
              omega
            · rw [(hF2x p x c3).2 (fun z => c5 z.2), if_neg (fun z => c5 (hc.adj_symm hxv z.1))]
              unfold FE
              rw [if_pos rfl]
              omega
          · rw [if_neg c4, (hF2x j x c3).2 (fun z => c4 z.1)]
            unfold FE
            rw [if_neg c4]
            have : Proc b.s v (e + 1) x ↔ Proc b.s v e x := by
              rw [hps]; exact ⟨fun z => z.resolve_right c3, Or.inl⟩
            by_cases kk : Proc b.s v e x <;> [rw [if_pos kk, if_pos (this.2 kk)]; rw [if_neg kk, if_neg (fun z => kk (this.1 z))]]
      · intro x hx hxk
        rw [hen h1, upd_ne]
        · exact out2 x hx hxk
        · intro z
          rw [z] at hxk
          exact hxk (hk ▸ M2.geo.key hh1 hh2 ho)
    unfold sfArc
    dsimp only
    rcases M1.geo.search hc hb hw with ⟨d, hd, hno, hnk, he⟩ | ⟨y, hy, hyo, hyk, he⟩
    · rw [he, ok_bind]
      dsimp only
      obtain ⟨o1, o2, o3⟩ := out1 w hw hnk
      rw [hpw] at o1
      rw [if_pos rfl, Arr.rd_ok _ (by have := ha.part; have := hw.1; omega) (by have := ha.part; have := hw.2; omega), ok_bind]
      have hpr := probe_in (prime := fmPrime) M1.geo.tab.pos w d
      by_cases hq : b.parttax.get w = p
      · rw [if_pos hq, Holds_pure]
        have : b.part w = p := hq
        exact ⟨keys', stay (by omega) (by omega)⟩
      · have h1p : P0 w = 1 - p := by
          have : b.part w ≠ p := hq
          omega
        rw [if_neg hq, sfNew]
        dsimp only
        rw [Arr.rd_ok _ (by omega) (by omega), ok_bind, rdVelo_eq ha.graph hw, ok_bind, Arr.wr_ok _ _ (by omega) (by omega), ok_bind, pure_bind]
        generalize hh : probe fmPrime (t.msk + 1) w d = h at hno hpr
        have hx2 : Vals b.s (PE b.s v p P0 e) (FE b.s v p P0 e) w { (t.hash.get h).v with part := 1 - p, cut := - b.s.velo w } := ⟨by rw [hpw, h1p], rfl, fun z => by rw [hpw] at z; omega⟩
        have hx3 : Vals b.s pb Fb w { (t.hash.get h).v with part := 1 - p, cut := - b.s.velo w } := ⟨by dsimp only; omega, rfl, fun z => by omega⟩
        have M2 := M1.insert hc hb hw hcp hd hh.symm hno (x := { t.hash.get h with vertnum := w, v := { (t.hash.get h).v with part := 1 - p, cut := - b.s.velo w }, st := .free }) rfl rfl rfl hx3 hx2
        have hK : SKeep t { t with hash := t.hash.set h { t.hash.get h with vertnum := w, v := { (t.hash.get h).v with part := 1 - p, cut := - b.s.velo w }, st := .free }, nbr := t.nbr + 1 } := by
          have hy' : ∀ y, FmOwn t.hash y → y ≠ h := by
            intro y hy z
            rw [z] at hy
            exact hno hy
          refine ⟨rfl, rfl, rfl, rfl, rfl, rfl, rfl, rfl, rfl, rfl, ?_, ?_⟩
          · intro y hy
            unfold FmOwn FmKey
            dsimp only
            rw [Arr.set_get_ne _ _ (hy' y hy)]
            exact ⟨hy, rfl⟩
          · intro y hy
            dsimp only
            rw [Arr.set_get_ne _ _ (hy' y hy)]
            exact id
        have hgh : (t.hash.set h { t.hash.get h with vertnum := w, v := { (t.hash.get h).v with part := 1 - p, cut := - b.s.velo w }, st := .free }).get h = _ := Arr.set_get_same _ _ _
        refine (enter (c1 - 1) (keys' ++ [w]) _ h M2 (K1.trans hK) h1p hpr.1 hpr.2 ?_ ?_ ?_ ?_ (by rw [List.length_append]; simp; omega)).mono (fun r hr => ⟨_, hr⟩)
        · unfold FmOwn
          dsimp only
          rw [hgh]
          have := hw.1
          dsimp only
          omega
        · unfold FmKey
          dsimp only
          rw [hgh]
        · intro x hx hxk
          exact out1 x hx (fun z => hxk (List.mem_append_left _ z))
        · rw [((K1.trans hK).own hv M.move.2.1).2, hkv]
    · rw [he, ok_bind]
      dsimp only
      have hq := M1.vl y hy.1 hy.2 hyo
      rw [hyk] at hq
      rw [if_neg (by simp), Arr.rd_ok _ (by omega) (by omega), ok_bind, hq.1.1, hpw]
      by_cases h2 : P0 w = 2
      · rw [if_pos h2]
        have h2' : P0 w ≠ 1 - p := by omega
        refine (sfMeet_holds M1 hy.1 hy.2 hyo (by rw [hyk, hpw]; exact h2) (show 1 - p = 0 ∨ 1 - p = 1 by omega) (- - b.s.velo v)).mono ?_
        rintro r ⟨M2, K2, _, _⟩
        refine ⟨keys', ?_, K1.trans K2, by rw [hst h2']; exact out1, by omega⟩
        refine (M2.fewer (by omega) (by omega)).congr (fun x _ => by rw [hst h2']) ?_
        intro x _ hx j hj
        rw [hyk]
        unfold FE
        rw [hst h2']
        by_cases c2 : j = p
        · rw [if_pos c2, if_pos c2, if_neg (by omega)]
        · rw [if_neg c2, if_neg c2]
          by_cases c3 : x = w
          · rw [c3, if_pos ((hps w).2 (Or.inr rfl)), if_pos (show j = 1 - p ∧ w = w from ⟨by omega, rfl⟩), if_neg hpn]
            omega
          · rw [if_neg (show ¬ (j = 1 - p ∧ x = w) from fun z => c3 z.2)]
            have : Proc b.s v (e + 1) x ↔ Proc b.s v e x := by
              rw [hps]; exact ⟨fun z => z.resolve_right c3, Or.inl⟩
            by_cases kk : Proc b.s v e x <;> [rw [if_pos kk, if_pos (this.2 kk)]; rw [if_neg kk, if_neg (fun z => kk (this.1 z))]]
      · rw [if_neg h2]
        by_cases h3 : P0 w = 1 - p
        · rw [if_pos h3]
          refine (enter (c1 - 1) keys' t y (M1.fewer (by omega) (by omega)) K1 h3 hy.1 hy.2 hyo hyk out1 ?_ (by omega)).mono (fun r hr => ⟨_, hr⟩)
          rw [(K1.own hv M.move.2.1).2, hkv]
        · rw [if_neg h3, Holds_pure]
          exact ⟨keys', stay h3 h2⟩
  · rintro r hr
    exact hr

end Scotch.Separ
