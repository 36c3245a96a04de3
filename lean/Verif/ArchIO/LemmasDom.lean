import Verif.ArchIO.LemmasMain
import Verif.Arch.LemmasVar

/-! # Domains of target architectures in files -/

set_option autoImplicit false
set_option linter.unusedSimpArgs false

namespace Scotch.ArchIO
open Text

variable {E : Env}

theorem toks1 {v : Int} (h : Fits E v) {ws : Stream} (hw : AllSpaces ws) (rest : Stream) : Toks E.numMax rest (ws ++ (printInt v ++ [32] ++ rest)) [v] := by
  rw [List.append_assoc]
  exact Toks.sp hw (Toks.numc (by decide) h Toks.last)

theorem toks2 {u v : Int} (h : Fits E u) (k : Fits E v) {ws : Stream} (hw : AllSpaces ws) (rest : Stream) :
    Toks E.numMax rest (ws ++ (printInt u ++ (32 :: (printInt v ++ [32])) ++ rest)) [u, v] := by
  rw [List.append_assoc, List.cons_append, List.append_assoc]
  exact Toks.sp hw (Toks.numc (by decide) h (Toks.numc (by decide) k Toks.last))

theorem toks3 {u v x : Int} (h : Fits E u) (k : Fits E v) (l : Fits E x) {ws : Stream} (hw : AllSpaces ws) (rest : Stream) :
    Toks E.numMax rest (ws ++ (printInt u ++ (32 :: (printInt v ++ (32 :: (printInt x ++ [32])))) ++ rest)) [u, v, x] := by
  rw [List.append_assoc, List.cons_append, List.append_assoc, List.cons_append, List.append_assoc]
  exact Toks.sp hw (Toks.numc (by decide) h (Toks.numc (by decide) k (Toks.numc (by decide) l Toks.last)))

theorem fits_mk {v : Int} (h0 : 0 ≤ v) (h : v ≤ E.numMax) : Fits E v := ⟨by omega, h⟩

theorem mesh_dom {n : Int} {c : Arr (Int × Int)} (hn : n ≤ dimnMax) (h : Cells c n (fun p => 0 ≤ p.1 ∧ p.1 ≤ p.2 ∧ p.2 ≤ E.numMax)) (junk : Int → Int × Int) {ws : Stream} (hw : AllSpaces ws) :
    ∃ t, meshDomSave n c = .ok t ∧ ∀ rest, Holds (meshDomLoad E n junk (ws ++ (t ++ rest))) (Gives rest (SameDom n (.mesh c))) := by
  refine ⟨_, writeAll_eq h.nbr [] (P := fun i => printInt (c.get i).1 ++ (32 :: (printInt (c.get i).2 ++ [32]))) (fun i i1 i2 => by
    rw [Arr.rd_ok c (by have := h.lo; omega) (by have := h.hi; omega)]; rfl), fun rest => ?_⟩
  have ht : Toks E.numMax rest (ws ++ (([] ++ (seg (fun i => printInt (c.get i).1 ++ (32 :: (printInt (c.get i).2 ++ [32]))) 0 n).flatten) ++ rest)) ((seg (fun i => [(c.get i).1, (c.get i).2]) 0 n).flatten ++ []) := by
    refine Toks.sp hw ?_
    rw [List.nil_append]
    refine (toks_pieces (φ := fun _ => True) h.nbr ?_ trivial Toks.last).1
    intro i t l i1 i2 _ h2
    refine ⟨?_, trivial⟩
    obtain ⟨p1, p2, p3⟩ := h.all i i1 i2
    rw [List.append_assoc, List.cons_append, List.append_assoc]
    exact Toks.numc (by decide) (fits_mk p1 (by omega)) (Toks.numc (by decide) (fits_mk (by omega) p3) h2)
  unfold meshDomLoad
  refine Holds_then (P := fun (st : Arr (Int × Int) × Stream) => (∀ i, 0 ≤ i → i < n → st.1.get i = c.get i) ∧ Toks E.numMax rest st.2 []) ?_ ?_
  · refine (Holds_loop (fun i (st : Arr (Int × Int) × Stream) => Filled n st.1 c.get i ∧ Toks E.numMax rest st.2 ((seg (fun i => [(c.get i).1, (c.get i).2]) i n).flatten ++ [])) h.nbr
      ⟨⟨Int.le_refl _, hn, fun k _ _ => by omega⟩, ht⟩ ?_).mono ?_
    · rintro i ⟨b, s⟩ i1 i2 ⟨h1, h4⟩
      dsimp only at h1 h4 ⊢
      rw [flatten_seg_cons _ i2] at h4
      obtain ⟨p1, p2, p3⟩ := h.all i i1 i2
      refine Holds_get h4 fun s' h5 => Holds_get h5 fun s' h6 => Holds_guard ⟨by omega, by omega⟩ ?_
      obtain ⟨b', e, k1, k2, k3⟩ := h1.wr i1 i2
      dsimp only
      rw [show ((c.get i).1, (c.get i).2) = c.get i from rfl, e, ok_bind, Holds_pure]
      exact ⟨_, rfl, k1, h6⟩
    · rintro _ ⟨st, rfl, h1, h4⟩
      rw [seg_empty _ (Int.le_refl _)] at h4
      exact ⟨st, rfl, fun i i1 i2 => h1.2.2 i i1 i2, h4⟩
  · rintro ⟨b, s⟩ ⟨h1, h2⟩
    rw [Holds_pure]
    exact Gives.of (fun i i1 i2 => (h1 i i1 i2).symm) h2

theorem level_unique {n k l : Nat} (h1 : 2 ^ k ≤ n) (h2 : n < 2 ^ (k + 1)) (h3 : 2 ^ l ≤ n) (h4 : n < 2 ^ (l + 1)) : k = l := by
  rcases Nat.lt_trichotomy k l with h | h | h
  · have : 2 ^ (k + 1) ≤ 2 ^ l := Nat.pow_le_pow_right (by omega) h
    omega
  · exact h
  · have : 2 ^ (l + 1) ≤ 2 ^ k := Nat.pow_le_pow_right (by omega) h
    omega

theorem var_dom {n l : Int} (h : Upto E 1 n) (h0 : 0 ≤ l) (h1 : 2 ^ l.toNat ≤ n.toNat) (h2 : n.toNat < 2 ^ (l.toNat + 1)) {ws : Stream} (hw : AllSpaces ws) (rest : Stream) :
    Holds (varDomLoad E (ws ++ (printInt n ++ [32] ++ rest))) (Gives rest (SameDom 0 (.var n l))) := by
  obtain ⟨a1, a2⟩ := h
  refine Holds_get (toks1 (fits_mk (by omega) a2) hw rest) fun s1 ht => ?_
  rw [Holds_pure]
  have e : (Arch.Var.level n.toNat n.toNat 0 : Int) = l := by
    obtain ⟨-, b1, b2⟩ := Arch.Var.level_spec n.toNat n.toNat 0 (Nat.le_refl _) (by omega)
    rw [Nat.sub_zero] at b1 b2
    have := level_unique b1 b2 h1 h2
    omega
  rw [e]
  exact Gives.of (P := SameDom 0 (.var n l)) rfl ht

theorem tleaf_dom {a : Arch.Tleaf.Arch} {d : Arch.Tleaf.Dom} (h : 0 ≤ d.levlnum ∧ d.levlnum ≤ a.levlnbr ∧ Fits E d.levlnum ∧ Fits E d.indxmin ∧ Fits E d.indxnbr) {ws : Stream} (hw : AllSpaces ws) (rest : Stream) :
    Holds (tleafDomLoad E a (ws ++ (printInt d.levlnum ++ (32 :: (printInt d.indxmin ++ (32 :: (printInt d.indxnbr ++ [32])))) ++ rest))) (Gives rest (SameDom 0 (.tleaf d))) := by
  obtain ⟨h1, h2, h3, h4, h5⟩ := h
  unfold tleafDomLoad
  refine Holds_get (toks3 h3 h4 h5 hw rest) fun s1 ht => Holds_get ht fun s1 ht => Holds_get ht fun s1 ht => Holds_guard ⟨by omega, by omega⟩ ?_
  rw [Holds_pure]
  exact Gives.of (P := SameDom 0 (.tleaf d)) rfl ht

theorem cmpltw_le {a : Arch.Cmpltw.Arch} {d : Arch.Cmpltw.Dom} {w : Int → Int} (hwf : Arch.Cmpltw.WF a w) (h4 : Arch.Cmpltw.Valid a d) (k : Int) (e1 : d.vertmin ≤ k) (e2 : k ≤ d.vertmin + d.vertnbr) :
    0 ≤ sumI d.vertmin k (fun i => (a.velotab.get i).1) ∧ sumI d.vertmin k (fun i => (a.velotab.get i).1) ≤ a.velosum := by
  obtain ⟨k1, k2, k3, k4⟩ := h4
  have hpos : ∀ i, 0 ≤ i → i < a.vertnbr → 0 ≤ (a.velotab.get i).1 := by
    intro i i0 i1
    rw [hwf.velo i i0 i1]
    have := hwf.inj.1 i i0 (by omega)
    have := hwf.pos (a.velotab.get i).2 (by omega) (by omega)
    omega
  have s1 := sumI_split (show (0 : Int) ≤ k by omega) (show k ≤ a.vertnbr by omega) (fun i => (a.velotab.get i).1)
  have s2 := sumI_split (show (0 : Int) ≤ d.vertmin by omega) (show d.vertmin ≤ k by omega) (fun i => (a.velotab.get i).1)
  have p1 := sumI_nonneg (lo := k) (hi := a.vertnbr) (f := fun i => (a.velotab.get i).1) (fun i i0 i1 => hpos i (by omega) (by omega))
  have p2 := sumI_nonneg (lo := 0) (hi := d.vertmin) (f := fun i => (a.velotab.get i).1) (fun i i0 i1 => hpos i (by omega) (by omega))
  have p3 := sumI_nonneg (lo := d.vertmin) (hi := k) (f := fun i => (a.velotab.get i).1) (fun i i0 i1 => hpos i (by omega) (by omega))
  have := hwf.sum
  omega

theorem cmpltw_velo {a : Arch.Cmpltw.Arch} {d : Arch.Cmpltw.Dom} {w : Int → Int} (hwf : Arch.Cmpltw.WF a w) (h4 : Arch.Cmpltw.Valid a d) : 0 ≤ d.veloval ∧ d.veloval ≤ a.velosum := by
  have := cmpltw_le hwf h4 (d.vertmin + d.vertnbr) (by have := h4.nbr; omega) (Int.le_refl _)
  rw [← h4.velo] at this
  exact this

/-- Domains of weighted complete graphs: the load is added to what was there. -/
theorem cmpltw_dom {a : Arch.Cmpltw.Arch} {d : Arch.Cmpltw.Dom} (h1 : a.vertnbr ≤ E.numMax) (h2 : a.velosum ≤ E.numMax) (h3 : ∃ w, Arch.Cmpltw.WF a w) (h4 : Arch.Cmpltw.Valid a d) (old : Int)
    (ho : -E.numMax - 1 ≤ old ∧ old + d.veloval ≤ E.numMax) {ws : Stream} (hw : AllSpaces ws) (rest : Stream) :
    Holds (cmpltwDomLoad E a old (ws ++ (printInt d.vertmin ++ (32 :: (printInt d.vertnbr ++ [32])) ++ rest))) (Gives rest (fun d' => d' = .cmpltw ⟨d.vertmin, d.vertnbr, old + d.veloval⟩)) := by
  obtain ⟨w, hwf⟩ := h3
  have hle := cmpltw_le hwf h4
  obtain ⟨k1, k2, k3, k4⟩ := h4
  have hd := hle (d.vertmin + d.vertnbr) (by omega) (by omega)
  unfold cmpltwDomLoad
  refine Holds_scan (toks2 (fits_mk k1 (by omega)) (fits_mk (by omega) (by omega)) hw rest) fun s1 ht => Holds_scan ht fun s1 ht => ?_
  dsimp only
  rw [if_neg (show ¬ d.vertnbr < 1 by omega), chkNum_ok (by omega) (by omega), ok_bind, if_neg (show ¬ d.vertnbr + d.vertmin > a.vertnbr by omega), Holds_bind]
  refine Holds_forUp (fun k (s : Int) => s = sumI d.vertmin k (fun i => (a.velotab.get i).1)) (by omega) (sumI_empty (Int.le_refl _) _).symm ?_ ?_
  · intro i s i1 i2 hs
    have hl := hwf.lo
    have hh := hwf.hi
    rw [Arr.rd_ok a.velotab (by omega) (by omega), ok_bind]
    have e := sumI_succ i1 (fun i => (a.velotab.get i).1)
    have := hle (i + 1) (by omega) (by omega)
    rw [chkNum_ok (by omega) (by omega), Holds_ok]
    omega
  · intro s hs
    rw [← k4] at hs
    subst hs
    rw [chkNum_ok (by omega) (by omega), ok_bind, Holds_pure]
    exact Gives.of (P := fun d' => d' = _) rfl ht

/-- Round trip of domains. -/
theorem dom_main (junk : Int → Int × Int) (old : Int) {ws : Stream} (hw : AllSpaces ws) : ∀ a d, DomOk E a d → (IsWeighted a → old = 0) →
    ∃ t, domSave a d = .ok t ∧ ∀ rest, Holds (domLoad E junk old a (ws ++ (t ++ rest))) (Gives rest (SameDom (dimn a) d))
  | .cmplt n, .cmplt d, ⟨h1, h2, h3, h4⟩, _ => by
    refine ⟨_, rfl, fun rest => ?_⟩
    unfold domLoad
    refine Holds_get (toks2 (fits_mk h2 (by omega)) (fits_mk (by omega) (by omega)) hw rest) fun s1 ht => Holds_get ht fun s1 ht => ?_
    dsimp only
    rw [if_neg (by omega), chkNum_ok (by omega) (by omega), ok_bind, if_neg (by omega), Holds_pure]
    exact Gives.of (P := SameDom 0 (.cmplt d)) rfl ht
  | .cmpltw a, .cmpltw d, ⟨h1, h2, h3, h4⟩, ho => by
    refine ⟨_, rfl, fun rest => ?_⟩
    have := ho trivial
    subst this
    have hv : d.veloval ≤ a.velosum := by
      obtain ⟨w, hwf⟩ := h3
      have := (cmpltw_velo hwf h4).2
      exact this
    refine (cmpltw_dom h1 h2 h3 h4 0 ⟨?_, by omega⟩ hw rest).mono ?_
    · obtain ⟨w, hwf⟩ := h3
      have := (cmpltw_velo hwf h4).1
      omega
    · intro o ho
      cases o with
      | none => exact ho.elim
      | some o =>
        obtain ⟨e, hr⟩ := ho
        refine ⟨?_, hr⟩
        rw [e, Int.zero_add]
        rfl
  | .deco a, .deco n, ⟨h1, h2, h3⟩, _ => by
    refine ⟨_, rfl, fun rest => ?_⟩
    unfold domLoad
    refine Holds_get (toks1 (fits_mk (by omega) (by omega)) hw rest) fun s1 ht => Holds_guard ⟨by omega, by omega⟩ ?_
    rw [Holds_pure]
    exact Gives.of (P := SameDom 0 (.deco n)) rfl ht
  | .dist _ a, d, h, ho => by
    obtain ⟨t, e, k⟩ := dom_main junk old hw a d h ho
    exact ⟨t, by rw [domSave]; exact e, fun rest => by rw [domLoad]; exact k rest⟩
  | .hcub n, .hcub d b, ⟨h1, h2, h3⟩, _ => by
    refine ⟨_, rfl, fun rest => ?_⟩
    unfold domLoad
    refine Holds_get (toks2 h1 h2 hw rest) fun s1 ht => Holds_get ht fun s1 ht => Holds_guard (by omega) ?_
    rw [Holds_pure]
    exact Gives.of (P := SameDom 0 (.hcub d b)) rfl ht
  | .tleaf a, .tleaf d, h, _ => ⟨_, rfl, fun rest => tleaf_dom h hw rest⟩
  | .ltleaf a, .tleaf d, h, _ => ⟨_, rfl, fun rest => tleaf_dom h hw rest⟩
  | .mesh2 _ _, .mesh c, h, _ => mesh_dom (by decide) h junk hw
  | .mesh3 _ _ _, .mesh c, h, _ => mesh_dom (by decide) h junk hw
  | .meshX n _, .mesh c, h, _ => mesh_dom h.1 h.2 junk hw
  | .sub n _ _, .sub i, ⟨h1, h2, h3, h4⟩, _ => by
    refine ⟨_, rfl, fun rest => ?_⟩
    unfold domLoad
    refine Holds_get (toks1 (fits_mk (by omega) (by omega)) hw rest) fun s1 ht => Holds_guard ⟨by omega, by omega⟩ ?_
    rw [Holds_pure]
    exact Gives.of (P := SameDom 0 (.sub i)) rfl ht
  | .torus2 _ _, .mesh c, h, _ => mesh_dom (by decide) h junk hw
  | .torus3 _ _ _, .mesh c, h, _ => mesh_dom (by decide) h junk hw
  | .torusX n _, .mesh c, h, _ => mesh_dom h.1 h.2 junk hw
  | .vcmplt, .var n l, ⟨h1, h2, h3, h4⟩, _ => ⟨_, rfl, fun rest => var_dom h1 h2 h3 h4 hw rest⟩
  | .vhcub, .var n l, ⟨h1, h2, h3, h4⟩, _ => ⟨_, rfl, fun rest => var_dom h1 h2 h3 h4 hw rest⟩

end Scotch.ArchIO
