import Verif.ArchIO.LemmasLoad2

/-! # Target architectures in files: what has been saved is loaded -/

set_option autoImplicit false
set_option linter.unusedSimpArgs false

namespace Scotch.ArchIO
open Text

variable {E : Env}

/-- Number of nested sub-architectures. -/
def depth : AnyArch → Nat
  | .sub _ _ a => depth a + 1
  | .dist _ a => depth a + 1
  | _ => 0

theorem loadF_name (c : Class) (f : Nat) {ws : Stream} (hw : AllSpaces ws) (t : Stream) : loadF E (f + 1) (ws ++ (chars c.name ++ (10 :: t))) = classLoad E (loadF E f) (10 :: t) c := by
  rw [loadF, scanWord_name c hw]
  dsimp only
  rw [archClass_name]

/-- Result of loading the text `t` of an architecture. -/
def Loads (E : Env) (a : AnyArch) (t : Stream) : Prop :=
  ∀ f, depth a < f → ∀ ws rest, AllSpaces ws → Holds (loadF E f (ws ++ (t ++ rest))) (Gives rest (Same a))

theorem Loads.of {a : AnyArch} {t : Stream} (c : Class)
    (h : ∀ (f : Nat) rest, depth a ≤ f → Holds (classLoad E (loadF E f) (10 :: (t ++ rest)) c) (Gives rest (Same a))) : Loads E a (chars c.name ++ (10 :: t)) := by
  intro f hf ws rest hw
  cases f with
  | zero => omega
  | succ f =>
    rw [List.append_assoc, List.cons_append, loadF_name c f hw]
    exact h f rest (by omega)

theorem crash_wrap {α : Type} {g : α → AnyArch} {x : M (Option (α × Stream))} {rest : Stream} {P : α → Prop} {Q : AnyArch → Prop} (h : Holds x (Gives rest P)) (hf : ∀ a, P a → Q (g a)) :
    Holds (orCrash (wrap g x)) (Gives rest Q) :=
  Holds_orCrash ((Holds_wrap h hf).mono fun _ ho => ho.isSome)

theorem length_pre (c : Class) (t : Stream) : 1 ≤ (chars c.name ++ (10 :: t)).length := by
  rw [List.length_append, List.length_cons]
  omega

/-- One integer between line ends. -/
theorem toks_one {n : Int} (h : Fits E n) (rest : Stream) : Toks E.numMax rest (10 :: (printInt n ++ [10] ++ rest)) [n] := by
  rw [List.append_assoc]
  exact Toks.sp1 (by decide) (Toks.numc (by decide) h Toks.last)

theorem fits_of_upto {n lo : Int} (h0 : 0 ≤ lo) (h : Upto E lo n) : Fits E n := ⟨by have := h.1; have := h.2; omega, h.2⟩

/-- A loop that reads one integer by cell, without test. -/
theorem read_cells' {n : Int} (hn : 0 ≤ n) {a : Arr Int} (ha : a.lo = 0) (hh : n ≤ a.hi) {F : Int → Int} {s r : Stream} {l : List Int}
    (hs : Toks E.numMax r s ((seg (fun i => [F i]) 0 n).flatten ++ l)) :
    Holds (loopO 0 n (a, s) (fun i st => getInt E.numMax st.2 >?> fun (v, s) => do return some (← st.1.wr i v, s)))
      (fun o => ∃ st, o = some st ∧ st.1.lo = 0 ∧ st.1.hi = a.hi ∧ (∀ i, 0 ≤ i → i < n → st.1.get i = F i) ∧ Toks E.numMax r st.2 l) := by
  have := read_cells (E := E) hn ha hh (F := F) (s := s) (r := r) (l := l) (C := fun _ => True) (fun _ _ _ => trivial) hs
  have e : ∀ (i : Int) (st : Arr Int × Stream), (getInt E.numMax st.2 >?> fun (v, s) => guardO True >?> fun _ => do return some (← st.1.wr i v, s)) =
      (getInt E.numMax st.2 >?> fun (v, s) => do return some (← st.1.wr i v, s)) := fun i st => rfl
  exact this

theorem main : ∀ a, Valid E a → NoDist a → Builds E a → ∃ t, archSave a = .ok t ∧ depth a ≤ t.length ∧ Loads E a t
  | .cmplt n, h, _, _ => by
    refine ⟨_, rfl, Nat.zero_le _, Loads.of .cmplt fun f rest _ => ?_⟩
    refine Holds_orCrash (Holds_get (toks_one (fits_of_upto (by omega) h) rest) fun s1 ht => Holds_guard (by have := h.1; omega) ?_)
    rw [Holds_pure]
    exact ⟨_, rfl, Gives.of (P := Same (.cmplt n)) rfl ht⟩
  | .cmpltw a, ⟨⟨w, h⟩, h1, h2, h3⟩, _, _ => by
    obtain ⟨t, e, -⟩ := cmpltw_load h h1 h2 h3 []
    refine ⟨_, by rw [archSave, e]; rfl, Nat.zero_le _, Loads.of .cmpltw fun f rest _ => ?_⟩
    obtain ⟨t', e', k⟩ := cmpltw_load h h1 h2 h3 rest
    rw [e] at e'
    cases e'
    exact Holds_wrap k fun b hb => ⟨hb.1, hb.2.1, w, h, hb.2.2⟩
  | .deco a, h, _, _ => by
    obtain ⟨t, e, -⟩ := deco_load h []
    refine ⟨_, by rw [archSave, e]; rfl, Nat.zero_le _, Loads.of .deco fun f rest _ => ?_⟩
    obtain ⟨t', e', k⟩ := deco_load h rest
    rw [e] at e'
    cases e'
    exact k
  | .dist c a, _, h, _ => h.elim
  | .hcub d, ⟨h, h1⟩, _, _ => by
    refine ⟨_, rfl, Nat.zero_le _, Loads.of .hcub fun f rest _ => ?_⟩
    refine Holds_orCrash (Holds_get (toks_one (fits_of_upto (by omega) h) rest) fun s1 ht => Holds_guard ⟨by have := h.1; omega, by omega⟩ ?_)
    rw [Holds_pure]
    exact ⟨_, rfl, Gives.of (P := Same (.hcub d)) rfl ht⟩
  | .tleaf a, h, _, _ => by
    obtain ⟨t, e, -⟩ := tleaf_load h []
    refine ⟨_, by rw [archSave, e]; rfl, Nat.zero_le _, Loads.of .tleaf fun f rest _ => ?_⟩
    obtain ⟨t', e', k⟩ := tleaf_load h rest
    rw [e] at e'
    cases e'
    exact Holds_wrap k fun b hb => hb.1
  | .ltleaf a, ⟨h, h1, h2⟩, _, _ => by
    obtain ⟨t, e, -⟩ := ltleaf_load h h1 h2 []
    refine ⟨_, by rw [archSave, e]; rfl, Nat.zero_le _, Loads.of .ltleaf fun f rest _ => ?_⟩
    obtain ⟨t', e', k⟩ := ltleaf_load h h1 h2 rest
    rw [e] at e'
    cases e'
    exact Holds_wrap k fun b hb => hb
  | .mesh2 c0 c1, ⟨h0, h1⟩, _, _ => ⟨_, rfl, Nat.zero_le _, Loads.of .mesh2 fun f rest _ => crash_wrap (mesh2_load h0 h1 rest) (by rintro _ rfl; exact ⟨rfl, rfl⟩)⟩
  | .mesh3 c0 c1 c2, ⟨h0, h1, h2⟩, _, _ => ⟨_, rfl, Nat.zero_le _, Loads.of .mesh3 fun f rest _ => crash_wrap (mesh3_load h0 h1 h2 rest) (by rintro _ rfl; exact ⟨rfl, rfl, rfl⟩)⟩
  | .meshX n c, ⟨h0, h1, h2⟩, _, _ => by
    obtain ⟨t, e, -⟩ := meshX_load h0 h1 h2 []
    refine ⟨_, by rw [archSave, e]; rfl, Nat.zero_le _, Loads.of .meshX fun f rest _ => ?_⟩
    obtain ⟨t', e', k⟩ := meshX_load h0 h1 h2 rest
    rw [e] at e'
    cases e'
    exact crash_wrap k fun b hb => hb
  | .torus2 c0 c1, ⟨h0, h1⟩, _, _ => ⟨_, rfl, Nat.zero_le _, Loads.of .torus2 fun f rest _ => crash_wrap (mesh2_load h0 h1 rest) (by rintro _ rfl; exact ⟨rfl, rfl⟩)⟩
  | .torus3 c0 c1 c2, ⟨h0, h1, h2⟩, _, _ => ⟨_, rfl, Nat.zero_le _, Loads.of .torus3 fun f rest _ => crash_wrap (mesh3_load h0 h1 h2 rest) (by rintro _ rfl; exact ⟨rfl, rfl, rfl⟩)⟩
  | .torusX n c, ⟨h0, h1, h2⟩, _, _ => by
    obtain ⟨t, e, -⟩ := meshX_load h0 h1 h2 []
    refine ⟨_, by rw [archSave, e]; rfl, Nat.zero_le _, Loads.of .torusX fun f rest _ => ?_⟩
    obtain ⟨t', e', k⟩ := meshX_load h0 h1 h2 rest
    rw [e] at e'
    cases e'
    exact crash_wrap k fun b hb => hb
  | .vcmplt, _, _, _ => ⟨_, rfl, Nat.zero_le _, Loads.of (t := []) .vcmplt fun f rest _ => by
      show Holds (pure _) _
      rw [Holds_pure]
      exact ⟨trivial, [10], allSpaces_cons (by decide) allSpaces_nil, rfl⟩⟩
  | .vhcub, _, _, _ => ⟨_, rfl, Nat.zero_le _, Loads.of (t := []) .vhcub fun f rest _ => by
      show Holds (pure _) _
      rw [Holds_pure]
      exact ⟨trivial, [10], allSpaces_cons (by decide) allSpaces_nil, rfl⟩⟩
  | .sub n t a, ⟨h1, h2, h3⟩, hd, ⟨hb, hbuild⟩ => by
    obtain ⟨u, e, hlen, hload⟩ := main a h3 hd hb
    have hn := h2.nbr
    have w1 := h2.lo
    have w2 := h2.hi
    refine ⟨_, by
      rw [archSave, writeAll_eq hn _ (P := fun i => 32 :: printInt (t.get i)) (fun i i1 i2 => by rw [Arr.rd_ok t (by omega) (by omega)]; rfl), ok_bind, e]
      rfl, ?_, Loads.of .sub fun f rest hf => ?_⟩
    · rw [List.length_append, List.length_cons, List.length_append, List.length_cons]
      show depth a + 1 ≤ _
      omega
    · have hs : depth a < f := hf
      have ht : Toks E.numMax (10 :: (u ++ rest)) (10 :: (printInt n ++ (seg (fun i => 32 :: printInt (t.get i)) 0 n).flatten ++ (10 :: u) ++ rest)) (n :: ((seg (fun i => [t.get i]) 0 n).flatten ++ [])) := by
        rw [List.append_assoc, List.append_assoc, List.cons_append]
        obtain ⟨k1, k2⟩ := toks_pre (E := E) (F := t.get) (n := n) (r := 10 :: (u ++ rest)) (t := 10 :: (u ++ rest)) (l := []) hn h2.all (noDigit_sp (by decide) _) Toks.last
        exact Toks.sp1 (by decide) (Toks.num (by omega) h1 k2 k1)
      refine Holds_orCrash ?_
      unfold subLoad
      refine Holds_get ht fun s1 ht => ?_
      dsimp only
      rw [show alloc n E.junk = .ok (some ⟨0, n, E.junk⟩) by unfold alloc; rw [if_neg (by omega)]; rfl, andThen_ok]
      refine Holds_then (read_cells' hn rfl (Int.le_refl _) ht) ?_
      rintro ⟨t', s2⟩ ⟨k1, k2, k3, k4⟩
      dsimp only at k1 k2 k3 k4 ⊢
      obtain ⟨ws, hws, es⟩ := k4.done
      rw [es, Holds_andThen, show ws ++ (10 :: (u ++ rest)) = (ws ++ [10]) ++ (u ++ rest) by simp]
      refine (hload f hs (ws ++ [10]) rest (allSpaces_append hws (allSpaces_cons (by decide) allSpaces_nil))).mono ?_
      intro o ho
      cases o with
      | none => exact ho.elim
      | some o =>
        obtain ⟨b, s3⟩ := o
        obtain ⟨hsame, hrest⟩ := ho
        have hc : SameCells n n t t' := ⟨rfl, fun i i1 i2 => (k3 i i1 i2).symm⟩
        dsimp only
        rw [hbuild b t' hsame hc k1 k2, ok_bind, if_pos rfl, Holds_pure]
        exact ⟨_, rfl, ⟨hc, hsame⟩, hrest⟩

end Scotch.ArchIO
