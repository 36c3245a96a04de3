import Verif.ArchIO.LemmasTok
import Verif.Arch.LemmasCmpltw
import Verif.Arch.LemmasTleaf

/-! # Target architectures in files: what has been saved is loaded, class by class -/

set_option autoImplicit false
set_option linter.unusedSimpArgs false

namespace Scotch.ArchIO
open Text

variable {E : Env}

/-- A result of a loader: the stream is left before `rest`, but for white space. -/
def Gives {α : Type} (rest : Stream) (P : α → Prop) : Option (α × Stream) → Prop
  | none => False
  | some (a, s) => P a ∧ ∃ ws, AllSpaces ws ∧ s = ws ++ rest

theorem Holds_get {α : Type} {r s : Stream} {v : Int} {l : List Int} {f : Int × Stream → M (Option α)} {Q : Option α → Prop} (h : Toks E.numMax r s (v :: l))
    (k : ∀ s', Toks E.numMax r s' l → Holds (f (v, s')) Q) : Holds (getInt E.numMax s >?> f) Q := by
  obtain ⟨s', e, h'⟩ := h.get
  rw [e, andThen_ok]
  exact k s' h'

theorem Holds_scan {α : Type} {r s : Stream} {v : Int} {l : List Int} {f : Int × Stream → M (Option α)} {Q : Option α → Prop} (h : Toks E.numMax r s (v :: l))
    (k : ∀ s', Toks E.numMax r s' l → Holds (f (v, s')) Q) : Holds (scanInt E.numMax s >?> f) Q := by
  obtain ⟨s', e, h'⟩ := h.scan
  rw [e, andThen_ok]
  exact k s' h'

theorem Holds_guard {α : Type} {c : Prop} [Decidable c] {f : Unit → M (Option α)} {Q : Option α → Prop} (h : c) (k : Holds (f ()) Q) : Holds (guardO c >?> f) Q := by
  rw [guardO_true h, andThen_ok]
  exact k

theorem Holds_then {α β : Type} {x : M (Option α)} {f : α → M (Option β)} {P : α → Prop} {Q : Option β → Prop} (h : Holds x (fun o => ∃ a, o = some a ∧ P a))
    (k : ∀ a, P a → Holds (f a) Q) : Holds (x >?> f) Q := by
  rw [Holds_andThen]
  refine h.mono ?_
  rintro _ ⟨a, rfl, ha⟩
  exact k a ha

theorem Holds_loop {σ : Type} {lo hi : Int} {st : σ} {body : Int → σ → M (Option σ)} (I : Int → σ → Prop) (hle : lo ≤ hi) (h0 : I lo st)
    (hstep : ∀ i s, lo ≤ i → i < hi → I i s → Holds (body i s) (fun o => ∃ s', o = some s' ∧ I (i + 1) s')) : Holds (loopO lo hi st body) (fun o => ∃ s', o = some s' ∧ I hi s') := by
  refine Holds_loopO I False hle h0 ?_ (fun s hs => ⟨s, rfl, hs⟩) (fun h => h.elim)
  intro i s i1 i2 hI
  refine (hstep i s i1 i2 hI).mono ?_
  rintro _ ⟨s', rfl, h⟩
  exact h

theorem chkNum_ok {v : Int} (h1 : -E.numMax - 1 ≤ v) (h2 : v ≤ E.numMax) : chkNum E v = .ok v := by
  unfold chkNum chk
  rw [if_pos ⟨h1, h2⟩]

theorem Holds_orCrash {x : M (Option (AnyArch × Stream))} {Q : Option (AnyArch × Stream) → Prop} (h : Holds x (fun o => ∃ a, o = some a ∧ Q (some a))) : Holds (orCrash x) Q := by
  unfold orCrash
  rw [Holds_bind]
  refine h.mono ?_
  rintro _ ⟨a, rfl, ha⟩
  exact ha

theorem Holds_wrap {α : Type} {f : α → AnyArch} {x : M (Option (α × Stream))} {rest : Stream} {P : α → Prop} {Q : AnyArch → Prop} (h : Holds x (Gives rest P)) (hf : ∀ a, P a → Q (f a)) :
    Holds (wrap f x) (Gives rest Q) := by
  unfold wrap
  rw [Holds_andThen]
  refine h.mono ?_
  intro o ho
  cases o with
  | none => exact ho.elim
  | some a => exact ⟨hf _ ho.1, ho.2⟩

theorem Gives.isSome {α : Type} {rest : Stream} {P : α → Prop} {o : Option (α × Stream)} (h : Gives rest P o) : ∃ a, o = some a ∧ Gives rest P (some a) := by
  cases o with
  | none => exact h.elim
  | some a => exact ⟨a, rfl, h⟩

/-! ## Arrays of integers -/

/-- Content of an array of which the cells from `lo` to `i` have been read. -/
def Filled {α : Type} (n : Int) (a : Arr α) (F : Int → α) (i : Int) : Prop := a.lo ≤ 0 ∧ n ≤ a.hi ∧ ∀ k, 0 ≤ k → k < i → a.get k = F k

theorem Filled.wr {α : Type} {n : Int} {a : Arr α} {F : Int → α} {i : Int} (h : Filled n a F i) (h0 : 0 ≤ i) (h1 : i < n) : ∃ a', a.wr i (F i) = .ok a' ∧ Filled n a' F (i + 1) ∧ a'.lo = a.lo ∧ a'.hi = a.hi := by
  refine ⟨a.set i (F i), Arr.wr_ok a _ (by have := h.1; omega) (by have := h.2.1; omega), ⟨h.1, h.2.1, ?_⟩, rfl, rfl⟩
  intro k k0 k1
  by_cases e : k = i
  · subst e
    exact Arr.set_get_same _ _ _
  · rw [Arr.set_get_ne _ _ e]
    exact h.2.2 k k0 (by omega)

/-- Loops that read one integer by cell. -/
theorem read_cells {n : Int} (hn : 0 ≤ n) {a : Arr Int} (ha : a.lo = 0) (hh : n ≤ a.hi) {F : Int → Int} {s r : Stream} {l : List Int} {C : Int → Prop} [DecidablePred C]
    (hC : ∀ i, 0 ≤ i → i < n → C (F i)) (hs : Toks E.numMax r s ((seg (fun i => [F i]) 0 n).flatten ++ l)) :
    Holds (loopO 0 n (a, s) (fun i st => getInt E.numMax st.2 >?> fun (v, s) => guardO (C v) >?> fun _ => do return some (← st.1.wr i v, s)))
      (fun o => ∃ st, o = some st ∧ st.1.lo = 0 ∧ st.1.hi = a.hi ∧ (∀ i, 0 ≤ i → i < n → st.1.get i = F i) ∧ Toks E.numMax r st.2 l) := by
  refine (Holds_loop (fun i (st : Arr Int × Stream) => Filled n st.1 F i ∧ st.1.lo = 0 ∧ st.1.hi = a.hi ∧ Toks E.numMax r st.2 ((seg (fun i => [F i]) i n).flatten ++ l)) hn
    ⟨⟨by dsimp only; omega, hh, fun k _ _ => by omega⟩, ha, rfl, hs⟩ ?_).mono ?_
  · rintro i ⟨b, s⟩ i1 i2 ⟨h1, h2, h3, h4⟩
    dsimp only at h1 h2 h3 h4 ⊢
    rw [flatten_seg_cons _ i2] at h4
    refine Holds_get h4 fun s' h5 => Holds_guard (hC i i1 i2) ?_
    obtain ⟨b', e, k1, k2, k3⟩ := h1.wr i1 i2
    dsimp only
    rw [e, ok_bind, Holds_pure]
    exact ⟨_, rfl, k1, by dsimp only; omega, by dsimp only; omega, h5⟩
  · rintro _ ⟨st, rfl, h1, h2, h3, h4⟩
    rw [seg_empty _ (Int.le_refl _)] at h4
    exact ⟨st, rfl, h2, h3, fun i i1 i2 => h1.2.2 i i1 i2, h4⟩

theorem seg_sing (F : Int → Int) (lo hi : Int) : (seg (fun i => [F i]) lo hi).flatten = seg F lo hi := by
  unfold seg
  rw [← List.flatMap_def]
  generalize List.range _ = l
  induction l with
  | nil => rfl
  | cons a l ih => simp [ih]

/-- Integers written after a space. -/
theorem toks_pre {F : Int → Int} {n : Int} (hn : 0 ≤ n) (hF : ∀ i, 0 ≤ i → i < n → Fits E (F i)) {r t : Stream} {l : List Int} (ht : NoDigit t) (hl : Toks E.numMax r t l) :
    Toks E.numMax r ((seg (fun i => 32 :: printInt (F i)) 0 n).flatten ++ t) ((seg (fun i => [F i]) 0 n).flatten ++ l) ∧ NoDigit ((seg (fun i => 32 :: printInt (F i)) 0 n).flatten ++ t) := by
  refine toks_pieces (φ := NoDigit) hn ?_ ht hl
  intro i t l i1 i2 h1 h2
  refine ⟨?_, noDigit_sp (Or.inl rfl) _⟩
  exact Toks.cons (ws := [32]) (allSpaces_cons (Or.inl rfl) allSpaces_nil) (hF i i1 i2).1 (hF i i1 i2).2 h1 h2

/-- Integers written before white space. -/
theorem toks_post {F : Int → Int} {n : Int} (hn : 0 ≤ n) (hF : ∀ i, 0 ≤ i → i < n → Fits E (F i)) {sep : Int → Nat} (hsep : ∀ i, sep i = 32 ∨ sep i = 9 ∨ sep i = 10) {r t : Stream}
    {l : List Int} (hl : Toks E.numMax r t l) : Toks E.numMax r ((seg (fun i => printInt (F i) ++ [sep i]) 0 n).flatten ++ t) ((seg (fun i => [F i]) 0 n).flatten ++ l) := by
  refine (toks_pieces (φ := fun _ => True) hn ?_ trivial hl).1
  intro i t l i1 i2 _ h2
  refine ⟨?_, trivial⟩
  rw [List.append_assoc]
  exact Toks.numc (hsep i) (hF i i1 i2) h2

theorem Gives.of {α : Type} {rest s : Stream} {P : α → Prop} {a : α} (h : P a) (hs : Toks E.numMax rest s []) : Gives rest P (some (a, s)) := ⟨h, hs.done⟩

/-! ## Meshes -/

theorem mesh2_load {c0 c1 : Int} (h0 : Upto E 1 c0) (h1 : Upto E 1 c1) (rest : Stream) : Holds (mesh2Load E (10 :: (mesh2Save c0 c1 ++ rest))) (Gives rest (fun c => c = (c0, c1))) := by
  obtain ⟨a1, a2⟩ := h0
  obtain ⟨b1, b2⟩ := h1
  have h : Toks E.numMax rest (10 :: (mesh2Save c0 c1 ++ rest)) [c0, c1] := by
    unfold mesh2Save
    rw [List.append_assoc, List.cons_append, List.append_assoc]
    exact Toks.sp1 (by decide) (Toks.numc (by decide) ⟨by omega, a2⟩ (Toks.numc (by decide) ⟨by omega, b2⟩ Toks.last))
  unfold mesh2Load
  refine Holds_get h fun s1 h => Holds_get h fun s2 h => Holds_guard ⟨by omega, by omega⟩ ?_
  rw [Holds_pure]
  exact Gives.of rfl h

theorem mesh3_load {c0 c1 c2 : Int} (h0 : Upto E 1 c0) (h1 : Upto E 1 c1) (h2 : Upto E 1 c2) (rest : Stream) :
    Holds (mesh3Load E (10 :: (mesh3Save c0 c1 c2 ++ rest))) (Gives rest (fun c => c = (c0, c1, c2))) := by
  obtain ⟨a1, a2⟩ := h0
  obtain ⟨b1, b2⟩ := h1
  obtain ⟨d1, d2⟩ := h2
  have h : Toks E.numMax rest (10 :: (mesh3Save c0 c1 c2 ++ rest)) [c0, c1, c2] := by
    unfold mesh3Save
    rw [List.append_assoc, List.cons_append, List.append_assoc, List.cons_append, List.append_assoc]
    exact Toks.sp1 (by decide) (Toks.numc (by decide) ⟨by omega, a2⟩ (Toks.numc (by decide) ⟨by omega, b2⟩ (Toks.numc (by decide) ⟨by omega, d2⟩ Toks.last)))
  unfold mesh3Load
  refine Holds_get h fun s1 h => Holds_get h fun s2 h => Holds_get h fun s3 h => Holds_guard ⟨by omega, by omega, by omega⟩ ?_
  rw [Holds_pure]
  exact Gives.of rfl h

theorem meshX_load {n : Int} {c : Arr Int} (h0 : n ≤ dimnMax) (hm : dimnMax ≤ E.numMax) (hc : Cells c n (Upto E 1)) (rest : Stream) :
    ∃ t, meshXSave n c = .ok t ∧ Holds (meshXLoad E (10 :: (t ++ rest))) (Gives rest (fun d => SameCells n d.1 c d.2)) := by
  have hn := hc.nbr
  refine ⟨_, by
    unfold meshXSave
    rw [writeAll_eq hn _ (P := fun i => printInt (c.get i) ++ [32]) (fun i i1 i2 => by rw [Arr.rd_ok c (by have := hc.lo; omega) (by have := hc.hi; omega)]; rfl)]
    rfl, ?_⟩
  have h : Toks E.numMax rest (10 :: (printInt n ++ [32] ++ (seg (fun i => printInt (c.get i) ++ [32]) 0 n).flatten ++ [10] ++ rest))
      (n :: ((seg (fun i => [c.get i]) 0 n).flatten ++ [])) := by
    rw [List.append_assoc, List.append_assoc, List.append_assoc]
    refine Toks.sp1 (by decide) (Toks.numc (by decide) ⟨by omega, by omega⟩ (toks_post hn (fun i i1 i2 => ?_) (sep := fun _ => 32) (fun _ => by decide) (Toks.sp1 (by decide) Toks.last)))
    obtain ⟨k1, k2⟩ := hc.all i i1 i2
    exact ⟨by omega, k2⟩
  unfold meshXLoad
  refine Holds_get h fun s1 h => Holds_guard (by omega) ?_
  refine Holds_then (read_cells hn rfl (show n ≤ dimnMax by omega) (C := fun v => ¬ v < 1) (fun i i1 i2 => by have := (hc.all i i1 i2).1; omega) h) ?_
  rintro st ⟨k1, k2, k3, k4⟩
  rw [Holds_pure]
  exact Gives.of ⟨rfl, fun i i1 i2 => (k3 i i1 i2).symm⟩ k4

/-! ## Trees -/

theorem tleaf_load {a : Arch.Tleaf.Arch} (h : TleafOk E a) (rest : Stream) :
    ∃ t, tleafSave a = .ok t ∧ Holds (tleafLoad E (10 :: (t ++ rest))) (Gives rest (fun b => SameTree a b ∧ Arch.Tleaf.WF b)) := by
  have hn := h.wf.lev
  have w1 := h.wf.slo
  have w2 := h.wf.shi
  have w3 := h.wf.llo
  have w4 := h.wf.lhi
  refine ⟨_, by
    unfold tleafSave
    rw [writeAll_eq hn _ (P := fun l => 32 :: (printInt (a.sizetab.get l) ++ (32 :: printInt (a.linktab.get l)))) (fun i i1 i2 => by
      rw [Arr.rd_ok a.sizetab (by omega) (by omega), ok_bind, Arr.rd_ok a.linktab (by omega) (by omega)]; rfl)]
    rfl, ?_⟩
  have hlev := h.levl
  have ht : Toks E.numMax rest (10 :: (printInt a.levlnbr ++ (seg (fun l => 32 :: (printInt (a.sizetab.get l) ++ (32 :: printInt (a.linktab.get l)))) 0 a.levlnbr).flatten ++ [10] ++ rest))
      (a.levlnbr :: ((seg (fun l => [a.sizetab.get l, a.linktab.get l]) 0 a.levlnbr).flatten ++ [])) := by
    rw [List.append_assoc, List.append_assoc]
    have hstep : ∀ i t l, 0 ≤ i → i < a.levlnbr → NoDigit t → Toks E.numMax rest t l → Toks E.numMax rest ((32 :: (printInt (a.sizetab.get i) ++ (32 :: printInt (a.linktab.get i)))) ++ t)
        ([a.sizetab.get i, a.linktab.get i] ++ l) ∧ NoDigit ((32 :: (printInt (a.sizetab.get i) ++ (32 :: printInt (a.linktab.get i)))) ++ t) := by
      intro i t l i1 i2 h1 h2
      refine ⟨?_, noDigit_sp (by decide) _⟩
      have s1 := h.wf.size i i1 i2
      have s2 := h.size i i1 i2
      have s3 := h.wf.link i i1 i2
      have s4 := h.link i i1 i2
      rw [List.cons_append, List.append_assoc, List.cons_append]
      refine Toks.sp1 (by decide) (Toks.num (by omega) s2 (noDigit_sp (by decide) _) ?_)
      exact Toks.sp1 (by decide) (Toks.num (by omega) s4 h1 h2)
    obtain ⟨k1, k2⟩ := toks_pieces (m := E.numMax) (r := rest) (φ := NoDigit) (P := fun l => 32 :: (printInt (a.sizetab.get l) ++ (32 :: printInt (a.linktab.get l))))
      (L := fun l => [a.sizetab.get l, a.linktab.get l]) (t := [10] ++ rest) (l := []) hn hstep (noDigit_sp (by decide) _) (Toks.sp1 (by decide) Toks.last)
    exact Toks.sp1 (by decide) (Toks.num (by omega) (by omega) k2 k1)
  unfold tleafLoad
  refine Holds_get ht fun s1 ht => ?_
  dsimp only
  rw [chkNum_ok (by omega) (by omega), ok_bind]
  refine Holds_guard (by omega) ?_
  refine Holds_then (Holds_loop (fun i (st : Arr Int × Arr Int × Int × Stream) => (Filled a.levlnbr st.1 a.sizetab.get i ∧ st.1.lo = 0 ∧ st.1.hi = a.levlnbr) ∧
      (Filled a.levlnbr st.2.1 a.linktab.get i ∧ st.2.1.lo = -1 ∧ st.2.1.hi = a.levlnbr) ∧ (1 ≤ st.2.2.1 ∧ st.2.2.1 * Arch.Tleaf.span a i = a.termnbr) ∧
      Toks E.numMax rest st.2.2.2 ((seg (fun l => [a.sizetab.get l, a.linktab.get l]) i a.levlnbr).flatten ++ [])) hn ?_ ?_) ?_
  · exact ⟨⟨⟨Int.le_refl _, Int.le_refl _, fun k _ _ => by omega⟩, rfl, rfl⟩, ⟨⟨by dsimp only; omega, Int.le_refl _, fun k _ _ => by omega⟩, rfl, rfl⟩,
      ⟨by dsimp only; omega, by dsimp only; rw [h.wf.term, Int.one_mul]⟩, ht⟩
  · rintro i ⟨siz, lnk, val, s⟩ i1 i2 ⟨⟨p1, p2, p3⟩, ⟨q1, q2, q3⟩, ⟨r0, r1⟩, ht⟩
    dsimp only at p1 p2 p3 q1 q2 q3 r0 r1 ht ⊢
    have s1 := h.wf.size i i1 i2
    have s3 := h.wf.link i i1 i2
    rw [flatten_seg_cons _ i2] at ht
    refine Holds_get ht fun s2 ht => Holds_get ht fun s3 ht => Holds_guard ⟨by omega, by omega⟩ ?_
    obtain ⟨b1, e1, k1, k2, k3⟩ := p1.wr i1 i2
    obtain ⟨b2, e2, l1, l2, l3⟩ := q1.wr i1 i2
    dsimp only
    rw [e1, ok_bind, e2, ok_bind]
    have es := Arch.Tleaf.span_step (a := a) i i2
    have ep := Arch.Tleaf.span_pos h.wf (i + 1) (by omega)
    rw [es, ← Int.mul_assoc] at r1
    have hv : 1 ≤ val * a.sizetab.get i := by nlinarith
    have hb : val * a.sizetab.get i ≤ E.numMax := by
      have := h.term
      nlinarith
    rw [chkNum_ok (by omega) hb, ok_bind, Holds_pure]
    exact ⟨_, rfl, ⟨k1, by dsimp only; omega, by dsimp only; omega⟩, ⟨l1, by dsimp only; omega, by dsimp only; omega⟩, ⟨hv, r1⟩, ht⟩
  · rintro ⟨siz, lnk, val, s⟩ ⟨⟨p1, p2, p3⟩, ⟨q1, q2, q3⟩, ⟨r0, r1⟩, ht⟩
    dsimp only at p1 p2 p3 q1 q2 q3 r0 r1 ht ⊢
    rw [Arch.Tleaf.span_top, Int.mul_one] at r1
    rw [seg_empty _ (Int.le_refl _)] at ht
    rw [Holds_pure]
    have hsame : SameTree a ⟨val, a.levlnbr, siz, lnk, 0, ⟨0, 0, E.junk⟩, ⟨0, 0, E.junk⟩⟩ := ⟨r1.symm, rfl, fun l l1 l2 => ⟨(p1.2.2 l l1 l2).symm, (q1.2.2 l l1 l2).symm⟩⟩
    refine Gives.of (P := fun b => SameTree a b ∧ Arch.Tleaf.WF b) ⟨hsame, ⟨hn, p1.1, p1.2.1, q1.1, q1.2.1, fun l l1 l2 => ?_, fun l l1 l2 => ?_, ?_⟩⟩ ht
    · dsimp only
      rw [p1.2.2 l l1 l2]
      exact h.wf.size l l1 l2
    · dsimp only
      rw [q1.2.2 l l1 l2]
      exact h.wf.link l l1 l2
    · have : ∀ m : Nat, (m : Int) ≤ a.levlnbr → Arch.Tleaf.spanN a m = Arch.Tleaf.spanN ⟨val, a.levlnbr, siz, lnk, 0, ⟨0, 0, E.junk⟩, ⟨0, 0, E.junk⟩⟩ m := by
        intro m
        induction m with
        | zero => intro _; rfl
        | succ m ih =>
          intro hm
          push_cast at hm
          rw [Arch.Tleaf.spanN, Arch.Tleaf.spanN, ih (by omega)]
          dsimp only
          rw [p1.2.2 _ (by omega) (by omega)]
      show val = Arch.Tleaf.spanN _ (a.levlnbr - 0).toNat
      refine r1.trans (h.wf.term.trans ?_)
      exact this (a.levlnbr - 0).toNat (by omega)

theorem ltleaf_load {a : Arch.Tleaf.Arch} (h : TleafOk E a) (hl : Arch.Tleaf.WFL a) (hp : a.permnbr ≤ E.numMax) (rest : Stream) :
    ∃ t, ltleafSave a = .ok t ∧ Holds (ltleafLoad E (10 :: (t ++ rest)))
      (Gives rest (fun b => SameTree a b ∧ SameCells a.permnbr b.permnbr a.permtab b.permtab ∧ SameCells a.permnbr b.permnbr a.peritab b.peritab)) := by
  have w1 := hl.plo
  have w2 := hl.phi
  have w3 := hl.nbr
  obtain ⟨t, e, -⟩ := tleaf_load h []
  refine ⟨t ++ printInt a.permnbr ++ (seg (fun i => 32 :: printInt (a.permtab.get i)) 0 a.permnbr).flatten ++ [10], by
    unfold ltleafSave
    rw [e, ok_bind, writeAll_eq (by omega) _ (P := fun i => 32 :: printInt (a.permtab.get i)) (fun i i1 i2 => by rw [Arr.rd_ok a.permtab (by omega) (by omega)]; rfl)]
    rfl, ?_⟩
  have hpt : Toks E.numMax rest (printInt a.permnbr ++ ((seg (fun i => 32 :: printInt (a.permtab.get i)) 0 a.permnbr).flatten ++ ([10] ++ rest)))
      (a.permnbr :: ((seg (fun i => [a.permtab.get i]) 0 a.permnbr).flatten ++ [])) := by
    obtain ⟨k1, k2⟩ := toks_pre (E := E) (F := a.permtab.get) (n := a.permnbr) (r := rest) (t := [10] ++ rest) (l := []) (by omega)
      (fun i i1 i2 => by obtain ⟨k1, k2, -⟩ := hl.perm i i1 i2; exact ⟨by omega, by omega⟩) (noDigit_sp (by decide) _) (Toks.sp1 (by decide) Toks.last)
    exact Toks.num (by omega) hp k2 k1
  obtain ⟨t', e', hT⟩ := tleaf_load h (printInt a.permnbr ++ ((seg (fun i => 32 :: printInt (a.permtab.get i)) 0 a.permnbr).flatten ++ ([10] ++ rest)))
  rw [e] at e'
  cases e'
  unfold ltleafLoad
  rw [Holds_andThen]
  rw [List.append_assoc, List.append_assoc, List.append_assoc]
  refine hT.mono ?_
  intro o ho
  cases o with
  | none => exact ho.elim
  | some o =>
    obtain ⟨b, s⟩ := o
    obtain ⟨⟨hsame, -⟩, ws, hws, es⟩ := ho
    dsimp only
    have ht : Toks E.numMax rest s (a.permnbr :: ((seg (fun i => [a.permtab.get i]) 0 a.permnbr).flatten ++ [])) := by
      rw [es]
      exact hpt.sp hws
    unfold permLoad
    refine Holds_get ht fun s1 ht => Holds_guard (by omega) ?_
    refine Holds_then (read_cells (n := a.permnbr) (by omega) rfl (Int.le_refl _) (C := fun v => ¬ v < 0 ∧ ¬ v ≥ a.permnbr)
      (fun i i1 i2 => by obtain ⟨k1, k2, -⟩ := hl.perm i i1 i2; exact ⟨by omega, by omega⟩) ht) ?_
    rintro ⟨p, s2⟩ ⟨k1, k2, k3, k4⟩
    dsimp only at k1 k2 k3 k4 ⊢
    rw [Holds_bind]
    refine Holds_forUp (fun i (q : Arr Int) => q.lo = 0 ∧ q.hi = a.permnbr ∧ ∀ k, 0 ≤ k → k < i → q.get (a.permtab.get k) = k) (by omega) ⟨rfl, rfl, fun k _ _ => by omega⟩ ?_ ?_
    · rintro i q i1 i2 ⟨q1, q2, q3⟩
      rw [Holds_bind, Holds_rd]
      refine ⟨⟨by omega, by omega⟩, ?_⟩
      obtain ⟨d1, d2, d3⟩ := hl.perm i i1 i2
      rw [k3 i i1 i2, Arr.wr_ok q _ (by omega) (by omega), Holds_ok]
      refine ⟨q1, q2, ?_⟩
      intro k c1 c2
      by_cases ek : k = i
      · subst ek
        exact Arr.set_get_same _ _ _
      · obtain ⟨-, -, f3⟩ := hl.perm k c1 (by omega)
        rw [Arr.set_get_ne _ _ (by
          intro h
          rw [h, d3] at f3
          exact ek f3.symm)]
        exact q3 k c1 (by omega)
    · rintro q ⟨q1, q2, q3⟩
      rw [Holds_pure]
      refine Gives.of (P := fun b => SameTree a b ∧ SameCells a.permnbr b.permnbr a.permtab b.permtab ∧ SameCells a.permnbr b.permnbr a.peritab b.peritab) ⟨hsame, ⟨rfl, fun i i1 i2 => (k3 i i1 i2).symm⟩, rfl, ?_⟩ k4
      intro i i1 i2
      obtain ⟨d1, d2, d3⟩ := hl.peri i i1 i2
      have := q3 (a.peritab.get i) d1 d2
      rw [d3] at this
      exact this.symm

end Scotch.ArchIO
