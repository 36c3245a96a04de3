import Verif.ArchIO.LemmasDom
import Verif.Safe

/-! # Target architectures in files: reading any text -/

set_option autoImplicit false
set_option linter.unusedSimpArgs false

namespace Scotch.ArchIO
open Text

variable {E : Env}

theorem Safe.mild {α : Type} {x : M α} {Q : α → Prop} (h : Safe x Q) : Mild x Q := by
  cases x with
  | ok a => exact h
  | error e => exact Or.inl h

theorem Mild.mono {α : Type} {x : M α} {Q R : α → Prop} (h : Mild x Q) (k : ∀ a, Q a → R a) : Mild x R := by
  cases x with
  | ok a => exact k a h
  | error e => exact h

theorem Mild_bind {α β : Type} {x : M α} {f : α → M β} {Q : β → Prop} (h : Mild x (fun a => Mild (f a) Q)) : Mild (x >>= f) Q := by
  cases x with
  | ok a => exact h
  | error e => exact h

theorem Mild_andThen {α β : Type} {x : M (Option α)} {f : α → M (Option β)} {Q : Option β → Prop} (h : Mild x (fun o => match o with | none => Q none | some a => Mild (f a) Q)) : Mild (x >?> f) Q := by
  cases x with
  | error e => exact h
  | ok o =>
    cases o with
    | none => exact h
    | some a => exact h

/-! ## Streams get shorter -/

theorem len_unget (c : Int) (r : Stream) : (ungetc c r).length ≤ r.length + 1 := by
  unfold ungetc
  split <;> simp

theorem len_digits (m : Int) : ∀ (s : Stream) (v : Int), Post (intLoadDigits m s v) (fun r => r.2.length ≤ s.length)
  | [], v => by
    unfold intLoadDigits
    rw [Post_ok]
    simp [ungetc]
  | c :: r, v => by
    unfold intLoadDigits
    split
    · rw [Post_ok]
      exact len_unget (c : Int) r
    · rw [Post_bind]
      refine Post.mono (Post_iff.2 fun _ _ => trivial) fun p _ => ?_
      rw [Post_bind]
      refine Post.mono (Post_iff.2 fun _ _ => trivial) fun q _ => ?_
      refine (len_digits m r q).mono ?_
      intro x hx
      rw [List.length_cons]
      omega

theorem len_start : ∀ (s : Stream) sign car r, intLoadStart s = .ok sign car r → r.length ≤ s.length
  | [], _, _, _, h => by cases h
  | c :: t, sign, car, r, h => by
    have hg : (getc t).2.length ≤ t.length := by cases t <;> simp [getc]
    unfold intLoadStart at h
    rw [List.length_cons]
    split at h
    · have := len_start t sign car r h
      omega
    · split at h
      · cases h; omega
      · split at h
        · cases h; omega
        · split at h
          · cases h; omega
          · cases h

theorem digits_le (m : Int) : ∀ (s : Stream) (v : Int), v ≤ m → Post (intLoadDigits m s v) (fun r => r.1 ≤ m)
  | [], v, h => h
  | c :: r, v, h => by
    unfold intLoadDigits
    split
    · exact h
    · rw [Post_bind]
      refine Post.mono (Post_iff.2 fun _ _ => trivial) fun p _ => ?_
      rw [Post_bind]
      refine Post.mono (Q := fun q => q ≤ m) (Post_iff.2 fun q hq => ?_) fun q hq => digits_le m r q hq
      unfold chk at hq
      split at hq
      · cases hq; omega
      · cases hq

/-- Reading an integer, on any text. -/
theorem get_any (hm : 9 ≤ E.numMax) (s : Stream) : Safe (getInt E.numMax s) (fun o => ∀ v s', o = some (v, s') → s'.length ≤ s.length ∧ v ≤ E.numMax) := by
  have h1 := getInt_safe E.numMax s
  have h2 : Post (getInt E.numMax s) (fun o => ∀ v s', o = some (v, s') → s'.length ≤ s.length ∧ v ≤ E.numMax) := by
    unfold getInt
    rw [Post_bind]
    refine Post.mono (Q := fun p => ∀ v, p.1 = some v → p.2.length ≤ s.length ∧ v ≤ E.numMax) ?_ ?_
    · unfold intLoad
      cases hs : intLoadStart s with
      | fail r => rw [Post_ok]; intro v hv; cases hv
      | ok sign car r =>
        have hl := len_start s sign car r hs
        dsimp only
        split
        · rw [Post_ok]; intro v hv; cases hv
        · rename_i hc
          rw [Post_bind]
          have := len_digits E.numMax r (car - 48)
          have k := digits_le E.numMax r (car - 48) (by omega)
          have hd := intLoadDigits_safe E.numMax r (car - 48) (by omega)
          cases e : intLoadDigits E.numMax r (car - 48) with
          | error f => trivial
          | ok p =>
            rw [e] at this k hd
            have this : p.2.length ≤ r.length := this
            have k : p.1 ≤ E.numMax := k
            have hd : 0 ≤ p.1 := hd.1
            show Post (if sign then _ else _) _
            split
            · rw [Post_bind]
              refine Post.mono (Q := fun q => q = -p.1) (Post_iff.2 fun q hq => ?_) fun q hq => ?_
              · unfold chk at hq
                split at hq
                · cases hq; rfl
                · cases hq
              · rw [Post_pure]
                intro v hv
                cases hv
                dsimp only
                omega
            · rw [Post_pure]
              intro v hv
              cases hv
              dsimp only
              omega
    · rintro ⟨o, r⟩ hr
      cases o with
      | none => rw [Post_pure]; intro v s' h; cases h
      | some v =>
        rw [Post_pure]
        intro v' s' h
        cases h
        exact hr v rfl
  refine (h1.and_post h2).mono fun o h => h.2

theorem len_skip : ∀ s : Stream, (Rand.skipSpace s).length ≤ s.length
  | [] => Nat.le_refl _
  | c :: r => by
    unfold Rand.skipSpace
    have := len_skip r
    split
    · rw [List.length_cons]; omega
    · exact Nat.le_refl _

theorem len_take : ∀ (n : Nat) (s : Stream), (takeWord n s).1.length + (takeWord n s).2.length = s.length
  | 0, s => by unfold takeWord; simp
  | n + 1, [] => rfl
  | n + 1, c :: s => by
    unfold takeWord
    split
    · simp
    · have := len_take n s
      simp only [List.length_cons]
      omega

theorem len_word {s : Stream} {w r : Stream} (h : scanWord s = some (w, r)) : r.length < s.length := by
  unfold scanWord at h
  have h1 := len_skip s
  have h2 := len_take 255 (Rand.skipSpace s)
  revert h h2
  cases takeWord 255 (Rand.skipSpace s) with
  | mk a b =>
    cases a with
    | nil => intro h; cases h
    | cons x y =>
      intro h h2
      cases h
      simp only [List.length_cons] at h2
      omega

/-! ## Combinators -/

theorem Safe_get {α : Type} (hm : 9 ≤ E.numMax) {s : Stream} {f : Int × Stream → M (Option α)} {Q : Option α → Prop} (h0 : Q none)
    (k : ∀ v s', s'.length ≤ s.length → v ≤ E.numMax → Safe (f (v, s')) Q) : Safe (getInt E.numMax s >?> f) Q := by
  rw [Safe_andThen]
  refine (get_any hm s).mono ?_
  intro o ho
  cases o with
  | none => exact h0
  | some p => exact k p.1 p.2 (ho p.1 p.2 rfl).1 (ho p.1 p.2 rfl).2

theorem Safe_scan {α : Type} {s : Stream} {f : Int × Stream → M (Option α)} {Q : Option α → Prop} (h0 : Q none)
    (k : ∀ v s', v ≤ E.numMax → Safe (f (v, s')) Q) : Safe (scanInt E.numMax s >?> f) Q := by
  rw [Safe_andThen]
  unfold scanInt
  split
  · exact h0
  · rename_i v r _
    split
    · rename_i hv
      exact k v r hv.2
    · rfl

theorem Safe_guard {α : Type} {c : Prop} [Decidable c] {f : Unit → M (Option α)} {Q : Option α → Prop} (h0 : Q none) (k : c → Safe (f ()) Q) : Safe (guardO c >?> f) Q := by
  rw [Safe_andThen, Safe_guardO]
  by_cases h : c
  · rw [if_pos h]; exact k h
  · rw [if_neg h]; exact h0

/-- The result satisfies `P`, if there is one. -/
def Opt {α : Type} (P : α → Prop) : Option α → Prop
  | none => True
  | some a => P a

theorem Safe_then {α β : Type} {x : M (Option α)} {f : α → M (Option β)} {P : α → Prop} {Q : Option β → Prop} (h0 : Q none) (h : Safe x (Opt P)) (k : ∀ a, P a → Safe (f a) Q) : Safe (x >?> f) Q := by
  rw [Safe_andThen]
  refine h.mono ?_
  intro o ho
  cases o with
  | none => exact h0
  | some a => exact k a ho

theorem Safe_loop {σ : Type} {lo hi : Int} {st : σ} {body : Int → σ → M (Option σ)} (I : Int → σ → Prop) (h0 : I lo st)
    (hstep : ∀ i s, lo ≤ i → i < hi → I i s → Safe (body i s) (Opt (I (i + 1)))) : Safe (loopO lo hi st body) (Opt (I (max lo hi))) := by
  refine Safe_loopO I True h0 ?_ (fun s hs => hs) (fun _ => trivial)
  intro i s i1 i2 hI
  refine (hstep i s i1 i2 hI).mono ?_
  intro o ho
  cases o with
  | none => trivial
  | some s' => exact ho

theorem Safe_num {α : Type} {v : Int} {f : Int → M α} {Q : α → Prop} (k : v ≤ E.numMax → Safe (f v) Q) : Safe (chkNum E v >>= f) Q := by
  unfold chkNum chk
  split
  · rename_i h
    exact k h.2
  · rfl

/-- Loops that read one integer by cell. -/
theorem cells_any (hm : 9 ≤ E.numMax) {n : Int} {a : Arr Int} (ha : a.lo = 0) (hh : n ≤ a.hi) {s : Stream} {C : Int → Prop} [DecidablePred C] :
    Safe (loopO 0 n (a, s) (fun i st => getInt E.numMax st.2 >?> fun (v, s) => guardO (C v) >?> fun _ => do return some (← st.1.wr i v, s)))
      (Opt fun st => st.1.lo = 0 ∧ st.1.hi = a.hi ∧ (∀ i, 0 ≤ i → i < n → C (st.1.get i)) ∧ st.2.length ≤ s.length) := by
  refine (Safe_loop (fun i (st : Arr Int × Stream) => st.1.lo = 0 ∧ st.1.hi = a.hi ∧ (∀ k, 0 ≤ k → k < i → C (st.1.get k)) ∧ st.2.length ≤ s.length) ⟨ha, rfl, fun k _ _ => by omega, Nat.le_refl _⟩ ?_).mono ?_
  · rintro i ⟨b, t⟩ i1 i2 ⟨h1, h2, h3, h4⟩
    dsimp only at h1 h2 h3 h4 ⊢
    refine Safe_get hm trivial fun v s' hs _ => Safe_guard trivial fun hv => ?_
    dsimp only
    rw [Arr.wr_ok b v (by omega) (by omega), ok_bind, Safe_pure]
    refine ⟨h1, h2, fun k k0 k1 => ?_, by dsimp only; omega⟩
    by_cases e : k = i
    · subst e
      rw [Arr.set_get_same _ _ _]
      exact hv
    · rw [Arr.set_get_ne _ _ e]
      exact h3 k k0 (by omega)
  · intro o ho
    cases o with
    | none => trivial
    | some st => exact ⟨ho.1, ho.2.1, fun i i0 i1 => ho.2.2.1 i i0 (by omega), ho.2.2.2⟩

/-- The same, without test. -/
theorem cells_any' (hm : 9 ≤ E.numMax) {n : Int} {a : Arr Int} (ha : a.lo = 0) (hh : n ≤ a.hi) {s : Stream} :
    Safe (loopO 0 n (a, s) (fun i st => getInt E.numMax st.2 >?> fun (v, s) => do return some (← st.1.wr i v, s)))
      (Opt fun st => st.1.lo = 0 ∧ st.1.hi = a.hi ∧ st.2.length ≤ s.length) :=
  (cells_any hm ha hh (s := s) (C := fun _ => True)).mono fun o ho => by
    cases o with
    | none => trivial
    | some st => exact ⟨ho.1, ho.2.1, ho.2.2.2⟩

/-! ## Classes -/

theorem mesh2_any (hm : 9 ≤ E.numMax) (s : Stream) : Safe (mesh2Load E s) (Opt fun p => 1 ≤ p.1.1 ∧ 1 ≤ p.1.2) := by
  unfold mesh2Load
  refine Safe_get hm trivial fun c0 s1 _ _ => Safe_get hm trivial fun c1 s1 _ _ => Safe_guard trivial fun h => ?_
  rw [Safe_pure]
  exact ⟨by dsimp only; omega, by dsimp only; omega⟩

theorem mesh3_any (hm : 9 ≤ E.numMax) (s : Stream) : Safe (mesh3Load E s) (Opt fun p => 1 ≤ p.1.1 ∧ 1 ≤ p.1.2.1 ∧ 1 ≤ p.1.2.2) := by
  unfold mesh3Load
  refine Safe_get hm trivial fun c0 s1 _ _ => Safe_get hm trivial fun c1 s1 _ _ => Safe_get hm trivial fun c2 s1 _ _ => Safe_guard trivial fun h => ?_
  rw [Safe_pure]
  exact ⟨by dsimp only; omega, by dsimp only; omega, by dsimp only; omega⟩

theorem meshX_any (hm : 9 ≤ E.numMax) (s : Stream) : Safe (meshXLoad E s) (Opt fun p => p.1.1 ≤ dimnMax ∧ ∀ i, 0 ≤ i → i < p.1.1 → 1 ≤ p.1.2.get i) := by
  unfold meshXLoad
  refine Safe_get hm trivial fun n s1 _ _ => Safe_guard trivial fun h => ?_
  dsimp only at h ⊢
  refine Safe_then trivial (cells_any hm rfl (show n ≤ dimnMax by omega) (C := fun v => ¬ v < 1)) ?_
  rintro ⟨b, t⟩ ⟨-, -, h3, -⟩
  rw [Safe_pure]
  exact ⟨by dsimp only; omega, fun i i0 i1 => by have := h3 i i0 i1; dsimp only at this ⊢; omega⟩

/-- Product of the first values of a function. -/
def prodTo (f : Int → Int) : Nat → Int
  | 0 => 1
  | m + 1 => prodTo f m * f m

theorem prodTo_congr {f g : Int → Int} : ∀ {m : Nat}, (∀ k : Int, 0 ≤ k → k < m → f k = g k) → prodTo f m = prodTo g m
  | 0, _ => rfl
  | m + 1, h => by rw [prodTo, prodTo, prodTo_congr (fun k k0 k1 => h k k0 (by push_cast; omega)), h m (by omega) (by push_cast; omega)]

theorem spanN_prodTo (a : Arch.Tleaf.Arch) (n : Nat) (hn : a.levlnbr = n) : ∀ m, m ≤ n → prodTo a.sizetab.get (n - m) * Arch.Tleaf.spanN a m = prodTo a.sizetab.get n
  | 0, _ => by rw [Arch.Tleaf.spanN, Int.mul_one, Nat.sub_zero]
  | m + 1, h => by
    rw [← spanN_prodTo a n hn m (by omega), Arch.Tleaf.spanN, show n - m = (n - (m + 1)) + 1 by omega, prodTo, hn, show ((n - (m + 1) : Nat) : Int) = (n : Int) - m - 1 by omega, Int.mul_assoc]

theorem tleaf_any (hm : 9 ≤ E.numMax) (s : Stream) : Safe (tleafLoad E s) (Opt fun p => Arch.Tleaf.WF p.1) := by
  unfold tleafLoad
  refine Safe_get hm trivial fun n s1 _ hn => ?_
  dsimp only
  refine Safe_num fun hn2 => Safe_guard trivial fun h => ?_
  have hn0 : 0 ≤ n := by omega
  refine Safe_then (P := fun (st : Arr Int × Arr Int × Int × Stream) => (st.1.lo = 0 ∧ st.1.hi = n) ∧ (st.2.1.lo = -1 ∧ st.2.1.hi = n) ∧ (∀ k, 0 ≤ k → k < n → 2 ≤ st.1.get k ∧ 1 ≤ st.2.1.get k) ∧
      st.2.2.1 = prodTo st.1.get n.toNat) trivial ?_ ?_
  · refine (Safe_loop (fun i (st : Arr Int × Arr Int × Int × Stream) => (st.1.lo = 0 ∧ st.1.hi = n) ∧ (st.2.1.lo = -1 ∧ st.2.1.hi = n) ∧ (∀ k, 0 ≤ k → k < i → 2 ≤ st.1.get k ∧ 1 ≤ st.2.1.get k) ∧
      st.2.2.1 = prodTo st.1.get i.toNat) ⟨⟨rfl, rfl⟩, ⟨rfl, rfl⟩, fun k _ _ => by omega, rfl⟩ ?_).mono ?_
    · rintro i ⟨b, c, val, t⟩ i1 i2 ⟨⟨h1, h2⟩, ⟨h3, h4⟩, h5, h6⟩
      dsimp only at h1 h2 h3 h4 h5 h6 ⊢
      refine Safe_get hm trivial fun v s' _ _ => Safe_get hm trivial fun u s' _ _ => Safe_guard trivial fun hv => ?_
      dsimp only at hv ⊢
      rw [Arr.wr_ok b v (by omega) (by omega), ok_bind, Arr.wr_ok c u (by omega) (by omega), ok_bind]
      refine Safe_num fun _ => ?_
      rw [Safe_pure]
      refine ⟨⟨h1, h2⟩, ⟨h3, h4⟩, fun k k0 k1 => ?_, ?_⟩
      · by_cases e : k = i
        · subst e
          rw [Arr.set_get_same _ _ _, Arr.set_get_same _ _ _]
          omega
        · rw [Arr.set_get_ne _ _ e, Arr.set_get_ne _ _ e]
          exact h5 k k0 (by omega)
      · dsimp only
        rw [show (i + 1).toNat = i.toNat + 1 by omega, prodTo, show ((i.toNat : Nat) : Int) = i by omega, Arr.set_get_same _ _ _, h6]
        congr 1
        refine prodTo_congr fun k k0 k1 => ?_
        rw [Arr.set_get_ne _ _ (by omega)]
    · intro o ho
      cases o with
      | none => trivial
      | some st =>
        rw [show max 0 n = n by omega] at ho
        exact ho
  · rintro ⟨b, c, val, t⟩ ⟨⟨h1, h2⟩, ⟨h3, h4⟩, h5, h6⟩
    rw [Safe_pure]
    dsimp only at h1 h2 h3 h4 h5 h6 ⊢
    refine ⟨hn0, by dsimp only; omega, by dsimp only; omega, by dsimp only; omega, by dsimp only; omega, fun l l0 l1 => (h5 l l0 l1).1, fun l l0 l1 => (h5 l l0 l1).2, ?_⟩
    dsimp only
    have := spanN_prodTo ⟨val, n, b, c, 0, ⟨0, 0, E.junk⟩, ⟨0, 0, E.junk⟩⟩ n.toNat (by dsimp only; omega) n.toNat (Nat.le_refl _)
    rw [Nat.sub_self, prodTo, Int.one_mul] at this
    unfold Arch.Tleaf.span
    dsimp only
    rw [Int.sub_zero]
    exact h6.trans this.symm

theorem wf_perm {a : Arch.Tleaf.Arch} (h : Arch.Tleaf.WF a) (n : Int) (b p : Arr Int) : Arch.Tleaf.WF { a with permnbr := n, permtab := b, peritab := p } := by
  have e : ∀ m, Arch.Tleaf.spanN a m = Arch.Tleaf.spanN { a with permnbr := n, permtab := b, peritab := p } m := by
    intro m
    induction m with
    | zero => rfl
    | succ m ih => rw [Arch.Tleaf.spanN, Arch.Tleaf.spanN, ih]
  exact ⟨h.lev, h.slo, h.shi, h.llo, h.lhi, h.size, h.link, h.term.trans (e _)⟩

theorem ltleaf_any (hm : 9 ≤ E.numMax) (s : Stream) : Safe (ltleafLoad E s) (Opt fun p => Sane E (.ltleaf p.1)) := by
  unfold ltleafLoad
  refine Safe_then trivial (tleaf_any hm s) ?_
  rintro ⟨a, s1⟩ ha
  dsimp only at ha ⊢
  unfold permLoad
  refine Safe_get hm trivial fun n s1 _ _ => Safe_guard trivial fun h => ?_
  dsimp only at h ⊢
  refine Safe_then trivial (cells_any hm rfl (show n ≤ n from Int.le_refl _) (C := fun v => ¬ v < 0 ∧ ¬ v ≥ n)) ?_
  rintro ⟨b, t⟩ ⟨h1, h2, h3, -⟩
  dsimp only at h1 h2 h3 ⊢
  rw [Safe_bind]
  refine Holds.safe (Holds_forUp (fun _ (p : Arr Int) => p.lo = 0 ∧ p.hi = n) (by omega) ⟨rfl, rfl⟩ ?_ ?_)
  · rintro i p i0 i1 ⟨p1, p2⟩
    have := h3 i i0 i1
    rw [Arr.rd_ok b (by omega) (by omega), ok_bind, Arr.wr_ok p i (by omega) (by omega), Holds_ok]
    exact ⟨p1, p2⟩
  · rintro p ⟨p1, p2⟩
    rw [Safe_pure]
    refine ⟨wf_perm ha n b p, by dsimp only; omega, ⟨by dsimp only; omega, by dsimp only; omega, by dsimp only; omega, fun i i0 i1 => ?_⟩, ⟨by dsimp only; omega, by dsimp only; omega, by dsimp only; omega, fun i i0 i1 => trivial⟩⟩
    have := h3 i i0 i1
    dsimp only
    omega

theorem cmpltw_any (hm : E.numMax < 2 ^ 31) (s : Stream) : Safe (cmpltwLoad E s) (Opt fun p => ∃ w, Arch.Cmpltw.WF p.1 w) := by
  unfold cmpltwLoad
  refine Safe_scan trivial fun n s1 hn => Safe_guard trivial fun h => ?_
  dsimp only at h ⊢
  refine Safe_then (P := fun (st : Arr Arch.Cmpltw.Rec × Int × Stream) => st.1.lo = 0 ∧ st.1.hi = n ∧ (∀ k, 0 ≤ k → k < n → 1 ≤ (st.1.get k).1 ∧ (st.1.get k).2 = k) ∧ st.2.1 = sumI 0 n (fun k => (st.1.get k).1))
    trivial ?_ ?_
  · refine (Safe_loop (fun i (st : Arr Arch.Cmpltw.Rec × Int × Stream) => st.1.lo = 0 ∧ st.1.hi = n ∧ (∀ k, 0 ≤ k → k < i → 1 ≤ (st.1.get k).1 ∧ (st.1.get k).2 = k) ∧ st.2.1 = sumI 0 i (fun k => (st.1.get k).1))
      ⟨rfl, rfl, fun k _ _ => by omega, (sumI_empty (Int.le_refl _) _).symm⟩ ?_).mono ?_
    · rintro i ⟨b, sum, t⟩ i0 i1 ⟨h1, h2, h3, h4⟩
      dsimp only at h1 h2 h3 h4 ⊢
      refine Safe_scan trivial fun v s' _ => Safe_guard trivial fun hv => ?_
      dsimp only at hv ⊢
      refine Safe_num fun _ => ?_
      rw [Arr.wr_ok b _ (by omega) (by omega), ok_bind, Safe_pure]
      refine ⟨h1, h2, fun k k0 k1 => ?_, ?_⟩
      · by_cases e : k = i
        · subst e
          rw [Arr.set_get_same _ _ _]
          exact ⟨by dsimp only; omega, rfl⟩
        · rw [Arr.set_get_ne _ _ e]
          exact h3 k k0 (by omega)
      · dsimp only
        rw [sumI_succ i0, Arr.set_get_same _ _ _, h4]
        dsimp only
        congr 1
        refine sumI_congr fun k k0 k1 => ?_
        rw [Arr.set_get_ne _ _ (by omega)]
    · intro o ho
      cases o with
      | none => trivial
      | some st =>
        rw [show max 0 n = n by omega] at ho
        exact ho
  · rintro ⟨b, sum, t⟩ ⟨h1, h2, h3, h4⟩
    dsimp only at h1 h2 h3 h4 ⊢
    rw [Safe_bind, h4]
    refine Holds.safe ((W.build2_spec n (by omega) (by omega) (fun k => (b.get k).1) (fun k k0 k1 => by have := (h3 k k0 k1).1; omega) b h1 h2 (fun k k0 k1 => Prod.ext rfl (h3 k k0 k1).2) E.junkR).mono ?_)
    rintro a ⟨-, -, ha⟩
    rw [Safe_pure]
    exact ⟨_, ha⟩

theorem deco_any (hm : 9 ≤ E.numMax) (hd : ∀ t s, Safe (E.decoOther t s) (Opt fun p => Sane E p.1)) (s : Stream) : Safe (decoLoad E s) (Opt fun p => Sane E p.1) := by
  unfold decoLoad
  refine Safe_get hm trivial fun ty s1 _ _ => Safe_guard trivial fun h => ?_
  dsimp only at h ⊢
  split
  · exact hd _ _
  · refine Safe_get hm trivial fun n s1 _ _ => Safe_get hm trivial fun m s1 _ _ => Safe_guard trivial fun h2 => ?_
    dsimp only at h2 ⊢
    refine Safe_num fun hj => ?_
    have hmm : 0 ≤ m * (m - 1) := Int.mul_nonneg (by omega) (by omega)
    have e : (m * (m - 1)).tdiv 2 = m * (m - 1) / 2 := Int.tdiv_eq_ediv_of_nonneg hmm
    rw [e]
    generalize hjj : m * (m - 1) / 2 = j
    have hj0 : 0 ≤ j := by omega
    refine Safe_then (P := fun (st : Arr DecoVert × Stream) => st.1.lo = 0 ∧ st.1.hi = m) trivial ?_ ?_
    · refine (Safe_loop (fun _ (st : Arr DecoVert × Stream) => st.1.lo = 0 ∧ st.1.hi = m) ⟨rfl, rfl⟩ ?_).mono fun o ho => ho
      rintro i ⟨b, t⟩ i0 i1 ⟨h1, h2⟩
      dsimp only at h1 h2 ⊢
      refine Safe_get hm trivial fun v s' _ _ => Safe_get hm trivial fun v' s' _ _ => Safe_get hm trivial fun v'' s' _ _ => ?_
      dsimp only
      rw [Arr.wr_ok b _ (by omega) (by omega), ok_bind, Safe_pure]
      exact ⟨h1, h2⟩
    · rintro ⟨b, t⟩ ⟨h1, h2'⟩
      dsimp only at h1 h2' ⊢
      refine Safe_then trivial (cells_any' hm rfl (show j ≤ j + 1 by omega)) ?_
      rintro ⟨c, u⟩ ⟨k1, k2, -⟩
      dsimp only at k1 k2 ⊢
      rw [Safe_pure]
      refine ⟨by dsimp only; omega, by dsimp only; omega, ⟨by dsimp only; omega, by dsimp only; omega, by dsimp only; omega, fun _ _ _ => trivial⟩, ?_⟩
      dsimp only
      rw [hjj]
      exact ⟨hj0, by omega, by omega, fun _ _ _ => trivial⟩

/-! ## All classes -/

theorem crash_any {x : M (Option (AnyArch × Stream))} {P : AnyArch × Stream → Prop} (h : Mild x (Opt P)) : Mild (orCrash x) (Opt P) := by
  unfold orCrash
  refine Mild_bind (h.mono ?_)
  intro o ho
  cases o with
  | none => exact Or.inr rfl
  | some a => exact ho

theorem wrap_any {α : Type} {f : α → AnyArch} {x : M (Option (α × Stream))} {P : α × Stream → Prop} {Q : AnyArch × Stream → Prop} (h : Safe x (Opt P)) (k : ∀ p, P p → Q (f p.1, p.2)) : Mild (wrap f x) (Opt Q) := by
  unfold wrap
  refine Mild_andThen ((Safe.mild h).mono ?_)
  intro o ho
  cases o with
  | none => trivial
  | some p => exact k p ho

theorem load_any (hm : 9 ≤ E.numMax) (hm2 : E.numMax < 2 ^ 31) (hd : ∀ t s, Safe (E.decoOther t s) (Opt fun p => Sane E p.1)) (hb : ∀ a n t, Sane E a → Mild (E.subBuild a n t) (fun _ => True)) :
    ∀ (f : Nat) (s : Stream), s.length < f → Mild (loadF E f s) (Opt fun p => Sane E p.1)
  | 0, s, h => by omega
  | f + 1, s, h => by
    unfold loadF
    cases hw : scanWord s with
    | none => trivial
    | some p =>
      obtain ⟨name, s1⟩ := p
      dsimp only
      cases hc : archClass name with
      | none => trivial
      | some c =>
        dsimp only
        have hlen := len_word hw
        cases c with
        | cmplt =>
          refine crash_any (Safe.mild (Safe_get hm trivial fun n s1 _ _ => Safe_guard trivial fun h => ?_))
          rw [Safe_pure]
          show 1 ≤ n
          omega
        | cmpltw => exact wrap_any (cmpltw_any hm2 s1) fun p hp => hp
        | deco => exact Safe.mild (deco_any hm hd s1)
        | dist =>
          refine crash_any (Mild_andThen ((Safe.mild (get_any hm s1)).mono ?_))
          intro o _
          cases o with
          | none => trivial
          | some p => exact Or.inr rfl
        | hcub =>
          refine crash_any (Safe.mild (Safe_get hm trivial fun n s1 _ _ => Safe_guard trivial fun h => ?_))
          rw [Safe_pure]
          show 1 ≤ n ∧ n ≤ E.width
          omega
        | tleaf => exact wrap_any (tleaf_any hm s1) fun p hp => hp
        | ltleaf => exact wrap_any (ltleaf_any hm s1) fun p hp => hp
        | mesh2 => exact crash_any (wrap_any (mesh2_any hm s1) fun p hp => hp)
        | mesh3 => exact crash_any (wrap_any (mesh3_any hm s1) fun p hp => hp)
        | meshX => exact crash_any (wrap_any (meshX_any hm s1) fun p hp => hp)
        | torus2 => exact crash_any (wrap_any (mesh2_any hm s1) fun p hp => hp)
        | torus3 => exact crash_any (wrap_any (mesh3_any hm s1) fun p hp => hp)
        | torusX => exact crash_any (wrap_any (meshX_any hm s1) fun p hp => hp)
        | vcmplt => exact trivial
        | vhcub => exact trivial
        | sub =>
          refine crash_any ?_
          unfold subLoad
          refine Mild_andThen ((Safe.mild (get_any hm s1)).mono ?_)
          intro o ho
          cases o with
          | none => trivial
          | some p =>
            obtain ⟨n, s2⟩ := p
            have hl2 := (ho n s2 rfl).1
            dsimp only
            unfold alloc
            by_cases hn : n < 0
            · rw [if_pos hn]
              trivial
            · rw [if_neg hn]
              show Mild (_ >?> _) _
              rw [show (pure (some (⟨0, n, E.junk⟩ : Arr Int)) : M _) = .ok (some ⟨0, n, E.junk⟩) from rfl, andThen_ok]
              refine Mild_andThen ((Safe.mild (cells_any' hm rfl (show n ≤ n from Int.le_refl _))).mono ?_)
              intro o ho
              cases o with
              | none => trivial
              | some p =>
                obtain ⟨t, s3⟩ := p
                obtain ⟨k1, k2, k3⟩ := ho
                dsimp only at k1 k2 k3 ⊢
                refine Mild_andThen ((load_any hm hm2 hd hb f s3 (by omega)).mono ?_)
                intro o ho
                cases o with
                | none => trivial
                | some p =>
                  obtain ⟨a, s4⟩ := p
                  dsimp only
                  refine Mild_bind ((hb a n t ho).mono ?_)
                  intro ok _
                  cases ok with
                  | false => trivial
                  | true => exact ⟨⟨by omega, by omega, by omega, fun _ _ _ => trivial⟩, ho⟩

end Scotch.ArchIO
