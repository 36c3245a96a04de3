import Verif.Gain.LemmasHist

/-!
# Gain tables: properties (C33)

A gain table holds links, each of which has been added with a gain. The specification of its contents is a list of pairs (link, gain), most recently added
first.
-/

set_option autoImplicit false
set_option linter.unusedSimpArgs false

namespace Scotch.Gain

/-! ## Specification -/

/-- Links of the table and their gains, most recently added first. -/
abbrev Content := List (Int × Int)

/-- Calls to the gain table routines. `move d`: the area that contains the links has been reallocated `d` further, then `gainTablMove` is
called. -/
inductive Op where
  | add (l g : Int)
  | del (l : Int)
  | first
  | free
  | move (d : Int)

/-- What the calls should do to the contents of the table. -/
def Op.after (S : Content) : Op → Content
  | .add l g => (l, g) :: S
  | .del l => S.filter (fun q => q.1 ≠ l)
  | .first => S
  | .free => []
  | .move d => S.map (fun q => (q.1 + d, q.2))

def afterAll (S : Content) : List Op → Content
  | [] => S
  | op :: ops => afterAll (op.after S) ops

/-- Links that are in the table are not added again, only links that are in the table are removed, gains are `INT`s. -/
def Op.Valid (w : Nat) (S : Content) : Op → Prop
  | .add l g => (∀ g', (l, g') ∉ S) ∧ IsInt w g
  | .del l => ∃ g, (l, g) ∈ S
  | _ => True

def ValidAll (w : Nat) (S : Content) : List Op → Prop
  | [] => True
  | op :: ops => op.Valid w S ∧ ValidAll w (op.after S) ops

/-- `r` is the answer of `gainTablFrst` when gain `g` is in class `f g`: the most recent link of the lowest class, or no link
when the table is empty. -/
def IsBest (f : Int → Int) (S : Content) : Option Ptr → Prop
  | none => S = []
  | some p => ∃ xs l g ys, S = xs ++ (l, g) :: ys ∧ p = .link l ∧ (∀ q ∈ xs, f g < f q.2) ∧ (∀ q ∈ ys, f g ≤ f q.2)

/-- Answers of all of the calls to `gainTablFrst`. -/
def Answers (f : Int → Int) (S : Content) : List Op → List (Option Ptr) → Prop
  | [], [] => True
  | .first :: ops, r :: rs => IsBest f S r ∧ Answers f S ops rs
  | op :: ops, _ :: rs => Answers f (op.after S) ops rs
  | _, _ => False

/-- Links of class `i`, most recent first. -/
def bucket (f : Int → Int) (S : Content) (i : Int) : List Int := (S.filter (fun q => f q.2 = i)).map Prod.fst

/-- Links of the `k` classes from `a` on. -/
def enumFrom (B : Int → List Int) : Int → Nat → List Int
  | _, 0 => []
  | a, k + 1 => B a ++ enumFrom B (a + 1) k

/-! ## Runs of the model -/

/-- Contents of the memory after a reallocation of the links. -/
def copy (d : Int) (t : Tabl) : Tabl :=
  { t with
    next := fun p => match p with
      | .link l => t.next (.link (l - d))
      | p => t.next p
    prev := fun p => match p with
      | .link l => t.prev (.link (l - d))
      | p => t.prev p
    ltab := fun l => t.ltab (l - d) }

def step (w n : Nat) (t : Tabl) : Op → M (Tabl × Option Ptr)
  | .add l g => do
    let t' ← add w t l g
    pure (t', none)
  | .del l => pure (del t l, none)
  | .first => pure (frst t)
  | .free => pure (free t, none)
  | .move d => pure (move d n (copy d t), none)

def run (w n : Nat) (t : Tabl) : List Op → M (Tabl × List (Option Ptr))
  | [] => pure (t, [])
  | op :: ops => do
    let r ← step w n t op
    let q ← run w n r.1 ops
    pure (q.1, r.2 :: q.2)

/-- Loop over the links of the table by means of `gainTablNext`, from link `p` on. -/
def visit (t : Tabl) : Nat → Ptr → List Int
  | 0, _ => []
  | n + 1, .link l => l :: (match next t l with
    | some q => visit t n q
    | none => [])
  | _ + 1, _ => []

/-! ## Proofs -/

theorem bucket_mem {f : Int → Int} {S : Content} {i l : Int} : l ∈ bucket f S i ↔ ∃ g, (l, g) ∈ S ∧ f g = i := by
  simp only [bucket, List.mem_map, List.mem_filter, decide_eq_true_eq]
  constructor
  · rintro ⟨⟨a, g⟩, ⟨h1, h2⟩, rfl⟩; exact ⟨g, h1, h2⟩
  · rintro ⟨g, h1, h2⟩; exact ⟨(l, g), ⟨h1, h2⟩, rfl⟩

theorem bucket_best {f : Int → Int} {S : Content} {t : Tabl} {p : Ptr} (hr : ∀ q ∈ S, 0 ≤ f q.2)
    (h : IsFirst t (bucket f S) p 0 t.totsize) : IsBest f S (some p) := by
  obtain ⟨e, l, ls, h0, _, _, h3, hp, h4⟩ := h
  unfold bucket at h3
  rw [List.map_eq_cons_iff] at h3
  obtain ⟨⟨l', g⟩, tl, h5, h6, _⟩ := h3
  dsimp only at h6
  subst h6
  rw [List.filter_eq_cons_iff] at h5
  obtain ⟨xs, ys, h7, h8, h9, _⟩ := h5
  simp only [decide_eq_true_eq] at h8 h9
  have hlow : ∀ q ∈ S, e ≤ f q.2 := by
    intro q hq
    apply Classical.byContradiction
    intro hc
    have h10 := h4 (f q.2) (hr q hq) (by omega)
    have : q.1 ∈ bucket f S (f q.2) := bucket_mem.2 ⟨q.2, hq, rfl⟩
    rw [h10] at this
    simp at this
  refine ⟨xs, l', g, ys, h7, hp, ?_, ?_⟩
  · intro q hq
    have a := hlow q (by rw [h7]; simp [hq])
    have b := h8 q hq
    omega
  · intro q hq
    have a := hlow q (by rw [h7]; simp [hq])
    omega

theorem run_gen {w s n : Nat} {gainmax : Int} (hs : s + 2 ≤ w) (next prev : Ptr → Ptr) (ltab : Int → Int) :
    ∀ (ops : List Op) (t : Tabl) (S : Content),
    Rep t (bucket (slot w gainmax s) S) → cfg t = cfg (init w gainmax s next prev ltab) → (∀ q ∈ S, IsInt w q.2) →
    S.length + ops.length ≤ n → ValidAll w S ops →
    ∃ t' rs, run w n t ops = .ok (t', rs) ∧ Answers (slot w gainmax s) S ops rs ∧
      Rep t' (bucket (slot w gainmax s) (afterAll S ops)) ∧ cfg t' = cfg (init w gainmax s next prev ltab) ∧
      (afterAll S ops).length ≤ n := by
  intro ops
  induction ops with
  | nil => intro t S h hc _ hn _; exact ⟨t, [], rfl, trivial, h, hc, by simp at hn; exact hn⟩
  | cons op ops ih =>
    intro t S h hc hS hn hv
    obtain ⟨hv1, hv2⟩ := hv
    have hts : t.totsize = (init w gainmax s next prev ltab).totsize := congrArg (fun c => c.2.2.2.1) hc
    -- it is enough to describe one call
    suffices hstep : ∃ t' r, step w n t op = .ok (t', r) ∧ Rep t' (bucket (slot w gainmax s) (op.after S)) ∧
        cfg t' = cfg (init w gainmax s next prev ltab) ∧ (∀ q ∈ op.after S, IsInt w q.2) ∧ (op.after S).length ≤ S.length + 1 ∧
        (op = .first → IsBest (slot w gainmax s) S r) by
      obtain ⟨t', r, e1, e2, e3, e4, e5, e6⟩ := hstep
      obtain ⟨t'', rs, f1, f2, f3, f4, f5⟩ := ih t' (op.after S) e2 e3 e4 (by simp at hn; omega) hv2
      refine ⟨t'', r :: rs, ?_, ?_, f3, f4, f5⟩
      · simp only [run, e1, bind, Except.bind, f1, pure, Except.pure]
      · cases op with
        | first => exact ⟨e6 rfl, f2⟩
        | add l g => exact f2
        | del l => exact f2
        | free => exact f2
        | move d => exact f2
    cases op with
    | add l g =>
      have hsl : idx w t g = slot w gainmax s g := idx_cfg hc g
      have hrg := slot_range (gainmax := gainmax) hs hv1.2 next prev ltab
      have hnot : ∀ i, 0 ≤ i → i < t.totsize → l ∉ bucket (slot w gainmax s) S i := by
        intro i _ _ hm
        obtain ⟨g', hg', _⟩ := bucket_mem.1 hm
        exact hv1.1 g' hg'
      obtain ⟨t', ht', hrep, _⟩ := Holds_iff_exists.1 (addAt_rep h (l := l) hrg.1 (by rw [hts]; exact hrg.2) hnot)
      have hadd : add w t l g = .ok t' := by
        have : add w t l g = addAt t l (idx w t g) := rfl
        rw [this, hsl]; exact ht'
      refine ⟨t', none, ?_, ?_, (addAt_cfg ht').trans hc, ?_, by simp [Op.after], by intro e; cases e⟩
      · simp only [step, hadd, bind, Except.bind, pure, Except.pure]
      · refine hrep.congr ?_
        intro i _ _
        unfold insB bucket Op.after
        by_cases he : i = slot w gainmax s g
        · subst he; simp
        · have he' : ¬ slot w gainmax s g = i := fun e => he e.symm
          simp [he, he']
      · intro q hq
        simp only [Op.after, List.mem_cons] at hq
        rcases hq with rfl | hq
        · exact hv1.2
        · exact hS q hq
    | del l =>
      obtain ⟨g, hg⟩ := hv1
      have hrg := slot_range (gainmax := gainmax) hs (hS _ hg) next prev ltab
      have hrep := del_rep h (l := l) hrg.1 (by rw [hts]; exact hrg.2) (bucket_mem.2 ⟨g, hg, rfl⟩)
      refine ⟨del t l, none, rfl, ?_, hc, ?_, ?_, by intro e; cases e⟩
      · refine hrep.congr ?_
        intro i _ _
        unfold remB bucket Op.after
        rw [List.filter_map, List.filter_filter, List.filter_filter]
        congr 1
        apply List.filter_congr
        intro x _
        simp only [Function.comp, Bool.and_comm]
      · intro q hq
        exact hS q (List.mem_filter.1 hq).1
      · have := List.length_filter_le (fun q : Int × Int => decide (q.1 ≠ l)) S
        simp only [Op.after]
        omega
    | first =>
      obtain ⟨h1, h2⟩ := frst_rep h
      refine ⟨(frst t).1, (frst t).2, rfl, h1, (frst_cfg t).trans hc, hS, by simp [Op.after], ?_⟩
      intro _
      cases hf : (frst t).2 with
      | none =>
        rw [hf] at h2
        show S = []
        cases S with
        | nil => rfl
        | cons q S =>
          exfalso
          have hrg := slot_range (gainmax := gainmax) hs (hS q (by simp)) next prev ltab
          have := h2 _ hrg.1 (by rw [hts]; exact hrg.2)
          have hm : q.1 ∈ bucket (slot w gainmax s) (q :: S) (slot w gainmax s q.2) := bucket_mem.2 ⟨q.2, by simp, rfl⟩
          rw [this] at hm
          simp at hm
      | some p =>
        rw [hf] at h2
        exact bucket_best (fun q hq => (slot_range (gainmax := gainmax) hs (hS q hq) next prev ltab).1) h2
    | free =>
      refine ⟨free t, none, rfl, free_rep h, hc, ?_, by simp [Op.after], by intro e; cases e⟩
      intro q hq; simp [Op.after] at hq
    | move d =>
      have hcop : Copied t (copy d t) (bucket (slot w gainmax s) S) d := by
        refine ⟨rfl, rfl, rfl, fun _ _ _ => rfl, ?_, ?_, ?_⟩
        · intro i _ _ l _
          show t.next (.link (l + d - d)) = _
          rw [Int.add_sub_cancel]
        · intro i _ _ l _
          show t.prev (.link (l + d - d)) = _
          rw [Int.add_sub_cancel]
        · intro i _ _ l _
          show t.ltab (l + d - d) = _
          rw [Int.add_sub_cancel]
      obtain ⟨h1, h2⟩ := move_rep h hcop (len := n) (by
        intro i _ _
        have := List.length_filter_le (fun q : Int × Int => decide (slot w gainmax s q.2 = i)) S
        simp only [bucket, List.length_map]
        omega)
      refine ⟨move d n (copy d t), none, rfl, ?_, h2.trans hc, ?_, by simp [Op.after], by intro e; cases e⟩
      · refine h1.congr ?_
        intro i _ _
        unfold bucket Op.after
        rw [List.filter_map, List.map_map, List.map_map]
        rfl
      · intro q hq
        obtain ⟨x, hx, rfl⟩ := List.mem_map.1 hq
        exact hS x hx

theorem enumFrom_skip (B : Int → List Int) : ∀ (k : Nat) (a : Int) (m : Nat), (∀ i, a ≤ i → i < a + m → B i = []) → m ≤ k →
    enumFrom B a k = enumFrom B (a + m) (k - m) := by
  intro k
  induction k with
  | zero => intro a m _ hm; have : m = 0 := by omega
            subst this; simp
  | succ k ih =>
    intro a m h hm
    cases m with
    | zero => simp
    | succ m =>
      have h0 := h a (by omega) (by omega)
      simp only [enumFrom, h0, List.nil_append]
      rw [ih (a + 1) m (fun i h1 h2 => h i (by omega) (by omega)) (by omega)]
      congr 1
      · push_cast; omega
      · omega

theorem enumFrom_nil (B : Int → List Int) (k : Nat) (a : Int) (h : ∀ i, a ≤ i → i < a + k → B i = []) : enumFrom B a k = [] := by
  rw [enumFrom_skip B k a k h (Nat.le_refl _), Nat.sub_self]; rfl

theorem enumFrom_cons (B : Int → List Int) (a : Int) (k : Nat) (hk : 0 < k) : enumFrom B a k = B a ++ enumFrom B (a + 1) (k - 1) := by
  cases k with
  | zero => omega
  | succ k => rfl

theorem visit_gen {t : Tabl} {B : Int → List Int} (h : Rep t B) : ∀ (n : Nat) (e l : Int) (xs ys : List Int), 0 ≤ e → e < t.totsize →
    B e = xs ++ l :: ys → (l :: ys ++ enumFrom B (e + 1) (t.tend - (e + 1)).toNat).length ≤ n →
    visit t n (.link l) = l :: ys ++ enumFrom B (e + 1) (t.tend - (e + 1)).toNat := by
  have hte := h.tend
  intro n
  induction n with
  | zero => intro e l xs ys _ _ _ hn; simp at hn
  | succ n ih =>
    intro e l xs ys h0 h1 hb hn
    obtain ⟨n1, n2⟩ := next_spec h h0 h1 hb
    simp only [visit, List.cons_append]
    congr 1
    cases ys with
    | cons y ys =>
      rw [n1 y ys rfl]
      exact ih e y (xs ++ [l]) ys h0 h1 (by rw [hb]; simp) (by simp at hn ⊢; omega)
    | nil =>
      have hh := n2 rfl
      cases hnx : next t l with
      | none =>
        rw [hnx] at hh
        simp only [List.nil_append]
        rw [enumFrom_nil]
        intro i i1 i2
        exact hh i i1 (by omega)
      | some p =>
        rw [hnx] at hh
        obtain ⟨e', l', ls, a1, a2, a3, a4, a5, a6⟩ := hh
        subst a5
        have hsk := enumFrom_skip B (t.tend - (e + 1)).toNat (e + 1) (e' - (e + 1)).toNat
          (fun i i1 i2 => a6 i i1 (by omega)) (by omega)
        have e1 : e + 1 + (((e' - (e + 1)).toNat : Nat) : Int) = e' := by omega
        rw [e1] at hsk
        have e2 : (t.tend - (e + 1)).toNat - (e' - (e + 1)).toNat = (t.tend - e').toNat := by omega
        rw [e2, enumFrom_cons B e' _ (by omega), a4] at hsk
        have e3 : (t.tend - e').toNat - 1 = (t.tend - (e' + 1)).toNat := by omega
        rw [e3] at hsk
        simp only [List.nil_append]
        rw [hsk]
        refine ih e' l' [] ls (by omega) a3 (by rw [a4]; rfl) ?_
        simp only [List.nil_append, List.cons_append, List.length_cons] at hn
        rw [hsk] at hn
        simp only [List.cons_append, List.length_cons] at hn ⊢
        omega

/-! ## Theorems -/

/-- C33, for all histories. Whatever the width of integers, the parameters of the table, the initial contents of memory and the sequence of calls,
the calls never access an entry out of the table; there is a classification `f` of gains, which never inverts two gains and gives a class
of its own to each gain of small magnitude, such that all calls to `gainTablFrst` return the most recently added
link among those of the lowest class, or no link if and only if the table is empty. -/
theorem C33_history {w s : Nat} (gainmax : Int) (hs : s + 2 ≤ w) (next prev : Ptr → Ptr) (ltab : Int → Int) :
    ∃ f : Int → Int,
      (∀ g h, IsInt w g → IsInt w h → g ≤ h → f g ≤ f h) ∧
      (∀ g h, IsInt w g → IsInt w h → (if 1024 ≤ gainmax then - 2 ^ (s + 1) ≤ g ∧ g < 2 ^ (s + 1) else - 1024 < g ∧ g < 1023) → f g = f h → g = h) ∧
      ∀ (ops : List Op) (n : Nat), ops.length ≤ n → ValidAll w [] ops →
        ∃ t rs, run w n (init w gainmax s next prev ltab) ops = .ok (t, rs) ∧ Answers f [] ops rs := by
  refine ⟨slot w gainmax s, fun g h a b c => slot_mono hs a b c, fun g h a b c d => slot_exact hs a b c d, ?_⟩
  intro ops n hn hv
  obtain ⟨t, rs, h1, h2, _⟩ := run_gen (n := n) hs next prev ltab ops (init w gainmax s next prev ltab) []
    ((init_rep (by omega) next prev ltab).congr (fun i _ _ => rfl)) rfl (fun q hq => by simp at hq) (by simpa using hn) hv
  exact ⟨t, rs, h1, h2⟩

/-- C33, enumeration of links (partial). After any sequence of calls, `gainTablFrst` then repeated calls to `gainTablNext` enumerate, once each,
class after class and most recent first, the links of all classes but the last one. Missing: the links of the last class, which
are not enumerated (see `C33_next_misses_last_class`) unless all links are of this class. -/
theorem C33_visit_partial {w s : Nat} (gainmax : Int) (hs : s + 2 ≤ w) (next prev : Ptr → Ptr) (ltab : Int → Int) :
    ∃ (f : Int → Int) (last : Int),
      (∀ g h, IsInt w g → IsInt w h → g ≤ h → f g ≤ f h) ∧ (∀ g, IsInt w g → 0 ≤ f g ∧ f g ≤ last) ∧
      ∀ (ops : List Op) (n : Nat), ops.length ≤ n → ValidAll w [] ops →
        ∃ t rs, run w n (init w gainmax s next prev ltab) ops = .ok (t, rs) ∧
          ∀ p, (frst t).2 = some p → ∀ m, (enumFrom (bucket f (afterAll [] ops)) 0 (last + 1).toNat).length ≤ m →
            visit (frst t).1 m p = if enumFrom (bucket f (afterAll [] ops)) 0 last.toNat = [] then bucket f (afterAll [] ops) last
              else enumFrom (bucket f (afterAll [] ops)) 0 last.toNat := by
  refine ⟨slot w gainmax s, (init w gainmax s next prev ltab).totsize - 1, fun g h a b c => slot_mono hs a b c, ?_, ?_⟩
  · intro g hg
    have := slot_range (gainmax := gainmax) hs hg next prev ltab
    omega
  intro ops n hn hv
  obtain ⟨t, rs, h1, _, h3, h4, _⟩ := run_gen (n := n) hs next prev ltab ops (init w gainmax s next prev ltab) []
    ((init_rep (by omega) next prev ltab).congr (fun i _ _ => rfl)) rfl (fun q hq => by simp at hq) (by simpa using hn) hv
  refine ⟨t, rs, h1, ?_⟩
  generalize bucket (slot w gainmax s) (afterAll [] ops) = B at h3
  have hts : t.totsize = (init w gainmax s next prev ltab).totsize := congrArg (fun c => c.2.2.2.1) h4
  have hts' : (frst t).1.totsize = t.totsize := congrArg (fun c => c.2.2.2.1) (frst_cfg t)
  rw [← hts]
  have hte := h3.tend
  intro p hp m hm
  obtain ⟨r1, r2⟩ := frst_rep h3
  have hte' := r1.tend
  rw [hts'] at hte'
  rw [hp] at r2
  obtain ⟨e, l, ls, a1, a2, a3, a4, a5, a6⟩ := r2
  subst a5
  have hall : enumFrom B 0 t.totsize.toNat = l :: ls ++ enumFrom B (e + 1) (t.totsize - (e + 1)).toNat := by
    rw [enumFrom_skip B t.totsize.toNat 0 e.toNat (fun i i1 i2 => a6 i i1 (by omega)) (by omega)]
    have e1 : (0 : Int) + ((e.toNat : Nat) : Int) = e := by omega
    rw [e1, enumFrom_cons B e _ (by omega), a4]
    congr 2
    omega
  have hsplit : ∀ (k : Nat) (a : Int), enumFrom B a (k + 1) = enumFrom B a k ++ B (a + k) := by
    intro k
    induction k with
    | zero => intro a; simp [enumFrom]
    | succ k ih =>
      intro a
      have := ih (a + 1)
      show B a ++ enumFrom B (a + 1) (k + 1) = (B a ++ enumFrom B (a + 1) k) ++ _
      rw [this, List.append_assoc]
      congr 3
      push_cast; omega
  have hlen : (l :: ls ++ enumFrom B (e + 1) ((frst t).1.tend - (e + 1)).toNat).length ≤ m := by
    have e2 : (t.totsize - 1 + 1).toNat = t.totsize.toNat := by omega
    rw [e2, hall] at hm
    refine Nat.le_trans ?_ hm
    by_cases hlast : e = t.totsize - 1
    · have e3 : ((frst t).1.tend - (e + 1)).toNat = 0 := by omega
      rw [e3]
      simp [enumFrom]
    · have e3 : (t.totsize - (e + 1)).toNat = ((frst t).1.tend - (e + 1)).toNat + 1 := by omega
      rw [e3, hsplit]
      simp only [List.length_append, List.length_cons]
      omega
  rw [visit_gen r1 m e l [] ls a1 (by rw [hts']; exact a3) (by rw [a4]; rfl) hlen]
  by_cases hlast : e = t.totsize - 1
  · have e3 : ((frst t).1.tend - (e + 1)).toNat = 0 := by omega
    rw [e3, if_pos (enumFrom_nil B _ 0 (fun i i1 i2 => a6 i i1 (by omega)))]
    rw [← hlast, a4]
    simp [enumFrom]
  · have hE : enumFrom B 0 (t.totsize - 1).toNat = l :: ls ++ enumFrom B (e + 1) ((frst t).1.tend - (e + 1)).toNat := by
      rw [enumFrom_skip B (t.totsize - 1).toNat 0 e.toNat (fun i i1 i2 => a6 i i1 (by omega)) (by omega)]
      have e1 : (0 : Int) + ((e.toNat : Nat) : Int) = e := by omega
      rw [e1, enumFrom_cons B e _ (by omega), a4]
      congr 2
      omega
    rw [hE, if_neg (by simp)]

/-- The enumeration property fails for the last class: with a linear table, after links 1 of gain 0 and 2 of gain 1023 are added, `gainTablNext` reports that link 1
has no successor. -/
theorem C33_next_misses_last_class :
    ∃ t rs, run 32 2 (init 32 100 4 (fun _ => .dummy) (fun _ => .dummy) (fun _ => 0)) [.add 1 0, .add 2 1023] = .ok (t, rs) ∧
      (frst t).2 = some (.link 1) ∧ next (frst t).1 1 = none ∧ (run 32 0 t [.del 1, .first]).toOption.map (·.2) = some [none, some (.link 2)] := by
  obtain ⟨t, rs, h1, h2⟩ : ∃ t rs, run 32 2 (init 32 100 4 (fun _ => .dummy) (fun _ => .dummy) (fun _ => 0)) [.add 1 0, .add 2 1023] = .ok (t, rs) ∧
      (frst t).2 = some (.link 1) := ⟨_, _, rfl, by decide +kernel⟩
  refine ⟨t, rs, h1, h2, ?_, ?_⟩
  · injection h1 with h1
    injection h1 with h1 _
    subst h1
    decide +kernel
  · injection h1 with h1
    injection h1 with h1 _
    subst h1
    decide +kernel

/-- Macro `gainTablEmpty` is wrong: it holds of a table which holds a link in the last class. -/
theorem C33_empty_macro_wrong :
    ∃ t rs, run 32 2 (init 32 100 4 (fun _ => .dummy) (fun _ => .dummy) (fun _ => 0)) [.add 2 1023] = .ok (t, rs) ∧
      isEmpty t = true ∧ (frst t).2 = some (.link 2) :=
  ⟨_, _, rfl, by decide +kernel, by decide +kernel⟩

/-- A history that meets the hypotheses. -/
example : ValidAll 32 [] [.add 1 5, .add 2 (-7), .add 3 5, .first, .del 2, .move 100, .first, .free, .first] := by
  simp [ValidAll, Op.Valid, Op.after, IsInt]

example : ((run 32 9 (init 32 1000000 4 (fun _ => .dummy) (fun _ => .dummy) (fun _ => 0))
    [.add 1 5, .add 2 (-7), .add 3 5, .first, .del 2, .move 100, .first, .free, .first]).toOption.map (·.2)) =
    some [none, none, none, some (.link 2), none, none, some (.link 103), none, none] := by decide +kernel

example : IsInt 32 (-7) := by simp [IsInt]

end Scotch.Gain
