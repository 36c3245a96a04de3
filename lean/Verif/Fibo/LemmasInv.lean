import Verif.Fibo.LemmasRing

set_option autoImplicit false
set_option linter.unusedSimpArgs false

namespace Scotch.Fibo

/-- Rings of a forest: the ring of roots contains the dummy node. -/
def rings (K : Int → List Int) : Int → List Int := fun p => if p = rootdat then rootdat :: K p else K p

theorem rings_root (K : Int → List Int) : rings K rootdat = rootdat :: K rootdat := by simp [rings]
theorem rings_ne (K : Int → List Int) {p : Int} (h : p ≠ rootdat) : rings K p = K p := by simp [rings, h]

/-- Degree of a child, plus one if it has lost a child, plus one if it is the node being processed. -/
def val (h : Heap) (hole : Option Int) (c : Int) : Int := h.defl c / 2 + h.defl c % 2 + (if hole = some c then 1 else 0)

/-- Number of children of low degree. -/
def low (h : Heap) (hole : Option Int) (l : List Int) (k : Nat) : Nat := l.countP (fun c => val h hole c < k)

/-- Forest structure: `N` is the list of nodes, `K p` the list of the children of `p`, `K rootdat` the list of roots. -/
structure Forest (N : List Int) (K : Int → List Int) : Prop where
  supp : ∀ p, p ∉ N → p ≠ rootdat → K p = []
  root : rootdat ∉ N
  nodup : N.Nodup
  mem : ∀ x, x ∈ N ↔ ∃ p, x ∈ K p
  rank : ∃ r : Int → Nat, ∀ p ∈ N, ∀ c ∈ K p, r c < r p

structure Inv (h : Heap) (key : Int → Int) (N : List Int) (K : Int → List Int) (hole : Option Int) : Prop where
  rg : Rings h.next h.prev (rings K)
  forest : Forest N K
  pareR : ∀ c ∈ K rootdat, h.pare c = none
  pareN : ∀ p ∈ N, ∀ c ∈ K p, h.pare c = some p
  chld : ∀ p ∈ N, h.chld p = (K p).head?
  deg : ∀ p ∈ N, h.defl p / 2 = (K p).length
  heap : ∀ p ∈ N, ∀ c ∈ K p, key p ≤ key c
  cnt : ∀ p ∈ N, ∀ k, low h hole (K p) k ≤ k

section
variable {h : Heap} {key : Int → Int} {N : List Int} {K : Int → List Int} {hole : Option Int}

theorem Inv.owner (I : Inv h key N K hole) {p q x : Int} (hp : x ∈ K p) (hq : x ∈ K q) : p = q := by
  refine I.rg.disj p q x ?_ ?_
  · by_cases e : p = rootdat
    · subst e; rw [rings_root]; simp [hp]
    · rw [rings_ne _ e]; exact hp
  · by_cases e : q = rootdat
    · subst e; rw [rings_root]; simp [hq]
    · rw [rings_ne _ e]; exact hq

theorem Inv.nd (I : Inv h key N K hole) (p : Int) : (K p).Nodup := by
  have := I.rg.nodup p
  by_cases e : p = rootdat
  · subst e; rw [rings_root] at this; exact (List.nodup_cons.1 this).2
  · rw [rings_ne _ e] at this; exact this

theorem Inv.memN (I : Inv h key N K hole) {p x : Int} (hx : x ∈ K p) : x ∈ N := (I.forest.mem x).2 ⟨p, hx⟩

theorem Inv.ownerN (I : Inv h key N K hole) {p x : Int} (hx : x ∈ K p) : p = rootdat ∨ p ∈ N := by
  apply Classical.byContradiction
  intro hc
  have hc1 : p ≠ rootdat := fun e => hc (Or.inl e)
  have hc2 : p ∉ N := fun e => hc (Or.inr e)
  rw [I.forest.supp p hc2 hc1] at hx
  simp at hx

theorem Inv.ne_root (I : Inv h key N K hole) {x : Int} (hx : x ∈ N) : x ≠ rootdat := by
  intro e; subst e; exact I.forest.root hx

theorem Inv.child_ne (I : Inv h key N K hole) {p c : Int} (hp : p ∈ N) (hc : c ∈ K p) : c ≠ p := by
  obtain ⟨r, hr⟩ := I.forest.rank
  intro e; subst e
  have := hr c hp c hc
  omega

/-- A node that has a parent is not a root. -/
theorem Inv.pare_some (I : Inv h key N K hole) {x g : Int} (hx : x ∈ N) (hg : h.pare x = some g) : g ∈ N ∧ x ∈ K g := by
  obtain ⟨p, hp⟩ := (I.forest.mem x).1 hx
  rcases I.ownerN hp with e | e
  · subst e
    rw [I.pareR x hp] at hg; cases hg
  · have := I.pareN p e x hp
    rw [this] at hg
    injection hg with hg
    subst hg
    exact ⟨e, hp⟩

theorem Inv.pare_none (I : Inv h key N K hole) {x : Int} (hx : x ∈ N) (hg : h.pare x = none) : x ∈ K rootdat := by
  obtain ⟨p, hp⟩ := (I.forest.mem x).1 hx
  rcases I.ownerN hp with e | e
  · subst e; exact hp
  · have := I.pareN p e x hp
    rw [this] at hg; cases hg

theorem low_congr {h h' : Heap} {hole hole' : Option Int} {l : List Int} (he : ∀ c ∈ l, val h' hole' c = val h hole c) (k : Nat) :
    low h' hole' l k = low h hole l k := by
  unfold low
  apply List.countP_congr
  intro c hc
  rw [he c hc]

theorem low_mono {h h' : Heap} {hole hole' : Option Int} {l : List Int} (he : ∀ c ∈ l, val h hole c ≤ val h' hole' c) (k : Nat) :
    low h' hole' l k ≤ low h hole l k := by
  unfold low
  apply List.countP_mono_left
  intro c hc h1
  have := he c hc
  simp only [decide_eq_true_eq] at h1 ⊢
  omega

/-- Modification of the flag, with the same degree. -/
theorem Inv.flag (I : Inv h key N K hole) (x : Int) (d : Int) (hd : d / 2 = h.defl x / 2) (hole' : Option Int)
    (hv : ∀ p ∈ N, ∀ c ∈ K p, val h hole c ≤ val { h with defl := upd h.defl x d } hole' c) :
    Inv { h with defl := upd h.defl x d } key N K hole' := by
  refine ⟨I.rg, I.forest, I.pareR, I.pareN, I.chld, ?_, I.heap, ?_⟩
  · intro p hp
    dsimp only
    by_cases e : p = x
    · subst e; rw [upd_same, hd]; exact I.deg p hp
    · rw [upd_ne _ _ e]; exact I.deg p hp
  · intro p hp k
    exact Nat.le_trans (low_mono (hv p hp) k) (I.cnt p hp k)

/-- The flag of a root is not used. -/
theorem Inv.flagRoot (I : Inv h key N K hole) {x : Int} (hx : x ∈ K rootdat) (d : Int) (hd : d / 2 = h.defl x / 2) :
    Inv { h with defl := upd h.defl x d } key N K hole := by
  refine I.flag x d hd hole ?_
  intro p hp c hc
  have : c ≠ x := by
    intro e; subst e
    have := I.owner hx hc
    exact I.forest.root (this ▸ hp)
  unfold val
  dsimp only
  rw [upd_ne _ _ this]
  exact Int.le_refl _

theorem Inv.holeRoot (I : Inv h key N K hole) {x : Int} (hx : x ∈ K rootdat) (hh : hole = some x) (hole' : Option Int)
    (hh' : hole' = none ∨ hole' = some x) : Inv h key N K hole' := by
  refine ⟨I.rg, I.forest, I.pareR, I.pareN, I.chld, I.deg, I.heap, ?_⟩
  intro p hp k
  have hne : ∀ c ∈ K p, c ≠ x := by
    intro c hc e; subst e
    have := I.owner hx hc
    exact I.forest.root (this ▸ hp)
  refine Nat.le_trans (Nat.le_of_eq (low_congr ?_ k)) (I.cnt p hp k)
  intro c hc
  have hcx := hne c hc
  unfold val
  have e1 : hole ≠ some c := by rw [hh]; intro e; injection e with e; exact hcx e.symm
  have e2 : hole' ≠ some c := by
    rcases hh' with e | e
    · rw [e]; intro e; cases e
    · rw [e]; intro e; injection e with e; exact hcx e.symm
  rw [if_neg e1, if_neg e2]

end

/-! ## Sizes of subtrees -/

def fib : Nat → Nat
  | 0 => 0
  | 1 => 1
  | n + 2 => fib n + fib (n + 1)

theorem fib_mono_succ : ∀ n, fib n ≤ fib (n + 1)
  | 0 => by decide
  | 1 => by decide
  | n + 2 => by
    have h1 := fib_mono_succ (n + 1)
    simp only [fib] at h1 ⊢
    omega

theorem fib_mono {a b : Nat} (h : a ≤ b) : fib a ≤ fib b := by
  induction h with
  | refl => exact Nat.le_refl _
  | step _ ih => exact Nat.le_trans ih (fib_mono_succ _)

/-- Values that are not too often small have a large sum of Fibonacci numbers. -/
theorem fib_sum : ∀ (d : Nat) (V : List Nat), V.length = d → (∀ k, V.countP (· < k) ≤ k) → fib (d + 2) ≤ 1 + (V.map (fun v => fib (v + 1))).sum := by
  intro d
  induction d with
  | zero => intro V h _; simp [fib]
  | succ d ih =>
    intro V hl hc
    -- there is a value which is at least d
    obtain ⟨m, hm, hmd⟩ : ∃ m ∈ V, d ≤ m := by
      apply Classical.byContradiction
      intro hno
      have hall : ∀ m ∈ V, m < d := by
        intro m hm
        apply Classical.byContradiction
        intro h; exact hno ⟨m, hm, by omega⟩
      have h1 : V.countP (· < d) = V.length := List.countP_eq_length.2 (fun m hm => by simpa using hall m hm)
      have := hc d
      omega
    have hp := List.perm_cons_erase hm
    have h1 := ih (V.erase m) (by rw [List.length_erase_of_mem hm]; omega) (by
      intro k
      exact Nat.le_trans (List.Sublist.countP_le (List.erase_sublist)) (hc k))
    have h2 : (V.map (fun v => fib (v + 1))).sum = fib (m + 1) + ((V.erase m).map (fun v => fib (v + 1))).sum := by
      have := (hp.map (fun v => fib (v + 1))).sum_nat
      simpa using this
    have h3 : fib (d + 1) ≤ fib (m + 1) := fib_mono (by omega)
    have h4 : fib (d + 1 + 2) = fib (d + 1) + fib (d + 2) := rfl
    omega

/-- Weight of a node: number of nodes of its subtree. The first argument bounds its height. -/
def wt (K : Int → List Int) : Nat → Int → Nat
  | 0, _ => 0
  | n + 1, p => 1 + ((K p).map (wt K n)).sum

theorem sum_map_congr {f g : Int → Nat} {l : List Int} (h : ∀ x ∈ l, f x = g x) : (l.map f).sum = (l.map g).sum := by
  rw [List.map_congr_left h]

theorem wt_stable {K : Int → List Int} {r : Int → Nat} (hr : ∀ p, ∀ c ∈ K p, p ≠ rootdat → c ≠ rootdat ∧ r c < r p) :
    ∀ (n m : Nat) (p : Int), p ≠ rootdat → r p < n → r p < m → wt K n p = wt K m p := by
  intro n
  induction n with
  | zero => intro m p _ h; omega
  | succ n ih =>
    intro m p hp h1 h2
    cases m with
    | zero => omega
    | succ m =>
      simp only [wt]
      congr 1
      apply sum_map_congr
      intro c hc
      obtain ⟨h3, h4⟩ := hr p c hc hp
      exact ih m c h3 (by omega) (by omega)

theorem sum_add_map {f g : Int → Nat} : ∀ (l : List Int), (l.map (fun x => f x + g x)).sum = (l.map f).sum + (l.map g).sum := by
  intro l
  induction l with
  | nil => rfl
  | cons a l ih => simp only [List.map_cons, List.sum_cons, ih]; omega

theorem sum_flatMap {f : Int → Nat} {K : Int → List Int} : ∀ (l : List Int), ((l.flatMap K).map f).sum = (l.map (fun p => ((K p).map f).sum)).sum := by
  intro l
  induction l with
  | nil => rfl
  | cons a l ih => simp only [List.flatMap_cons, List.map_append, List.sum_append, List.map_cons, List.sum_cons, ih]

theorem le_sum_of_mem {f : Int → Nat} : ∀ {l : List Int} {x : Int}, x ∈ l → f x ≤ (l.map f).sum := by
  intro l
  induction l with
  | nil => intro x h; simp at h
  | cons a l ih =>
    intro x h
    simp only [List.map_cons, List.sum_cons]
    rcases List.mem_cons.1 h with e | e
    · subst e; omega
    · have := ih e; omega

section
variable {h : Heap} {key : Int → Int} {N : List Int} {K : Int → List Int}

theorem nodup_flatMap_of {K : Int → List Int} (hn : ∀ p, (K p).Nodup) (hd : ∀ p q x, x ∈ K p → x ∈ K q → p = q) :
    ∀ {l : List Int}, l.Nodup → (l.flatMap K).Nodup := by
  intro l
  induction l with
  | nil => intro _; simp
  | cons a l ih =>
    intro h
    have h' := List.nodup_cons.1 h
    rw [List.flatMap_cons]
    refine List.nodup_append.2 ⟨hn a, ih h'.2, ?_⟩
    intro x hx y hy e
    subst e
    obtain ⟨q, hq, hxq⟩ := List.mem_flatMap.1 hy
    have := hd a q x hx hxq
    subst this
    exact h'.1 hq

theorem Inv.perm (I : Inv h key N K none) : ((rootdat :: N).flatMap K).Perm N := by
  refine (List.perm_ext_iff_of_nodup ?_ I.forest.nodup).2 ?_
  · refine nodup_flatMap_of (fun p => I.nd p) (fun p q x a b => I.owner a b) ?_
    exact List.nodup_cons.2 ⟨I.forest.root, I.forest.nodup⟩
  · intro x
    constructor
    · intro hx
      obtain ⟨p, _, hp⟩ := List.mem_flatMap.1 hx
      exact I.memN hp
    · intro hx
      obtain ⟨p, hp⟩ := (I.forest.mem x).1 hx
      refine List.mem_flatMap.2 ⟨p, ?_, hp⟩
      rcases I.ownerN hp with e | e
      · simp [e]
      · simp [e]

/-- The degree of a root is bounded by the number of nodes. -/
theorem Inv.degree (I : Inv h key N K none) {x : Int} (hx : x ∈ K rootdat) : fib ((h.defl x / 2).toNat + 2) ≤ N.length := by
  obtain ⟨r, hr⟩ := I.forest.rank
  have hroot : ∀ p, ∀ c ∈ K p, p ≠ rootdat → c ≠ rootdat ∧ r c < r p := by
    intro p c hc hp
    have hpN : p ∈ N := by
      rcases I.ownerN hc with e | e
      · exact absurd e hp
      · exact e
    exact ⟨I.ne_root (I.memN hc), hr p hpN c hc⟩
  -- a bound on ranks
  obtain ⟨R, hR⟩ : ∃ R, ∀ p ∈ N, r p < R := ⟨(N.map r).sum + 1, fun p hp => by have := le_sum_of_mem (f := r) hp; omega⟩
  -- weights
  have hw : ∀ p ∈ N, wt K R p = 1 + ((K p).map (wt K R)).sum := by
    intro p hp
    have e1 := wt_stable hroot R (R + 1) p (I.ne_root hp) (hR p hp) (by have := hR p hp; omega)
    rw [e1]
    rfl
  -- lower bound on weights
  have hlow : ∀ (n : Nat) (p : Int), p ∈ N → r p < n → fib ((K p).length + 2) ≤ wt K R p := by
    intro n
    induction n with
    | zero => intro p _ h; omega
    | succ n ih =>
      intro p hp hpn
      rw [hw p hp]
      have hV := fib_sum (K p).length ((K p).map (fun c => (val h none c).toNat)) (by simp) (by
        intro k
        have := I.cnt p hp k
        unfold low at this
        rw [List.countP_map]
        refine Nat.le_trans (Nat.le_of_eq ?_) this
        apply List.countP_congr
        intro c hc
        simp only [Function.comp, decide_eq_true_eq]
        have hdc := I.deg c (I.memN hc)
        have : 0 ≤ val h none c := by
          unfold val
          have := Int.emod_nonneg (h.defl c) (by omega : (2 : Int) ≠ 0)
          simp
          omega
        omega)
      refine Nat.le_trans hV (Nat.add_le_add_left ?_ 1)
      rw [List.map_map]
      -- term by term
      have : ∀ l : List Int, (∀ c ∈ l, c ∈ K p) → (l.map ((fun v => fib (v + 1)) ∘ fun c => (val h none c).toNat)).sum ≤ (l.map (wt K R)).sum := by
        intro l
        induction l with
        | nil => intro _; simp
        | cons c l ihl =>
          intro hl
          have hc := hl c (by simp)
          have h1 := ihl (fun x hx => hl x (by simp [hx]))
          have hcN := I.memN hc
          have h2 := ih c hcN (by have := hr p hp c hc; omega)
          have hdc := I.deg c hcN
          have h3 : fib ((val h none c).toNat + 1) ≤ fib ((K c).length + 2) := by
            apply fib_mono
            unfold val
            have := Int.emod_lt_of_pos (h.defl c) (by omega : (0 : Int) < 2)
            simp
            omega
          simp only [List.map_cons, List.sum_cons, Function.comp] at h1 ⊢
          omega
      exact this (K p) (fun c hc => hc)
  -- total weight of the roots
  have htot : ((K rootdat).map (wt K R)).sum = N.length := by
    have h1 := (I.perm.map (wt K R)).sum_nat
    rw [sum_flatMap] at h1
    simp only [List.map_cons, List.sum_cons] at h1
    have h2 : (N.map (wt K R)).sum = N.length + (N.map (fun p => ((K p).map (wt K R)).sum)).sum := by
      rw [sum_map_congr (fun p hp => hw p hp)]
      rw [sum_add_map (f := fun _ => 1) (g := fun p => ((K p).map (wt K R)).sum)]
      have h3 : ∀ l : List Int, (l.map (fun _ => 1)).sum = l.length := by
        intro l
        induction l with
        | nil => rfl
        | cons a l ih => simp only [List.map_cons, List.sum_cons, ih, List.length_cons]; omega
      rw [h3]
    omega
  have hxN := I.memN hx
  have h1 := hlow (r x + 1) x hxN (by omega)
  have h2 := le_sum_of_mem (f := wt K R) hx
  have h3 := I.deg x hxN
  have h4 : (h.defl x / 2).toNat = (K x).length := by omega
  rw [h4]
  omega

end

end Scotch.Fibo
