import Verif.Msep.Lemmas
import Verif.Separ.LemmasCheck
import Verif.Bipart.LemmasGpGrow

/-! # Separation of meshes: consistency check -/

set_option autoImplicit false
set_option linter.unusedSimpArgs false

namespace Scotch.Msep
open Mesh (Pre)
open Separ (bump bump_ok)

variable {numMax : Int} {b : Vmesh}

/-- An array without duplicates which holds elements of a set, as many as the set has, lists the set. -/
theorem enum_of_count {a : Arr Int} {n lo hi : Int} {p : Int → Int} (h0 : 0 ≤ n) (hi' : ∀ i j, 0 ≤ i → i < n → 0 ≤ j → j < n → a.get i = a.get j → i = j) (hm : ∀ i, 0 ≤ i → i < n → (lo ≤ a.get i ∧ a.get i < hi) ∧ p (a.get i) = 2)
    (hn : n = sumI lo hi (fun v => if p v = 2 then 1 else 0)) : Enum a n (fun v => (lo ≤ v ∧ v < hi) ∧ p v = 2) := by
  refine ⟨h0, hi', fun v => ⟨fun hv => Classical.byContradiction fun hx => ?_, ?_⟩⟩
  · have E : Enum a n (fun x => ∃ i, 0 ≤ i ∧ i < n ∧ a.get i = x) := ⟨h0, hi', fun _ => Iff.rfl⟩
    have E' := E.push (x := v) hx
    have hall : ∀ i, 0 ≤ i → i < n + 1 → (lo ≤ (a.set n v).get i ∧ (a.set n v).get i < hi) ∧ p ((a.set n v).get i) = 2 := by
      intro i i1 i2
      rcases E'.mem i1 i2 with ⟨j, j1, j2, e⟩ | e
      · rw [← e]; exact hm j j1 j2
      · rw [e]; exact hv
    have hs := sumI_enum (a.set n v).get (fun _ => 1) lo hi 0 (n + 1) (by omega) E'.2.1 (fun i i1 i2 => (hall i i1 i2).1)
    rw [sumI_const (by omega)] at hs
    have hle : sumI lo hi (fun w => (open Classical in if ∃ i, 0 ≤ i ∧ i < n + 1 ∧ (a.set n v).get i = w then (1 : Int) else 0)) ≤ sumI lo hi (fun v => if p v = 2 then 1 else 0) := by
      apply sumI_mono
      intro w w1 w2
      split
      · rename_i hw
        obtain ⟨i, i1, i2, rfl⟩ := hw
        rw [if_pos (hall i i1 i2).2]
      · split
        · exact Int.one_nonneg
        · exact Int.le_refl 0
    omega
  · rintro ⟨i, i1, i2, rfl⟩
    exact hm i i1 i2

theorem cuts_holds (P : Pre numMax b.m) (A : Alloc b) {v : Int} (hv : b.m.Elem v ∨ b.m.Node v) (hp : ∀ w ∈ b.m.nbr v, b.part w = 0 ∨ b.part w = 1 ∨ b.part w = 2) :
    Holds (cuts b v) (fun c => (c.1 = 0 ↔ ∀ w ∈ b.m.nbr v, b.part w ≠ 0) ∧ (c.2.1 = 0 ↔ ∀ w ∈ b.m.nbr v, b.part w ≠ 1)) := by
  have hmem : ∀ w ∈ b.m.nbr v, b.m.Elem w ∨ b.m.Node w := by
    intro w hw
    rcases hv with h | h
    · exact Or.inr (P.cons.nodes v h w hw).1
    · exact Or.inl (P.cons.elems v h w hw).1
  unfold cuts
  rw [Mesh.verttax_ok P hv, ok_bind, Mesh.vendtax_ok P hv, ok_bind]
  refine Holds_forUp (fun i (c : Int × Int × Int) => (0 ≤ c.1 ∧ (c.1 = 0 ↔ ∀ e, b.m.vert v ≤ e → e < i → b.part (b.m.edgetax.get e) ≠ 0)) ∧ (0 ≤ c.2.1 ∧ (c.2.1 = 0 ↔ ∀ e, b.m.vert v ≤ e → e < i → b.part (b.m.edgetax.get e) ≠ 1))) (P.cons.range v hv).2
    ⟨⟨Int.le_refl _, fun _ e h1 h2 => by omega, fun _ => rfl⟩, ⟨Int.le_refl _, fun _ e h1 h2 => by omega, fun _ => rfl⟩⟩ ?_ ?_
  · rintro e c h1 h2 ⟨⟨i1, i2⟩, ⟨i3, i4⟩⟩
    obtain ⟨k1, k2⟩ := Mesh.edgetax_ok P hv h1 h2
    have hb := A.rd P.cons (hmem _ k2)
    have hpw : b.parttax.get (b.m.edgetax.get e) = 0 ∨ _ := hp _ k2
    rw [k1, ok_bind, Arr.rd_ok _ hb.1 hb.2, ok_bind, bump_ok _ _ hpw, Holds_ok]
    dsimp only
    have key : ∀ (x k : Int), 0 ≤ x → (x = 0 ↔ ∀ e', b.m.vert v ≤ e' → e' < e → b.part (b.m.edgetax.get e') ≠ k) →
        0 ≤ x + (if b.parttax.get (b.m.edgetax.get e) = k then 1 else 0) ∧
        (x + (if b.parttax.get (b.m.edgetax.get e) = k then 1 else 0) = 0 ↔ ∀ e', b.m.vert v ≤ e' → e' < e + 1 → b.part (b.m.edgetax.get e') ≠ k) := by
      intro x k hx hi
      by_cases hk : b.parttax.get (b.m.edgetax.get e) = k
      · rw [if_pos hk]
        refine ⟨by omega, fun h => by omega, fun h => ?_⟩
        exact absurd hk (h e h1 (by omega))
      · rw [if_neg hk, Int.add_zero]
        refine ⟨hx, hi.trans ⟨?_, ?_⟩⟩
        · intro h e' h1' h2'
          by_cases he : e' = e
          · rw [he]; exact hk
          · exact h e' h1' (by omega)
        · intro h e' h1' h2'
          exact h e' h1' (by omega)
    exact ⟨key _ 0 i1 i2, key _ 1 i3 i4⟩
  · rintro c ⟨⟨-, i2⟩, ⟨-, i4⟩⟩
    have tr : ∀ k, (∀ e, b.m.vert v ≤ e → e < b.m.vend v → b.part (b.m.edgetax.get e) ≠ k) ↔ ∀ w ∈ b.m.nbr v, b.part w ≠ k := by
      intro k
      constructor
      · intro h w hw
        obtain ⟨e, e1, e2, rfl⟩ := (mem_seg _ _ _ _).1 hw
        exact h e e1 e2
      · intro h e e1 e2
        exact h _ ((mem_seg _ _ _ _).2 ⟨e, e1, e2, rfl⟩)
    exact ⟨i2.trans (tr 0), i4.trans (tr 1)⟩

/-- No neighbour in the other part. -/
theorem other_iff {c : Int × Int × Int} {v : Int} (hv : b.part v = 0 ∨ b.part v = 1) (hc : (c.1 = 0 ↔ ∀ w ∈ b.m.nbr v, b.part w ≠ 0) ∧ (c.2.1 = 0 ↔ ∀ w ∈ b.m.nbr v, b.part w ≠ 1)) (hp : ∀ w ∈ b.m.nbr v, b.part w = 0 ∨ b.part w = 1 ∨ b.part w = 2) :
    ¬ other c (b.part v) ↔ ∀ w ∈ b.m.nbr v, b.part w = 2 ∨ b.part w = b.part v := by
  unfold other
  rcases hv with h | h
  · rw [h, if_pos rfl, Classical.not_not, hc.2]
    exact ⟨fun k w hw => by have := k w hw; have := hp w hw; omega, fun k w hw => by have := k w hw; omega⟩
  · rw [h, if_neg (by decide), Classical.not_not, hc.1]
    exact ⟨fun k w hw => by have := k w hw; have := hp w hw; omega, fun k w hw => by have := k w hw; omega⟩

theorem nbr_nil (P : Pre numMax b.m) {v : Int} (hv : b.m.Elem v ∨ b.m.Node v) : b.m.vert v = b.m.vend v ↔ b.m.nbr v = [] := by
  have h := Mesh.nbr_length P.cons hv
  rw [← List.length_eq_zero_iff]
  omega

/-- Elements. -/
theorem checkElems_holds (P : Pre numMax b.m) (A : Alloc b) (hn : ∀ n, b.m.Node n → b.part n = 0 ∨ b.part n = 1 ∨ b.part n = 2) :
    Holds (forUpB b.m.velmbas b.m.velmnnd (0, 0) (checkElem b)) (fun l => match l with
      | .next s => (∀ e, b.m.Elem e → ElemOk b.m b.part e (b.part e)) ∧ s = (elemSum b.m b.part 0 (fun _ => 1), elemSum b.m b.part 1 (fun _ => 1))
      | .brk _ => ¬ ∀ e, b.m.Elem e → ElemOk b.m b.part e (b.part e)) := by
  have c1 := P.cons.velmnbr
  have c3 := P.cons.velmnnd
  refine Holds_forUpB (fun i (s : Int × Int) => (∀ e, b.m.velmbas ≤ e → e < i → ElemOk b.m b.part e (b.part e)) ∧ s = (sumI b.m.velmbas i (fun e => if b.part e = 0 then 1 else 0), sumI b.m.velmbas i (fun e => if b.part e = 1 then 1 else 0)))
    (fun _ => ¬ ∀ e, b.m.Elem e → ElemOk b.m b.part e (b.part e)) (by omega) ⟨fun e e1 e2 => by omega, by rw [sumI_empty (Int.le_refl _), sumI_empty (Int.le_refl _)]⟩ ?_ ?_ (fun _ h => h)
  · rintro e s e1 e2 ⟨h1, h2⟩
    have he : b.m.Elem e := ⟨e1, e2⟩
    have hb := A.rd P.cons (Or.inl he)
    have hw : ∀ w ∈ b.m.nbr e, b.part w = 0 ∨ b.part w = 1 ∨ b.part w = 2 := fun w hw => hn w (P.cons.nodes e he w hw).1
    unfold checkElem
    rw [Arr.rd_ok _ hb.1 hb.2, ok_bind, Holds_ite]
    change ((b.part e < 0 ∨ b.part e > 1) → _) ∧ (¬ (b.part e < 0 ∨ b.part e > 1) → _)
    refine ⟨fun h => ?_, fun h => ?_⟩
    · rw [Holds_pure]
      intro K
      have := (K e he).val
      omega
    have hv : b.part e = 0 ∨ b.part e = 1 := by omega
    dsimp only
    rw [Mesh.verttax_ok P (Or.inl he), ok_bind, Mesh.vendtax_ok P (Or.inl he), ok_bind, Holds_ite, nbr_nil P (Or.inl he)]
    refine ⟨fun h' => ?_, fun h' => ?_⟩
    · rw [Holds_pure]
      intro K
      exact h'.1 ((K e he).alone h'.2)
    rw [Holds_bind]
    refine (cuts_holds P A (Or.inl he) hw).mono ?_
    intro c hc
    have hO := other_iff hv hc hw
    rw [Holds_ite]
    refine ⟨fun h'' => ?_, fun h'' => ?_⟩
    · rw [Holds_pure]
      intro K
      exact hO.2 (K e he).apart h''
    · rw [Holds_pure]
      refine ⟨fun e' k1 k2 => ?_, ?_⟩
      · by_cases hee : e' = e
        · rw [hee]
          exact ⟨hv, hO.1 h'', fun hnil => Classical.byContradiction fun hz => h' ⟨hz, hnil⟩⟩
        · exact h1 e' k1 (by omega)
      · rw [sumI_succ e1, sumI_succ e1, h2]
        rcases hv with hz | hz
        · rw [if_pos (show b.parttax.get e = 0 from hz), hz, if_pos rfl, if_neg (by decide), Int.add_zero]
        · rw [if_neg (show b.parttax.get e ≠ 0 by show b.part e ≠ 0; rw [hz]; decide), hz, if_pos rfl, if_neg (by decide), Int.add_zero]
  · rintro s ⟨h1, h2⟩
    exact ⟨fun e he => h1 e he.1 he.2, h2⟩

/-- Sums on nodes, up to some number. -/
def upTo (b : Vmesh) (i k : Int) (f : Int → Int) : Int := sumI b.m.vnodbas i fun n => if b.part n = k then f n else 0

theorem rdVnlo_ok (A : Alloc b) {n : Int} (hn : b.m.Node n) : rdVnlo b.m n = .ok (b.m.vnlo n) := by
  unfold rdVnlo Mesh.vnlo
  cases h : b.m.vnlotax with
  | none => rfl
  | some a =>
    have := A.mesh.vnlo a h
    have := hn.1
    have := hn.2
    exact Arr.rd_ok _ (by omega) (by omega)

/-- Nodes. -/
theorem checkNode_holds (P : Pre numMax b.m) (A : Alloc b) (hn : ∀ n, b.m.Node n → b.part n = 0 ∨ b.part n = 1 ∨ b.part n = 2) (hE : ∀ e, b.m.Elem e → ElemOk b.m b.part e (b.part e)) :
    Holds (forUpB b.m.vnodbas b.m.vnodnnd (⟨(0, 0, 0), (0, 0, 0)⟩ : Sums) (checkNode b)) (fun l => match l with
      | .next s => s.size = (nodeSum b.m b.part 0 (fun _ => 1), nodeSum b.m b.part 1 (fun _ => 1), nodeSum b.m b.part 2 (fun _ => 1)) ∧ s.load = (nodeSum b.m b.part 0 b.m.vnlo, nodeSum b.m b.part 1 b.m.vnlo, nodeSum b.m b.part 2 b.m.vnlo)
      | .brk _ => False) := by
  have c1 := P.cons.vnodnbr
  have c3 := P.cons.vnodnnd
  refine Holds_forUpB (fun i (s : Sums) => s.size = (upTo b i 0 (fun _ => 1), upTo b i 1 (fun _ => 1), upTo b i 2 (fun _ => 1)) ∧ s.load = (upTo b i 0 b.m.vnlo, upTo b i 1 b.m.vnlo, upTo b i 2 b.m.vnlo))
    (fun _ => False) (by omega) ?_ ?_ (fun _ h => h) (fun _ h => h)
  · unfold upTo
    constructor <;> simp only [sumI_empty (Int.le_refl _)]
  · rintro n s n1 n2 ⟨h1, h2⟩
    have hN : b.m.Node n := ⟨n1, n2⟩
    have hb := A.rd P.cons (Or.inr hN)
    have hpn := hn n hN
    have hpn' : b.parttax.get n = 0 ∨ b.parttax.get n = 1 ∨ b.parttax.get n = 2 := hpn
    have hw : ∀ w ∈ b.m.nbr n, b.part w = 0 ∨ b.part w = 1 ∨ b.part w = 2 := fun w hw => by
      have := (hE w (P.cons.elems n hN w hw).1).val
      omega
    unfold checkNode
    rw [Arr.rd_ok _ hb.1 hb.2, ok_bind, if_neg (by omega), bump_ok _ _ hpn', ok_bind, rdVnlo_ok A hN, ok_bind, bump_ok _ _ hpn', ok_bind, Holds_bind]
    refine (cuts_holds P A (Or.inr hN) hw).mono ?_
    intro c hc
    rw [Holds_ite]
    refine ⟨fun h => ?_, fun h => ?_⟩
    · have h : b.part n ≠ 2 ∧ other c (b.part n) := h
      refine absurd h.2 ((other_iff (by omega) hc hw).2 fun w hw' => ?_)
      obtain ⟨k1, k2⟩ := P.cons.elems n hN w hw'
      have := (hE w k1).apart n k2
      omega
    · rw [Holds_pure]
      have up : ∀ k f, upTo b (n + 1) k f = upTo b n k f + if b.parttax.get n = k then f n else 0 := fun k f => sumI_succ n1 _
      refine ⟨?_, ?_⟩
      · dsimp only
        rw [h1, up, up, up]
      · dsimp only
        rw [h2, up, up, up]

/-- What is known of the frontier array. -/
structure FronOk (b : Vmesh) : Prop where
  inj : ∀ i j, 0 ≤ i → i < b.fronnbr → 0 ≤ j → j < b.fronnbr → b.frontab.get i = b.frontab.get j → i = j
  mem : ∀ i, 0 ≤ i → i < b.fronnbr → b.m.Node (b.frontab.get i) ∧ b.part (b.frontab.get i) = 2

theorem checkFron_holds (P : Pre numMax b.m) (A : Alloc b) (h0 : 0 ≤ b.fronnbr) (h1 : b.fronnbr ≤ b.m.vnodnbr) :
    Holds (forUpB 0 b.fronnbr (⟨b.m.vnodbas, b.m.vnodbas + b.m.vnodnbr, fun _ => 0⟩ : Arr Int) (checkFron b)) (fun l => match l with
      | .next _ => FronOk b
      | .brk _ => ¬ FronOk b) := by
  have a2 := A.fron
  have c3 := P.cons.vnodnnd
  refine Holds_forUpB (fun n (f : Arr Int) => (f.lo = b.m.vnodbas ∧ f.hi = b.m.vnodbas + b.m.vnodnbr) ∧ (∀ v, b.m.Node v → (f.get v = 0 ↔ ¬ ∃ i, 0 ≤ i ∧ i < n ∧ b.frontab.get i = v)) ∧
      (∀ i j, 0 ≤ i → i < n → 0 ≤ j → j < n → b.frontab.get i = b.frontab.get j → i = j) ∧ ∀ i, 0 ≤ i → i < n → b.m.Node (b.frontab.get i) ∧ b.part (b.frontab.get i) = 2)
    (fun _ => ¬ FronOk b) h0 ⟨⟨rfl, rfl⟩, fun v _ => ⟨fun _ ⟨i, i1, i2, _⟩ => by omega, fun _ => rfl⟩, fun i j i1 i2 => by omega, fun i i1 i2 => by omega⟩ ?_ ?_ (fun _ h => h)
  · rintro n f n1 n2 ⟨l, st, ds, fr⟩
    unfold checkFron
    rw [Arr.rd_ok _ (by omega) (by omega), ok_bind, Holds_ite]
    refine ⟨fun h => ?_, fun h => ?_⟩
    · rw [Holds_pure]
      intro O
      have := (O.mem n n1 n2).1.1
      have := (O.mem n n1 n2).1.2
      omega
    have hv : b.m.Node (b.frontab.get n) := ⟨by omega, by omega⟩
    have hb := A.rd P.cons (Or.inr hv)
    rw [Arr.rd_ok _ hb.1 hb.2, ok_bind, Holds_ite]
    refine ⟨fun h2 => ?_, fun h2 => ?_⟩
    · rw [Holds_pure]
      intro O
      exact h2 (O.mem n n1 n2).2
    rw [Arr.rd_ok _ (by omega) (by omega), ok_bind, Holds_ite]
    refine ⟨fun h3 => ?_, fun h3 => ?_⟩
    · rw [Holds_pure]
      intro O
      refine h3 ((st _ hv).2 fun ⟨i, i1, i2, e⟩ => ?_)
      have := O.inj i n i1 (by omega) n1 n2 e
      omega
    have new := (st _ hv).1 (Classical.not_not.1 h3)
    rw [Arr.wr_ok _ _ (by omega) (by omega), ok_bind, Holds_pure]
    refine ⟨l, fun v hv' => ?_, fun i j i1 i2 j1 j2 e => ?_, fun i i1 i2 => ?_⟩
    · rw [Arr.set_get]
      by_cases hvn : v = b.frontab.get n
      · rw [if_pos hvn]
        exact ⟨fun h => by omega, fun h => absurd ⟨n, n1, by omega, hvn.symm⟩ h⟩
      · rw [if_neg hvn, st v hv']
        refine not_congr ⟨fun ⟨i, i1, i2, e⟩ => ⟨i, i1, by omega, e⟩, fun ⟨i, i1, i2, e⟩ => ⟨i, i1, ?_, e⟩⟩
        by_cases hi : i = n
        · rw [hi] at e; exact absurd e.symm hvn
        · omega
    · by_cases hi : i = n
      · by_cases hj : j = n
        · omega
        · rw [hi] at e; exact absurd ⟨j, j1, by omega, e.symm⟩ new
      · by_cases hj : j = n
        · rw [hj] at e; exact absurd ⟨i, i1, by omega, e⟩ new
        · exact ds i j i1 (by omega) j1 (by omega) e
    · by_cases hi : i = n
      · rw [hi]; exact ⟨hv, Classical.not_not.1 h2⟩
      · exact fr i i1 (by omega)
  · rintro f ⟨-, -, ds, fr⟩
    exact ⟨ds, fr⟩

theorem check_holds (P : Pre numMax b.m) (A : Alloc b) (hn : ∀ n, b.m.Node n → b.part n = 0 ∨ b.part n = 1 ∨ b.part n = 2) : Holds (check b) (fun r => r = true ↔ Valid b) := by
  have C := P.cons
  have ff : ∀ {Q : Prop}, ¬ Q → (false = true ↔ Q) := fun h => ⟨fun h => absurd h (by decide), fun p => absurd p h⟩
  have vE : Valid b → ∀ e, b.m.Elem e → ElemOk b.m b.part e (b.part e) := fun V e he => ⟨V.elem e he, fun n hn' => V.apart e n he hn', V.alone e he⟩
  have hle : nodeSum b.m b.part 2 (fun _ => 1) ≤ b.m.vnodnbr := by
    unfold nodeSum
    have := C.vnodnnd
    have := C.vnodnbr
    calc sumI b.m.vnodbas b.m.vnodnnd (fun u => if b.part u = 2 then 1 else 0) ≤ sumI b.m.vnodbas b.m.vnodnnd (fun _ => 1) := sumI_mono (fun u _ _ => by split <;> omega)
      _ = b.m.vnodnbr := by rw [sumI_const (by omega)]; omega
  unfold check
  rw [Holds_ite]
  refine ⟨fun h => ?_, fun h => ?_⟩
  · rw [Holds_pure]
    refine ff fun V => ?_
    have : elemSum b.m b.part 0 (fun _ => 1) + elemSum b.m b.part 1 (fun _ => 1) = b.m.velmnbr := by
      unfold elemSum
      have c1 := C.velmnbr
      have c2 := C.velmnnd
      rw [← sumI_add_dist, sumI_congr (g := fun _ => 1), sumI_const (by omega)]
      · omega
      · intro e e1 e2
        dsimp only
        rcases V.elem e ⟨e1, e2⟩ with h | h <;> rw [h] <;> decide
    have := V.esize0
    have := V.esize1
    omega
  rw [Holds_ite]
  refine ⟨fun h' => ff fun V => h' V.delta, fun h' => ?_⟩
  rw [Holds_bind]
  refine (checkElems_holds P A hn).mono ?_
  intro l hl
  cases l with
  | brk _ => exact ff fun V => hl (vE V)
  | next s =>
  obtain ⟨hE, hs⟩ := hl
  dsimp only
  rw [Holds_ite]
  refine ⟨fun k => ff fun V => k (by rw [hs, V.esize0, V.esize1]), fun k => ?_⟩
  unfold checkNodes
  rw [Holds_bind]
  refine (checkNode_holds P A hn hE).mono ?_
  intro l hl
  cases l with
  | brk _ => exact False.elim hl
  | next t =>
  obtain ⟨t1, t2⟩ := hl
  dsimp only
  rw [Holds_ite]
  refine ⟨fun k' => ff fun V => ?_, fun k' => ?_⟩
  · rcases k' with k' | k'
    · exact k' (by rw [t2, V.load0, V.load1, V.load2])
    · exact k' (by rw [t1, V.nsize0, V.nsize1, V.nsize2])
  have k1 : t.load = (b.ncmpload0, b.ncmpload1, b.ncmpload2) := Classical.not_not.1 fun x => k' (Or.inl x)
  have k2 : t.size = (b.ncmpsize0, b.ncmpsize1, b.fronnbr) := Classical.not_not.1 fun x => k' (Or.inr x)
  rw [t2] at k1
  rw [t1] at k2
  have k := Classical.not_not.1 k
  rw [hs] at k
  simp only [Prod.mk.injEq] at k k1 k2
  rw [Holds_ite]
  refine ⟨fun x => ff fun V => ?_, fun x => ?_⟩
  · have := V.fron.1
    have := V.nsize2
    omega
  rw [Holds_bind]
  refine (checkFron_holds P A (by omega) (by omega)).mono ?_
  intro l hl
  cases l with
  | brk _ => exact ff fun V => hl ⟨V.fron.2.1, fun i i1 i2 => V.fron.mem i1 i2⟩
  | next _ =>
    dsimp only
    rw [Holds_pure]
    exact ⟨fun _ => ⟨hn, fun e he => (hE e he).val, fun e n he hn' => (hE e he).apart n hn', fun e he => (hE e he).alone, k.1.symm, k.2.symm, k2.1.symm, k2.2.1.symm, k2.2.2.symm, k1.1.symm, k1.2.1.symm, k1.2.2.symm, Classical.not_not.1 h',
      enum_of_count (by omega) hl.inj hl.mem k2.2.2.symm⟩, fun _ => rfl⟩

end Scotch.Msep
