import Verif.Arch.SpecMatch
import Verif.Arch.LemmasMesh
import Verif.Arch.LemmasTleaf
import Verif.TextIO.Pairs

/-! # Matchings of architectures: facts -/

set_option autoImplicit false
set_option linter.unusedSimpArgs false

namespace Scotch.Arch

theorem Matched.empty (a : Arr Multi) : Matched 0 0 a := ⟨fun c h1 h2 => by omega, fun v h1 h2 => by omega⟩

theorem Matched.one {n m : Int} {a : Arr Multi} (h : Matched n m a) (hn : 0 ≤ n) (hm : 0 ≤ m) : Matched (n + 1) (m + 1) (a.set m (n, n)) := by
  refine ⟨?_, ?_⟩
  · intro c h1 h2
    by_cases hc : c = m
    · rw [hc, Arr.set_get_same]; dsimp only; omega
    · rw [Arr.set_get_ne _ _ hc]
      have := h.range c h1 (by omega)
      omega
  · intro v h1 h2
    by_cases hv : v = n
    · refine ⟨m, hm, by omega, Or.inl (by rw [Arr.set_get_same]; exact hv.symm), ?_⟩
      intro c' c1 c2 hc
      by_cases he : c' = m
      · exact he
      · rw [Arr.set_get_ne _ _ he] at hc
        have := h.range c' c1 (by omega)
        omega
    · obtain ⟨c, c1, c2, c3, c4⟩ := h.once v h1 (by omega)
      refine ⟨c, c1, by omega, by rw [Arr.set_get_ne _ _ (by omega)]; exact c3, ?_⟩
      intro c' d1 d2 hc
      by_cases he : c' = m
      · rw [he, Arr.set_get_same] at hc; dsimp only at hc; omega
      · rw [Arr.set_get_ne _ _ he] at hc
        exact c4 c' d1 (by omega) hc

theorem Matched.two {n m : Int} {a : Arr Multi} (h : Matched n m a) (hn : 0 ≤ n) (hm : 0 ≤ m) : Matched (n + 2) (m + 1) (a.set m (n, n + 1)) := by
  refine ⟨?_, ?_⟩
  · intro c h1 h2
    by_cases hc : c = m
    · rw [hc, Arr.set_get_same]; dsimp only; omega
    · rw [Arr.set_get_ne _ _ hc]
      have := h.range c h1 (by omega)
      omega
  · intro v h1 h2
    by_cases hv : n ≤ v
    · refine ⟨m, hm, by omega, by rw [Arr.set_get_same]; dsimp only; omega, ?_⟩
      intro c' c1 c2 hc
      by_cases he : c' = m
      · exact he
      · rw [Arr.set_get_ne _ _ he] at hc
        have := h.range c' c1 (by omega)
        omega
    · obtain ⟨c, c1, c2, c3, c4⟩ := h.once v h1 (by omega)
      refine ⟨c, c1, by omega, by rw [Arr.set_get_ne _ _ (by omega)]; exact c3, ?_⟩
      intro c' d1 d2 hc
      by_cases he : c' = m
      · rw [he, Arr.set_get_same] at hc; dsimp only at hc; omega
      · rw [Arr.set_get_ne _ _ he] at hc
        exact c4 c' d1 (by omega) hc

/-- State of the loops: `f` fine vertices are matched into `c` coarse vertices. -/
structure Part (lo hi : Int) (c f : Int) (s : Arr Multi × Int × Int) : Prop where
  bounds : s.1.lo = lo ∧ s.1.hi = hi
  coar : s.2.1 = c
  fine : s.2.2 = f
  mat : Matched f c s.1
  fit : c ≤ hi

theorem putOne_holds {lo hi c f : Int} {s : Arr Multi × Int × Int} (h : Part lo hi c f s) (hf : 0 ≤ f) (hc : 0 ≤ c) (h1 : lo ≤ c) (h2 : c < hi) :
    Holds (putOne s) (Part lo hi (c + 1) (f + 1)) := by
  obtain ⟨⟨b1, b2⟩, rfl, rfl, hm, hft⟩ := h
  unfold putOne
  rw [Arr.wr_ok _ _ (by omega) (by omega), ok_bind, Holds_pure]
  exact ⟨⟨b1, b2⟩, rfl, rfl, hm.one hf hc, by omega⟩

theorem putTwo_holds {lo hi c f : Int} {s : Arr Multi × Int × Int} (h : Part lo hi c f s) (hf : 0 ≤ f) (hc : 0 ≤ c) (h1 : lo ≤ c) (h2 : c < hi) :
    Holds (putTwo s) (Part lo hi (c + 1) (f + 2)) := by
  obtain ⟨⟨b1, b2⟩, rfl, rfl, hm, hft⟩ := h
  unfold putTwo
  rw [Arr.wr_ok _ _ (by omega) (by omega), ok_bind, Holds_pure]
  exact ⟨⟨b1, b2⟩, rfl, rfl, hm.two hf hc, by omega⟩

/-- A loop that puts `k` pairs. -/
theorem putTwos_holds {lo hi c f : Int} {s : Arr Multi × Int × Int} (h : Part lo hi c f s) (hf : 0 ≤ f) (hc : 0 ≤ c) (h1 : lo ≤ c) {a b : Int} (hab : a ≤ b) (h2 : c + (b - a) ≤ hi) :
    Holds (forUp a b s fun _ s => putTwo s) (Part lo hi (c + (b - a)) (f + 2 * (b - a))) := by
  refine Holds_forUp (fun i s => Part lo hi (c + (i - a)) (f + 2 * (i - a)) s) hab ?_ ?_ ?_
  · rw [show c + (a - a) = c by omega, show f + 2 * (a - a) = f by omega]; exact h
  · intro i s i1 i2 I
    rw [show c + (i + 1 - a) = c + (i - a) + 1 by omega, show f + 2 * (i + 1 - a) = f + 2 * (i - a) + 2 by omega]
    exact putTwo_holds I (by omega) (by omega) (by omega) (by omega)
  · intro s I; exact I

/-! ## Complete graphs -/

namespace Cmplt

def MInv (m : Match) (n : Int) : Prop := m.vertnbr = n ∧ 1 ≤ n ∧ m.passnum = 0 ∧ m.multtab.lo = 0 ∧ (n + 1) / 2 ≤ m.multtab.hi

theorem matchInit_inv (junk : Int → Multi) {n : Int} (hn : 1 ≤ n) : MInv (matchInit junk n) n := ⟨rfl, hn, rfl, rfl, Int.le_refl _⟩

theorem matcher : Matcher matchMate Match.multtab MInv (fun m => m.vertnbr.toNat) := by
  refine ⟨fun s n h => h.2.1, ?_⟩
  rintro m n ⟨rfl, h1, h2, h3, h4⟩ hn
  unfold matchMate
  rw [if_neg (by omega), h2]
  unfold putIf
  rw [if_neg (by omega), pure_bind]
  dsimp only
  rw [Holds_bind]
  refine (putTwos_holds (lo := 0) (hi := m.multtab.hi) (c := 0) (f := 0) (a := 0) (b := m.vertnbr / 2) ⟨⟨h3, rfl⟩, rfl, rfl, Matched.empty _, by omega⟩ (Int.le_refl _) (Int.le_refl _) (Int.le_refl _) (by omega) (by omega)).mono ?_
  intro s P
  rw [Holds_bind, Holds_ite]
  constructor
  · rintro ⟨-, ho⟩
    refine (putOne_holds P (by omega) (by omega) (by omega) (by omega)).mono ?_
    intro t Q
    rw [Holds_pure]
    have e1 := Q.coar
    have hm := Q.mat
    rw [show (0 : Int) + 2 * (m.vertnbr / 2 - 0) + 1 = m.vertnbr by omega, ← e1] at hm
    refine ⟨by dsimp only; omega, hm, ⟨rfl, by dsimp only; omega, rfl, Q.bounds.1, ?_⟩, by dsimp only; omega, Int.le_of_eq Q.bounds.1, by have := Q.fit; have := Q.bounds.2; dsimp only; omega⟩
    dsimp only
    rw [Q.bounds.2]; omega
  · intro ho
    rw [Holds_pure, Holds_pure]
    have e1 := P.coar
    have hm := P.mat
    have hev : m.vertnbr % 2 = 0 := by omega
    rw [show (0 : Int) + 2 * (m.vertnbr / 2 - 0) = m.vertnbr by omega, ← e1] at hm
    refine ⟨by dsimp only; omega, hm, ⟨rfl, by dsimp only; omega, rfl, P.bounds.1, ?_⟩, by dsimp only; omega, Int.le_of_eq P.bounds.1, by have := P.fit; have := P.bounds.2; have := P.coar; dsimp only; omega⟩
    dsimp only
    rw [P.bounds.2]; omega

theorem stops : Stops matchMate MInv := by
  rintro m ⟨h, _⟩
  unfold matchMate
  rw [if_pos (by omega), Holds_pure]

end Cmplt

/-! ## Hypercubes -/

namespace Hcub

def MInv (m : Match) (n : Int) : Prop := m.vertnbr = n ∧ (∃ k : Nat, n = 2 ^ k) ∧ m.multtab.lo = 0 ∧ n / 2 ≤ m.multtab.hi

theorem matchInit_inv (junk : Int → Multi) {d : Nat} (hd : d ≤ 30) : Holds (matchInit junk d) (fun m => MInv m (2 ^ d)) := by
  unfold matchInit shl1
  rw [if_pos hd, ok_bind, Holds_pure]
  exact ⟨rfl, ⟨d, rfl⟩, rfl, Int.le_refl _⟩

theorem pow_pos' (k : Nat) : (1 : Int) ≤ 2 ^ k := by
  induction k with
  | zero => simp
  | succ k ih => rw [Int.pow_succ]; omega

theorem matcher : Matcher matchMate Match.multtab MInv (fun m => m.vertnbr.toNat) := by
  refine ⟨fun s n h => by obtain ⟨_, ⟨k, rfl⟩, _⟩ := h; exact pow_pos' k, ?_⟩
  rintro m n ⟨rfl, ⟨k, hk⟩, h3, h4⟩ hn
  unfold matchMate
  cases k with
  | zero => simp at hk; omega
  | succ k =>
    rw [Int.pow_succ] at hk
    have := pow_pos' k
    have hh : m.vertnbr / 2 = 2 ^ k := by omega
    rw [if_neg (by omega), Holds_bind]
    refine (putTwos_holds (lo := 0) (hi := m.multtab.hi) (c := 0) (f := 0) (a := 0) (b := m.vertnbr / 2) ⟨⟨h3, rfl⟩, rfl, rfl, Matched.empty _, by omega⟩ (Int.le_refl _) (Int.le_refl _) (Int.le_refl _) (by omega) (by omega)).mono ?_
    intro s P
    rw [Holds_pure]
    have hm := P.mat
    rw [show (0 : Int) + 2 * (m.vertnbr / 2 - 0) = m.vertnbr by omega, show (0 : Int) + (m.vertnbr / 2 - 0) = m.vertnbr / 2 by omega] at hm
    refine ⟨by dsimp only; omega, hm, ⟨rfl, ⟨k, hh⟩, P.bounds.1, ?_⟩, by dsimp only; omega, Int.le_of_eq P.bounds.1, by have := P.fit; have := P.bounds.2; have := P.coar; dsimp only; omega⟩
    dsimp only
    rw [P.bounds.2]; omega

theorem stops : Stops matchMate MInv := by
  rintro m ⟨h, _⟩
  unfold matchMate
  rw [if_pos (by omega), Holds_pure]

end Hcub

/-! ## Tree-leaf architectures -/

namespace Tleaf

variable {a : Arch}

/-- Product of the sizes of the first `l` levels. -/
def above (a : Arch) : Nat → Int
  | 0 => 1
  | l + 1 => above a l * a.sizetab.get l

theorem above_pos (h : WF a) : ∀ l : Nat, (l : Int) ≤ a.levlnbr → 1 ≤ above a l
  | 0, _ => by simp [above]
  | l + 1, hl => by
    have h1 := above_pos h l (by omega)
    have h2 := h.size l (by omega) (by omega)
    show 1 ≤ above a l * a.sizetab.get l
    have := Int.mul_le_mul h1 h2 (by omega) (by omega)
    omega

theorem above_span (h : WF a) : ∀ l : Nat, (l : Int) ≤ a.levlnbr → above a l * span a l = a.termnbr
  | 0, _ => by rw [above, h.term, Int.one_mul]; rfl
  | l + 1, hl => by
    have h1 := above_span h l (by omega)
    rw [span_step (l : Int) (by omega)] at h1
    rw [above, Int.mul_assoc]
    exact h1

structure MInv (a : Arch) (m : Match) (n : Int) : Prop where
  nbr : m.vertnbr = n
  lev : 0 ≤ m.levlnum ∧ m.levlnum < a.levlnbr
  siz : 1 ≤ m.levlsiz
  tot : n = above a m.levlnum.toNat * m.levlsiz
  pass : m.passnum = 0 ∨ m.passnum = 1
  lo : m.multtab.lo = 0
  room : above a m.levlnum.toNat * ((m.levlsiz + 1) / 2) ≤ m.multtab.hi

theorem matchInit_inv (h : WF a) (hl : 1 ≤ a.levlnbr) (junk : Int → Multi) : Holds (matchInit junk a) (fun m => MInv a m a.termnbr) := by
  unfold matchInit
  rw [Holds_bind]
  have h1 := h.slo
  have h2 := h.shi
  refine Holds_forUp (fun i v => v = above a i.toNat) (by omega) rfl ?_ ?_
  · intro i v i1 i2 I
    rw [Arr.rd_ok _ (by omega) (by omega), ok_bind, Holds_pure, I, show (i + 1).toNat = i.toNat + 1 by omega, above, show ((i.toNat : Nat) : Int) = i by omega]
  · intro v I
    have e : max 0 (a.levlnbr - 1) = a.levlnbr - 1 := by omega
    rw [e, Arr.rd_ok _ (by omega) (by omega), ok_bind, ok_bind, Holds_pure, I]
    have hs := h.size (a.levlnbr - 1) (by omega) (by omega)
    have ht := above_span h (a.levlnbr - 1).toNat (by omega)
    rw [show (((a.levlnbr - 1).toNat : Nat) : Int) = a.levlnbr - 1 by omega, span_step _ (by omega), show a.levlnbr - 1 + 1 = a.levlnbr by omega, span_top, Int.mul_one] at ht
    exact ⟨ht, ⟨by dsimp only; omega, by dsimp only; omega⟩, by dsimp only; omega, ht.symm, Or.inl rfl, rfl, Int.le_refl _⟩

theorem matchLevel_holds (h : WF a) {m : Match} {n : Int} (I : MInv a m n) : Holds (matchLevel a m) (fun r => match r with
    | none => n = 1
    | some (p, l, z) => 2 ≤ z ∧ 0 ≤ l ∧ l ≤ m.levlnum ∧ (p = 0 ∨ p = 1) ∧ n = above a l.toNat * z ∧ above a l.toNat * ((z + 1) / 2) ≤ m.multtab.hi) := by
  unfold matchLevel
  have h1 := h.slo
  have h2 := h.shi
  have hl := I.lev
  refine Holds_loopM (fun s : Int × Int × Int => (s.1 = 0 ∨ s.1 = 1) ∧ 0 ≤ s.2.1 ∧ s.2.1 ≤ m.levlnum ∧ 1 ≤ s.2.2 ∧ n = above a s.2.1.toNat * s.2.2 ∧
    above a s.2.1.toNat * ((s.2.2 + 1) / 2) ≤ m.multtab.hi) (fun s => s.2.1.toNat) ?_ _ _ ⟨I.pass, hl.1, Int.le_refl _, I.siz, I.tot, I.room⟩ (by dsimp only; omega)
  rintro ⟨p, l, z⟩ ⟨j1, j2, j3, j4, j5, j6⟩
  dsimp only at j1 j2 j3 j4 j5 j6 ⊢
  rw [Holds_ite]
  constructor
  · intro hz
    subst hz
    rw [Holds_ite]
    constructor
    · intro hl0
      rw [Holds_pure]
      have : l = 0 := by omega
      subst this
      simpa [Loop.Sat, above] using j5
    · intro hl0
      rw [Arr.rd_ok _ (by omega) (by omega), ok_bind, Holds_pure]
      have hs := h.size (l - 1) (by omega) (by omega)
      have ha := above_pos h (l - 1).toNat (by omega)
      have e : above a l.toNat = above a (l - 1).toNat * a.sizetab.get (l - 1) := by
        rw [show l.toNat = (l - 1).toNat + 1 by omega, above, show (((l - 1).toNat : Nat) : Int) = l - 1 by omega]
      refine ⟨⟨Or.inl rfl, by dsimp only; omega, by dsimp only; omega, by dsimp only; omega, by dsimp only; rw [j5, e, Int.mul_one], ?_⟩, by dsimp only; omega⟩
      dsimp only
      rw [show ((1 : Int) + 1) / 2 = 1 by decide, Int.mul_one, e] at j6
      exact Int.le_trans (Int.mul_le_mul_of_nonneg_left (by omega) (by omega)) j6
  · intro hz
    rw [Holds_pure]
    exact ⟨by omega, j2, j3, j1, j5, j6⟩

theorem matchBlock_holds {lo hi c f z p : Int} {s : Arr Multi × Int × Int} (h : Part lo hi c f s) (hf : 0 ≤ f) (hc : 0 ≤ c) (h1 : lo ≤ c) (hz : 2 ≤ z) (hp : (z % 2 = 1 ∧ (p = 0 ∨ p = 1)) ∨ (z % 2 = 0 ∧ p = -1))
    (h2 : c + (z + 1) / 2 ≤ hi) : Holds (matchBlock p (z / 2) s) (Part lo hi (c + (z + 1) / 2) (f + z)) := by
  unfold matchBlock putIf
  rcases hp with ⟨ho, hp | hp⟩ | ⟨he, hp⟩
  · subst hp
    rw [if_pos rfl, Holds_bind]
    refine (putOne_holds h hf hc h1 (by omega)).mono ?_
    intro t P
    rw [Holds_bind]
    refine (putTwos_holds P (by omega) (by omega) (by omega) (by omega) (by omega)).mono ?_
    intro u Q
    rw [if_neg (by omega), Holds_pure]
    have e1 : c + 1 + (z / 2 - 0) = c + (z + 1) / 2 := by omega
    have e2 : f + 1 + 2 * (z / 2 - 0) = f + z := by omega
    rw [← e1, ← e2]; exact Q
  · subst hp
    rw [if_neg (by omega), pure_bind, Holds_bind]
    refine (putTwos_holds h (by omega) (by omega) (by omega) (by omega) (by omega)).mono ?_
    intro u Q
    rw [if_pos rfl]
    refine (putOne_holds Q (by omega) (by omega) (by omega) (by omega)).mono ?_
    intro t P
    have e1 : c + (z / 2 - 0) + 1 = c + (z + 1) / 2 := by omega
    have e2 : f + 2 * (z / 2 - 0) + 1 = f + z := by omega
    rw [← e1, ← e2]; exact P
  · subst hp
    rw [if_neg (by omega), pure_bind, Holds_bind]
    refine (putTwos_holds h (by omega) (by omega) (by omega) (by omega) (by omega)).mono ?_
    intro u Q
    rw [if_neg (by omega), Holds_pure]
    have e1 : c + (z / 2 - 0) = c + (z + 1) / 2 := by omega
    have e2 : f + 2 * (z / 2 - 0) = f + z := by omega
    rw [← e1, ← e2]; exact Q

theorem matcher (h : WF a) : Matcher (matchMate a) Match.multtab (MInv a) (fun m => m.vertnbr.toNat) := by
  refine ⟨?_, ?_⟩
  · intro m n I
    have := above_pos h m.levlnum.toNat (by have := I.lev; omega)
    have := Int.mul_le_mul this I.siz (by omega) (by omega)
    have := I.tot
    omega
  · intro m n I hn
    unfold matchMate
    rw [Holds_bind]
    refine (matchLevel_holds h I).mono ?_
    intro r hr
    cases r with
    | none => dsimp only at hr; omega
    | some q =>
      obtain ⟨p, l, z⟩ := q
      obtain ⟨z2, l0, l1, p01, tot, room⟩ := hr
      dsimp only
      have hB := above_pos h l.toNat (by have := I.lev; omega)
      have hdiv : cdiv m.vertnbr z = .ok (above a l.toNat) := by
        unfold cdiv
        rw [if_neg (by omega), I.nbr, tot, Int.mul_tdiv_cancel _ (by omega)]
      rw [hdiv, ok_bind, Holds_bind]
      have hroom : ∀ i, i ≤ above a l.toNat → i * ((z + 1) / 2) ≤ m.multtab.hi := fun i hi =>
        Int.le_trans (Int.mul_le_mul_of_nonneg_right hi (by omega)) room
      refine Holds_forUp (fun i s => Part 0 m.multtab.hi (i * ((z + 1) / 2)) (i * z) s) (by omega) ?_ ?_ ?_
      · rw [Int.zero_mul, Int.zero_mul]
        exact ⟨⟨I.lo, rfl⟩, rfl, rfl, Matched.empty _, by have := hroom 0 (by omega); omega⟩
      · intro i s i1 i2 P
        have e1 : (i + 1) * ((z + 1) / 2) = i * ((z + 1) / 2) + (z + 1) / 2 := by rw [Int.add_mul, Int.one_mul]
        have e2 : (i + 1) * z = i * z + z := by rw [Int.add_mul, Int.one_mul]
        have k1 : 0 ≤ i * ((z + 1) / 2) := Int.mul_nonneg i1 (by omega)
        have k2 : 0 ≤ i * z := Int.mul_nonneg i1 (by omega)
        have k3 := hroom (i + 1) (by omega)
        rw [e1, e2]
        refine matchBlock_holds P k2 k1 k1 z2 ?_ (by omega)
        by_cases ho : z % 2 = 1
        · rw [if_pos ho]; exact Or.inl ⟨ho, by omega⟩
        · rw [if_neg ho]; exact Or.inr ⟨by omega, rfl⟩
      · intro s P
        rw [Holds_pure]
        have hm := P.mat
        have e := P.coar
        dsimp only
        rw [← tot, ← e] at hm
        have c1 : above a l.toNat * ((z + 1) / 2) ≤ above a l.toNat * (z - 1) + 0 := by
          rw [Int.add_zero]
          exact Int.mul_le_mul_of_nonneg_left (by omega) (by omega)
        have c2 : above a l.toNat * (z - 1) = above a l.toNat * z - above a l.toNat := by rw [Int.mul_sub, Int.mul_one]
        have ec : (z + 1) / 2 * above a l.toNat = above a l.toNat * ((z + 1) / 2) := Int.mul_comm _ _
        refine ⟨by omega, hm, ⟨by dsimp only; omega, ⟨l0, by have := I.lev; dsimp only; omega⟩, by dsimp only; omega, by dsimp only; omega, ?_, P.bounds.1, ?_⟩, ?_, Int.le_of_eq P.bounds.1, by have := P.fit; have := P.bounds.2; omega⟩
        · dsimp only
          by_cases ho : z % 2 = 1
          · rw [if_pos ho]; omega
          · rw [if_neg ho]; exact p01
        · dsimp only
          rw [P.bounds.2]
          exact Int.le_trans (Int.mul_le_mul_of_nonneg_left (by omega) (by omega)) room
        · have := I.nbr
          omega

theorem stops (h : WF a) : Stops (matchMate a) (MInv a) := by
  intro m I
  unfold matchMate
  rw [Holds_bind]
  refine (matchLevel_holds h I).mono ?_
  intro r hr
  cases r with
  | none => dsimp only; rw [Holds_pure]
  | some q =>
    obtain ⟨p, l, z⟩ := q
    obtain ⟨z2, l0, l1, p01, tot, room⟩ := hr
    have hB := above_pos h l.toNat (by have := I.lev; omega)
    have := Int.mul_le_mul hB z2 (by omega) (by omega)
    omega

end Tleaf

end Scotch.Arch
