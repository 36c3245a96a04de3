import Verif.Base

/-!
# Substitution in strings: model

src/libscotch/common_string.c. Strategy strings are built by replacing patterns such as `<BBAL>` in a buffer, in place. Characters are integers; 0 ends strings.
-/

set_option autoImplicit false

namespace Scotch.Str

/-- The string at some place of a buffer, as `strlen` and `strstr` of the C library read it, until its end: at most `n` characters are read. -/
def cstr (a : Arr Int) : Nat → Int → M (List Int)
  | 0, _ => .error .oob
  | n + 1, p => do
    let c ← a.rd p
    if c = 0 then return [] else return c :: (← cstr a n (p + 1))

/-- `strstr` of the C library: place of the first occurrence of a pattern. -/
def find (pat : List Int) : List Int → Option Nat
  | [] => if pat = [] then some 0 else none
  | c :: l => if pat.isPrefixOf (c :: l) then some 0 else (find pat l).map (· + 1)

/-- The `n` characters at some place of a buffer. -/
def rdN (a : Arr Int) : Int → Nat → M (List Int)
  | _, 0 => return []
  | p, n + 1 => do
    let c ← a.rd p
    return c :: (← rdN a (p + 1) n)

/-- `memCpy` of characters that are not in the buffer. -/
def wrL : Arr Int → Int → List Int → M (Arr Int)
  | a, _, [] => return a
  | a, p, c :: l => do wrL (← a.wr p c) (p + 1) l

/-- `memMov`, whose areas may overlap. -/
def memMov (a : Arr Int) (dst src : Int) (n : Nat) : M (Arr Int) := do wrL a dst (← rdN a src n)

/-- `stringSubst2` — common_string.c:63–90. The first parameter bounds the depth of recursion. -/
def subst2 (pat rep : List Int) : Nat → Arr Int → Int → Int → M (Arr Int)
  | 0, _, _, _ => .error .fuel
  | fuel + 1, a, src, dst => do
    let s ← cstr a (a.hi - src).toNat src
    let o := find pat s
    let idx := match o with | none => s.length + 1 | some k => k
    let a ← if rep.length < pat.length then memMov a dst src idx else pure a
    let a ← match o with
      | none => pure a
      | some _ => subst2 pat rep fuel a (src + idx + pat.length) (dst + idx + rep.length)
    let a ← if rep.length > pat.length then memMov a dst src idx else pure a
    match o with
    | none => return a
    | some _ => wrL a (dst + idx) rep

/-- `stringSubst` — common_string.c:92–105, on the string that begins at the start of a buffer. -/
def stringSubst (pat rep : List Int) (a : Arr Int) : M (Arr Int) := subst2 pat rep ((a.hi - a.lo).toNat + 1) a a.lo a.lo

/-! ## Specification -/

/-- Text `t` is text `s`, in which occurrences of pattern `pat` are replaced by `rep`, from left to right: the first one is replaced, and then those of the text after it. -/
inductive Replaced (pat rep : List Int) : List Int → List Int → Prop where
  | none (s : List Int) : (∀ l r, s ≠ l ++ pat ++ r) → Replaced pat rep s s
  | some (l r t : List Int) : (∀ l' r', l ++ pat ++ r = l' ++ pat ++ r' → l.length ≤ l'.length) → Replaced pat rep r t → Replaced pat rep (l ++ pat ++ r) (l ++ rep ++ t)

/-- A buffer holds a text at some place. -/
def Has (f : Int → Int) : Int → List Int → Prop
  | _, [] => True
  | p, c :: l => f p = c ∧ Has f (p + 1) l

/-- A buffer holds a string at its start: a text without character 0, and then character 0. -/
structure Holds0 (a : Arr Int) (s : List Int) : Prop where
  fits : a.lo + s.length < a.hi
  text : Has a.get a.lo (s ++ [0])
  nz : (0 : Int) ∉ s

end Scotch.Str
