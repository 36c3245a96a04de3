import Verif.Base

/-!
# Text input and output of integers: model of intLoad / intSave

A text stream being read is the list of the bytes that remain to be read; reading at the end of the
stream gives `EOF` (−1).  A stream being written is the list of the bytes written so far.
-/

namespace Scotch.Text

/-- Remaining bytes of an input stream. -/
abbrev Stream := List Nat

/-- `getc`: value of the character read (−1 at the end of the stream), and rest of the stream. -/
def getc : Stream → Int × Stream
  | [] => (-1, [])
  | c :: r => ((c : Int), r)

/-- `ungetc (car, stream)` of the last character read: pushing back `EOF` does nothing. -/
def ungetc (car : Int) (s : Stream) : Stream := if car = -1 then s else car.toNat :: s

/-- `isspace` in the C locale: space, `\t`, `\n`, `\v`, `\f`, `\r`. -/
def isspace (car : Int) : Bool := car = 32 ∨ (9 ≤ car ∧ car ≤ 13)

/-- `car >= '0' && car <= '9'` -/
def isdigit (car : Int) : Bool := 48 ≤ car ∧ car ≤ 57

/-- Result of the first loop of `intLoad`: sign flag, current character, rest of the stream; or
an error return with the rest of the stream. -/
inductive Start where
  | ok (sign : Bool) (car : Int) (s : Stream)
  | fail (s : Stream)

/-- First loop of `intLoad` (white space and sign) — src/libscotch/common_integer.c:88–104. -/
def intLoadStart : Stream → Start
  | [] => .fail []
  | c :: r =>
    if isspace c then intLoadStart r
    else if isdigit c then .ok false c r
    else if (c : Int) = 45 then .ok true (getc r).1 (getc r).2
    else if (c : Int) = 43 then .ok false (getc r).1 (getc r).2
    else .fail r

/-- Checked arithmetic of `INT`: the result must be in `[-intMax-1, intMax]`. -/
def chk (intMax v : Int) : M Int :=
  if -intMax - 1 ≤ v ∧ v ≤ intMax then .ok v else .error .overflow

/-- Second loop of `intLoad` (digits) — src/libscotch/common_integer.c:108–115. Each of the
product, and the sum is checked for signed overflow. -/
def intLoadDigits (intMax : Int) : Stream → Int → M (Int × Stream)
  | [], val => .ok (val, ungetc (-1) [])
  | c :: r, val =>
    if ¬ isdigit c then .ok (val, ungetc c r)
    else do
      let p ← chk intMax (val * 10)
      let v ← chk intMax (p + ((c : Int) - 48))
      intLoadDigits intMax r v

/-- `intLoad` — src/libscotch/common_integer.c:78–119. Returns `none` for the error return `0`, and
the value otherwise, with the rest of the stream. -/
def intLoad (intMax : Int) (s : Stream) : M (Option Int × Stream) :=
  match intLoadStart s with
  | .fail r => .ok (none, r)
  | .ok sign car r =>
    if car < 48 ∨ car > 57 then .ok (none, r)
    else do
      let (val, r) ← intLoadDigits intMax r (car - 48)
      if sign then do
        let v ← chk intMax (- val)
        return (some v, r)
      else return (some val, r)

/-- Decimal digits of a natural number, most significant first (`fuel > n`). -/
def decF : Nat → Nat → Stream
  | 0, n => [48 + n % 10]
  | f + 1, n => if n < 10 then [48 + n] else decF f (n / 10) ++ [48 + n % 10]

/-- Text printed by `printf ("%u")`-like conversions. -/
def printNat (n : Nat) : Stream := decF n n

/-- Text printed by `printf ("%d")`-like conversions — `intSave`,
src/libscotch/common_integer.c:127–133. The C library's `fprintf` is trusted to print the usual
decimal representation. -/
def printInt (v : Int) : Stream :=
  if v < 0 then 45 :: printNat v.natAbs else printNat v.natAbs

end Scotch.Text
