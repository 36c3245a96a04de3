import Verif.Base

/-!
# Option values of contexts: specification

Each open context has its own, independent table of options. Nothing here refers to memory blocks.
-/

set_option autoImplicit false

namespace Scotch.CtxSpec

variable {D : Type}

/-- What a user may do with contexts, designated by numbers. -/
inductive Op (D : Type) where
  /-- opens a context -/
  | init (c : Nat)
  /-- sets an integer option -/
  | setInt (c : Nat) (k v : Int)
  /-- sets an option of type `double` -/
  | setDbl (c : Nat) (k : Int) (x : D)
  /-- closes a context -/
  | exit (c : Nat)

/-- Values of the options of a context. -/
structure Table (D : Type) where
  ints : Int → Int
  dbls : Int → D

/-- The tables of all the contexts that are open. -/
abbrev State (D : Type) := Nat → Option (Table D)

/-- Replacement of a table. -/
def State.put (s : State D) (c : Nat) (t : Option (Table D)) : State D := fun d => if d = c then t else s d

/-- Effect of an operation: returned code and new tables; `none` when the operation is not allowed (opening of a
context which is already open, use of a context which is not). There are `ni` integer options and `nd` other ones, of
default values `dflt`. -/
def step (eqD : D → D → Bool) (ni nd : Int) (dflt : Table D) (s : State D) : Op D → Option (Int × State D)
  | .init c => match s c with
    | some _ => none
    | none => some (0, s.put c (some dflt))
  | .setInt c k v => match s c with
    | none => none
    | some t => if 0 ≤ k ∧ k < ni then some (0, s.put c (some { t with ints := fun j => if j = k then v else t.ints j }))
        else some (1, s)
  | .setDbl c k x => match s c with
    | none => none
    | some t => if 0 ≤ k ∧ k < nd then
          some (0, s.put c (some { t with dbls := fun j => if j = k ∧ eqD (t.dbls j) x = false then x else t.dbls j }))
        else some (1, s)
  | .exit c => match s c with
    | none => none
    | some _ => some (0, s.put c none)

/-- Effect of a history: returned codes and final tables. -/
def run (eqD : D → D → Bool) (ni nd : Int) (dflt : Table D) : State D → List (Op D) → Option (List Int × State D)
  | s, [] => some ([], s)
  | s, o :: os => match step eqD ni nd dflt s o with
    | none => none
    | some (r, s') => match run eqD ni nd dflt s' os with
      | none => none
      | some (rs, s'') => some (r :: rs, s'')

/-- Option letters, with the option number (`SCOTCH_OPTIONNUMDETERMINISTIC` = 0, `SCOTCH_OPTIONNUMRANDOMFIXEDSEED` = 1 in
library.h:97–101) and the value that they stand for: deterministic, undetermined, fixed seed, random seed. -/
def letters : List (Char × Int × Int) := [('d', 0, 1), ('u', 0, 0), ('f', 1, 1), ('r', 1, 0)]

end Scotch.CtxSpec
