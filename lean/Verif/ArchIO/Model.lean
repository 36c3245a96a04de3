import Verif.Arch.Model
import Verif.TextIO.Pairs

/-!
# Target architectures and domains in files: model

`archSave`, `archLoad`, `archDomSave` and `archDomLoad` of src/libscotch/arch.c, and the routines of the classes.

Output errors of streams are not modelled, so saving always succeeds unless a cell outside of an array is read. Allocations of a non-negative size succeed; allocations of a negative
size, which is turned into a huge one, fail. Numbers which do not fit in an `Anum` are undefined behaviour (fault `overflow`), both when read and when computed.

Decomposition-defined architectures are read in their compiled form (type 1), which is the one that is saved; the rest of the routine, for the two other forms, is a
parameter. So is `archSubArchBuild`, modelled in Verif.Arch.ModelSub: it only appears here by its return value.
-/

set_option autoImplicit false

namespace Scotch.ArchIO
open Text

/-- `ArchDecoVert` — src/libscotch/arch_deco.h:97–101: label, size, weight. -/
abbrev DecoVert := Int × Int × Int

/-- `ArchDeco` — src/libscotch/arch_deco.h:103–109. -/
structure Deco where
  domtermnbr : Int
  domvertnbr : Int
  domverttab : Arr DecoVert
  domdisttab : Arr Int

/-- Architectures (`Arch`, src/libscotch/arch.h), by class. `meshX`: number of dimensions, sizes. `sub`: number of terminals, their numbers in the original architecture (field
`termnum` of `termtab`), original architecture. -/
inductive AnyArch
  | cmplt (termnbr : Int)
  | cmpltw (a : Arch.Cmpltw.Arch)
  | deco (a : Deco)
  | dist (crloval : Int) (a : AnyArch)
  | hcub (dimnnbr : Int)
  | tleaf (a : Arch.Tleaf.Arch)
  | ltleaf (a : Arch.Tleaf.Arch)
  | mesh2 (c0 c1 : Int)
  | mesh3 (c0 c1 c2 : Int)
  | meshX (dimnnbr : Int) (c : Arr Int)
  | sub (termnbr : Int) (termtab : Arr Int) (a : AnyArch)
  | torus2 (c0 c1 : Int)
  | torus3 (c0 c1 c2 : Int)
  | torusX (dimnnbr : Int) (c : Arr Int)
  | vcmplt
  | vhcub

/-- Classes of the table `archClassTab` — arch.c:102–119. The second class of name `deco` is never found by its name. -/
inductive Class
  | cmplt | cmpltw | deco | dist | hcub | tleaf | ltleaf | mesh2 | mesh3 | meshX | sub | torus2 | torus3 | torusX | vcmplt | vhcub
  deriving DecidableEq

/-- `archClassTab` — arch.c:102–119. -/
def classTab : List (String × Class) :=
  [("cmplt", .cmplt), ("cmpltw", .cmpltw), ("deco", .deco), ("dist", .dist), ("hcub", .hcub), ("tleaf", .tleaf), ("ltleaf", .ltleaf), ("mesh2D", .mesh2),
   ("mesh3D", .mesh3), ("meshXD", .meshX), ("sub", .sub), ("torus2D", .torus2), ("torus3D", .torus3), ("torusXD", .torusX), ("varcmplt", .vcmplt), ("varhcub", .vhcub)]

/-- Characters of a name of the table. -/
def chars (s : String) : Stream := s.toList.map Char.toNat

/-- `tolower`, in the default locale. -/
def lower (c : Nat) : Nat := if 65 ≤ c ∧ c ≤ 90 then c + 32 else c

/-- A null character ends a string. -/
def cstr (s : Stream) : Stream := s.takeWhile (fun c => c ≠ 0)

/-- `archClass` — arch.c:257–277; `strcasecmp` compares the two strings in lower case. -/
def archClass (name : Stream) : Option Class :=
  (classTab.find? fun p => decide ((cstr name).map lower = (chars p.1).map lower)).map Prod.snd

/-- Longest sequence of at most `n` characters other than white space. -/
def takeWord : Nat → Stream → Stream × Stream
  | 0, s => ([], s)
  | _ + 1, [] => ([], [])
  | n + 1, c :: s => if isspace c then ([], c :: s) else ((takeWord n s).1.cons c, (takeWord n s).2)

/-- `fscanf (stream, "%255s", name)` (trusted C library). -/
def scanWord (s : Stream) : Option (Stream × Stream) :=
  match takeWord 255 (Rand.skipSpace s) with
  | ([], _) => none
  | (w, r) => some (w, r)

/-- `ARCHMESHDIMNMAX` — src/libscotch/arch_mesh.h. -/
def dimnMax : Int := 5

/-! ## Saving -/

/-- A loop that writes one piece of text by index. -/
def writeAll (lo hi : Int) (out : Stream) (f : Int → M Stream) : M Stream := forUp lo hi out fun i out => do return out ++ (← f i)

/-- Load of the terminal of number `vertnum` — arch_cmpltw.c:301–313; nothing is written if there is none. -/
def cmpltwPiece (a : Arch.Cmpltw.Arch) (vertnum : Int) : M Stream := do
  match ← forUpB 0 a.vertnbr () fun i _ => do
      let r ← a.velotab.rd i
      if r.2 = vertnum then return (.brk (32 :: printInt r.1) : Loop Unit Stream) else return .next () with
  | .brk t => return t
  | .next _ => return []

/-- `archCmpltwArchSave` — arch_cmpltw.c:278–322. -/
def cmpltwSave (a : Arch.Cmpltw.Arch) : M Stream := do return (← writeAll 0 a.vertnbr (printInt a.vertnbr) (cmpltwPiece a)) ++ [10]

/-- `archTleafArchSave` — arch_tleaf.c:182–218. -/
def tleafSave (a : Arch.Tleaf.Arch) : M Stream := do
  let out ← writeAll 0 a.levlnbr (printInt a.levlnbr) fun l => do return 32 :: (printInt (← a.sizetab.rd l) ++ (32 :: printInt (← a.linktab.rd l)))
  return out ++ [10]

/-- `archLtleafArchSave` — arch_tleaf.c:747–777. -/
def ltleafSave (a : Arch.Tleaf.Arch) : M Stream := do
  let out ← writeAll 0 a.permnbr ((← tleafSave a) ++ printInt a.permnbr) fun i => do return 32 :: printInt (← a.permtab.rd i)
  return out ++ [10]

/-- `archMesh2ArchSave` — arch_mesh.c:134–155; also for tori. -/
def mesh2Save (c0 c1 : Int) : Stream := printInt c0 ++ (32 :: (printInt c1 ++ [10]))

/-- `archMesh3ArchSave` — arch_mesh.c:407–427; also for tori. -/
def mesh3Save (c0 c1 c2 : Int) : Stream := printInt c0 ++ (32 :: (printInt c1 ++ (32 :: (printInt c2 ++ [10]))))

/-- `archMeshXArchSave` — arch_mesh.c:658–693; also for tori. -/
def meshXSave (dimnnbr : Int) (c : Arr Int) : M Stream := do
  let out ← writeAll 0 dimnnbr (printInt dimnnbr ++ [32]) fun i => do return printInt (← c.rd i) ++ [32]
  return out ++ [10]

/-- `archDecoArchSave` — arch_deco.c:382–430. -/
def decoSave (a : Deco) : M Stream := do
  let out ← writeAll 0 a.domvertnbr (49 :: 10 :: (printInt a.domtermnbr ++ (9 :: (printInt a.domvertnbr ++ [10])))) fun i => do
    let v ← a.domverttab.rd i
    return printInt v.1 ++ (9 :: (printInt v.2.1 ++ (9 :: (printInt v.2.2 ++ [10]))))
  let j := (a.domvertnbr * (a.domvertnbr - 1)).tdiv 2
  let out ← writeAll 0 j out fun i => do return printInt (← a.domdisttab.rd i) ++ [if i.tmod 8 = 7 ∧ i ≠ j - 1 then 10 else 9]
  return out ++ [10]

/-- Class of an architecture. -/
def AnyArch.clas : AnyArch → Class
  | .cmplt _ => .cmplt | .cmpltw _ => .cmpltw | .deco _ => .deco | .dist _ _ => .dist | .hcub _ => .hcub | .tleaf _ => .tleaf | .ltleaf _ => .ltleaf
  | .mesh2 _ _ => .mesh2 | .mesh3 _ _ _ => .mesh3 | .meshX _ _ => .meshX | .sub _ _ _ => .sub | .torus2 _ _ => .torus2 | .torus3 _ _ _ => .torus3
  | .torusX _ _ => .torusX | .vcmplt => .vcmplt | .vhcub => .vhcub

/-- Field `archname` of a class — arch.c:102–118. -/
def Class.name : Class → String
  | .cmplt => "cmplt" | .cmpltw => "cmpltw" | .deco => "deco" | .dist => "dist" | .hcub => "hcub" | .tleaf => "tleaf" | .ltleaf => "ltleaf" | .mesh2 => "mesh2D"
  | .mesh3 => "mesh3D" | .meshX => "meshXD" | .sub => "sub" | .torus2 => "torus2D" | .torus3 => "torus3D" | .torusX => "torusXD" | .vcmplt => "varcmplt" | .vhcub => "varhcub"

/-- `archSave` — arch.c:229–247, with the routines of the classes: arch_cmplt.c:122–141, arch_hcub.c:121–140, arch_sub.c:135–173, arch_dist.c:109–128, and those above. -/
def archSave : AnyArch → M Stream
  | .cmplt n => return chars "cmplt" ++ (10 :: (printInt n ++ [10]))
  | .cmpltw a => do return chars "cmpltw" ++ (10 :: (← cmpltwSave a))
  | .deco a => do return chars "deco" ++ (10 :: (← decoSave a))
  | .dist crloval a => do return chars "dist" ++ (10 :: (printInt crloval ++ (9 :: (← archSave a))))
  | .hcub d => return chars "hcub" ++ (10 :: (printInt d ++ [10]))
  | .tleaf a => do return chars "tleaf" ++ (10 :: (← tleafSave a))
  | .ltleaf a => do return chars "ltleaf" ++ (10 :: (← ltleafSave a))
  | .mesh2 c0 c1 => return chars "mesh2D" ++ (10 :: mesh2Save c0 c1)
  | .mesh3 c0 c1 c2 => return chars "mesh3D" ++ (10 :: mesh3Save c0 c1 c2)
  | .meshX d c => do return chars "meshXD" ++ (10 :: (← meshXSave d c))
  | .sub n t a => do
    let out ← writeAll 0 n (printInt n) fun i => do return 32 :: printInt (← t.rd i)
    return chars "sub" ++ (10 :: (out ++ (10 :: (← archSave a))))
  | .torus2 c0 c1 => return chars "torus2D" ++ (10 :: mesh2Save c0 c1)
  | .torus3 c0 c1 c2 => return chars "torus3D" ++ (10 :: mesh3Save c0 c1 c2)
  | .torusX d c => do return chars "torusXD" ++ (10 :: (← meshXSave d c))
  | .vcmplt => return chars "varcmplt" ++ [10]
  | .vhcub => return chars "varhcub" ++ [10]

/-! ## Loading -/

/-- What loading depends on: largest and width of `Anum`, content of freshly allocated memory, `archSubArchBuild` (true if it succeeds), and the end of `archDecoArchLoad` for the
types 0 and 2. -/
structure Env where
  numMax : Int
  width : Nat
  junk : Int → Int
  junkR : Int → Arch.Cmpltw.Rec
  junkV : Int → DecoVert
  subBuild : AnyArch → Int → Arr Int → M Bool
  decoOther : Int → Stream → M (Option (AnyArch × Stream))

variable (E : Env)

/-- A product or a sum of `Anum` values. -/
def chkNum (v : Int) : M Int := chk E.numMax v

/-- `memAlloc` of `n` cells: fails if the size is negative. -/
def alloc {α : Type} (n : Int) (junk : Int → α) : M (Option (Arr α)) := return if n < 0 then none else some ⟨0, n, junk⟩

/-- `archCmpltwArchLoad` — arch_cmpltw.c:214–269. Values which do not fit in an `Anum` are taken as undefined behaviour. -/
def cmpltwLoad (s : Stream) : M (Option (Arch.Cmpltw.Arch × Stream)) :=
  scanInt E.numMax s >?> fun (n, s) => guardO (¬ n < 1) >?> fun _ =>
  loopO 0 n ((⟨0, n, E.junkR⟩ : Arr Arch.Cmpltw.Rec), (0 : Int), s) (fun i st =>
    scanInt E.numMax st.2.2 >?> fun (v, s) => guardO (¬ v < 1) >?> fun _ => do
      let sum ← chkNum E (st.2.1 + v)
      return some (← st.1.wr i (v, i), sum, s)) >?> fun st => do
  let a ← Arch.Cmpltw.build2 ⟨n, st.1, st.2.1⟩ E.junkR
  return some (a, st.2.2)

/-- `archTleafArchLoad` — arch_tleaf.c:99–141. The permutation fields are not set. -/
def tleafLoad (s : Stream) : M (Option (Arch.Tleaf.Arch × Stream)) :=
  getInt E.numMax s >?> fun (n, s) => do
  let m ← chkNum E (n * 2 + 1)
  guardO (¬ m < 0) >?> fun _ =>
    loopO 0 n ((⟨0, n, E.junk⟩ : Arr Int), (⟨-1, n, fun i => if i = -1 then 0 else E.junk i⟩ : Arr Int), (1 : Int), s) (fun l st =>
      getInt E.numMax st.2.2.2 >?> fun (v, s) => getInt E.numMax s >?> fun (u, s) => guardO (¬ v < 2 ∧ ¬ u < 1) >?> fun _ => do
        let siz ← st.1.wr l v
        let lnk ← st.2.1.wr l u
        return some (siz, lnk, ← chkNum E (st.2.2.1 * v), s)) >?> fun st =>
    return some (⟨st.2.2.1, n, st.1, st.2.1, 0, ⟨0, 0, E.junk⟩, ⟨0, 0, E.junk⟩⟩, st.2.2.2)

/-- Permutation of `archLtleafArchLoad` — arch_tleaf.c:686–738. -/
def permLoad (a : Arch.Tleaf.Arch) (s : Stream) : M (Option (Arch.Tleaf.Arch × Stream)) :=
  getInt E.numMax s >?> fun (n, s) => guardO (¬ n ≤ 0) >?> fun _ =>
  loopO 0 n ((⟨0, n, E.junk⟩ : Arr Int), s) (fun i st =>
    getInt E.numMax st.2 >?> fun (v, s) => guardO (¬ v < 0 ∧ ¬ v ≥ n) >?> fun _ => do return some (← st.1.wr i v, s)) >?> fun st => do
  let peri ← forUp 0 n (⟨0, n, E.junk⟩ : Arr Int) fun i p => do p.wr (← st.1.rd i) i
  return some ({ a with permnbr := n, permtab := st.1, peritab := peri }, st.2)

/-- `archLtleafArchLoad` — arch_tleaf.c:676–738. -/
def ltleafLoad (s : Stream) : M (Option (Arch.Tleaf.Arch × Stream)) := tleafLoad E s >?> fun (a, s) => permLoad E a s

/-- `archMesh2ArchLoad` — arch_mesh.c:103–125. -/
def mesh2Load (s : Stream) : M (Option ((Int × Int) × Stream)) :=
  getInt E.numMax s >?> fun (c0, s) => getInt E.numMax s >?> fun (c1, s) => guardO (¬ c0 < 1 ∧ ¬ c1 < 1) >?> fun _ => return some ((c0, c1), s)

/-- `archMesh3ArchLoad` — arch_mesh.c:376–398. -/
def mesh3Load (s : Stream) : M (Option ((Int × Int × Int) × Stream)) :=
  getInt E.numMax s >?> fun (c0, s) => getInt E.numMax s >?> fun (c1, s) => getInt E.numMax s >?> fun (c2, s) =>
  guardO (¬ c0 < 1 ∧ ¬ c1 < 1 ∧ ¬ c2 < 1) >?> fun _ => return some ((c0, c1, c2), s)

/-- `archMeshXArchLoad` — arch_mesh.c:619–649. -/
def meshXLoad (s : Stream) : M (Option ((Int × Arr Int) × Stream)) :=
  getInt E.numMax s >?> fun (n, s) => guardO (¬ n > dimnMax) >?> fun _ =>
  loopO 0 n ((⟨0, dimnMax, E.junk⟩ : Arr Int), s) (fun i st =>
    getInt E.numMax st.2 >?> fun (v, s) => guardO (¬ v < 1) >?> fun _ => do return some (← st.1.wr i v, s)) >?> fun st =>
  return some ((n, st.1), st.2)

/-- `archDecoArchLoad` — arch_deco.c:218–342. -/
def decoLoad (s : Stream) : M (Option (AnyArch × Stream)) :=
  getInt E.numMax s >?> fun (typeval, s) => guardO (¬ typeval < 0 ∧ ¬ typeval > 2) >?> fun _ =>
  if typeval ≠ 1 then E.decoOther typeval s
  else
    getInt E.numMax s >?> fun (n, s) => getInt E.numMax s >?> fun (m, s) => guardO (¬ m < n ∧ ¬ n < 1) >?> fun _ => do
    let j := (← chkNum E (m * (m - 1))).tdiv 2
    loopO 0 m ((⟨0, m, E.junkV⟩ : Arr DecoVert), s) (fun i st =>
      getInt E.numMax st.2 >?> fun (labl, s) => getInt E.numMax s >?> fun (size, s) => getInt E.numMax s >?> fun (wght, s) => do
        return some (← st.1.wr i (labl, size, wght), s)) >?> fun sv =>
    loopO 0 j ((⟨0, j + 1, E.junk⟩ : Arr Int), sv.2) (fun i st => getInt E.numMax st.2 >?> fun (v, s) => do return some (← st.1.wr i v, s)) >?> fun sd =>
    return some (.deco ⟨n, m, sv.1, sd.1⟩, sd.2)

/-- End of `archLoad`, for the routine of a class which has a routine to free its data — arch.c:212–217: on error, the data is freed and an error code is returned. (The
structure has been initialised by `archInit`, so pointers which have not been set are null.) -/
def orFree (x : M (Option (AnyArch × Stream))) : M (Option (AnyArch × Stream)) := x

/-- End of `archLoad`, for the routine of a class which has no routine to free its data — arch.c:212–217: on error, the null pointer `clasptr->archFree` is called. -/
def orCrash (x : M (Option (AnyArch × Stream))) : M (Option (AnyArch × Stream)) := do
  match ← x with
  | none => throw .null
  | some r => return some r

/-- `archSubArchLoad` — arch_sub.c:72–126; `load` is `archLoad`. On error, `archExit` is called on the original architecture, which has not been initialised if the name
of its class is not right, and then (arch.c:214) `archSubArchFree` follows the null pointer to the original architecture. -/
def subLoad (load : Stream → M (Option (AnyArch × Stream))) (s : Stream) : M (Option (AnyArch × Stream)) :=
  getInt E.numMax s >?> fun (n, s) => alloc n E.junk >?> fun t0 =>
  loopO 0 n (t0, s) (fun i st => getInt E.numMax st.2 >?> fun (v, s) => do return some (← st.1.wr i v, s)) >?> fun st =>
  load st.2 >?> fun (a, s) => do
  if ← E.subBuild a n st.1 then return some (.sub n st.1 a, s) else return none

/-- Result of a routine, in a given class. -/
def wrap {α : Type} (f : α → AnyArch) (x : M (Option (α × Stream))) : M (Option (AnyArch × Stream)) := x >?> fun (a, s) => return some (f a, s)

/-- Call of `clasptr->archLoad` — arch.c:211–218. `archDistArchLoad` (arch_dist.c:82–100) reads an integer, then calls `archLoad` on a pointer which has not been set: it is
null, since the structure has been initialised by `archInit`. If reading the integer fails, the null pointer `archFree` is called. -/
def classLoad (load : Stream → M (Option (AnyArch × Stream))) (s : Stream) : Class → M (Option (AnyArch × Stream))
  | .cmplt => orCrash (getInt E.numMax s >?> fun (n, s) => guardO (¬ n < 1) >?> fun _ => return some (.cmplt n, s))
  | .cmpltw => orFree (wrap .cmpltw (cmpltwLoad E s))
  | .deco => orFree (decoLoad E s)
  | .dist => orCrash (getInt E.numMax s >?> fun _ => throw .null)
  | .hcub => orCrash (getInt E.numMax s >?> fun (d, s) => guardO (¬ d < 1 ∧ ¬ d > E.width) >?> fun _ => return some (.hcub d, s))
  | .tleaf => orFree (wrap .tleaf (tleafLoad E s))
  | .ltleaf => orFree (wrap .ltleaf (ltleafLoad E s))
  | .mesh2 => orCrash (wrap (fun c => .mesh2 c.1 c.2) (mesh2Load E s))
  | .mesh3 => orCrash (wrap (fun c => .mesh3 c.1 c.2.1 c.2.2) (mesh3Load E s))
  | .meshX => orCrash (wrap (fun c => .meshX c.1 c.2) (meshXLoad E s))
  | .sub => orCrash (subLoad E load s)
  | .torus2 => orCrash (wrap (fun c => .torus2 c.1 c.2) (mesh2Load E s))
  | .torus3 => orCrash (wrap (fun c => .torus3 c.1 c.2.1 c.2.2) (mesh3Load E s))
  | .torusX => orCrash (wrap (fun c => .torusX c.1 c.2) (meshXLoad E s))
  | .vcmplt => return some (.vcmplt, s)
  | .vhcub => return some (.vhcub, s)

/-- `archLoad` — arch.c:189–221. The first argument bounds the depth of sub-architectures. `none` is the error return. -/
def loadF : Nat → Stream → M (Option (AnyArch × Stream))
  | 0, _ => throw .fuel
  | f + 1, s =>
    match scanWord s with
    | none => return none
    | some (name, s) =>
      match archClass name with
      | none => return none
      | some c => classLoad E (loadF f) s c

/-- `archLoad` — arch.c:189–221: every sub-architecture takes at least a character, so the bound is never reached. -/
def archLoad (s : Stream) : M (Option (AnyArch × Stream)) := loadF E (s.length + 1) s

/-! ## Domains -/

/-- Domains (`ArchDom`, src/libscotch/arch.h), by class; `sub`: index of the domain; `var`: number (`termnum`) and level. -/
inductive AnyDom
  | cmplt (d : Arch.Cmplt.Dom)
  | cmpltw (d : Arch.Cmpltw.Dom)
  | deco (num : Int)
  | hcub (dimncur bitsset : Int)
  | tleaf (d : Arch.Tleaf.Dom)
  | mesh (c : Arr (Int × Int))
  | sub (domnidx : Int)
  | var (termnum termlvl : Int)

/-- `archMeshXDomSave` — arch_mesh.c:980–998; `archMesh2DomSave` and `archMesh3DomSave` are the same routine. -/
def meshDomSave (dimnnbr : Int) (c : Arr (Int × Int)) : M Stream :=
  writeAll 0 dimnnbr [] fun i => do
    let p ← c.rd i
    return printInt p.1 ++ (32 :: (printInt p.2 ++ [32]))

/-- `archDomSave` — arch.c:443–450, with the routines of the classes: arch_cmplt.c:363–377, arch_cmpltw.c:508–522, arch_deco.c:561–574, arch_hcub.c:343–357, arch_tleaf.c:557–572,
arch_sub.c:777–790, arch_vcmplt.c:212–225, arch_vhcub.c:212–225, arch_dist.c:262–268. A domain of another class than the architecture is a fault. -/
def domSave : AnyArch → AnyDom → M Stream
  | .cmplt _, .cmplt d => return printInt d.termmin ++ (32 :: (printInt d.termnbr ++ [32]))
  | .cmpltw _, .cmpltw d => return printInt d.vertmin ++ (32 :: (printInt d.vertnbr ++ [32]))
  | .deco _, .deco n => return printInt n ++ [32]
  | .dist _ a, d => domSave a d
  | .hcub _, .hcub n b => return printInt n ++ (32 :: (printInt b ++ [32]))
  | .tleaf _, .tleaf d => return printInt d.levlnum ++ (32 :: (printInt d.indxmin ++ (32 :: (printInt d.indxnbr ++ [32]))))
  | .ltleaf _, .tleaf d => return printInt d.levlnum ++ (32 :: (printInt d.indxmin ++ (32 :: (printInt d.indxnbr ++ [32]))))
  | .mesh2 _ _, .mesh c => meshDomSave 2 c
  | .mesh3 _ _ _, .mesh c => meshDomSave 3 c
  | .meshX n _, .mesh c => meshDomSave n c
  | .sub _ _ _, .sub i => return printInt i ++ [32]
  | .torus2 _ _, .mesh c => meshDomSave 2 c
  | .torus3 _ _ _, .mesh c => meshDomSave 3 c
  | .torusX n _, .mesh c => meshDomSave n c
  | .vcmplt, .var n _ => return printInt n ++ [32]
  | .vhcub, .var n _ => return printInt n ++ [32]
  | _, _ => throw .null

/-- `archMeshXDomLoad` — arch_mesh.c:952–971. -/
def meshDomLoad (dimnnbr : Int) (junk : Int → Int × Int) (s : Stream) : M (Option (AnyDom × Stream)) :=
  loopO 0 dimnnbr ((⟨0, dimnMax, junk⟩ : Arr (Int × Int)), s) (fun i st =>
    getInt E.numMax st.2 >?> fun (p, s) => getInt E.numMax s >?> fun (q, s) => guardO (¬ p > q ∧ ¬ p < 0) >?> fun _ => do
      return some (← st.1.wr i (p, q), s)) >?> fun st =>
  return some (.mesh st.1, st.2)

/-- `archVcmpltDomLoad`, `archVhcubDomLoad` — arch_vcmplt.c:185–203, arch_vhcub.c:185–203. -/
def varDomLoad (s : Stream) : M (Option (AnyDom × Stream)) :=
  getInt E.numMax s >?> fun (n, s) => return some (.var n (Arch.Var.level n.toNat n.toNat 0), s)

/-- `archTleafDomLoad` — arch_tleaf.c:532–548. -/
def tleafDomLoad (a : Arch.Tleaf.Arch) (s : Stream) : M (Option (AnyDom × Stream)) :=
  getInt E.numMax s >?> fun (l, s) => getInt E.numMax s >?> fun (i, s) => getInt E.numMax s >?> fun (n, s) =>
  guardO (¬ l < 0 ∧ ¬ l > a.levlnbr) >?> fun _ => return some (.tleaf ⟨l, i, n⟩, s)

/-- `archCmpltwDomLoad` — arch_cmpltw.c:469–499. `old` is the content of the field `veloval` of the domain before the call, to which the load is added. -/
def cmpltwDomLoad (a : Arch.Cmpltw.Arch) (old : Int) (s : Stream) : M (Option (AnyDom × Stream)) :=
  scanInt E.numMax s >?> fun (mi, s) => scanInt E.numMax s >?> fun (n, s) => do
  if n < 1 then return none
  if (← chkNum E (n + mi)) > a.vertnbr then return none
  let sum ← forUp mi (mi + n) (0 : Int) fun i sum => do chkNum E (sum + (← a.velotab.rd i).1)
  return some (.cmpltw ⟨mi, n, ← chkNum E (old + sum)⟩, s)

/-- `archDomLoad` — arch.c:427–434, with the routines of the classes: arch_cmplt.c:334–354, arch_deco.c:539–552, arch_hcub.c:320–334, arch_sub.c:754–768 (`domnnbr` is set to
`2 * vnumnbr - 1` by arch_sub.c:401–426), arch_dist.c:246–253. `junk` and `old` are the content of the domain structure before the call. -/
def domLoad (junk : Int → Int × Int) (old : Int) : AnyArch → Stream → M (Option (AnyDom × Stream))
  | .cmplt n, s => getInt E.numMax s >?> fun (mi, s) => getInt E.numMax s >?> fun (nb, s) => do
    if nb < 1 then return none
    if (← chkNum E (nb + mi)) > n then return none
    return some (.cmplt ⟨mi, nb⟩, s)
  | .cmpltw a, s => cmpltwDomLoad E a old s
  | .deco a, s => getInt E.numMax s >?> fun (n, s) => guardO (¬ n < 1 ∧ ¬ n > a.domvertnbr) >?> fun _ => return some (.deco n, s)
  | .dist _ a, s => domLoad junk old a s
  | .hcub n, s => getInt E.numMax s >?> fun (d, s) => getInt E.numMax s >?> fun (b, s) => guardO (¬ d > n) >?> fun _ => return some (.hcub d b, s)
  | .tleaf a, s => tleafDomLoad E a s
  | .ltleaf a, s => tleafDomLoad E a s
  | .mesh2 _ _, s => meshDomLoad E 2 junk s
  | .mesh3 _ _ _, s => meshDomLoad E 3 junk s
  | .meshX n _, s => meshDomLoad E n junk s
  | .sub n _ _, s => getInt E.numMax s >?> fun (i, s) => guardO (¬ i < 0 ∧ ¬ i ≥ 2 * n - 1) >?> fun _ => return some (.sub i, s)
  | .torus2 _ _, s => meshDomLoad E 2 junk s
  | .torus3 _ _ _, s => meshDomLoad E 3 junk s
  | .torusX n _, s => meshDomLoad E n junk s
  | .vcmplt, s => varDomLoad E s
  | .vhcub, s => varDomLoad E s

end Scotch.ArchIO
