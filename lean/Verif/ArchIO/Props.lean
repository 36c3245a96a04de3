import Verif.ArchIO.LemmasRobust

/-!
# C47: target architectures and their domains in files

Saved architectures are loaded as the same architectures, and saved domains as the same domains. Reading a file never goes out of the bounds of arrays.
-/

set_option autoImplicit false
set_option linter.unusedSimpArgs false

namespace Scotch
open Text ArchIO

/-- **C47, partial** (architectures that multiply distances excepted). Saving an architecture gives a text; loading that text, whatever follows it, gives the same architecture,
and leaves the stream before what follows, but for white space. -/
theorem C47_arch_partial (E : Env) (a : AnyArch) (h : Valid E a) (hd : NoDist a) (hb : Builds E a) :
    ∃ t, archSave a = .ok t ∧ ∀ rest, ∃ a' ws, archLoad E (t ++ rest) = .ok (some (a', ws ++ rest)) ∧ Same a a' ∧ AllSpaces ws := by
  obtain ⟨t, e, hlen, hload⟩ := ArchIO.main a h hd hb
  refine ⟨t, e, fun rest => ?_⟩
  have := hload ((t ++ rest).length + 1) (by rw [List.length_append]; omega) [] rest allSpaces_nil
  rw [List.nil_append] at this
  unfold archLoad
  obtain ⟨o, eo, ho⟩ := Holds_iff_exists.1 this
  cases o with
  | none => exact ho.elim
  | some o =>
    obtain ⟨a', s'⟩ := o
    obtain ⟨hs, ws, hws, rfl⟩ := ho
    exact ⟨a', ws, eo, hs, hws⟩

/-- Environment for the examples: 32-bit integers. -/
def ArchIO.env32 : Env :=
  { numMax := 2 ^ 31 - 1, width := 31, junk := fun _ => 77, junkR := fun _ => (77, 77), junkV := fun _ => (77, 77, 77), subBuild := fun _ _ _ => .ok true, decoOther := fun _ _ => .ok none }

/-- Text of an example. -/
def ArchIO.savedText (a : AnyArch) : Option String :=
  match archSave a with
  | .ok t => some (String.ofList (t.map Char.ofNat))
  | .error _ => none

/-- Processors 4, 1 and 3 of a 2 × 3 mesh. -/
def ArchIO.sampleSub : AnyArch := .sub 3 (Arr.ofList 0 [4, 1, 3]) (.mesh2 2 3)

example : Valid env32 sampleSub ∧ NoDist sampleSub ∧ Builds env32 sampleSub ∧ savedText sampleSub = some "sub\n3 4 1 3\nmesh2D\n2 3\n" := by
  refine ⟨⟨by decide, ⟨by decide, by decide, by decide, ?_⟩, ⟨by decide, by decide⟩, ⟨by decide, by decide⟩⟩, trivial, ⟨trivial, fun _ _ _ _ _ _ => rfl⟩, by decide +kernel⟩
  intro i h1 h2
  have : i = 0 ∨ i = 1 ∨ i = 2 := by omega
  rcases this with rfl | rfl | rfl <;> exact ⟨by decide +kernel, by decide +kernel⟩

example : savedText (.meshX 3 (Arr.ofList 0 [2, 3, 4])) = some "meshXD\n3 2 3 4 \n" := by decide +kernel
example : savedText (.tleaf ⟨6, 2, Arr.ofList 0 [3, 2], Arr.ofList 0 [20, 7], 0, Arr.ofList 0 [], Arr.ofList 0 []⟩) = some "tleaf\n2 3 20 2 7\n" := by decide +kernel
example : savedText (.cmpltw ⟨2, Arr.ofList 0 [(5, 1), (4, 0)], 9⟩) = some "cmpltw\n2 4 5\n" := by decide +kernel

/-- All valid architectures can be saved. -/
theorem C47_save (E : Env) : ∀ a : AnyArch, Valid E a → ∃ t, archSave a = .ok t
  | .dist c a, h => by
    obtain ⟨t, e⟩ := C47_save E a h.2
    exact ⟨_, by rw [archSave, e]; rfl⟩
  | .sub n u a, h => by
    obtain ⟨t, e⟩ := C47_save E a h.2.2
    exact ⟨_, by
      rw [archSave, writeAll_eq h.2.1.nbr _ (P := fun i => 32 :: printInt (u.get i)) (fun i i1 i2 => by
        rw [Arr.rd_ok u (by have := h.2.1.lo; omega) (by have := h.2.1.hi; omega)]; rfl), ok_bind, e]
      rfl⟩
  | .cmplt n, h => ⟨_, rfl⟩
  | .cmpltw a, h => by obtain ⟨t, e, -⟩ := ArchIO.main (.cmpltw a) h trivial trivial; exact ⟨t, e⟩
  | .deco a, h => by obtain ⟨t, e, -⟩ := ArchIO.main (.deco a) h trivial trivial; exact ⟨t, e⟩
  | .hcub n, h => ⟨_, rfl⟩
  | .tleaf a, h => by obtain ⟨t, e, -⟩ := ArchIO.main (.tleaf a) h trivial trivial; exact ⟨t, e⟩
  | .ltleaf a, h => by obtain ⟨t, e, -⟩ := ArchIO.main (.ltleaf a) h trivial trivial; exact ⟨t, e⟩
  | .mesh2 _ _, h => ⟨_, rfl⟩
  | .mesh3 _ _ _, h => ⟨_, rfl⟩
  | .meshX n c, h => by obtain ⟨t, e, -⟩ := ArchIO.main (.meshX n c) h trivial trivial; exact ⟨t, e⟩
  | .torus2 _ _, h => ⟨_, rfl⟩
  | .torus3 _ _ _, h => ⟨_, rfl⟩
  | .torusX n c, h => by obtain ⟨t, e, -⟩ := ArchIO.main (.torusX n c) h trivial trivial; exact ⟨t, e⟩
  | .vcmplt, _ => ⟨_, rfl⟩
  | .vhcub, _ => ⟨_, rfl⟩

/-- **C47, disagreement.** An architecture that multiplies distances can be saved, but loading what has been saved always uses a null pointer. -/
theorem C47_dist_not (E : Env) (c : Int) (a : AnyArch) (h : Valid E (.dist c a)) : ∃ t, archSave (.dist c a) = .ok t ∧ archLoad E t = .error .null := by
  obtain ⟨t, e⟩ := C47_save E a h.2
  refine ⟨chars Class.dist.name ++ (10 :: (printInt c ++ (9 :: t))), by rw [archSave, e]; rfl, ?_⟩
  unfold archLoad
  have := loadF_name (E := E) .dist (chars Class.dist.name ++ (10 :: (printInt c ++ (9 :: t)))).length allSpaces_nil (printInt c ++ (9 :: t))
  rw [List.nil_append] at this
  rw [this]
  obtain ⟨s', e', -⟩ := (Toks.sp1 (by decide) (Toks.numc (m := E.numMax) (r := t) (t := t) (l := []) (v := c) (c := 9) (by decide) h.1 Toks.last) : Toks E.numMax t (10 :: (printInt c ++ (9 :: t))) [c]).get
  show orCrash (getInt E.numMax _ >?> _) = _
  rw [e', andThen_ok]
  rfl

example : Valid env32 (.dist 3 (.cmplt 4)) ∧ savedText (.dist 3 (.cmplt 4)) = some "dist\n3\tcmplt\n4\n" := ⟨⟨⟨by decide, by decide⟩, ⟨by decide, by decide⟩⟩, by decide +kernel⟩

/-- Classes without routine to free their data, and sub-architectures. -/
def ArchIO.Crashes (c : Class) : Prop := c ≠ .cmpltw ∧ c ≠ .deco ∧ c ≠ .tleaf ∧ c ≠ .ltleaf ∧ c ≠ .vcmplt ∧ c ≠ .vhcub

/-- **C47, disagreement.** For most of the classes, when there is no number after the name of the class, no error is returned: a null pointer is called or followed. -/
theorem C47_bad_not (E : Env) (c : Class) (hc : Crashes c) (s : Stream) (h : getInt E.numMax (10 :: s) = .ok none) : archLoad E (chars c.name ++ (10 :: s)) = .error .null := by
  unfold archLoad
  have := loadF_name (E := E) c (chars c.name ++ (10 :: s)).length allSpaces_nil s
  rw [List.nil_append] at this
  rw [this]
  obtain ⟨h1, h2, h3, h4, h5, h6⟩ := hc
  cases c with
  | cmpltw => exact absurd rfl h1
  | deco => exact absurd rfl h2
  | tleaf => exact absurd rfl h3
  | ltleaf => exact absurd rfl h4
  | vcmplt => exact absurd rfl h5
  | vhcub => exact absurd rfl h6
  | cmplt => show orCrash (getInt E.numMax _ >?> _) = _; rw [h]; rfl
  | dist => show orCrash (getInt E.numMax _ >?> _) = _; rw [h]; rfl
  | hcub => show orCrash (getInt E.numMax _ >?> _) = _; rw [h]; rfl
  | sub => show orCrash (getInt E.numMax _ >?> _) = _; rw [h]; rfl
  | mesh2 => show orCrash ((getInt E.numMax _ >?> _) >?> _) = _; rw [h]; rfl
  | mesh3 => show orCrash ((getInt E.numMax _ >?> _) >?> _) = _; rw [h]; rfl
  | meshX => show orCrash ((getInt E.numMax _ >?> _) >?> _) = _; rw [h]; rfl
  | torus2 => show orCrash ((getInt E.numMax _ >?> _) >?> _) = _; rw [h]; rfl
  | torus3 => show orCrash ((getInt E.numMax _ >?> _) >?> _) = _; rw [h]; rfl
  | torusX => show orCrash ((getInt E.numMax _ >?> _) >?> _) = _; rw [h]; rfl

example : Crashes .mesh3 ∧ getInt env32.numMax (10 :: chars "x") = .ok none ∧ archLoad env32 (chars "hcub 40") = .error .null := by
  refine ⟨by unfold Crashes; decide, by decide +kernel, by decide +kernel⟩

/-- **C47** (reading anything, 32-bit integers). Whatever the text, loading an architecture ends. It does not go out of the bounds of arrays: it can only fail by overflow, or by use of a
null pointer. When it succeeds, sizes are positive, tables have the right size, and trees and weighted complete graphs are well-formed. -/
theorem C47_load (E : Env) (hm : 9 ≤ E.numMax) (hm2 : E.numMax < 2 ^ 31) (hd : ∀ t s, Safe (E.decoOther t s) (fun o => ∀ p, o = some p → Sane E p.1))
    (hb : ∀ a n t, Sane E a → Mild (E.subBuild a n t) (fun _ => True)) (s : Stream) : Mild (archLoad E s) (fun o => ∀ a s', o = some (a, s') → Sane E a) := by
  refine (load_any hm hm2 (fun t s => (hd t s).mono ?_) hb (s.length + 1) s (by omega)).mono ?_
  · intro o ho
    cases o with
    | none => trivial
    | some p => exact ho p rfl
  · rintro o ho a s' rfl
    exact ho

example : 9 ≤ env32.numMax ∧ env32.numMax < 2 ^ 31 ∧ (∀ t s, Safe (env32.decoOther t s) (fun o => ∀ p, o = some p → Sane env32 p.1)) ∧
    (∀ a n t, Sane env32 a → Mild (env32.subBuild a n t) (fun _ => True)) := by
  refine ⟨by decide, by decide, fun t s => ?_, fun _ _ _ _ => trivial⟩
  show ∀ p, none = some p → _
  intro p hp
  cases hp

/-- What is loaded, for the next example. -/
def ArchIO.permOf (x : M (Option (AnyArch × Stream))) : Option (List Int) :=
  match x with
  | .ok (some (.ltleaf a, _)) => some a.permtab.toList
  | _ => none

/-- **C47, disagreement.** Labels of the leaves of a tree are accepted even though they are not a permutation. -/
theorem C47_perm_not : permOf (archLoad env32 (chars "ltleaf 1 2 1 2 0 0")) = some [0, 0] := by decide +kernel

/-! ## Domains -/

/-- **C47, partial** (domains; weighted complete graphs excepted, unless the structure that is filled contains zero). Saving a domain gives a text; loading that text,
whatever follows it, gives the same domain, and leaves the stream before what follows, but for white space. -/
theorem C47_dom_partial (E : Env) (a : AnyArch) (d : AnyDom) (h : DomOk E a d) (junk : Int → Int × Int) (old : Int) (ho : IsWeighted a → old = 0) (ws : Stream) (hw : AllSpaces ws) :
    ∃ t, domSave a d = .ok t ∧ ∀ rest, ∃ d' vs, domLoad E junk old a (ws ++ (t ++ rest)) = .ok (some (d', vs ++ rest)) ∧ SameDom (dimn a) d d' ∧ AllSpaces vs := by
  obtain ⟨t, e, hload⟩ := dom_main (E := E) junk old hw a d h ho
  refine ⟨t, e, fun rest => ?_⟩
  obtain ⟨o, eo, ho⟩ := Holds_iff_exists.1 (hload rest)
  cases o with
  | none => exact ho.elim
  | some o =>
    obtain ⟨a', s'⟩ := o
    obtain ⟨hs, vs, hvs, rfl⟩ := ho
    exact ⟨a', vs, eo, hs, hvs⟩

example : DomOk env32 (.torus2 4 5) (.mesh (Arr.ofList 0 [(1, 3), (0, 4)])) ∧ ¬ IsWeighted (.torus2 4 5) := by
  refine ⟨⟨by decide, by decide, by decide, ?_⟩, fun h => h⟩
  intro i h1 h2
  have : i = 0 ∨ i = 1 := by omega
  rcases this with rfl | rfl <;> exact ⟨by decide +kernel, by decide +kernel, by decide +kernel⟩

example : DomOk env32 .vhcub (.var 13 3) := ⟨⟨by decide, by decide⟩, by decide, by decide, by decide⟩

/-- **C47, disagreement.** Domains of weighted complete graphs are loaded with a wrong load: the right one plus what was in the structure before the call. -/
theorem C47_dom_not (E : Env) (a : Arch.Cmpltw.Arch) (d : Arch.Cmpltw.Dom) (h : DomOk E (.cmpltw a) (.cmpltw d)) (junk : Int → Int × Int) (old : Int) (h0 : old ≠ 0)
    (ho : -E.numMax - 1 ≤ old ∧ old + d.veloval ≤ E.numMax) : ∃ t, domSave (.cmpltw a) (.cmpltw d) = .ok t ∧ ∃ d' s, domLoad E junk old (.cmpltw a) t = .ok (some (d', s)) ∧ ¬ SameDom 0 (.cmpltw d) d' := by
  obtain ⟨h1, h2, h3, h4⟩ := h
  refine ⟨_, rfl, ?_⟩
  have := cmpltw_dom h1 h2 h3 h4 old ho allSpaces_nil []
  rw [List.append_nil, List.nil_append] at this
  obtain ⟨o, eo, ho⟩ := Holds_iff_exists.1 this
  cases o with
  | none => exact ho.elim
  | some o =>
    obtain ⟨d', s'⟩ := o
    obtain ⟨rfl, -⟩ := ho
    refine ⟨_, _, eo, fun hs => ?_⟩
    have hs : AnyDom.cmpltw d = AnyDom.cmpltw ⟨d.vertmin, d.vertnbr, old + d.veloval⟩ := hs
    injection hs with hs
    have := congrArg Arch.Cmpltw.Dom.veloval hs
    dsimp only at this
    omega

/-- Two processors, of loads 5 and 4. -/
def ArchIO.sampleW : Arch.Cmpltw.Arch := ⟨2, Arr.ofList 0 [(5, 1), (4, 0)], 9⟩

example : DomOk env32 (.cmpltw sampleW) (.cmpltw ⟨1, 1, 4⟩) := by
  refine ⟨by decide, by decide, ⟨fun k => if k = 0 then 4 else 5, ⟨by decide, by decide, by decide, ⟨?_, ?_⟩, ?_, ?_, by decide +kernel⟩⟩, ⟨by decide, by decide, by decide, by decide +kernel⟩⟩
  · intro i h1 h2
    have : i = 0 ∨ i = 1 := by have : sampleW.vertnbr = 2 := rfl; omega
    rcases this with rfl | rfl <;> exact ⟨by decide +kernel, by decide +kernel⟩
  · intro i j h1 h2 h3 h4
    have : sampleW.vertnbr = 2 := rfl
    have hi : i = 0 ∨ i = 1 := by omega
    have hj : j = 0 ∨ j = 1 := by omega
    rcases hi with rfl | rfl <;> rcases hj with rfl | rfl <;> decide +kernel
  · intro i h1 h2
    have : i = 0 ∨ i = 1 := by have : sampleW.vertnbr = 2 := rfl; omega
    rcases this with rfl | rfl <;> decide +kernel
  · intro i h1 h2
    split <;> omega

/-- **C47, disagreement.** A negative first index is accepted when a domain of a weighted complete graph is loaded: the routine reads before the beginning of the table. -/
theorem C47_dom_oob : domLoad env32 (fun _ => (0, 0)) 0 (.cmpltw sampleW) (chars "-1 2 ") = .error .oob := by decide +kernel

end Scotch
