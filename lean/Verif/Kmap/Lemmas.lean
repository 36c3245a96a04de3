import Verif.Kmap.Spec
import Verif.Graph.LemmasInduce3
import Verif.Arch.Generic

/-! # Static mapping: subgraphs -/

set_option autoImplicit false
set_option linter.unusedSimpArgs false

namespace Scotch.Kmap

variable {D : Type}

/-- Graph with distinct original vertices. -/
structure Proper (g : Graph) : Prop where
  cons : g.Consistent
  alloc : g.Allocated
  base : 0 ≤ g.baseval
  inj : ∀ x y, g.Vertex x → g.Vertex y → org g x = org g y → x = y

/-- `v` is the original number of a vertex of `g`. -/
def Verts (g : Graph) (v : Int) : Prop := ∃ x, g.Vertex x ∧ org g x = v

theorem mem_ofPart {g : Graph} {part : Arr Int} {val x : Int} : x ∈ ofPart g part val ↔ g.Vertex x ∧ part.get x = val := by
  unfold ofPart Graph.Vertex
  rw [List.mem_filter, mem_seg]
  constructor
  · rintro ⟨⟨i, h1, h2, rfl⟩, h3⟩
    exact ⟨⟨h1, h2⟩, by simpa using h3⟩
  · rintro ⟨⟨h1, h2⟩, h3⟩
    exact ⟨⟨x, h1, h2, rfl⟩, by simpa using h3⟩

theorem ofPart_nodup {g : Graph} {part : Arr Int} {val : Int} : (ofPart g part val).Nodup := by
  unfold ofPart
  exact (Graph.nodup_seg_id _ _).filter _

theorem orgNum_holds {g : Graph} (ha : g.Allocated) {x : Int} (hx : g.Vertex x) : orgNum g x = .ok (org g x) := by
  unfold orgNum org
  cases h : g.vnumtax with
  | none => rfl
  | some a =>
    have := ha.vnum a h
    exact a.rd_ok (by unfold Graph.Vertex at hx; omega) (by unfold Graph.Vertex at hx; omega)

theorem induce_holds {g : Graph} (hg : Proper g) {al : Int} (hal : al = 1 ∨ al = 2) (m : Graph.IndMem) {part : Arr Int} (hp : part.lo ≤ g.baseval ∧ g.vertnnd ≤ part.hi)
    {val nbr : Int} (hn : nbr = (ofPart g part val).length) :
    Holds (Graph.inducePart al g m part nbr val) fun g' => Proper g' ∧ g'.vertnbr = nbr ∧ ∀ v, Verts g' v ↔ ∃ x, g.Vertex x ∧ org g x = v ∧ part.get x = val := by
  subst hn
  refine (Graph.inducePart_holds hg.cons hg.alloc hg.base hal m part hp val).mono ?_
  rintro g' ⟨hi, hc, ha⟩
  change Graph.InducedBy g (ofPart g part val) g' at hi
  obtain ⟨a, ha1, ha2⟩ := hi.vnum
  have hnn := hc.vertnnd
  have hb := hi.baseval
  have hnb := hi.vertnbr
  have key : ∀ i (h : i < (ofPart g part val).length), org g' (g.baseval + i) = org g (ofPart g part val)[i] := by
    intro i h
    have := ha2 i h
    unfold org
    rw [ha1]
    exact this
  have hidx : ∀ x, g'.Vertex x → ∃ i, ∃ h : i < (ofPart g part val).length, x = g.baseval + (i : Nat) := by
    intro x hx
    unfold Graph.Vertex at hx
    exact ⟨(x - g.baseval).toNat, by omega, by omega⟩
  have hback : ∀ i, i < (ofPart g part val).length → g'.Vertex (g.baseval + (i : Nat)) := by
    intro i h
    unfold Graph.Vertex
    omega
  refine ⟨⟨hc, ha, by rw [hb]; exact hg.base, ?_⟩, hnb, ?_⟩
  · intro x y hx hy hxy
    obtain ⟨i, h1, rfl⟩ := hidx x hx
    obtain ⟨j, h2, rfl⟩ := hidx y hy
    rw [key i h1, key j h2] at hxy
    have := hg.inj _ _ (mem_ofPart.1 (List.getElem_mem h1)).1 (mem_ofPart.1 (List.getElem_mem h2)).1 hxy
    rw [ofPart_nodup.getElem_inj_iff] at this
    rw [this]
  · intro v
    constructor
    · rintro ⟨x, hx, rfl⟩
      obtain ⟨i, h1, rfl⟩ := hidx x hx
      obtain ⟨m1, m2⟩ := mem_ofPart.1 (List.getElem_mem h1)
      exact ⟨_, m1, (key i h1).symm, m2⟩
    · rintro ⟨x, hx, rfl, hv⟩
      obtain ⟨i, h1, h2⟩ := List.getElem_of_mem (mem_ofPart.2 ⟨hx, hv⟩)
      exact ⟨_, hback i h1, by rw [key i h1, h2]⟩

theorem ofPart_full {g : Graph} (hc : g.Consistent) {part : Arr Int} {val : Int} (h : g.vertnbr ≤ (ofPart g part val).length) :
    ∀ x, g.Vertex x → part.get x = val := by
  intro x hx
  have hl : (seg id g.baseval g.vertnnd).length = g.vertnbr.toNat := by
    have := seg_length (id : Int → Int) (lo := g.baseval) (hi := g.vertnnd) (by have := hc.vertnnd; have := hc.vertnbr; omega)
    have := hc.vertnnd
    omega
  have h' : (seg id g.baseval g.vertnnd).length ≤ (ofPart g part val).length := by omega
  unfold ofPart at h'
  have := (List.length_filter_eq_length_iff.1 (Nat.le_antisymm (List.length_filter_le _ _) h')) x ((mem_seg id _ _ _).2 ⟨x, hx.1, hx.2, rfl⟩)
  simpa using this

theorem ofPart_len {g : Graph} (hc : g.Consistent) {part : Arr Int} (h : ∀ v, g.Vertex v → part.get v = 0 ∨ part.get v = 1) :
    ((ofPart g part 0).length : Int) + (ofPart g part 1).length = g.vertnbr := by
  have hl := seg_length (id : Int → Int) (lo := g.baseval) (hi := g.vertnnd) (by have := hc.vertnnd; have := hc.vertnbr; omega)
  have e := List.length_eq_length_filter_add (l := seg id g.baseval g.vertnnd) (fun v => decide (part.get v = 0))
  have e2 : (seg id g.baseval g.vertnnd).filter (fun v => !decide (part.get v = 0)) = ofPart g part 1 := by
    unfold ofPart
    apply List.filter_congr
    intro x hx
    obtain ⟨i, h1, h2, rfl⟩ := (mem_seg id _ _ _).1 hx
    rcases h i ⟨h1, h2⟩ with e | e <;> simp [e]
  rw [e2] at e
  have := hc.vertnnd
  unfold ofPart at *
  omega

end Scotch.Kmap
