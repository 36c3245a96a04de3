import Verif.Mesh.Model
import Verif.Seg
import Verif.Graph.Spec

/-!
# Meshes: specification

A mesh is described by the list of the nodes of each element, and of the elements of each node.
-/

set_option autoImplicit false

namespace Scotch.Mesh

/-- First arc of a vertex. -/
def vert (m : Mesh) (v : Int) : Int := m.verttax.get v

/-- Index after the last arc of a vertex. -/
def vend (m : Mesh) (v : Int) : Int :=
  match m.vendtax with
  | none => m.verttax.get (v + 1)
  | some a => a.get v

/-- Neighbours: the nodes of an element, or the elements of a node. -/
def nbr (m : Mesh) (v : Int) : List Int := seg m.edgetax.get (m.vert v) (m.vend v)

/-- Elements. -/
def Elem (m : Mesh) (v : Int) : Prop := m.velmbas ≤ v ∧ v < m.velmnnd

/-- Nodes. -/
def Node (m : Mesh) (v : Int) : Prop := m.vnodbas ≤ v ∧ v < m.vnodnnd

/-- Load of an element: 1 by default. -/
def velo (m : Mesh) (v : Int) : Int := match m.velotax with | none => 1 | some a => a.get v

/-- Load of a node: 1 by default. -/
def vnlo (m : Mesh) (v : Int) : Int := match m.vnlotax with | none => 1 | some a => a.get v

/-- A consistent mesh: what the manual requires of meshes. -/
structure Consistent (m : Mesh) : Prop where
  velmnbr : 0 ≤ m.velmnbr
  vnodnbr : 0 ≤ m.vnodnbr
  velmnnd : m.velmnnd = m.velmbas + m.velmnbr
  vnodnnd : m.vnodnnd = m.vnodbas + m.vnodnbr
  /-- ranges follow each other, from the base value on -/
  order : (m.velmbas = m.baseval ∧ m.vnodbas = m.velmnnd) ∨ (m.vnodbas = m.baseval ∧ m.velmbas = m.vnodnnd)
  range : ∀ v, m.Elem v ∨ m.Node v → m.baseval ≤ m.vert v ∧ m.vert v ≤ m.vend v
  /-- elements have nodes, nodes have elements, and both agree -/
  nodes : ∀ v, m.Elem v → ∀ w ∈ m.nbr v, m.Node w ∧ v ∈ m.nbr w
  elems : ∀ w, m.Node w → ∀ v ∈ m.nbr w, m.Elem v ∧ w ∈ m.nbr v
  simple : ∀ v, m.Elem v ∨ m.Node v → (m.nbr v).Nodup
  edgenbr : m.edgenbr = sumI m.velmbas m.velmnnd (fun v => (m.nbr v).length) + sumI m.vnodbas m.vnodnnd (fun v => (m.nbr v).length)
  velo : ∀ v, m.Elem v → 1 ≤ m.velo v
  velosum : m.velosum = sumI m.velmbas m.velmnnd m.velo
  vnlo : ∀ v, m.Node v → 1 ≤ m.vnlo v
  vnlosum : m.vnlosum = sumI m.vnodbas m.vnodnnd m.vnlo
  degrmax : 0 ≤ m.degrmax ∧ ∀ v, m.Elem v ∨ m.Node v → ((m.nbr v).length : Int) ≤ m.degrmax

/-- Memory: the arrays cover all vertices and arcs. -/
structure Allocated (m : Mesh) : Prop where
  vlo : m.verttax.lo ≤ m.baseval
  vhi : m.baseval + m.velmnbr + m.vnodnbr ≤ m.verttax.hi
  vhi' : m.vendtax = none → m.baseval + m.velmnbr + m.vnodnbr + 1 ≤ m.verttax.hi
  ends : ∀ a, m.vendtax = some a → a.lo ≤ m.baseval ∧ m.baseval + m.velmnbr + m.vnodnbr ≤ a.hi
  velo : ∀ a, m.velotax = some a → a.lo ≤ m.velmbas ∧ m.velmnnd ≤ a.hi
  vnlo : ∀ a, m.vnlotax = some a → a.lo ≤ m.vnodbas ∧ m.vnodnnd ≤ a.hi
  edge : ∀ v, m.Elem v ∨ m.Node v → m.vert v < m.vend v → m.edgetax.lo ≤ m.vert v ∧ m.vend v ≤ m.edgetax.hi

/-- The graph of the nodes of a mesh: nodes are neighbours if and only if some element has both. -/
structure NodeGraph (m : Mesh) (g : Graph) : Prop where
  consistent : g.Consistent
  allocated : g.Allocated
  base : g.baseval = m.baseval
  nbr : g.vertnbr = m.vnodnbr
  /-- the node of vertex `v` -/
  adj : ∀ v w, g.Vertex v → ((w, 1) ∈ g.nbrs v ↔ g.Vertex w ∧ w ≠ v ∧ ∃ e, m.Elem e ∧ v + (m.vnodbas - m.baseval) ∈ m.nbr e ∧ w + (m.vnodbas - m.baseval) ∈ m.nbr e)
  velo : ∀ v, g.Vertex v → g.velo v = m.vnlo (v + (m.vnodbas - m.baseval))
  /-- edges have no loads -/
  unit : ∀ v p, g.Vertex v → p ∈ g.nbrs v → p.2 = 1

/-- Number of nodes that two elements share. -/
def shared (m : Mesh) (v w : Int) : Nat := ((m.nbr v).filter (fun n => decide (n ∈ m.nbr w))).length

/-- Number of shared nodes from which two elements are neighbours, for a requested number `nocon`: at least one, and less than the number of nodes of each of them. -/
def threshold (m : Mesh) (nocon v w : Int) : Int := max 1 (min nocon (min ((m.nbr v).length - 1) ((m.nbr w).length - 1)))

/-- The dual graph of a mesh: elements are neighbours if and only if they share enough nodes. -/
structure DualGraph (m : Mesh) (nocon : Int) (g : Graph) : Prop where
  consistent : g.Consistent
  allocated : g.Allocated
  base : g.baseval = m.baseval
  nbr : g.vertnbr = m.velmnbr
  adj : ∀ v w, g.Vertex v → ((w, 1) ∈ g.nbrs v ↔ g.Vertex w ∧ w ≠ v ∧
    threshold m nocon (v + (m.velmbas - m.baseval)) (w + (m.velmbas - m.baseval)) ≤ shared m (v + (m.velmbas - m.baseval)) (w + (m.velmbas - m.baseval)))

end Scotch.Mesh
