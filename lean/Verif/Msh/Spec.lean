import Verif.Msh.Model

/-!
Specification notions for the MSH reader and writer.
-/
namespace Verif.Msh

/-- A text that `str.split` sees as exactly one word. -/
def IsWord (w : List Char) : Prop := w ≠ [] ∧ ∀ c ∈ w, isSpace c = false

/-- The three dicts of the mesh have unique keys (which a Python dict always has). -/
structure Mesh.Wf {F : Type} (m : Mesh F) : Prop where
  nodes : (m.nodes.map Prod.fst).Nodup
  elements : (m.elements.map Prod.fst).Nodup
  physical : (m.physical.map Prod.fst).Nodup

/-- What an ASCII file can hold: physical names are single words, every node has three coordinates, every element has
at least three tags and nodes together. -/
structure Mesh.Storable {F : Type} (m : Mesh F) : Prop where
  names : ∀ p ∈ m.physical, IsWord p.1
  nodes : ∀ p ∈ m.nodes, p.2.length = 3
  elements : ∀ p ∈ m.elements, 3 ≤ p.2.tags.length + p.2.nodes.length

/-- Same nodes, elements and physical names (dicts compare as sets of items). -/
def Mesh.Same {F : Type} (g m : Mesh F) : Prop :=
  g.nodes.Perm m.nodes ∧ g.elements.Perm m.elements ∧ g.physical.Perm m.physical

end Verif.Msh
