import Verif.Msh.Data

/-! The sections of a written MSH file: the number in front of the items is the number of lines up to the end of the section. -/

namespace Verif.Msh

variable {F : Type} (io : FloatIO F)

/-- The file has a section with the name `name` that holds `n` lines after the line with the number `n`. -/
def HasSection (file : List Char) (name : String) (n : Nat) : Prop :=
  ∃ a b w : List Char, ∃ ls : List (List Char), IsWord w ∧ readInt w = some (n : Int) ∧ ls.length = n ∧ (∀ l ∈ ls, '\n' ∉ l) ∧
    file = a ++ ("$" ++ name ++ "\n").toList ++ w ++ ['\n'] ++ (ls.flatMap fun l => l ++ ['\n']) ++
      ("$End" ++ name ++ "\n").toList ++ b

theorem hasSection {α : Type} (a b s e : List Char) (name : String) (xs : List α) (f : α → List Char) {n : Nat} (hn : xs.length = n)
    (hf : ∀ x ∈ xs, ∀ c ∈ f x, c ≠ '\n' ∧ c ≠ '\r') (h1 : s ++ ['\n'] = ("$" ++ name ++ "\n").toList)
    (h2 : e ++ ['\n'] = ("$End" ++ name ++ "\n").toList) :
    HasSection (a ++ (out s ++ out (showNat n) ++ xs.flatMap (fun x => out (f x)) ++ out e) ++ b) name n := by
  refine ⟨a, b, showNat n, xs.map f, showNat_word n, ?_, by simpa using hn, fun l hl hc => ?_, ?_⟩
  · rw [readInt_of_digits _ (showNat_chars n), readNat_showNat, Option.map_some]
  · obtain ⟨x, hx, rfl⟩ := List.mem_map.1 hl
    exact (hf x hx _ hc).1 rfl
  · rw [← h1, ← h2]
    simp only [out, List.flatMap_map, List.append_assoc]

/-- C28, the counts. Each section of the file written by `write_ascii` has the number of its items, then one line for each. -/
theorem write_counts (m : Mesh F) (hs : m.Storable) : HasSection (writeAscii io m) "PhysicalNames" m.physical.length ∧
    HasSection (writeAscii io m) "Nodes" m.nodes.length ∧ HasSection (writeAscii io m) "Elements" m.elements.length := by
  have p1 := sortedItems_perm m.physical
  have p2 := sortedItems_perm m.nodes
  have p3 := sortedItems_perm m.elements
  have k1 := fun a b => hasSection a b "$PhysicalNames".toList "$EndPhysicalNames".toList "PhysicalNames" (sortedItems m.physical) nameTxt
    p1.length_eq (fun p hp => clean_append (clean_word (showInt_word _)) (clean_sp (clean_append (clean_word (showInt_word _))
      (clean_sp (clean_word (hs.names p (p1.mem_iff.mp hp))))))) (by decide) (by decide)
  have k2 := fun a b => hasSection a b "$Nodes".toList "$EndNodes".toList "Nodes" (sortedItems m.nodes) (nodeTxt io)
    p2.length_eq (fun p _ => clean_append (clean_word (showInt_word _)) (clean_sp (clean_joinSp (shws_word io _)))) (by decide) (by decide)
  have k3 := fun a b => hasSection a b "$Elements".toList "$EndElements".toList "Elements" (sortedItems m.elements) elemTxt
    p3.length_eq (fun p _ => clean_append (clean_word (showInt_word _)) (clean_sp (clean_append (clean_word (showInt_word _))
      (clean_sp (clean_append (clean_word (showNat_word _)) (clean_sp (clean_append (clean_joinSp (showInts_word _))
        (clean_sp (clean_joinSp (showInts_word _)))))))))) (by decide) (by decide)
  have e : ∀ a b c d : List Char, a ++ b ++ c ++ d = a ++ b ++ (c ++ d) := fun a b c d => List.append_assoc ..
  refine ⟨?_, k2 _ _, ?_⟩
  · unfold writeAscii
    rw [e]
    exact k1 _ _
  · have := k3 (formatOut ++ (out "$PhysicalNames".toList ++ out (showNat m.physical.length) ++
      (sortedItems m.physical).flatMap nameOut ++ out "$EndPhysicalNames".toList) ++ (out "$Nodes".toList ++ out (showNat m.nodes.length) ++
      (sortedItems m.nodes).flatMap (nodeOut io) ++ out "$EndNodes".toList)) []
    rw [List.append_nil] at this
    exact this

/-- The mesh of the other examples is storable and has items in each section. -/
example : toyMesh.Storable ∧ toyMesh.physical.length ≠ 0 ∧ toyMesh.nodes.length ≠ 0 ∧ toyMesh.elements.length ≠ 0 :=
  ⟨⟨fun p hp => by
    simp only [toyMesh, List.mem_singleton] at hp
    subst hp
    exact ⟨by decide, by decide⟩, by decide, by decide⟩, by decide, by decide, by decide⟩

end Verif.Msh
