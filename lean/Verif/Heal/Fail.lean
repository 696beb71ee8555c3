import Verif.Heal.Term
import Verif.Heal.Stats

/-!
Concrete runs of the healing, and what goes wrong in it.
-/
namespace Verif.Heal

/-- Sets of ids iterated in increasing order. -/
def incr (s : Finset Nat) : List Nat := (List.range (s.sup id + 1)).filter (· ∈ s)

theorem incr_ok : OrdOk incr where
  mem s x := by
    simp only [incr, List.mem_filter, List.mem_range, decide_eq_true_eq]
    exact ⟨fun h => h.2, fun h => ⟨Nat.lt_succ_of_le (Finset.le_sup (f := id) h), h⟩⟩
  nodup _ := List.Nodup.filter _ List.nodup_range

/-! ### Geometry on a line

The decisions of the code for meshes of points, lines and triangles whose nodes are all on one line, in exact arithmetic. -/

/-- `edge_lens` (heal_mesh.py:19-28) on a line. -/
def lens (ps : List ℚ) : List ℚ := (edges ps.length).map fun e => |ps.getD e.2 0 - ps.getD e.1 0|

/-- `np.argmin` / `np.argmax`: index of the first smallest (`better` is `<`) or largest (`>`) number. -/
def argBest (better : ℚ → ℚ → Bool) : List ℚ → Nat
  | [] => 0
  | x :: xs => go x 0 1 xs
where
  go (best : ℚ) (i n : Nat) : List ℚ → Nat
    | [] => i
    | x :: xs => if better x best then go x n (n + 1) xs else go best i (n + 1) xs

/-- Projection to the longest edge (heal_mesh.py:550-571) on a line. -/
def projLine (p0 p1 p2 : ℚ) : Proj ℚ :=
  let ps := [p0, p1, p2]
  let i := argBest (fun x y => decide (y < x)) [|p2 - p1|, |p0 - p2|, |p1 - p0|]
  let e := (edges 3).getD i (0, 0)
  let u := ps.getD e.2 0 - ps.getD e.1 0
  let x := (edges 3).getD e.2 (0, 0)
  let v := -(ps.getD x.2 0 - ps.getD x.1 0)
  if u = 0 then .fail
  else if v * u / |u| / |u| < 0 ∨ 1 < v * u / |u| / |u| then .fail
  else if v * u / |u| / |u| < 5 / 100 ∨ 1 - v * u / |u| / |u| < 5 / 100 then .skip
  else .go i (ps.getD e.1 0 + v * u / |u| / |u| * u)

/-- Geometry on a line with the two tolerances. The tetrahedron decisions are not used. -/
def Geo.line (nodeTol gammaTol : ℚ) : Geo ℚ where
  avg a b := (a + b) / 2
  tooShort ps := (lens ps).any fun l => decide (l < nodeTol)
  minEdge ps := argBest (fun x y => decide (x < y)) (lens ps)
  good ps :=
    match lens ps with
    | [a, b, c] => some ((Fl.fin gammaTol).lt (triGamma a b c))
    | _ => none
  minFace _ := 0
  flat _ := .skip
  proj ps :=
    match ps with
    | [a, b, c] => projLine a b c
    | _ => .skip

theorem argBest_go_lt (better : ℚ → ℚ → Bool) (xs : List ℚ) : ∀ (b : ℚ) (i n : Nat), i < n →
    argBest.go better b i n xs < n + xs.length := by
  induction xs with
  | nil => intro b i n h; exact h
  | cons x xs ih =>
    intro b i n h
    simp only [argBest.go, List.length_cons]
    split
    · have := ih x n (n + 1) (by omega); omega
    · have := ih b i (n + 1) (by omega); omega

theorem line_sane (a b : ℚ) : (Geo.line a b).Sane := by
  refine ⟨fun _ => by simp [Geo.line], ?_⟩
  intro ps i pos h
  simp only [Geo.line] at h
  split at h
  · simp only [projLine] at h
    split at h
    · cases h
    split at h
    · cases h
    split at h
    · cases h
    simp only [Proj.go.injEq] at h
    rw [← h.1]
    exact argBest_go_lt _ _ _ _ _ (by omega)
  · cases h

/-- State of a new `HealMesh`, for examples. -/
def start (els : List (Nat × Elem)) (nodes : List (Nat × ℚ)) : St ℚ :=
  match init els nodes with
  | .ok s => s
  | .error _ => ⟨[], [], fun _ => ∅, 0, 0, ∅⟩

/-! ### Runs

Meshes meeting the hypotheses of the theorems of the other files. -/

/-- Three lines in a row; the nodes 1 and 2 are close to each other. -/
def elsA : List (Nat × Elem) := [(5, ⟨1, [], [3, 4]⟩), (6, ⟨1, [7], [2, 3]⟩), (9, ⟨1, [], [1, 2]⟩)]
/-- Nodes of the first mesh. -/
def nodesA : List (Nat × ℚ) := [(1, 0), (2, 1), (3, 10), (4, 20)]

theorem validA : ValidMesh elsA nodesA := ⟨by decide, by decide, by decide⟩

/-- The hypotheses of `incidence_consistent` and of the others hold, and healing merges the two nodes. -/
example : ValidMesh elsA nodesA ∧ init elsA nodesA = .ok (start elsA nodesA) ∧
    Run incr (start elsA nodesA) (step incr (start elsA nodesA) (.heal (Geo.line 2 (1 / 50)) 18 10)) ∧
    (healMesh incr (Geo.line 2 (1 / 50)) 18 10 (start elsA nodesA)).1 = .ok true ∧
    (healMesh incr (Geo.line 2 (1 / 50)) 18 10 (start elsA nodesA)).2.elements =
      [(5, ⟨1, [], [3, 4]⟩), (6, ⟨1, [7], [2, 3]⟩)] ∧
    (healMesh incr (Geo.line 2 (1 / 50)) 18 10 (start elsA nodesA)).2.nodes = [(2, 1 / 2), (3, 10), (4, 20)] :=
  ⟨validA, rfl, .step _ (.nil _) (line_sane _ _), by decide +kernel⟩

/-- `merge_valid`: merging 2 into 1 replaces the element 6 by the element 10. -/
example : Good (start elsA nodesA) ∧ Simplices (start elsA nodesA) ∧ look (start elsA nodesA).nodes 2 = some 1 ∧
    look (start elsA nodesA).nodes 1 = some 0 ∧
    (mergeNode incr (fun a b : ℚ => (a + b) / 2) 2 1 (start elsA nodesA)).2.elements =
      [(5, ⟨1, [], [3, 4]⟩), (10, ⟨1, [7], [1, 3]⟩)] :=
  ⟨init_good validA rfl, fun e el h => by
    have h1 := look_mem h
    simp only [start, init, elsA, nodesA, List.map, List.mem_cons, List.not_mem_nil, or_false, Prod.mk.injEq] at h1
    rcases h1 with h1 | h1 | h1 <;> (rw [h1.2]; decide), by decide +kernel⟩

/-- `element_id_fresh`, `node_id_fresh`: a new element and a new node. -/
example : (addElement incr ⟨1, [], [1, 3]⟩ (start elsA nodesA)).1 = .ok (some 10) ∧
    (addNode 3 (start elsA nodesA)).1 = .ok 5 := by decide +kernel

/-! ### What does not hold -/

/-- The hypothesis of `incidence_consistent` that a moved node exists is needed: `move_node` on an id that is not in use
creates the node without counting it, a later `add_node` takes the same id and forgets the elements of the node, and then
`remove_element` raises a KeyError. -/
theorem move_unknown_breaks :
    let s := start elsA nodesA
    let s := (moveNode incr 5 (30 : ℚ) s).2
    let s := (addElement incr ⟨1, [], [4, 5]⟩ s).2
    let s := (addNode (40 : ℚ) s).2
    look s.elements 10 = some ⟨1, [], [4, 5]⟩ ∧ 10 ∉ s.nodeEls 5 ∧ (removeElement incr 10 s).1 = .error .keyError := by
  decide +kernel

/-- **C33**, the second half is false, in general: when one element is left in the queue, the loop ends after it whatever the
elements `m` modified by its healing. They are not checked. -/
theorem last_modified_dropped {P : Type} {ord : Finset Nat → List Nat} (g : Geo P) (limit fuel : Nat) {eid : Nat}
    {m : List Nat} {s s' : St P} (hl : s.maxEl ≤ limit) (h : healOne ord g eid s = (.ok m, s')) :
    healLoop ord g limit (fuel + 2) [eid] [] s = (.ok true, s') := by
  have hl' : ¬ limit < s.maxEl := by omega
  have h1 : healLoop ord g limit (fuel + 2) [eid] [] s =
      (healOne ord g eid >>= fun m' => healLoop ord g limit (fuel + 1) [] m') s := by
    simp [healLoop, get_bind, hl']
  rw [h1, bind_ok h]
  rfl

/-- Two lines; the line 2 gets too short when the line 1 is contracted. -/
def elsB : List (Nat × Elem) := [(1, ⟨1, [], [1, 2]⟩), (2, ⟨1, [], [2, 3]⟩)]
/-- Nodes of the second mesh. -/
def nodesB : List (Nat × ℚ) := [(1, 2), (2, 0), (3, 3)]

/-- **C33**, the second half is false: healing ends normally and leaves a line of length 2 modified by the last step, with the
node tolerance 3; a second `heal_mesh` contracts it. -/
theorem modified_not_rechecked : ValidMesh elsB nodesB ∧
    ∃ s', healMesh incr (Geo.line 3 (1 / 50)) 4 10 (start elsB nodesB) = (.ok true, s') ∧
      s'.elements = [(2, ⟨1, [], [2, 3]⟩)] ∧ s'.nodes = [(2, 1), (3, 3)] ∧
      (healMesh incr (Geo.line 3 (1 / 50)) 4 10 s').2.elements = [] :=
  ⟨⟨by decide, by decide, by decide⟩, (healMesh incr (Geo.line 3 (1 / 50)) 4 10 (start elsB nodesB)).2,
    Prod.ext (by decide +kernel) rfl, by decide +kernel⟩

/-- A triangle with a short edge and no neighbours, and a distant line. -/
def elsC : List (Nat × Elem) := [(1, ⟨2, [], [1, 2, 3]⟩), (2, ⟨1, [], [4, 5]⟩)]
/-- Nodes of the third mesh. -/
def nodesC : List (Nat × ℚ) := [(1, 0), (2, 1), (3, 100), (4, 200), (5, 300)]

/-- **C66** is false: healing a triangle with a short edge and no neighbour raises a KeyError. Its close nodes are merged,
which removes it; no element is modified, so the later checks run on the removed triangle and merge the same nodes again. -/
theorem heal_raises : ValidMesh elsC nodesC ∧
    (healMesh incr (Geo.line 3 (1 / 50)) 4 10 (start elsC nodesC)).1 = .error .keyError ∧
    (healMesh incr (Geo.line 3 (1 / 50)) 4 10 (start elsC nodesC)).2.elements = [(2, ⟨1, [], [4, 5]⟩)] ∧
    (healMesh incr (Geo.line 3 (1 / 50)) 4 10 (start elsC nodesC)).2.nodes = [(2, 1 / 2), (3, 100), (4, 200), (5, 300)] :=
  ⟨⟨by decide, by decide, by decide⟩, by decide +kernel⟩

end Verif.Heal
