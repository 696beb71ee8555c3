import Verif.Brep.Again

/-!
A model meeting the hypotheses of the theorems: a compound with a face over the triangle of three vertices, with implicit
geometry, in composed locations.
-/
namespace Verif.Brep

/-- Vertices 0, 1, 2, edges 3, 4, 5, wire 6, face 7, compound 8; compound 9 uses the vertices 0 and 1 again. -/
def demo : Graph ℚ where
  kind
    | 3 => .edge
    | 4 => .edge
    | 5 => .edge
    | 6 => .wire
    | 7 => .face
    | 8 => .compound
    | 9 => .compound
    | _ => .vertex
  childs
    | 3 => [⟨0, 1, 0⟩, ⟨1, 2, 0⟩]
    | 4 => [⟨1, 1, 0⟩, ⟨2, 2, 0⟩]
    | 5 => [⟨0, 1, 0⟩, ⟨2, 2, 0⟩]
    | 6 => [⟨3, 1, 0⟩, ⟨4, 1, 0⟩, ⟨5, 2, 0⟩]
    | 7 => [⟨6, 1, 2⟩]
    | 8 => [⟨7, 1, 1⟩, ⟨3, 3, 0⟩]
    | 9 => [⟨0, 1, 0⟩, ⟨1, 1, 0⟩]
    | _ => []
  point
    | 1 => [1, 0, 0]
    | 2 => [0, 1, 0]
    | _ => [0, 0, 0]
  flags _ := [0, 1, 0, 1, 0, 0, 0]
  locs
    | 2 => .composed [(1, 2)]
    | _ => .elem [[1, 0, 0, 5], [0, 1, 0, 0], [0, 0, 1, 0]]

/-- Nothing numbered, no geometry. -/
def demoSt : St ℚ where
  repr _ := []
  c2 _ := ⟨[], [], false, 0⟩
  n2 := 0
  c3 _ := ⟨[], [], false, 0⟩
  n3 := 0
  sf _ := ⟨[], [], [], false, (0, 0)⟩
  nS := 0
  tL := ⟨fun x => if x = 0 then some 0 else none, []⟩
  t2 := ⟨fun _ => none, []⟩
  t3 := ⟨fun _ => none, []⟩
  tS := ⟨fun _ => none, []⟩
  tT := ⟨fun _ => none, []⟩

theorem demo_locs : LocsOk demo.locs := by
  intro l ps h p hp
  simp only [demo] at h
  split at h
  · cases h
    simp only [List.mem_singleton] at hp
    subst hp
    decide
  · cases h

theorem demo_kinds : KindsOk demo := by
  intro x r hr
  by_cases hx : x < 10
  · revert r
    revert x
    decide
  · have : demo.childs x = [] := by
      simp only [demo]
      split <;> first | omega | rfl
    rw [this] at hr
    cases hr

theorem demo_fresh : Fresh demoSt := ⟨fun _ => rfl, fun _ => rfl, fun _ => rfl, fun _ => rfl, fun _ => rfl⟩

theorem demo_around : Around demo 7 [0, 1, 2] :=
  .cons ⟨⟨0, 1, 0⟩, ⟨1, 2, 0⟩, rfl, Or.inl ⟨by decide, rfl, rfl⟩⟩ <|
    .cons ⟨⟨1, 1, 0⟩, ⟨2, 2, 0⟩, rfl, Or.inl ⟨by decide, rfl, rfl⟩⟩ <|
      .cons ⟨⟨0, 1, 0⟩, ⟨2, 2, 0⟩, rfl, Or.inr ⟨by decide, rfl, rfl⟩⟩ .nil

theorem demo_ready : Ready demo 8 demoSt where
  edge x _ h := by
    simp only [demo] at h
    split at h <;> first | exact ⟨_, _, rfl⟩ | cases h
  face x _ h := by
    refine Or.inl ⟨rfl, ?_⟩
    simp only [demo] at h
    split at h <;> first | cases h | skip
    exact ⟨by decide, Or.inl ⟨0, 1, 2, demo_around⟩⟩

/-- `write_succeeds`, `file_consistent` and the other theorems apply. -/
example : ∃ file s', writeModel demo 8 1 demoSt = .ok (file, s') :=
  write_succeeds demo_locs demo_kinds 8 1 demo_fresh demo_ready

/-- The records of the file: vertices and edges of the triangle, wire, face, compound; shared shapes once. -/
example : (writeModel demo 8 1 demoSt).toOption.map (fun r => (r.1.shapes.map fun x => (x.kind, x.childs), r.1.locs.length,
      r.1.c2.length, r.1.c3.length, r.1.sf.length)) =
    some ([(.vertex, []), (.vertex, []), (.edge, [⟨9, 1, 0⟩, ⟨8, 2, 0⟩]), (.vertex, []), (.edge, [⟨8, 1, 0⟩, ⟨6, 2, 0⟩]),
      (.edge, [⟨9, 1, 0⟩, ⟨6, 2, 0⟩]), (.wire, [⟨7, 1, 0⟩, ⟨5, 1, 0⟩, ⟨4, 2, 0⟩]), (.face, [⟨3, 1, 2⟩]),
      (.compound, [⟨2, 1, 1⟩, ⟨7, 3, 0⟩])], 2, 3, 3, 1) := by
  decide +kernel

/-- The compound 9 written after the compound 8: one record, naming shapes 9 and 8 of the other file. -/
example : ((writeModel demo 8 1 demoSt).toOption.bind fun r => (writeModel demo 9 0 r.2).toOption).map
      (fun r => r.1.shapes.map fun x => (x.kind, x.childs)) = some [(.compound, [⟨9, 1, 0⟩, ⟨8, 1, 0⟩])] := by
  decide +kernel

/-- The hypotheses of `shared_shapes_missing`. -/
example : ¬ Reach demo 8 9 ∧ ∀ r ∈ demo.childs 9, Reach demo 8 r.shape ∧ r.loc = 0 := by
  have hd : ∀ a b, (∃ r ∈ demo.childs a, r.shape = b) → b ≠ 9 := by
    rintro a b ⟨r, hr, rfl⟩ h
    have := demo_kinds a r hr
    rw [h] at this
    cases hk : demo.kind a <;> rw [hk] at this <;> simp [Kind.allows, demo] at this
  refine ⟨fun h => ?_, ?_⟩
  · rcases Relation.ReflTransGen.cases_tail h with h | ⟨c, -, h⟩
    · cases h
    · exact hd c 9 h rfl
  · have h3 : Reach demo 8 3 := .single ⟨⟨3, 3, 0⟩, by decide, rfl⟩
    intro r hr
    have : r = ⟨0, 1, 0⟩ ∨ r = ⟨1, 1, 0⟩ := by simpa [demo] using hr
    rcases this with rfl | rfl
    · exact ⟨h3.tail ⟨⟨0, 1, 0⟩, by decide, rfl⟩, rfl⟩
    · exact ⟨h3.tail ⟨⟨1, 2, 0⟩, by decide, rfl⟩, rfl⟩

end Verif.Brep
