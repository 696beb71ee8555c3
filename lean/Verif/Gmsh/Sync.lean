import Verif.Gmsh.Model

/-!
Model of the synchronization of the geometry kernel with the gmsh model (src/bgem/gmsh/gmsh.py).

Assumed of the library: calls of `self.model` (the kernel, `gmsh.model.occ`) change only the entities of the kernel; `synchronize`
copies them to the gmsh model; queries and the mesh generator of `gmsh.model` see only the gmsh model.
-/
namespace Verif.Gmsh.Sync

/-- Entities of the kernel, of the gmsh model, the flag `_need_synchronize`, and the entities of the last mesh. -/
structure St where
  occ : List DimTag
  model : List DimTag
  need : Bool
  mesh : List DimTag
  deriving DecidableEq, Repr

/-- After `GeometryOCC.__init__` (gmsh.py:209-215). -/
def init : St := ⟨[], [], false, []⟩

/-- `synchronize` (gmsh.py:303-310). -/
def synchronize (s : St) : St := if s.need then { s with model := s.occ, need := false } else s

/-- The methods that change the kernel and then set the flag: `make_simplex` (gmsh.py:232-259), `rectangle` (261-266), `box`
(268-272), `cylinder` (274-282), `make_rectangle` (328-336), `fragment` (385), `translate`, `rotate`, `scale`, `copy` (534-552),
`_apply_operation` (741). `new` are the entities of the kernel after the change. -/
def change (new : List DimTag) (s : St) : St := { s with occ := new, need := true }

/-- `make_polygon` (gmsh.py:284-299). -/
def makePolygon (new : List DimTag) (s : St) : St := { s with occ := new }

/-- `remove_duplicate_entities` (gmsh.py:455-458). -/
def removeDuplicates (new : List DimTag) (s : St) : St := { synchronize s with occ := new, need := true }

/-- `get_boundary` (gmsh.py:570-572), `set_mesh_step` (652-654), `all_entities` (473-475), `write_brep` (436-440): the entities of
the model are used. -/
def query (s : St) : List DimTag × St := ((synchronize s).model, synchronize s)

/-- `keep_only` (gmsh.py:460-471) for a group with the entities `g`; `ok` if `remove` does not raise. -/
def keepOnly (g : List DimTag) (ok : Bool) (s : St) : St :=
  if ok then { synchronize s with occ := (synchronize s).occ.filter fun t => decide (¬(t ∈ (synchronize s).model ∧ t ∉ g)) }
  else synchronize s

/-- `make_mesh` (gmsh.py:414-434) for a group with the entities `g`, with the synchronization in `_assign_physical_groups`
(gmsh.py:389). -/
def makeMesh (g : List DimTag) (eliminate ok : Bool) (s : St) : St :=
  let s1 := synchronize s
  let s2 := if eliminate then keepOnly g ok s1 else s1
  let s3 := synchronize s2
  { s3 with mesh := s3.model }

inductive Op where
  | change (new : List DimTag)
  | makePolygon (new : List DimTag)
  | removeDuplicates (new : List DimTag)
  | query
  | keepOnly (g : List DimTag) (ok : Bool)
  | makeMesh (g : List DimTag) (eliminate ok : Bool)

def step (s : St) : Op → St
  | .change new => change new s
  | .makePolygon new => makePolygon new s
  | .removeDuplicates new => removeDuplicates new s
  | .query => (query s).2
  | .keepOnly g ok => keepOnly g ok s
  | .makeMesh g e ok => makeMesh g e ok s

/-- The calls that report their changes. -/
def Op.Flagged : Op → Prop
  | .change _ | .removeDuplicates _ | .query | .makeMesh _ false _ => True
  | _ => False

/-- Histories of calls. -/
inductive Reach (P : Op → Prop) : St → Prop
  | init : Reach P init
  | step {s : St} {o : Op} : Reach P s → P o → Reach P (step s o)

theorem synced {s : St} (h : s.need = false → s.model = s.occ) : (synchronize s).model = s.occ ∧ (synchronize s).occ = s.occ ∧
    (synchronize s).need = false := by
  unfold synchronize
  split
  · exact ⟨rfl, rfl, rfl⟩
  · rename_i hn
    have hf : s.need = false := by simpa using hn
    exact ⟨h hf, rfl, hf⟩

theorem sync_of {s : St} (h : s.need = false) : synchronize s = s := by
  unfold synchronize
  rw [if_neg (by rw [h]; simp)]

/-- Without `make_polygon`, `keep_only` and the elimination of `make_mesh`, every query and every mesh has exactly the current
entities of the kernel. Missing: it is false for these calls, see `polygon_unseen` and `eliminate_ineffective`. -/
theorem queries_current_partial {s : St} (h : Reach Op.Flagged s) (g : List DimTag) (ok : Bool) :
    (query s).1 = s.occ ∧ (makeMesh g false ok s).mesh = s.occ := by
  have hs : s.need = false → s.model = s.occ := by
    induction h with
    | init => exact fun _ => rfl
    | @step s o _ ho ih =>
      obtain ⟨h1, h2, h3⟩ := synced ih
      cases o with
      | change new => intro h; cases h
      | makePolygon => cases ho
      | removeDuplicates => intro h; cases h
      | query => exact fun _ => h1.trans h2.symm
      | keepOnly => cases ho
      | makeMesh g e ok =>
        cases e with
        | true => cases ho
        | false =>
          intro _
          have h4 : synchronize (synchronize s) = synchronize s := by
            exact sync_of h3
          show (synchronize (synchronize s)).model = (synchronize (synchronize s)).occ
          rw [h4, h1, h2]
  obtain ⟨h1, h2, h3⟩ := synced hs
  refine ⟨h1, ?_⟩
  have h4 : synchronize (synchronize s) = synchronize s := by
    exact sync_of h3
  show (synchronize (synchronize s)).model = s.occ
  rw [h4, h1]

/-- After all changes were synchronized, a polygon added by `make_polygon` is in no query and no mesh. -/
theorem polygon_unseen {s : St} (hn : s.need = false) (new g : List DimTag) (e ok : Bool) :
    (query (makePolygon new s)).1 = s.model ∧ (makeMesh g e ok (makePolygon new s)).mesh = s.model := by
  have h1 : synchronize (makePolygon new s) = makePolygon new s := by
    unfold synchronize
    rw [if_neg (by simp [makePolygon, hn])]
  refine ⟨(congrArg St.model h1).trans rfl, ?_⟩
  unfold makeMesh keepOnly
  simp only [h1]
  cases e <;> cases ok <;> simp [synchronize, makePolygon, hn]

/-- `eliminate` has no effect on the mesh: the entities removed from the kernel are meshed. -/
theorem eliminate_ineffective (s : St) (g : List DimTag) (ok : Bool) :
    (makeMesh g true ok s).mesh = (makeMesh g false ok s).mesh := by
  have h3 : (synchronize s).need = false := by
    unfold synchronize
    split
    · rfl
    · rename_i h; simpa using h
  have h4 : synchronize (synchronize s) = synchronize s := by
    exact sync_of h3
  unfold makeMesh keepOnly
  simp only [h4]
  cases ok
  · simp [h4]
  · simp [synchronize]
    split <;> simp_all

/-- A box (3, 1) and a rectangle (2, 7); the mesh for the box only has both, after a mesh a new polygon (2, 9) is not seen. -/
example : (makeMesh [(3, 1)] true true (change [(3, 1), (2, 7)] init)).mesh = [(3, 1), (2, 7)] ∧
    (makeMesh [(3, 1)] true true (change [(3, 1), (2, 7)] init)).occ = [(3, 1)] ∧
    (query (makePolygon [(3, 1), (2, 9)] (makeMesh [] false true (change [(3, 1)] init)))).1 = [(3, 1)] ∧
    Reach Op.Flagged (makeMesh [] false true (change [(3, 1)] init)) ∧
    (makeMesh [] false true (change [(3, 1)] init)).mesh = [(3, 1)] := by
  refine ⟨by decide, by decide, by decide, ?_, by decide⟩
  exact .step (o := .makeMesh [] false true) (.step (o := .change [(3, 1)]) .init trivial) trivial

end Verif.Gmsh.Sync
