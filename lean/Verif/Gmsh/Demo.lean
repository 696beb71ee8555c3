import Verif.Gmsh.Groups
import Verif.Gmsh.Ops
import Verif.Gmsh.Names

/-! Concrete runs, and counterexamples. -/
namespace Verif.Gmsh
open M

theorem ok_of {α : Type} {x : Except Err α × St} {a : α} (h : x.1 = .ok a) : x = (.ok a, x.2) := Prod.ext h rfl

/-- The state after some calls. -/
def run (ops : List Op) : St := ops.foldl step start

theorem run_reach : ∀ {ops : List Op} {s : St}, Reach s → (∀ o ∈ ops, ∀ t, o.Ok t) → Reach (ops.foldl step s) := by
  intro ops
  induction ops with
  | nil => exact fun h _ => h
  | cons o ops ih => exact fun h ho => ih (.step h (ho o List.mem_cons_self _)) fun o' ho' => ho o' (List.mem_cons_of_mem _ ho')

/-- Calls that do not name regions directly. -/
def Op.plain : Op → Bool
  | .setRegion _ (.reg _) => false
  | .makeFractures .. => false
  | _ => true

theorem Op.plain_ok {o : Op} (h : o.plain = true) (s : St) : o.Ok s := by
  cases o with
  | setRegion o a =>
    cases a with
    | name => trivial
    | reg => cases h
  | makeFractures => cases h
  | _ => trivial

theorem run_plain {ops : List Op} (h : ∀ o ∈ ops, o.plain = true) : Reach (run ops) :=
  run_reach .start fun o ho => Op.plain_ok (h o ho)

/-- A box and a rectangle with the regions "rock" and "fracture", grouped with a third one without a name. -/
def ops : List Op := [.object 3 1, .object 2 7, .object 2 8, .setRegion 0 (.name "rock".toList), .setRegion 1 (.name "fr".toList),
  .group [0, 1, 2]]

theorem ops_reach : Reach (run ops) := run_plain (by decide +kernel)

/-- Grouping, `regions_match` and `group_concat`. -/
example : (run ops).obj 3 = some ⟨[(3, 1), (2, 7), (2, 8)], [firstId + 4, firstId + 5, firstId + 2]⟩ ∧
    Valid (run ops) [0, 1, 2] [⟨[(3, 1)], [firstId + 4]⟩, ⟨[(2, 7)], [firstId + 5]⟩, ⟨[(2, 8)], [firstId + 2]⟩] := by
  refine ⟨by decide +kernel, ?_⟩
  exact .cons (by decide +kernel) (.cons (by decide +kernel) (.cons (by decide +kernel) .nil))

/-- Fragmentation of the box and the rectangle: the rectangle is cut into two pieces, both keep its region. -/
example : ∃ ns s', fragment [0, 1] (some [[(3, 1)], [(2, 9), (2, 10)]]) (run ops) = (.ok ns, s') ∧
    ns.map s'.obj = [some ⟨[(3, 1)], [firstId + 4]⟩, some ⟨[(2, 9), (2, 10)], [firstId + 5, firstId + 5]⟩] ∧
    s'.obj 0 = none ∧ s'.obj 1 = none ∧ s'.obj 2 = some ⟨[(2, 8)], [firstId + 2]⟩ :=
  ⟨_, _, rfl, by decide +kernel, by decide +kernel, by decide +kernel, by decide +kernel⟩

/-- The cut of the box by two rectangles; these stay. -/
example : ∃ n s', applyOperation 0 [1, 2] (some [(2, 11), (2, 12)]) (some [[(3, 2), (3, 3)], [], []]) (run ops) = (.ok n, s') ∧
    s'.obj n = some ⟨[(3, 2), (3, 3)], [firstId + 4, firstId + 4]⟩ ∧ s'.obj 0 = none ∧
    s'.obj 1 = some ⟨[(2, 7)], [firstId + 5]⟩ := ⟨_, _, rfl, by decide +kernel, by decide +kernel, by decide +kernel⟩

/-- `modify_regions` of the group: three new regions `in_…`. -/
example : ∃ s', modifyRegions 3 ("in_".toList ++ ·) (run ops) = (.ok (), s') ∧
    s'.obj 3 = some ⟨[(3, 1), (2, 7), (2, 8)], [firstId + 6, firstId + 7, firstId + 8]⟩ ∧
    (s'.reg (firstId + 6)).name = "in_rock".toList ∧ (s'.reg (firstId + 8)).name = "in_default_2d".toList :=
  ⟨_, rfl, by decide +kernel, by decide +kernel, by decide +kernel⟩

/-- `set_region_from_dimtag` of the group. -/
example : ∃ s', setRegionFromDimtag 3 (run ops) = (.ok (), s') ∧
    s'.obj 3 = some ⟨[(3, 1), (2, 7), (2, 8)], [firstId + 6, firstId + 7, firstId + 8]⟩ ∧
    (s'.reg (firstId + 7)).name = "2_7".toList := ⟨_, rfl, by decide +kernel, by decide +kernel⟩

/-- Two fractures made from the rectangle. -/
example : ∃ ns s', fractureLoop 2 [(.name "f1".toList, some [(2, 20)]), (.name "fr".toList, some [(2, 21)])] (run ops) = (.ok ns, s') ∧
    ns.map s'.obj = [some ⟨[(2, 20)], [firstId + 6]⟩, some ⟨[(2, 21)], [firstId + 5]⟩] ∧
    s'.obj 2 = some ⟨[(2, 8)], [firstId + 2]⟩ :=
  ⟨[4, 5], (fractureLoop 2 [(.name "f1".toList, some [(2, 20)]), (.name "fr".toList, some [(2, 21)])] (run ops)).2,
    ok_of (by decide +kernel), by decide +kernel, by decide +kernel⟩

/-- Splitting by regions and by dimensions. -/
example : ∃ ns s', splitByRegion 3 (run ops) = (.ok ns, s') ∧ ns.map s'.obj = [some ⟨[(3, 1)], [firstId + 4]⟩,
    some ⟨[(2, 7)], [firstId + 5]⟩, some ⟨[(2, 8)], [firstId + 2]⟩] := ⟨_, _, rfl, by decide +kernel⟩

example : ∃ ns s', splitByDimension 3 (run ops) = (.ok ns, s') ∧ ns.map s'.obj = [some ⟨[], []⟩, some ⟨[], []⟩,
    some ⟨[(2, 7), (2, 8)], [firstId + 5, firstId + 2]⟩, some ⟨[(3, 1)], [firstId + 4]⟩] := ⟨_, _, rfl, by decide +kernel⟩

/-- A region with entities of two dimensions makes `set_region` and splitting raise. -/
example : (setRegion 3 (.name "all".toList) (run ops)).1 = .error .assertion ∧
    ∃ t, t = run (ops ++ [.object 0 1, .copy 4 (some [(1, 5)])]) ∧ t.obj 5 = some ⟨[(1, 5)], [firstId]⟩ ∧
      (splitByRegion 5 t).1 = .error .assertion := ⟨by rfl, _, rfl, by decide +kernel, by rfl⟩

/-- Boundaries of the regions: the boundary of the box are two rectangles, of a fracture a line. -/
example :
    let r := getBoundaryPerRegion 3 (fun n => '.' :: n) (fun i => if i = 0 then some [(2, 20), (2, 21)] else some [(1, 30 + i)])
      (run ops)
    r.1 = .ok [7, 8, 9] ∧ [7, 8, 9].map r.2.obj = [some ⟨[(2, 20), (2, 21)], [firstId + 6, firstId + 6]⟩,
      some ⟨[(1, 31)], [firstId + 7]⟩, some ⟨[(1, 32)], [firstId + 8]⟩] ∧
    r.2.reg (firstId + 6) = ⟨some 2, ".rock".toList⟩ ∧ r.2.reg (firstId + 7) = ⟨some 1, ".fr".toList⟩ := by
  decide +kernel

/-- Selecting by an intersection, splitting by a cut and removing of small entities. -/
example :
    let r := selectByIntersect 3 [0] (some [(3, 40), (2, 41), (2, 42)]) (some [(3, 43)]) (some [[(3, 44)], [], [(2, 45)]]) (run ops)
    r.1 = .ok 6 ∧ r.2.obj 6 = some ⟨[(3, 1), (2, 8)], [firstId + 4, firstId + 2]⟩ := by decide +kernel

example :
    let r := splitByCut 0 [1, 2] (some [[(3, 5), (2, 6)], [(2, 6)], [(2, 8)]]) id (run ops)
    r.1 = .ok [9, 10, 11, 12] ∧ [9, 10, 11, 12].map r.2.obj = [some ⟨[(3, 5)], [firstId + 4]⟩, some ⟨[(2, 8)], [firstId + 2]⟩,
      some ⟨[(2, 6)], [firstId + 4]⟩, some ⟨[(2, 6)], [firstId + 5]⟩] ∧ r.2.obj 0 = none ∧
    r.2.obj 1 = some ⟨[(2, 7)], [firstId + 5]⟩ := by decide +kernel

example :
    let r := removeSmallMass 3 (fun t => t.2 ≠ 7) (run ops)
    r.1 = .ok () ∧ r.2.obj 3 = some ⟨[(3, 1), (2, 8)], [firstId + 4, firstId + 2]⟩ := by decide +kernel

/-! ### Physical groups -/

/-- Two different regions with the same name get different names in the mesh. -/
def same : St :=
  step (step (run [.object 2 1, .object 2 2, .object 2 3, .regionGet "a".toList none, .regionGet "a".toList none])
    (.setRegion 0 (.reg (firstId + 4)))) (.setRegion 1 (.reg (firstId + 5)))

example : (makeMesh [0, 1, 2] same).1 = .ok () ∧ (makeMesh [0, 1, 2] same).2.groups =
    [(some 2, [1], "a_0".toList), (some 2, [2], "a_1".toList), (some 2, [3], "default_2d".toList)] := by decide +kernel

/-- Two regions "a" and a region "a_0". -/
def clash : List Op := [.object 2 1, .object 2 2, .object 2 3, .setRegion 2 (.name "a_0".toList), .regionGet "a".toList none,
  .regionGet "a".toList none]

/-- The names of physical groups need not be unique: two regions "a" and a region "a_0" give two groups "a_0". The regions are
valid and the mesh is made. -/
theorem mesh_names_clash : ∃ (s s' : St) (bs : List Obj), Reach s ∧ Valid s [0, 1, 2] bs ∧ makeMesh [0, 1, 2] s = (.ok (), s') ∧
    s'.groups = [(some 2, [1], "a_0".toList), (some 2, [2], "a_1".toList), (some 2, [3], "a_0".toList)] := by
  have h1 : Reach (run clash) := run_plain (by decide)
  have h2 := Reach.step (o := .setRegion 0 (.reg (firstId + 5))) h1 ⟨by decide +kernel, by decide +kernel⟩
  have h3 := Reach.step (o := .setRegion 1 (.reg (firstId + 6))) h2 ⟨by decide +kernel, by decide +kernel⟩
  refine ⟨step (step (run clash) (.setRegion 0 (.reg (firstId + 5)))) (.setRegion 1 (.reg (firstId + 6))),
    (makeMesh [0, 1, 2] (step (step (run clash) (.setRegion 0 (.reg (firstId + 5)))) (.setRegion 1 (.reg (firstId + 6))))).2, [⟨[(2, 1)], [firstId + 5]⟩, ⟨[(2, 2)], [firstId + 6]⟩, ⟨[(2, 3)], [firstId + 4]⟩], h3,
    .cons ?_ (.cons ?_ (.cons ?_ .nil)), Prod.ext ?_ rfl, ?_⟩ <;> decide +kernel

/-- The region "a" made by its name, and another one. -/
def stale : List Op := [.object 2 1, .object 2 2, .setRegion 0 (.name "a".toList), .regionGet "a".toList none]

/-- After a mesh a name leads to a region with another name: `get_region_name` still returns the renamed region. -/
theorem name_stale : ∃ (s s' : St) (r : Nat), Reach s ∧ getRegionName "a".toList s = (.ok r, s') ∧
    (s'.reg r).name = "a_0".toList := by
  have h1 : Reach (run stale) := run_plain (by decide)
  have h2 := Reach.step (o := .setRegion 1 (.reg (firstId + 5))) h1 ⟨by decide +kernel, by decide +kernel⟩
  have h3 := Reach.step (o := .makeMesh [0, 1]) h2 trivial
  refine ⟨step (step (run stale) (.setRegion 1 (.reg (firstId + 5)))) (.makeMesh [0, 1]),
    (getRegionName "a".toList (step (step (run stale) (.setRegion 1 (.reg (firstId + 5)))) (.makeMesh [0, 1]))).2, firstId + 4, h3, Prod.ext ?_ rfl, ?_⟩ <;> decide +kernel

end Verif.Gmsh
