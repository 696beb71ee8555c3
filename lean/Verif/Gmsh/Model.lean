import Mathlib.Logic.Function.Basic
import Mathlib.Data.List.Sort
import Mathlib.Data.Int.Notation

/-!
Model of the bookkeeping of `src/bgem/gmsh/gmsh.py`: regions, object sets and physical groups.

The gmsh library itself is not modelled: the results of its calls are arguments of the operations below and arbitrary, an
argument `none` stands for an exception raised by the library. Transformations (`translate`, `rotate`, `scale`,
gmsh.py:534-547) and synchronization only call the library and are left out.

Objects are kept in a heap: an object set is a number `o`, `obj o` is its content, and `none` after `invalidate`
(gmsh.py:770-773); every method of an invalidated object raises `TypeError` or `AttributeError`, here `Err.invalid`. A `Region`
is known by its `id`: regions are made only by `Region.get`, so the id determines the object (see `get_fresh`). The lists
`dim_tags` and `regions` are never changed in place, so sharing of lists between objects has no effect.
-/
namespace Verif.Gmsh

/-- `DimTag` (gmsh.py:122). -/
abbrev DimTag := Nat × Nat

/-- Names of regions as lists of characters. -/
abbrev Name := List Char

inductive Err where
  | assertion | index | invalid | gmsh | bool
  deriving DecidableEq, Repr

/-- `Region` (gmsh.py:60-66), without the id, which is the address. -/
structure Reg where
  dim : Option Int
  name : Name
  deriving DecidableEq, Repr

/-- Content of an `ObjectSet` (gmsh.py:488-496). -/
structure Obj where
  dts : List DimTag
  regs : List Nat
  deriving DecidableEq, Repr

/-- `Region._max_reg_id` (gmsh.py:66), the heap of regions, `GeometryOCC._region_names` (gmsh.py:214), the heap of object sets
and the calls of `addPhysicalGroup`, `setPhysicalName` (gmsh.py:411-412). -/
structure St where
  maxId : Nat
  reg : Nat → Reg
  names : List (Name × Nat)
  nobj : Nat
  obj : Nat → Option Obj
  groups : List (Option Int × List Nat × Name)

/-- Calls may raise, the changes made before remain. -/
def M (α : Type) := St → Except Err α × St

namespace M

instance : Monad M where
  pure a := fun s => (.ok a, s)
  bind x f := fun s => match x s with
    | (.ok a, s') => f a s'
    | (.error e, s') => (.error e, s')

/-- `raise`. -/
def fail {α : Type} (e : Err) : M α := fun s => (.error e, s)

/-- `assert`. -/
def check (c : Bool) (e : Err) : M Unit := if c then pure () else fail e

/-- Results of a call of the library. -/
def lib {α : Type} (e : Err) : Option α → M α
  | none => fail e
  | some a => pure a

/-- A list comprehension or a loop over a list. -/
def each {α β : Type} (f : α → M β) : List α → M (List β)
  | [] => pure []
  | a :: l => do
    let b ← f a
    let r ← each f l
    pure (b :: r)

end M
open M

/-- `"{}_{}".format(name, idx)` (gmsh.py:91). -/
def suffix (n : Name) (i : Nat) : Name := n ++ '_' :: Nat.toDigits 10 i

/-- The default regions made when the module is loaded (gmsh.py:95): ids 100000 to 100003. -/
def defaultName (d : Nat) : Name := "default_".toList ++ Nat.toDigits 10 d ++ ['d']

/-- Id of the first region, `_max_reg_id + 1` (gmsh.py:66, 70). -/
def firstId : Nat := 100000

/-- The state after `GeometryOCC(...)` (gmsh.py:196-217), with the default regions (gmsh.py:95). -/
def start : St where
  maxId := firstId + 3
  reg := fun r => ⟨some ((r - firstId : Nat) : Int), defaultName (r - firstId)⟩
  names := []
  nobj := 0
  obj := fun _ => none
  groups := []

/-- `Region.get` (gmsh.py:74-78). -/
def regionGet (n : Name) (d : Option Int) : M Nat := fun s =>
  (.ok (s.maxId + 1), { s with maxId := s.maxId + 1, reg := Function.update s.reg (s.maxId + 1) ⟨d, n⟩ })

/-- Attributes of a region. -/
def getReg (r : Nat) : M Reg := fun s => (.ok (s.reg r), s)

/-- `Region.complete` (gmsh.py:80-88). -/
def complete (r : Nat) (d : Int) : M Nat := fun s =>
  match (s.reg r).dim with
  | none => (.ok r, { s with reg := Function.update s.reg r ⟨some d, (s.reg r).name⟩ })
  | some d' => if d' = d then (.ok r, s) else (.error .assertion, s)

/-- `Region.set_unique_name` (gmsh.py:90-91). -/
def setUniqueName (r i : Nat) : M Unit := fun s =>
  (.ok (), { s with reg := Function.update s.reg r ⟨(s.reg r).dim, suffix (s.reg r).name i⟩ })

/-- The item of a dictionary. -/
def find {κ α : Type} [DecidableEq κ] (k : κ) : List (κ × α) → Option α
  | [] => none
  | (k', a) :: l => if k' = k then some a else find k l

/-- The assignment to the dictionary in `get_region_name` (gmsh.py:223-225). -/
def keepName (n : Name) (new : Nat) : M Nat := fun s =>
  match find n s.names with
  | some r => (.ok r, s)
  | none => (.ok new, { s with names := s.names ++ [(n, new)] })

/-- `GeometryOCC.get_region_name` (gmsh.py:222-225). The default argument `Region.get(name)` is evaluated in every call. -/
def getRegionName (n : Name) : M Nat := do
  let new ← regionGet n none
  keepName n new

/-- `ObjectSet.__init__` (gmsh.py:489-496). -/
def mkSet (dts : List DimTag) (regs : List Nat) : M Nat := fun s =>
  match regs with
  | [r] => (.ok s.nobj, { s with nobj := s.nobj + 1, obj := Function.update s.obj s.nobj (some ⟨dts, dts.map fun _ => r⟩) })
  | _ =>
    if regs.length = dts.length then
      (.ok s.nobj, { s with nobj := s.nobj + 1, obj := Function.update s.obj s.nobj (some ⟨dts, regs⟩) })
    else (.error .assertion, s)

/-- Access to the attributes of an object set. -/
def load (o : Nat) : M Obj := fun s =>
  match s.obj o with
  | none => (.error .invalid, s)
  | some b => (.ok b, s)

/-- Assignment to the attributes of an object set. -/
def store (o : Nat) (b : Obj) : M Unit := fun s => (.ok (), { s with obj := Function.update s.obj o (some b) })

/-- `ObjectSet.invalidate` (gmsh.py:770-773). -/
def invalidate (o : Nat) : M Unit := fun s => (.ok (), { s with obj := Function.update s.obj o none })

/-- `Region.default_region[dim]` (gmsh.py:95, 228, 576); the library has dimensions 0 to 3. -/
def defaultRegion (d : Nat) : M Nat := if d ≤ 3 then pure (firstId + d) else fail .index

/-- `GeometryOCC.object` (gmsh.py:227-228). -/
def object (d t : Nat) : M Nat := do
  let r ← defaultRegion d
  mkSet [(d, t)] [r]

/-- `ObjectSet.dimtagreg` (gmsh.py:642-644). -/
def dimtagreg (b : Obj) : M (List (DimTag × Nat)) := do
  check (b.regs.length == b.dts.length) .assertion
  pure (b.dts.zip b.regs)

/-- `GeometryOCC.group` (gmsh.py:312-326). -/
def group (objs : List Nat) : M Nat := do
  match objs with
  | [o] => pure o
  | _ =>
    let bs ← each load objs
    mkSet (bs.flatMap Obj.dts) (bs.flatMap Obj.regs)

/-- The sets of pieces of the entities with the regions `regs` (gmsh.py:378-380, 730-732): `subs` has the pieces of each. -/
def pieces (regs : List Nat) (subs : List (List DimTag)) : M Nat := do
  let sets ← each (fun p : Nat × List DimTag => mkSet p.2 [p.1]) (regs.zip subs)
  group sets

/-- The loop of `GeometryOCC.fragment` (gmsh.py:376-383): object sets with their sizes and the rest of `tags_map`. -/
def fragmentLoop : List (Nat × Nat) → List (List DimTag) → M (List Nat)
  | [], _ => pure []
  | (o, n) :: l, tm => do
    let b ← load o
    let new ← pieces b.regs (tm.take n)
    invalidate o
    let r ← fragmentLoop l (tm.drop n)
    pure (new :: r)

/-- `GeometryOCC.fragment` (gmsh.py:357-386). `res` is the `tags_map` of `occ.fragment`. -/
def fragment (objs : List Nat) (res : Option (List (List DimTag))) : M (List Nat) := do
  let bs ← each load objs
  let tm ← lib .bool res
  check (!objs.isEmpty) .index
  check ((bs.map fun b => b.dts.length).sum == tm.length) .assertion
  fragmentLoop (objs.zip (bs.map fun b => b.dts.length)) tm

/-- Argument of `set_region`: a name or a region. -/
inductive RegArg where
  | name (n : Name)
  | reg (r : Nat)

/-- The region for the argument (gmsh.py:512-513). -/
def RegArg.get : RegArg → M Nat
  | .name n => getRegionName n
  | .reg r => pure r

/-- `ObjectSet.set_region` (gmsh.py:506-515). The object is returned. -/
def setRegion (o : Nat) (a : RegArg) : M Unit := do
  let b ← load o
  let r ← a.get
  let regs ← each (fun dt : DimTag => complete r dt.1) b.dts
  store o ⟨b.dts, regs⟩

/-- `ObjectSet.modify_regions` (gmsh.py:517-532); `f` is the function `format.format`. -/
def modifyRegions (o : Nat) (f : Name → Name) : M Unit := do
  let b ← load o
  let regs ← each (fun r => do
    let x ← getReg r
    getRegionName (f x.name)) b.regs
  store o ⟨b.dts, regs⟩

/-- `ObjectSet.copy` (gmsh.py:549-552). -/
def copy (o : Nat) (res : Option (List DimTag)) : M Nat := do
  let b ← load o
  let tags ← lib .gmsh res
  mkSet tags b.regs

/-- `ObjectSet.get_boundary` (gmsh.py:554-577). -/
def getBoundary (o : Nat) (res : Option (List DimTag)) : M Nat := do
  let _ ← load o
  let tags ← lib .gmsh res
  let regs ← each (fun dt : DimTag => defaultRegion dt.1) tags
  mkSet tags regs

/-- `d.setdefault(k, []); d[k].append(x)` for a dictionary in order of insertion (gmsh.py:397-398, 590-591). -/
def addTo {κ β : Type} [DecidableEq κ] (k : κ) (x : β) : List (κ × List β) → List (κ × List β)
  | [] => [(k, [x])]
  | (k', l) :: r => if k' = k then (k', l ++ [x]) :: r else (k', l) :: addTo k x r

/-- The loop of `split_by_region` (gmsh.py:587-591). -/
def splitLoop : List (DimTag × Nat) → List (Nat × List DimTag) → M (List (Nat × List DimTag))
  | [], acc => pure acc
  | (dt, r) :: l, acc => do
    let _ ← complete r dt.1
    splitLoop l (addTo r dt acc)

/-- `ObjectSet.split_by_region` (gmsh.py:579-593). -/
def splitByRegion (o : Nat) : M (List Nat) := do
  let b ← load o
  let ps ← dimtagreg b
  let acc ← splitLoop ps []
  each (fun p : Nat × List DimTag => mkSet p.2 [p.1]) acc

/-- The loop of `split_by_dimension` (gmsh.py:603-607): `acc d` has the pairs collected for the dimension `d`. -/
def dimLoop : List (DimTag × Nat) → (Nat → List (DimTag × Nat)) → M (Nat → List (DimTag × Nat))
  | [], acc => pure acc
  | (dt, r) :: l, acc => do
    let _ ← complete r dt.1
    check (decide (dt.1 ≤ 3)) .index
    dimLoop l (Function.update acc dt.1 (acc dt.1 ++ [(dt, r)]))

/-- `ObjectSet.split_by_dimension` (gmsh.py:595-609). -/
def splitByDimension (o : Nat) : M (List Nat) := do
  let b ← load o
  let ps ← dimtagreg b
  let acc ← dimLoop ps fun _ => []
  each (fun d => mkSet ((acc d).map Prod.fst) ((acc d).map Prod.snd)) [0, 1, 2, 3]

/-- The loop of `get_boundary_per_region` (gmsh.py:622-628) with the results of `getBoundary`. -/
def boundaryLoop (f : Name → Name) : List (Nat × Option (List DimTag)) → M (List Nat)
  | [] => pure []
  | (o, res) :: l => do
    let b ← load o
    let r ← lib .index b.regs.head?
    let x ← getReg r
    let d ← lib .invalid x.dim
    let br ← regionGet (f x.name) (some (d - 1))
    let bd ← getBoundary o res
    setRegion bd (.reg br)
    let rest ← boundaryLoop f l
    pure (bd :: rest)

/-- `ObjectSet.get_boundary_per_region` (gmsh.py:611-630); `f` is `format.format`, `res i` the result of `getBoundary` for the
`i`-th region. -/
def getBoundaryPerRegion (o : Nat) (f : Name → Name) (res : Nat → Option (List DimTag)) : M (List Nat) := do
  let sets ← splitByRegion o
  boundaryLoop f (sets.zip ((List.range sets.length).map res))

/-- The loop of `select_by_intersect` (gmsh.py:674-678). -/
def selectLoop : List (List DimTag × DimTag × Nat) → M (List (DimTag × Nat))
  | [] => pure []
  | (m, p) :: l => do
    check (decide (m.length ≤ 1)) .bool
    let r ← selectLoop l
    pure (if m.length = 1 then p :: r else r)

/-- `ObjectSet.select_by_intersect` (gmsh.py:661-683): results of both copies and of `occ.intersect`. -/
def selectByIntersect (o : Nat) (tools : List Nat) (c1 c2 : Option (List DimTag)) (res : Option (List (List DimTag))) :
    M Nat := do
  let sc ← copy o c1
  let g ← group tools
  let tool ← copy g c2
  let tm ← lib .gmsh res
  invalidate tool
  invalidate sc
  let b ← load o
  let ps ← dimtagreg b
  let isec ← selectLoop (tm.zip ps)
  mkSet (isec.map Prod.fst) (isec.map Prod.snd)

/-- `dict(pairs)` for a list of pairs (gmsh.py:697-698): the last value of a key counts. -/
def lastOf (ps : List (DimTag × Nat)) (k : DimTag) : Option Nat := find k ps.reverse

/-- The keys of `dict(pairs)`, each once. -/
def keys (ps : List (DimTag × Nat)) : List DimTag := (ps.map Prod.fst).dedup

/-- `{k: d[k] for k in ks}` as a list of items. -/
def items (ps : List (DimTag × Nat)) (ks : List DimTag) : List (DimTag × Nat) :=
  ks.filterMap fun k => (lastOf ps k).map fun r => (k, r)

/-- `ObjectSet.split_by_cut` (gmsh.py:685-707). The order in which Python runs over a set is given by `ord`. -/
def splitByCut (o : Nat) (tools : List Nat) (res : Option (List (List DimTag))) (ord : List DimTag → List DimTag) :
    M (List Nat) := do
  let _ ← load o
  let g ← group tools
  let news ← fragment [o, g] res
  match news with
  | [n1, n2] => do
    let b1 ← load n1
    let p1 ← dimtagreg b1
    let b2 ← load n2
    let p2 ← dimtagreg b2
    let cutObj := items p1 (ord ((keys p1).filter fun k => decide (k ∉ keys p2)))
    let cutTool := items p2 (ord ((keys p2).filter fun k => decide (k ∉ keys p1)))
    let isec := ord ((keys p1).filter fun k => decide (k ∈ keys p2))
    each (fun ps : List (DimTag × Nat) => mkSet (ps.map Prod.fst) (ps.map Prod.snd))
      [cutObj, cutTool, items p1 isec, items p2 isec]
  | _ => fail .invalid

/-- `ObjectSet.set_region_from_dimtag` (gmsh.py:709-718). -/
def setRegionFromDimtag (o : Nat) : M Unit := do
  let b ← load o
  let regs ← each (fun dt : DimTag => getRegionName (Nat.toDigits 10 dt.1 ++ '_' :: Nat.toDigits 10 dt.2)) b.dts
  store o ⟨b.dts, regs⟩

/-- `ObjectSet._apply_operation` (gmsh.py:720-744), used by `cut`, `intersect` and `fragment` of object sets
(gmsh.py:746-768): results of the copy of the tools and of the operation. -/
def applyOperation (o : Nat) (tools : List Nat) (c : Option (List DimTag)) (res : Option (List (List DimTag))) : M Nat := do
  let _ ← load o
  let g ← group tools
  let tool ← copy g c
  let tm ← lib .bool res
  let b ← load o
  check (b.regs.length == b.dts.length) .assertion
  let new ← pieces b.regs (tm.take b.dts.length)
  invalidate o
  invalidate tool
  pure new

/-- `ObjectSet.remove_small_mass` (gmsh.py:790-801); `big` tells for every entity if its mass is over the limit. -/
def removeSmallMass (o : Nat) (big : DimTag → Bool) : M Unit := do
  let b ← load o
  let masses := b.dts.map big
  store o ⟨((b.dts.zip masses).filter Prod.snd).map Prod.fst, ((b.regs.zip masses).filter Prod.snd).map Prod.fst⟩

/-- The first loop of `_assign_physical_groups` (gmsh.py:394-399): tags of regions, and ids of every name. -/
def assignLoop : List (DimTag × Nat) → List (Nat × List Nat) → List (Name × List Nat) →
    M (List (Nat × List Nat) × List (Name × List Nat))
  | [], a, n => pure (a, n)
  | (dt, r) :: l, a, n => do
    let _ ← complete r dt.1
    let x ← getReg r
    assignLoop l (addTo r dt.2 a) (addTo x.name r n)

/-- `sorted(id_set)` for the list of members (gmsh.py:404). -/
def sorted (l : List Nat) : List Nat := l.dedup.insertionSort (· ≤ ·)

/-- `for i, id in enumerate(ids): reg_to_tags[id][0].set_unique_name(i)` (gmsh.py:404-407). -/
def renameLoop : Nat → List Nat → M Unit
  | _, [] => pure ()
  | i, r :: l => do
    setUniqueName r i
    renameLoop (i + 1) l

/-- The regions with the same name get unique names, if there are more (gmsh.py:403-407). -/
def renameIds (ids : List Nat) : M Unit := if 1 < (sorted ids).length then renameLoop 0 (sorted ids) else pure ()

/-- The loop that makes names unique (gmsh.py:402-407). -/
def uniqueLoop : List (List Nat) → M Unit
  | [] => pure ()
  | ids :: l => do
    renameIds ids
    uniqueLoop l

/-- `addPhysicalGroup` and `setPhysicalName` for a region (gmsh.py:411-412). -/
def addGroup (r : Nat) (tags : List Nat) : M Unit := fun s =>
  (.ok (), { s with groups := s.groups ++ [((s.reg r).dim, tags, (s.reg r).name)] })

/-- `GeometryOCC._assign_physical_groups` (gmsh.py:388-412). -/
def assignGroups (o : Nat) : M Unit := do
  let b ← load o
  let ps ← dimtagreg b
  let (a, n) ← assignLoop ps [] []
  uniqueLoop (n.map Prod.snd)
  let _ ← each (fun p : Nat × List Nat => addGroup p.1 p.2) a
  pure ()

/-- `GeometryOCC.make_mesh` (gmsh.py:414-434) up to the calls of the library. -/
def makeMesh (objs : List Nat) : M Unit := do
  let g ← group objs
  assignGroups g

/-- The loop of `GeometryOCC.make_fractures` (gmsh.py:344-352): regions of the fractures and results of the copies. -/
def fractureLoop (base : Nat) : List (RegArg × Option (List DimTag)) → M (List Nat)
  | [] => pure []
  | (a, c) :: l => do
    let sh ← copy base c
    setRegion sh a
    let r ← fractureLoop base l
    pure (sh :: r)

/-- `GeometryOCC.make_fractures` (gmsh.py:338-355). -/
def makeFractures (base : Nat) (frs : List (RegArg × Option (List DimTag))) (res : Option (List (List DimTag))) :
    M (List Nat) := do
  let shapes ← fractureLoop base frs
  fragment shapes res

end Verif.Gmsh
