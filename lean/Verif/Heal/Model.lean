import Mathlib.Data.Finset.Basic
import Mathlib.Data.Finset.Lattice.Basic
import Mathlib.Data.Finset.Lattice.Fold

/-!
Model of the mesh healing (src/bgem/gmsh/heal_mesh.py).

* Dictionaries are association lists in insertion order with the keys they have; ids are natural numbers.
* `node_els` (a `defaultdict(set)`) is a total function to finite sets.
* The order in which CPython iterates over a set is a parameter `ord`: some list of the elements.
* All real-valued decisions (edge lengths, qualities, projections) are taken by an arbitrary function of the node
  positions, the structure `Geo`. Positions are an arbitrary type `P`.
* A method is a function from the state to a result or exception and the state left behind, so the state after an
  exception is modelled too.
* The `_history` dictionary and the printed messages are left out.
-/
namespace Verif.Heal

/-- Python exceptions. -/
inductive Err where
  | keyError
  | assertionError
  | typeError
  | valueError
  deriving DecidableEq

/-- An element tuple `(type, tags, node_ids)` of `mesh.elements` (heal_mesh.py:245). -/
structure Elem where
  type : Nat
  tags : List Int
  nodes : List Nat
  deriving DecidableEq

/-- Attributes of `HealMesh` (heal_mesh.py:220-237, 240-248). -/
structure St (P : Type) where
  elements : List (Nat × Elem)
  nodes : List (Nat × P)
  nodeEls : Nat → Finset Nat
  maxEl : Nat
  maxNode : Nat
  modified : Finset Nat

/-- A method. -/
def M (P : Type) (α : Type) := St P → Except Err α × St P

instance (P : Type) : Monad (M P) where
  pure a := fun s => (.ok a, s)
  bind m f := fun s =>
    match m s with
    | (.ok a, s') => f a s'
    | (.error e, s') => (.error e, s')

/-- `raise` -/
def fail {P α : Type} (e : Err) : M P α := fun s => (.error e, s)
/-- read the state -/
def get {P : Type} : M P (St P) := fun s => (.ok s, s)
/-- change the state -/
def modify {P : Type} (f : St P → St P) : M P Unit := fun s => (.ok (), f s)

/-- `for a in l: f(a)` -/
def forEach {P α : Type} : List α → (α → M P Unit) → M P Unit
  | [], _ => pure ()
  | a :: l, f => do f a; forEach l f

/-- `d[k]` -/
def look {α : Type} (d : List (Nat × α)) (k : Nat) : Option α :=
  match d with
  | [] => none
  | (k', a) :: d => if k' = k then some a else look d k

/-- `d[k] = a` -/
def put {α : Type} (d : List (Nat × α)) (k : Nat) (a : α) : List (Nat × α) :=
  match d with
  | [] => [(k, a)]
  | (k', a') :: d => if k' = k then (k, a) :: d else (k', a') :: put d k a

/-- `del d[k]` -/
def del {α : Type} (d : List (Nat × α)) (k : Nat) : List (Nat × α) := d.filter fun p => p.1 != k

variable {P : Type} (ord : Finset Nat → List Nat)

/-- `set.intersection(*node_sets)` (heal_mesh.py:360-361); without sets it is a TypeError. -/
def interAll (ne : Nat → Finset Nat) : List Nat → Option (Finset Nat)
  | [] => none
  | [n] => some (ne n)
  | n :: m :: l => (interAll ne (m :: l)).map fun s => ne n ∩ s

/-- `common_elements` (heal_mesh.py:354-367) without the filter for active elements, which is applied while iterating.
The report about too many elements (362-366) is left out: it only prints. -/
def common (ns : List Nat) : M P (List Nat) := do
  match interAll (← get).nodeEls ns with
  | none => fail .typeError
  | some s => pure (ord s)

/-- Loop over `active(l)` (heal_mesh.py:371-374): the generator tests each id when its turn comes. -/
def forActive {P : Type} (l : List Nat) (f : Nat → M P Unit) : M P Unit :=
  forEach l fun eid => do
    if (look (← get).elements eid).isSome then f eid else pure ()

/-- `_make_element` (heal_mesh.py:391-398): positions of the nodes. One to four nodes are allowed. -/
def mkElement (ns : List Nat) : M P (List P) := do
  let s ← get
  if ns.any fun n => (look s.nodes n).isNone then fail .keyError
  else if ns.length = 0 ∨ 4 < ns.length then fail .keyError
  else pure (ns.filterMap (look s.nodes))

/-- `is_duplicate_el` (heal_mesh.py:347-350). -/
def isDuplicate (type : Nat) (ns : List Nat) : M P (List Nat) := do
  let l ← common ord ns
  let s ← get
  pure (l.filter fun eid => (look s.elements eid).map Elem.type = some type)

/-- `add_element` (heal_mesh.py:259-276). -/
def addElement (ele : Elem) : M P (Option Nat) := do
  let _ ← mkElement ele.nodes
  let dup ← isDuplicate ord ele.type ele.nodes
  if dup ≠ [] then pure none
  else
    modify fun s => { s with
      maxEl := s.maxEl + 1
      elements := put s.elements (s.maxEl + 1) ele
      nodeEls := fun n => if n ∈ ele.nodes then insert (s.maxEl + 1) (s.nodeEls n) else s.nodeEls n
      modified := insert (s.maxEl + 1) s.modified }
    pure (some (← get).maxEl)

/-- `add_node` (heal_mesh.py:278-282). -/
def addNode (p : P) : M P Nat := do
  modify fun s => { s with
    maxNode := s.maxNode + 1
    nodes := put s.nodes (s.maxNode + 1) p
    nodeEls := Function.update s.nodeEls (s.maxNode + 1) ∅ }
  pure (← get).maxNode

/-- One turn of the loop of `remove_element` (heal_mesh.py:337-343). -/
def dropFrom (eid nid : Nat) : M P Unit := do
  let s ← get
  if eid ∈ s.nodeEls nid then
    modify fun s => { s with nodeEls := Function.update s.nodeEls nid ((s.nodeEls nid).erase eid) }
  else fail .keyError

/-- `remove_element` (heal_mesh.py:335-345). -/
def removeElement (eid : Nat) : M P Unit := do
  match look (← get).elements eid with
  | none => fail .keyError
  | some el =>
    forEach (ord el.nodes.toFinset) (dropFrom eid)
    modify fun s => { s with elements := del s.elements eid }

/-- `remove_node` (heal_mesh.py:330-333). -/
def removeNode (nid : Nat) : M P Unit := do
  let s ← get
  if s.nodeEls nid ≠ ∅ then fail .assertionError
  else if (look s.nodes nid).isNone then fail .keyError
  else modify fun s => { s with nodes := del s.nodes nid }

/-- `_make_element(eid)` for its exceptions only (heal_mesh.py:391-398). -/
def buildEl (eid : Nat) : M P Unit := do
  match look (← get).elements eid with
  | none => fail .keyError
  | some el => let _ ← mkElement el.nodes; pure ()

/-- `move_node` (heal_mesh.py:284-294): elements of the node are built before and after the move (for messages only, but
they raise for missing nodes). -/
def moveNode (nid : Nat) (p : P) : M P Unit := do
  let s ← get
  let els := ord (s.nodeEls nid)
  forActive els buildEl
  modify fun s => { s with nodes := put s.nodes nid p }
  forActive els buildEl
  modify fun s => { s with modified := s.modified ∪ s.nodeEls nid }

/-- Node substitution of `merge_node` (heal_mesh.py:322). -/
def subst (rm tgt : Nat) (ns : List Nat) : List Nat := ns.map fun n => if n = rm then tgt else n

/-- `merge_node` (heal_mesh.py:297-327); `avg` is the average position. -/
def mergeNode (avg : P → P → P) (rm tgt : Nat) : M P Nat := do
  if rm = tgt then fail .assertionError
  else
    let l ← common ord [rm, tgt]
    forActive l (removeElement ord)
    let s ← get
    match look s.nodes rm, look s.nodes tgt with
    | some a, some b =>
      moveNode ord tgt (avg a b)
      let l ← common ord [rm]
      forActive l fun eid => do
        match look (← get).elements eid with
        | none => fail .keyError
        | some el =>
          removeElement ord eid
          let _ ← addElement ord { el with nodes := subst rm tgt el.nodes }
          pure ()
      removeNode rm
      pure tgt
    | _, _ => fail .keyError

/-- `reset_modified` (heal_mesh.py:254-257). -/
def resetModified : M P (List Nat) := do
  let s ← get
  modify fun s => { s with modified := ∅ }
  pure (ord s.modified)

/-! ### The checks -/

/-- Local edges of an element with `n` nodes (heal_mesh.py:58, 134, 175, 187). -/
def edges : Nat → List (Nat × Nat)
  | 2 => [(0, 1)]
  | 3 => [(1, 2), (2, 0), (0, 1)]
  | 4 => [(0, 1), (0, 2), (0, 3), (2, 3), (1, 3), (1, 2)]
  | _ => []

/-- `Tetrahedron.vtxs_faces` (heal_mesh.py:55). -/
def faces : List (List Nat) := [[0, 1, 2], [0, 3, 1], [0, 2, 3], [1, 3, 2]]

/-- Outcome of the geometric part of `_check_flat_tetra` (heal_mesh.py:654-699, 717-745, 803-817). -/
inductive Flat (P : Type) where
  /-- a face is too small, the check does nothing -/
  | skip
  /-- one of the assertions fails (or numpy raises) -/
  | fail
  /-- quad case: the two crossing edges, the flattened nodes, the crossing point -/
  | quad (pos neg : Nat × Nat) (flat : List P) (isec : P)
  /-- triangle case: the outer face, the flattened nodes -/
  | tri (outer : Nat) (flat : List P)

/-- Outcome of the geometric part of `_check_flat_triangle` (heal_mesh.py:550-571). -/
inductive Proj (P : Type) where
  /-- the assertion `0 <= tt <= 1` fails -/
  | fail
  /-- the projection is near an end of the edge: `return []` -/
  | skip
  /-- project to the longest edge -/
  | go (iMax : Nat) (pos : P)

/-- All decisions that depend on positions. -/
structure Geo (P : Type) where
  avg : P → P → P
  /-- the shortest edge is below the node tolerance (heal_mesh.py:507-509) -/
  tooShort : List P → Bool
  /-- `argmin` of the edge lengths -/
  minEdge : List P → Nat
  /-- `gmsh_gamma() > gamma_tol`; `none` when the assertion in it fails -/
  good : List P → Option Bool
  /-- `argmin` of the face qualities of a tetrahedron -/
  minFace : List P → Nat
  flat : List P → Flat P
  proj : List P → Proj P

/-- `ele.node_ids[i]`; an index out of range is an IndexError (here 0): the indices come from `argmin`, see `Geo.Sane`. -/
def nth (ns : List Nat) (i : Nat) : Nat := ns.getD i 0

/-- Node ids of the edge with index `i`. -/
def edgeIds (ns : List Nat) (i : Nat) : Nat × Nat :=
  let e := (edges ns.length).getD i (0, 0)
  (nth ns e.1, nth ns e.2)

/-- `_check_dupl_nodes` (heal_mesh.py:477-486). -/
def checkDuplNodes (eid : Nat) (ns : List Nat) : M P (List Nat) := do
  match (edges ns.length).find? fun e => nth ns e.1 == nth ns e.2 with
  | none => pure []
  | some e =>
    removeElement ord eid
    let s ← get
    pure ((ord (s.nodeEls (nth ns e.1))).filter fun x => (look s.elements x).isSome)

/-- `_check_degen_nodes` (heal_mesh.py:499-515). -/
def checkDegenNodes (g : Geo P) (ns : List Nat) (ps : List P) : M P (List Nat) := do
  if ns.length = 1 then pure []
  else if g.tooShort ps then
    let e := edgeIds ns (g.minEdge ps)
    let _ ← mergeNode ord g.avg e.1 e.2
    resetModified ord
  else resetModified ord

/-- `_check_duplicate_element` (heal_mesh.py:489-497). -/
def checkDuplicateElement (eid type : Nat) (ns : List Nat) : M P (List Nat) := do
  let dup ← isDuplicate ord type ns
  if 1 < dup.length then
    forEach dup fun x => if x ≠ eid then removeElement ord x else pure ()
    pure [eid]
  else pure []

/-- `_check_small_edge` (heal_mesh.py:518-532). -/
def checkSmallEdge (g : Geo P) (ns : List Nat) (ps : List P) : M P (List Nat) := do
  let e := edgeIds ns (g.minEdge ps)
  let _ ← mergeNode ord g.avg e.1 e.2
  resetModified ord

/-- The new node list when the first `old` in `ns` is replaced by `new` (`index`, `copy`, assignment). -/
def replaceFirst (ns : List Nat) (old new : Nat) : List Nat :=
  match ns with
  | [] => []
  | n :: ns => if n = old then new :: ns else n :: replaceFirst ns old new

/-- Splitting of one element (heal_mesh.py:579-588, 774-784, 831-837): it is removed, and for every given node a copy with
that node replaced by `new` is added. -/
def splitElement (eid : Nat) (olds : List Nat) (new : Nat) (warn : Bool) : M P Unit := do
  match look (← get).elements eid with
  | none => fail .keyError
  | some el =>
    if warn && olds.any (fun o => !el.nodes.contains o) then pure ()
    else
      removeElement ord eid
      forEach olds fun o =>
        if o ∈ el.nodes then do
          let _ ← addElement ord { el with nodes := replaceFirst el.nodes o new }
          pure ()
        else fail .valueError

/-- `_check_flat_triangle` (heal_mesh.py:535-590). -/
def checkFlatTriangle (g : Geo P) (ns : List Nat) (ps : List P) : M P (List Nat) := do
  if ns.length < 3 then pure []
  else
    let loc := if ns.length = 4 then faces.getD (g.minFace ps) [] else [0, 1, 2]
    let tri := loc.map (nth ns)
    let tps := loc.filterMap fun i => ps[i]?
    let l ← common ord tri
    forActive l (removeElement ord)
    match g.proj tps with
    | .fail => fail .assertionError
    | .skip => pure []
    | .go iMax pos =>
      let nidProj := nth tri iMax
      moveNode ord nidProj pos
      let e := edgeIds tri iMax
      let l ← common ord [e.1, e.2]
      forActive l fun eid => splitElement ord eid [e.1, e.2] nidProj true
      resetModified ord

/-- `_check_flat_tetra`, `_heal_quad_flat_case`, `_heal_triangle_flat_case` (heal_mesh.py:647-699, 748-786, 819-838). -/
def checkFlatTetra (g : Geo P) (eid : Nat) (ns : List Nat) (ps : List P) : M P (List Nat) := do
  if ns.length ≠ 4 then pure []
  else
    match g.flat ps with
    | .skip => pure []
    | .fail => fail .assertionError
    | .quad pos neg flat isec =>
      forEach (ns.zip flat) fun np => moveNode ord np.1 np.2
      removeElement ord eid
      let new ← addNode isec
      let perm := [pos.1, pos.2, neg.1, neg.2]
      forEach [[0, 1, 2], [0, 1, 3], [2, 3, 0], [2, 3, 1]] fun cf => do
        let face := cf.map fun c => nth ns (nth perm c)
        let l ← common ord face
        forActive l fun el => splitElement ord el [nth face 0, nth face 1] new true
      resetModified ord
    | .tri outer flat =>
      forEach (ns.zip flat) fun np => moveNode ord np.1 np.2
      removeElement ord eid
      let outerIds := (faces.getD outer []).map (nth ns)
      let l ← common ord outerIds
      forActive l fun el => splitElement ord el outerIds (nth ns (3 - outer)) false
      resetModified ord

/-- One turn of the loop of `heal_mesh` after `pop` (heal_mesh.py:457-473): the list called `modified`. -/
def healOne (g : Geo P) (eid : Nat) : M P (List Nat) := do
  match look (← get).elements eid with
  | none => pure []
  | some el =>
    let ps ← mkElement el.nodes
    let m ← checkDuplNodes ord eid el.nodes
    if m ≠ [] then return m
    let m ← checkDegenNodes ord g el.nodes ps
    if m ≠ [] then return m
    let m ← checkDuplicateElement ord eid el.type el.nodes
    if m ≠ [] then return m
    if el.nodes.length < 3 then return []
    match g.good ps with
    | none => fail .assertionError
    | some true => return []
    | some false =>
      let m ← checkFlatTetra ord g eid el.nodes ps
      if m ≠ [] then return m
      let m ← checkFlatTriangle ord g el.nodes ps
      if m ≠ [] then return m
      checkSmallEdge ord g el.nodes ps

/-- The loop of `heal_mesh` (heal_mesh.py:450-473). `stack` is the deque, its right end first. The result is `false` when the
model was given too few turns (`fuel`), `true` when the loop has ended. -/
def healLoop (g : Geo P) (limit : Nat) : Nat → List Nat → List Nat → M P Bool
  | 0, _, _ => pure false
  | fuel + 1, stack, modified => do
    if stack = [] then pure true
    else
      let stack := modified.reverse ++ stack
      if limit < (← get).maxEl then pure true
      else
        match stack with
        | [] => pure true
        | eid :: rest => do
          let m ← healOne ord g eid
          healLoop g limit fuel rest m

/-- `heal_mesh` (heal_mesh.py:444-473). `limit` is `fraction_of_new_els * orig_n_el` rounded down, which makes no difference
to the test `max_ele_id > …`. -/
def healMesh (g : Geo P) (limit fuel : Nat) : M P Bool := do
  let s ← get
  healLoop ord g limit fuel (s.elements.map Prod.fst).reverse []

/-- `make_node_to_el` (heal_mesh.py:240-248). -/
def makeNodeToEl (els : List (Nat × Elem)) (n : Nat) : Finset Nat :=
  ((els.filter fun p => n ∈ p.2.nodes).map Prod.fst).toFinset

/-- `HealMesh.__init__` (heal_mesh.py:220-229); `max` of an empty sequence is a ValueError. -/
def init (els : List (Nat × Elem)) (nodes : List (Nat × P)) : Except Err (St P) :=
  match els.map Prod.fst, nodes.map Prod.fst with
  | e :: es, n :: ns =>
    .ok ⟨els, nodes, makeNodeToEl els, (e :: es).foldl max 0, (n :: ns).foldl max 0, ∅⟩
  | _, _ => .error .valueError

end Verif.Heal
