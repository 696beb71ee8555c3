/-!
Model of `src/bgem/polygons/idmap.py`.
-/
namespace Verif.IdMap

/-- Exceptions of `IdMap.remove`: `obj.id` missing, or key not in the dict (idmap.py:44-46). -/
inductive Err where
  | attributeError
  | keyError
  deriving DecidableEq

/-- State of one `IdMap` (idmap.py:23-29) with the `id` attributes of the objects. `O` is the type of object references.
`next` is `_next_id`; `free` is `_free_ids` with its right end first; `tbl` is the dict; `idOf o` is `o.id` if set.
Simplification: an object's `id` attribute is used by this map only. -/
structure St (O : Type) where
  next : Int
  free : List Int
  tbl : Int → Option O
  idOf : O → Option Int

variable {O : Type} [DecidableEq O]

/-- `IdMap.__init__` (idmap.py:24-29). -/
def init : St O := { next := -1, free := [], tbl := fun _ => none, idOf := fun _ => none }

/-- `IdMap.get_new_id` (idmap.py:32-36). -/
def getNewId (s : St O) : Int × St O :=
  match s.free with
  | i :: rest => (i, { s with free := rest })
  | [] => (s.next + 1, { s with next := s.next + 1 })

/-- `IdMap.append` (idmap.py:38-42). -/
def append (o : O) (s : St O) : St O :=
  let (i, s) := getNewId s
  { s with
    idOf := fun p => if p = o then some i else s.idOf p
    tbl := fun k => if k = i then some o else s.tbl k }

/-- `IdMap.remove` (idmap.py:44-46). -/
def remove (o : O) (s : St O) : Except Err (St O) :=
  match s.idOf o with
  | none => .error .attributeError
  | some i =>
    match s.tbl i with
    | none => .error .keyError
    | some _ => .ok { s with tbl := fun k => if k = i then none else s.tbl k, free := i :: s.free }

/-- A call on the map. -/
inductive Op (O : Type) where
  | append (o : O)
  | remove (o : O)

/-- One call. -/
def step (s : St O) : Op O → Except Err (St O)
  | .append o => .ok (append o s)
  | .remove o => remove o s

/-- Calls one after another; the first exception stops. -/
def run (s : St O) : List (Op O) → Except Err (St O)
  | [] => .ok s
  | o :: os =>
    match step s o with
    | .ok s' => run s' os
    | .error e => .error e

end Verif.IdMap
