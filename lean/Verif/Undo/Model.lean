/-!
Model of `src/bgem/undo.py`.

The document is an arbitrary type `D`, the exceptions that user code raises an arbitrary type `E`.
-/

namespace Verif.Undo

/-- Exceptions that can leave an `undo`/`redo`/action call: one raised by user code, or the `AttributeError` of
`self._runner` after `del self._runner` (undo.py:61-65). -/
inductive Err (E : Type) where
  | user (e : E)
  | attributeError
  deriving DecidableEq

/-- A generator function with its arguments bound (undo.py:38-46, 72-93).  `run d` is the part up to the first
`yield`: the document it leaves, and either the exception or the yielded text together with the rest of the generator
(what the second `next` runs, undo.py:61).
Simplifications: the extra yielded values returned to the caller (undo.py:48-50, 87-92) are dropped; the generator body
does not itself call the undo stack; the rest of the generator depends on the document only (its captured locals are
inside the closure). -/
structure Gen (D E : Type) where
  run : D → D × Except E (String × (D → D × Option E))

/-- `_Action` (undo.py:29-42): the bound generator, `_text`, and the attribute `_runner` if present. -/
structure Action (D E : Type) where
  gen : Gen D E
  text : String
  runner : Option (D → D × Option E)

variable {D E : Type}

/-- `_Action.__init__` (undo.py:38-42). -/
def Action.new (g : Gen D E) : Action D E := { gen := g, text := "", runner := none }

/-- A Python generator that is finished or has raised: `next` on it only raises `StopIteration`, which `_Action.undo`
swallows (undo.py:60-63). -/
def exhausted : D → D × Option E := fun d => (d, none)

/-- `_Action.do` (undo.py:44-56). `_runner` is assigned before the generator is advanced, so a failing `do` leaves an
exhausted generator there. -/
def Action.do (a : Action D E) (d : D) : D × Action D E × Option (Err E) :=
  match a.gen.run d with
  | (d', .ok (txt, u)) => (d', { a with text := txt, runner := some u }, none)
  | (d', .error e) => (d', { a with runner := some exhausted }, some (.user e))

/-- `_Action.undo` (undo.py:58-65). If the rest of the generator raises, `del` is not reached and the generator that
stays there is exhausted. -/
def Action.undo (a : Action D E) (d : D) : D × Action D E × Option (Err E) :=
  match a.runner with
  | none => (d, a, some .attributeError)
  | some u =>
    match u d with
    | (d', none) => (d', { a with runner := none }, none)
    | (d', some e) => (d', { a with runner := some exhausted }, some (.user e))

/-- What the stack holds: an `_Action` or a `_Group` (undo.py:96-121). `fmt n` is `desc.format(count=n)`; the items are
in the order of appending. -/
inductive Item (D E : Type) where
  | act (a : Action D E)
  | group (fmt : Nat → String) (items : List (Item D E))

mutual
/-- `do` of an action or of a group (undo.py:44-56, 116-118). -/
def Item.do : Item D E → D → D × Item D E × Option (Err E)
  | .act a, d =>
    match a.do d with
    | (d', a', r) => (d', .act a', r)
  | .group fmt items, d =>
    match doList items d with
    | (d', items', r) => (d', .group fmt items', r)
/-- The loop `for undoable in self._stack: undoable.do()` (undo.py:117-118): an exception leaves the loop. -/
def doList : List (Item D E) → D → D × List (Item D E) × Option (Err E)
  | [], d => (d, [], none)
  | x :: xs, d =>
    match x.do d with
    | (d1, x', some e) => (d1, x' :: xs, some e)
    | (d1, x', none) =>
      match doList xs d1 with
      | (d2, xs', r) => (d2, x' :: xs', r)
end

mutual
/-- `undo` of an action or of a group (undo.py:58-65, 112-114). -/
def Item.undo : Item D E → D → D × Item D E × Option (Err E)
  | .act a, d =>
    match a.undo d with
    | (d', a', r) => (d', .act a', r)
  | .group fmt items, d =>
    match undoList items d with
    | (d', items', r) => (d', .group fmt items', r)
/-- The loop `for undoable in reversed(self._stack): undoable.undo()` (undo.py:113-114): the last item first. -/
def undoList : List (Item D E) → D → D × List (Item D E) × Option (Err E)
  | [], d => (d, [], none)
  | x :: xs, d =>
    match undoList xs d with
    | (d1, xs', some e) => (d1, x :: xs', some e)
    | (d1, xs', none) =>
      match x.undo d1 with
      | (d2, x', r) => (d2, x' :: xs', r)
end

/-- `_Action.text` / `_Group.text` (undo.py:67-69, 120-121). -/
def Item.text : Item D E → String
  | .act a => a.text
  | .group fmt items => fmt items.length

/-- What `Stack._receiver` refers to: the main list `_undos`, the list of the `n`-th group object made so far, or
`None` (polygons.py:22-24).  The throw-away list of `_pausereceiver` (undo.py:270-275) is only there while an
undo/redo runs and is never seen between calls. -/
inductive Recv where
  | undos
  | grp (n : Nat)
  | off
  deriving DecidableEq

/-- `Stack` (undo.py:197-203) without the two callbacks.  The head of `undos`/`redos` is the right end of the deque.
`lists n` is the list object `_stack` of the `n`-th group made so far, in order of appending, `nlists` their number. -/
structure Stack (D E : Type) where
  undos : List (Item D E)
  redos : List (Item D E)
  recv : Recv
  lists : Nat → List (Item D E)
  nlists : Nat
  savepoint : Option Nat

/-- `Stack.__init__` (undo.py:197-203). -/
def Stack.init : Stack D E :=
  { undos := [], redos := [], recv := .undos, lists := fun _ => [], nlists := 0, savepoint := none }

/-- `Stack.canundo` (undo.py:205-207). -/
def Stack.canundo (s : Stack D E) : Bool := decide (s.undos.length > 0)
/-- `Stack.canredo` (undo.py:209-211). -/
def Stack.canredo (s : Stack D E) : Bool := decide (s.redos.length > 0)
/-- `Stack.undocount` (undo.py:252-254). -/
def Stack.undocount (s : Stack D E) : Nat := s.undos.length
/-- `Stack.redocount` (undo.py:256-258), as written: the length of `_undos`. -/
def Stack.redocount (s : Stack D E) : Nat := s.undos.length
/-- `Stack.undotext` (undo.py:260-263) without the prefix `Undo ` and `strip`. -/
def Stack.undotext (s : Stack D E) : Option String := s.undos.head?.map Item.text
/-- `Stack.redotext` (undo.py:265-268) without the prefix `Redo ` and `strip`. -/
def Stack.redotext (s : Stack D E) : Option String := s.redos.head?.map Item.text

/-- `Stack.clear` (undo.py:245-250). -/
def Stack.clear (s : Stack D E) : Stack D E :=
  { s with undos := [], redos := [], savepoint := none, recv := .undos }

/-- `Stack.append` (undo.py:290-296). -/
def Stack.append (s : Stack D E) (it : Item D E) : Stack D E :=
  match s.recv with
  | .undos => { s with undos := it :: s.undos, redos := [] }
  | .grp n => { s with lists := fun k => if k = n then s.lists n ++ [it] else s.lists k }
  | .off => s

/-- `Stack.resetreceiver` (undo.py:286-288); also `enable_undo` (polygons.py:27-29). -/
def Stack.resetreceiver (s : Stack D E) : Stack D E := { s with recv := .undos }
/-- `disable_undo` (polygons.py:22-24). -/
def Stack.disable (s : Stack D E) : Stack D E := { s with recv := .off }
/-- `Stack.savepoint` (undo.py:298-300). -/
def Stack.setSavepoint (s : Stack D E) : Stack D E := { s with savepoint := some s.undocount }
/-- `Stack.haschanged` (undo.py:302-307). -/
def Stack.haschanged (s : Stack D E) : Bool :=
  match s.savepoint with
  | none => true
  | some n => decide (n ≠ s.undocount)

/-- The document together with the stack that records its changes. -/
structure World (D E : Type) where
  doc : D
  stk : Stack D E

/-- `Stack.undo` (undo.py:231-243): the exception that leaves the call, if any, is the second component. -/
def undo (w : World D E) : World D E × Option (Err E) :=
  match w.stk.undos with
  | [] => (w, none)
  | it :: rest =>
    match it.undo w.doc with
    | (d', it', none) =>
      ({ doc := d', stk := { w.stk with undos := rest, redos := it' :: w.stk.redos, recv := .undos } }, none)
    | (d', _, some e) => ({ doc := d', stk := w.stk.clear }, some e)

/-- `Stack.redo` (undo.py:213-229). -/
def redo (w : World D E) : World D E × Option (Err E) :=
  match w.stk.redos with
  | [] => (w, none)
  | it :: rest =>
    match it.do w.doc with
    | (d', it', none) =>
      ({ doc := d', stk := { w.stk with redos := rest, undos := it' :: w.stk.undos, recv := .undos } }, none)
    | (d', _, some e) => ({ doc := d', stk := w.stk.clear }, some e)

/-- A call of a function decorated by `undoable` (undo.py:83-92). -/
def call (g : Gen D E) (w : World D E) : World D E × Option (Err E) :=
  match (Action.new g).do w.doc with
  | (d', a, none) => ({ doc := d', stk := w.stk.append (.act a) }, none)
  | (d', _, some e) => ({ w with doc := d' }, some e)

/-- `_Group.__init__` and `_Group.__enter__` (undo.py:99-104) of a fresh group object; its number is `nlists`. -/
def enter (w : World D E) : World D E :=
  { w with stk := { w.stk with
      recv := .grp w.stk.nlists
      lists := fun k => if k = w.stk.nlists then [] else w.stk.lists k
      nlists := w.stk.nlists + 1 } }

/-- `_Group.__exit__` of group number `n` without an exception (undo.py:106-110). -/
def exitOk (fmt : Nat → String) (n : Nat) (w : World D E) : World D E :=
  { w with stk := w.stk.resetreceiver.append (.group fmt (w.stk.lists n)) }

/-- `_Group.__exit__` when an exception leaves the `with` body (undo.py:106-110): nothing happens. -/
def exitExc (_n : Nat) (w : World D E) : World D E := w

/-- Calls one after another; the first exception ends the sequence. -/
def calls : List (Gen D E) → World D E → World D E × Option (Err E)
  | [], w => (w, none)
  | g :: gs, w =>
    match call g w with
    | (w', none) => calls gs w'
    | (w', some e) => (w', some e)

/-- `with group(desc): g1(); g2(); ...` -/
def withGroup (fmt : Nat → String) (gs : List (Gen D E)) (w : World D E) : World D E × Option (Err E) :=
  let n := w.stk.nlists
  match calls gs (enter w) with
  | (w', none) => (exitOk fmt n w', none)
  | (w', some e) => (exitExc n w', some e)

/-- What a program can do between two observations. -/
inductive Op (D E : Type) where
  | call (g : Gen D E)
  | group (fmt : Nat → String) (gs : List (Gen D E))
  | undo
  | redo
  | clear
  | savepoint
  | disable
  | enable

/-- One operation and the exception it raises, if any. -/
def step (w : World D E) : Op D E → World D E × Option (Err E)
  | .call g => call g w
  | .group fmt gs => withGroup fmt gs w
  | .undo => undo w
  | .redo => redo w
  | .clear => ({ w with stk := w.stk.clear }, none)
  | .savepoint => ({ w with stk := w.stk.setSavepoint }, none)
  | .disable => ({ w with stk := w.stk.disable }, none)
  | .enable => ({ w with stk := w.stk.resetreceiver }, none)

/-- A program that catches every exception and goes on. -/
def run (w : World D E) (ops : List (Op D E)) : World D E := ops.foldl (fun w o => (step w o).1) w

end Verif.Undo
