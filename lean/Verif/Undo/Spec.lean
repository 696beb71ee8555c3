import Verif.Undo.Model
/-!
Specification of the undo system: a history of document states with a current position.
It mentions generators (the user's code) and operations, but not the stack.
-/
namespace Verif.Undo

variable {D E : Type}

/-- The user's undo code is the inverse of the user's do code. -/
def Gen.Invertible (g : Gen D E) : Prop :=
  ∀ d d' txt u, g.run d = (d', .ok (txt, u)) → u d' = (d, none)

/-- The user's do code leaves the document alone if it raises. -/
def Gen.Atomic (g : Gen D E) : Prop :=
  ∀ d d' e, g.run d = (d', .error e) → d' = d

/-- Document history. `past`: the states before each undoable step with the step's text, latest first; `future`: the
states after each redoable step with its text, next first. -/
structure Hist (D : Type) where
  past : List (D × String)
  now : D
  future : List (D × String)

/-- Apply user operations one after another; `none` if one raises. -/
def applyAll : List (Gen D E) → D → Option D
  | [], d => some d
  | g :: gs, d =>
    match g.run d with
    | (d', .ok _) => applyAll gs d'
    | (_, .error _) => none

/-- What an operation does to the history. `none`: the operation is outside this specification (recording is switched
off, or an exception leaves a group). -/
def Hist.step (h : Hist D) : Op D E → Option (Hist D)
  | .call g =>
    match g.run h.now with
    | (d', .ok (txt, _)) => some ⟨(h.now, txt) :: h.past, d', []⟩
    | (_, .error _) => some h
  | .group fmt gs =>
    match applyAll gs h.now with
    | some d' => some ⟨(h.now, fmt gs.length) :: h.past, d', []⟩
    | none => none
  | .undo =>
    match h.past with
    | [] => some h
    | (p, t) :: ps => some ⟨ps, p, (h.now, t) :: h.future⟩
  | .redo =>
    match h.future with
    | [] => some h
    | (f, t) :: fs => some ⟨(h.now, t) :: h.past, f, fs⟩
  | .clear => some ⟨[], h.now, []⟩
  | .savepoint => some h
  | .enable => some h
  | .disable => none

/-- A sequence of operations on the history. -/
def Hist.run (h : Hist D) : List (Op D E) → Option (Hist D)
  | [] => some h
  | o :: os => (h.step o).bind fun h' => h'.run os

/-- The generators that an operation calls. -/
def Op.gens : Op D E → List (Gen D E)
  | .call g => [g]
  | .group _ gs => gs
  | _ => []

/-- All generators that a program calls have correct undo code and do not leave half-done changes. -/
def WellBehaved (ops : List (Op D E)) : Prop :=
  ∀ o ∈ ops, ∀ g ∈ o.gens, g.Invertible ∧ g.Atomic

/-- A generator from a total do function and a total undo function. -/
def Gen.total (txt : String) (f u : D → D) : Gen D E :=
  { run := fun d => (f d, .ok (txt, fun d => (u d, none))) }

end Verif.Undo
