import Mathlib.Data.List.Basic

/-!
Model of `OptionsBase` (src/bgem/gmsh/options.py:62-127). The calls `gmsh.option.setNumber` and `setString` are recorded.
-/
namespace Verif.Gmsh.Options

/-- Types of options: `int`, `float`, `bool`, `str`, an `Enum` class, or another type. -/
inductive Ty where
  | int | float | bool | str | enum | other
  deriving DecidableEq, Repr

/-- Python values by what `instance_setattr` tells apart: numbers, which are instances of `int`, `float`, `bool` or of an
`IntEnum` (these are instances of `int`), strings, classes, and others (also members of a plain `Enum`). A number is represented
by a rational written as numerator and denominator, it is only passed on. -/
inductive Val where
  | num (t : Ty) (x : Int × Nat)
  | str (x : String)
  | cls (t : Ty)
  | other (t : Ty)
  deriving DecidableEq, Repr

/-- `type(value)` (options.py:100). -/
def Val.ty : Val → Ty
  | .num t _ => t
  | .str _ => .str
  | .cls _ => .other
  | .other t => t

inductive Err where
  | assertion | value
  deriving DecidableEq, Repr

/-- Recorded calls of `gmsh.option`. -/
inductive Call where
  | number (name : String) (x : Int × Nat)
  | string (name : String) (x : String)
  deriving DecidableEq, Repr

/-- `prefix`, `names_map` (options.py:76-81; the first component of the values is the key itself), if `_sa` is
`instance_setattr`, and the calls made so far. -/
structure St where
  pre : String
  map : List (String × Ty)
  done : Bool
  calls : List Call
  deriving DecidableEq, Repr

/-- `OptionsBase.__init__` (options.py:76-81). -/
def init (p : String) : St := ⟨p, [], false, []⟩

/-- `finish_init` (options.py:85-86). -/
def finishInit (s : St) : St := { s with done := true }

/-- The item of `names_map`; an assignment replaces it, so the last counts. -/
def look (k : String) : List (String × Ty) → Option Ty
  | [] => none
  | (k', t) :: l => match look k l with
    | some t' => some t'
    | none => if k' = k then some t else none

/-- `option_type in {int, float, bool} or issubclass(option_type, enum.Enum)` (options.py:121). -/
def Ty.numeric : Ty → Bool
  | .int | .float | .bool | .enum => true
  | .str | .other => false

/-- `instance_setattr` (options.py:116-127). -/
def instanceSet (k : String) (v : Val) (s : St) : Except Err Unit × St :=
  match look k s.map with
  | none => (.error .assertion, s)
  | some t =>
    match v with
    | .num _ x => if t.numeric then (.ok (), { s with calls := s.calls ++ [.number (s.pre ++ k) x] }) else (.error .assertion, s)
    | .str x => if t = .str then (.ok (), { s with calls := s.calls ++ [.string (s.pre ++ k) x] }) else (.error .assertion, s)
    | _ => (.error .value, s)

/-- `_add` (options.py:89-102). -/
def add (k : String) (v : Val) (s : St) : Except Err Unit × St :=
  match v with
  | .cls t => (.ok (), { s with map := s.map ++ [(k, t)] })
  | _ => instanceSet k v { s with map := s.map ++ [(k, v.ty)] }

/-- `__setattr__` (options.py:104-105) with `init_setattr` (108-112) or `instance_setattr`. -/
def setattr (k : String) (v : Val) (s : St) : Except Err Unit × St := if s.done then instanceSet k v s else add k v s

/-- Python gives the right types to its numbers. -/
def Val.Ok : Val → Prop
  | .num t _ => t.numeric = true
  | _ => True

/-- The states of an object made by `C(prefix)` by assignments, also raising ones, and `finish_init`. -/
inductive Reach (p : String) : St → Prop
  | init : Reach p (init p)
  | set {s : St} {k : String} {v : Val} : Reach p s → v.Ok → Reach p (setattr k v s).2
  | finish {s : St} : Reach p s → Reach p (finishInit s)

/-- After `finish_init`, assigning an undeclared option raises, and nothing is called. -/
theorem unknown_rejected {s : St} (hd : s.done = true) {k : String} (hk : look k s.map = none) (v : Val) :
    setattr k v s = (.error .assertion, s) := by
  unfold setattr instanceSet
  rw [if_pos hd, hk]

/-- An assignment to a declared option makes exactly one call with the prefixed name, of the kind of the option; a number for a
string option, a string for a number option and other values raise and call nothing. Declared options stay as they are. -/
theorem declared_forwards {p : String} {s : St} (h : Reach p s) (hd : s.done = true) {k : String} {t : Ty}
    (hk : look k s.map = some t) (v : Val) :
    (∀ c x, v = .num c x → t.numeric = true → setattr k v s = (.ok (), { s with calls := s.calls ++ [.number (p ++ k) x] })) ∧
    (∀ x, v = .str x → t = .str → setattr k v s = (.ok (), { s with calls := s.calls ++ [.string (p ++ k) x] })) ∧
    (∀ c x, v = .num c x → t.numeric = false → setattr k v s = (.error .assertion, s)) ∧
    (∀ x, v = .str x → t ≠ .str → setattr k v s = (.error .assertion, s)) ∧
    ((∀ c x, v ≠ .num c x) → (∀ x, v ≠ .str x) → setattr k v s = (.error .value, s)) := by
  have hp : s.pre = p := by
    clear hk hd
    induction h with
    | init => rfl
    | @set s k v _ _ ih =>
      rw [← ih]
      unfold setattr add instanceSet
      split
      · split
        · rfl
        · split
          · split <;> rfl
          · split <;> rfl
          · rfl
      · split
        · rfl
        · split
          · rfl
          · split
            · split <;> rfl
            · split <;> rfl
            · rfl
    | finish _ ih => exact ih
  unfold setattr instanceSet
  rw [if_pos hd, hk]
  subst hp
  refine ⟨?_, ?_, ?_, ?_, ?_⟩
  · rintro c x rfl ht; simp [ht]
  · rintro x rfl rfl; rfl
  · rintro c x rfl ht; simp [ht]
  · rintro x rfl ht; simp [ht]
  · intro h1 h2
    cases v with
    | num c x => exact absurd rfl (h1 c x)
    | str x => exact absurd rfl (h2 x)
    | cls => rfl
    | other => rfl

theorem look_append (k k' : String) (t : Ty) : ∀ m : List (String × Ty),
    look k (m ++ [(k', t)]) = if k' = k then some t else look k m
  | [] => by simp [look]
  | (a, b) :: m => by
    rw [List.cons_append, look, look_append k k' t m, look]
    by_cases h : k' = k
    · simp [h]
    · simp [h]

theorem map_mono {s : St} {k x : String} {v : Val} {t : Ty} (h : look x s.map = some t) :
    ∃ t', look x (setattr k v s).2.map = some t' := by
  have inst : ∀ {s : St} {v : Val}, (instanceSet k v s).2.map = s.map := by
    intro s v
    unfold instanceSet
    split
    · rfl
    · split
      · split <;> rfl
      · split <;> rfl
      · rfl
  unfold setattr
  split
  · exact ⟨t, by rw [inst]; exact h⟩
  · unfold add
    split
    · dsimp only
      rw [look_append]
      split
      · exact ⟨_, rfl⟩
      · exact ⟨t, h⟩
    · rw [inst]
      dsimp only
      rw [look_append]
      split
      · exact ⟨_, rfl⟩
      · exact ⟨t, h⟩

/-- All calls ever made are for declared options with the prefixed name. -/
theorem calls_declared {p : String} {s : St} (h : Reach p s) : ∀ c ∈ s.calls, ∃ k t, look k s.map = some t ∧
    ((∃ x, c = .number (p ++ k) x) ∨ (∃ x, c = .string (p ++ k) x)) := by
  have pre : s.pre = p ∧ ∀ c ∈ s.calls, ∃ k t, look k s.map = some t ∧
      ((∃ x, c = .number (p ++ k) x) ∨ (∃ x, c = .string (p ++ k) x)) := by
    have inst : ∀ {s : St} {k : String} {v : Val}, (s.pre = p ∧ ∀ c ∈ s.calls, ∃ k t, look k s.map = some t ∧
        ((∃ x, c = .number (p ++ k) x) ∨ (∃ x, c = .string (p ++ k) x))) →
        ((instanceSet k v s).2.pre = p ∧ ∀ c ∈ (instanceSet k v s).2.calls, ∃ k' t, look k' (instanceSet k v s).2.map = some t ∧
        ((∃ x, c = .number (p ++ k') x) ∨ (∃ x, c = .string (p ++ k') x))) := by
      rintro s k v ⟨rfl, hc⟩
      unfold instanceSet
      split
      · exact ⟨rfl, hc⟩
      · rename_i t ht
        split
        · rename_i x
          split
          · refine ⟨rfl, fun c hcm => ?_⟩
            rcases List.mem_append.1 hcm with h1 | h1
            · exact hc c h1
            · exact ⟨k, t, ht, Or.inl ⟨x, List.mem_singleton.1 h1⟩⟩
          · exact ⟨rfl, hc⟩
        · rename_i x
          split
          · refine ⟨rfl, fun c hcm => ?_⟩
            rcases List.mem_append.1 hcm with h1 | h1
            · exact hc c h1
            · exact ⟨k, t, ht, Or.inr ⟨x, List.mem_singleton.1 h1⟩⟩
          · exact ⟨rfl, hc⟩
        · exact ⟨rfl, hc⟩
    have more : ∀ {s : St} {k : String} {t : Ty}, (s.pre = p ∧ ∀ c ∈ s.calls, ∃ k t, look k s.map = some t ∧
        ((∃ x, c = .number (p ++ k) x) ∨ (∃ x, c = .string (p ++ k) x))) →
        (s.pre = p ∧ ∀ c ∈ s.calls, ∃ k' t', look k' (s.map ++ [(k, t)]) = some t' ∧
        ((∃ x, c = .number (p ++ k') x) ∨ (∃ x, c = .string (p ++ k') x))) := by
      rintro s k t ⟨hp, hc⟩
      refine ⟨hp, fun c hcm => ?_⟩
      obtain ⟨k', t', h1, h2⟩ := hc c hcm
      by_cases he : k = k'
      · exact ⟨k', t, by rw [look_append, if_pos he], h2⟩
      · exact ⟨k', t', by rw [look_append, if_neg he]; exact h1, h2⟩
    induction h with
    | init => exact ⟨rfl, by simp [init]⟩
    | @set s k v _ _ ih =>
      unfold setattr
      split
      · exact inst ih
      · unfold add
        split
        · exact more ih
        · exact inst (more ih)
    | finish _ ih => exact ih
  exact pre.2

/-- A concrete object: an option declared by a default, one by a type, a string option; then assignments. -/
example :
    let s := finishInit (setattr "Format" (.cls .str) (setattr "Max" (.cls .float) (setattr "Algorithm" (.num .enum (2, 1))
      (init "Mesh.")).2).2).2
    s.calls = [.number "Mesh.Algorithm" (2, 1)] ∧
    setattr "Max" (.num .int (3, 1)) s = (.ok (), { s with calls := s.calls ++ [.number "Mesh.Max" (3, 1)] }) ∧
    (setattr "Format" (.str "msh") s).2.calls = s.calls ++ [.string "Mesh.Format" "msh"] ∧
    setattr "Max" (.str "3") s = (.error .assertion, s) ∧ setattr "Format" (.num .int (3, 1)) s = (.error .assertion, s) ∧
    setattr "Min" (.num .int (3, 1)) s = (.error .assertion, s) ∧ setattr "Max" (.other .other) s = (.error .value, s) := by
  decide

end Verif.Gmsh.Options
