import Verif.IdMap.Model
/-! Specification notions for `IdMap`: they speak about calls and objects only. -/
namespace Verif.IdMap

variable {O : Type} [DecidableEq O]

/-- The objects in the map after the calls, latest first; `none` if a call is outside the contract: an object that is in
the map is appended again, or one that is not in the map is removed. -/
def live : List O → List (Op O) → Option (List O)
  | l, [] => some l
  | l, .append o :: os => if o ∈ l then none else live (o :: l) os
  | l, .remove o :: os => if o ∈ l then live (l.erase o) os else none

/-- The largest number of objects that were in the map at one time. -/
def peak : List O → List (Op O) → Nat
  | l, [] => l.length
  | l, .append o :: os => max l.length (peak (o :: l) os)
  | l, .remove o :: os => max l.length (peak (l.erase o) os)

/-- The call that takes a call back. -/
def Op.inv : Op O → Op O
  | .append o => .remove o
  | .remove o => .append o

end Verif.IdMap
