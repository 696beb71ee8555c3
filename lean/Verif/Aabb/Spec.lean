import Verif.Aabb.Model
/-! Specification notions for the box lookup: which boxes are stored, and plain geometry. -/
namespace Verif.Aabb

variable {K : Type} [Field K] [LinearOrder K]

/-- The lookup as a plain map from ids to boxes. -/
def specStep (m : Nat → Option (Box K)) : Op K → Nat → Option (Box K)
  | .add j b => fun i => if i = j then some b else m i
  | .rm j => fun i => if i = j then none else m i

/-- The box stored under an id after the calls. -/
def stored (ops : List (Op K)) : Nat → Option (Box K) := ops.foldl specStep fun _ => none

/-- The point is in the closed box. -/
def Box.Has (a : Box K) (q : Pt K) : Prop := a.x0 ≤ q.x ∧ q.x ≤ a.x1 ∧ a.y0 ≤ q.y ∧ q.y ≤ a.y1

/-- The closed boxes have a point in common. -/
def Overlap (a b : Box K) : Prop := ∃ q : Pt K, a.Has q ∧ b.Has q

/-- `min ≤ max` on both axes. -/
def Box.Valid (a : Box K) : Prop := a.x0 ≤ a.x1 ∧ a.y0 ≤ a.y1

/-- All coordinates are at most `B` in absolute value. -/
def Box.Within (a : Box K) (B : K) : Prop :=
  -B ≤ a.x0 ∧ a.x0 ≤ B ∧ -B ≤ a.y0 ∧ a.y0 ≤ B ∧ -B ≤ a.x1 ∧ a.x1 ≤ B ∧ -B ≤ a.y1 ∧ a.y1 ≤ B

/-- All coordinates are at most `B` in absolute value. -/
def Pt.Within (p : Pt K) (B : K) : Prop := -B ≤ p.x ∧ p.x ≤ B ∧ -B ≤ p.y ∧ p.y ≤ B

/-- Squared Euclidean distance. -/
def dist2 (p q : Pt K) : K := (p.x - q.x) * (p.x - q.x) + (p.y - q.y) * (p.y - q.y)

end Verif.Aabb
