import Mathlib.Tactic.FieldSimp
import Mathlib.Tactic.Positivity
import Verif.Heal.Fail

/-!
Shape quality of a triangle and projection to its longest edge.
-/
namespace Verif.Heal

variable {K : Type} [Field K] [LinearOrder K] [IsStrictOrderedRing K]

theorem padoa_id (x y z : K) : (x + y) * (y + z) * (z + x) - 8 * (x * y * z) =
    x * (y - z) ^ 2 + y * (z - x) ^ 2 + z * (x - y) ^ 2 := by ring

theorem gamma_form {a b c : K} (ha : a ≠ 0) (hb : b ≠ 0) (hc : c ≠ 0) :
    8 * ((a + b + c) / 2 / a - 1) * ((a + b + c) / 2 / b - 1) * ((a + b + c) / 2 / c - 1) =
      (b + c - a) * (a + c - b) * (a + b - c) / (a * b * c) := by
  field_simp; ring

/-- **C67**: for the edge lengths of a triangle (positive, no one larger than the sum of the others) the quality is a number
from 0 to 1; it is 1 exactly for equilateral triangles and 0 exactly when one length is the sum of the others. -/
theorem triGamma_range {a b c : K} (ha : 0 < a) (hb : 0 < b) (hc : 0 < c) (h1 : a ≤ b + c) (h2 : b ≤ a + c)
    (h3 : c ≤ a + b) : ∃ x, triGamma a b c = .fin x ∧ 0 ≤ x ∧ x ≤ 1 ∧ (x = 1 ↔ a = b ∧ b = c) ∧
      (x = 0 ↔ a = b + c ∨ b = a + c ∨ c = a + b) := by
  refine ⟨_, triGamma_fin ha.ne' hb.ne' hc.ne', ?_⟩
  rw [gamma_form ha.ne' hb.ne' hc.ne']
  have hp : 0 < a * b * c := by positivity
  have hx : 0 ≤ b + c - a := by linarith
  have hy : 0 ≤ a + c - b := by linarith
  have hz : 0 ≤ a + b - c := by linarith
  have hid := padoa_id (b + c - a) (a + c - b) (a + b - c)
  have hprod : (b + c - a + (a + c - b)) * (a + c - b + (a + b - c)) * (a + b - c + (b + c - a)) = 8 * (a * b * c) := by ring
  rw [hprod] at hid
  have n1 : 0 ≤ (b + c - a) * (a + c - b - (a + b - c)) ^ 2 := mul_nonneg hx (sq_nonneg _)
  have n2 : 0 ≤ (a + c - b) * (a + b - c - (b + c - a)) ^ 2 := mul_nonneg hy (sq_nonneg _)
  have n3 : 0 ≤ (a + b - c) * (b + c - a - (a + c - b)) ^ 2 := mul_nonneg hz (sq_nonneg _)
  refine ⟨div_nonneg (mul_nonneg (mul_nonneg hx hy) hz) hp.le, ?_, ?_, ?_⟩
  · rw [div_le_one hp]; linarith
  · rw [div_eq_one_iff_eq hp.ne']
    constructor
    · intro h
      rw [h] at hid
      have z1 : (b + c - a) * (a + c - b - (a + b - c)) ^ 2 = 0 := by linarith
      have z2 : (a + c - b) * (a + b - c - (b + c - a)) ^ 2 = 0 := by linarith
      have z3 : (a + b - c) * (b + c - a - (a + c - b)) ^ 2 = 0 := by linarith
      have d1 : b + c - a = 0 ∨ b = c := by
        rcases mul_eq_zero.mp z1 with h | h
        · exact Or.inl h
        · right; have := pow_eq_zero_iff (two_ne_zero) |>.mp h; linarith
      have d2 : a + c - b = 0 ∨ a = c := by
        rcases mul_eq_zero.mp z2 with h | h
        · exact Or.inl h
        · right; have := pow_eq_zero_iff (two_ne_zero) |>.mp h; linarith
      have d3 : a + b - c = 0 ∨ a = b := by
        rcases mul_eq_zero.mp z3 with h | h
        · exact Or.inl h
        · right; have := pow_eq_zero_iff (two_ne_zero) |>.mp h; linarith
      rcases d1 with e1 | e1 <;> rcases d2 with e2 | e2 <;> rcases d3 with e3 | e3 <;>
        first | (exfalso; linarith) | (exact ⟨by linarith, by linarith⟩)
    · rintro ⟨rfl, rfl⟩; ring
  · rw [div_eq_zero_iff]
    constructor
    · rintro (h | h)
      · rcases mul_eq_zero.mp h with h | h
        · rcases mul_eq_zero.mp h with h | h
          · left; linarith
          · right; left; linarith
        · right; right; linarith
      · exact absurd h hp.ne'
    · rintro (h | h | h)
      · left; rw [h]; ring
      · left; rw [h]; ring
      · left; rw [h]; ring

example : triGamma (3 : ℚ) 4 5 = .fin (4 / 5) := by decide +kernel

/-- A point or vector. -/
structure V3 (K : Type) where
  x : K
  y : K
  z : K

/-- `a - b` -/
def V3.sub (a b : V3 K) : V3 K := ⟨a.x - b.x, a.y - b.y, a.z - b.z⟩
/-- `a @ b` -/
def V3.dot (a b : V3 K) : K := a.x * b.x + a.y * b.y + a.z * b.z
/-- square of `np.linalg.norm` -/
def V3.sq (a : V3 K) : K := a.dot a
/-- `p + t * u` -/
def V3.along (p : V3 K) (t : K) (u : V3 K) : V3 K := ⟨p.x + t * u.x, p.y + t * u.y, p.z + t * u.z⟩

/-- Vector of the edge `i` of a triangle (heal_mesh.py:19-22, 134). -/
def edgeVec (ns : List (V3 K)) (i : Nat) : Option (V3 K) := do
  let e ← (edges 3)[i]?
  let a ← ns[e.1]?
  let b ← ns[e.2]?
  pure (b.sub a)

/-- `tt` and the projected point of `_check_flat_triangle` (heal_mesh.py:558-571) for the longest edge `i`. Lengths appear
only squared: `t / len_max_edge` is `x_edge_u @ max_edge_u / len_max_edge²`. -/
def projectTo (ns : List (V3 K)) (i : Nat) : Option (K × V3 K) := do
  let e ← (edges 3)[i]?
  let u ← edgeVec ns i
  let w ← edgeVec ns e.2
  let p ← ns[e.1]?
  let x : V3 K := ⟨-w.x, -w.y, -w.z⟩
  let tt := x.dot u / u.sq
  pure (tt, p.along tt u)

omit [LinearOrder K] [IsStrictOrderedRing K] in
theorem proj_core (p q r : V3 K) (h : (q.sub p).sq ≠ 0) :
    ((r.sub (p.along ((r.sub p).dot (q.sub p) / (q.sub p).sq) (q.sub p))).dot (q.sub p)) = 0 := by
  have e : ∀ t : K, ((r.sub (p.along t (q.sub p))).dot (q.sub p)) = (r.sub p).dot (q.sub p) - t * (q.sub p).sq := by
    intro t; simp only [V3.sub, V3.dot, V3.along, V3.sq]; ring
  rw [e, div_mul_cancel₀ _ h, sub_self]

theorem proj_range (p q r : V3 K) (h : 0 < (q.sub p).sq) (h1 : (r.sub p).sq ≤ (q.sub p).sq)
    (h2 : (r.sub q).sq ≤ (q.sub p).sq) :
    0 ≤ (r.sub p).dot (q.sub p) / (q.sub p).sq ∧ (r.sub p).dot (q.sub p) / (q.sub p).sq ≤ 1 := by
  have e1 : (r.sub q).sq = (q.sub p).sq - 2 * (r.sub p).dot (q.sub p) + (r.sub p).sq := by
    simp only [V3.sub, V3.dot, V3.sq]; ring
  have n1 : 0 ≤ (r.sub p).sq := by
    simp only [V3.sq, V3.dot]
    exact add_nonneg (add_nonneg (mul_self_nonneg _) (mul_self_nonneg _)) (mul_self_nonneg _)
  have n2 : 0 ≤ (r.sub q).sq := by
    simp only [V3.sq, V3.dot]
    exact add_nonneg (add_nonneg (mul_self_nonneg _) (mul_self_nonneg _)) (mul_self_nonneg _)
  refine ⟨div_nonneg ?_ h.le, ?_⟩
  · linarith
  · rw [div_le_one h]; linarith

/-- **C68**: for a triangle with nodes `a b c` and its longest edge `i` (not of length zero), the assertion of
`_check_flat_triangle` holds: the parameter is between 0 and 1; and the new position is the point of the edge from `p` to `q`
opposite to the node `r` of the same index with the line from `r` perpendicular to the edge. -/
theorem flat_projection {a b c : V3 K} {i : Nat} (hi : i < 3) {u : V3 K} (hu : edgeVec [a, b, c] i = some u)
    (hmax : ∀ j v, edgeVec [a, b, c] j = some v → v.sq ≤ u.sq) (hpos : 0 < u.sq) :
    ∃ tt pos p q r, projectTo [a, b, c] i = some (tt, pos) ∧ [a, b, c][i]? = some r ∧
      ((i = 0 ∧ p = b ∧ q = c) ∨ (i = 1 ∧ p = c ∧ q = a) ∨ (i = 2 ∧ p = a ∧ q = b)) ∧
      0 ≤ tt ∧ tt ≤ 1 ∧ pos = p.along tt (q.sub p) ∧ (r.sub pos).dot (q.sub p) = 0 := by
  have sqneg : ∀ v w : V3 K, (v.sub w).sq = (w.sub v).sq := by
    intro v w; simp only [V3.sub, V3.dot, V3.sq]; ring
  have main : ∀ p q r : V3 K, u = q.sub p → (r.sub p).sq ≤ (q.sub p).sq → (r.sub q).sq ≤ (q.sub p).sq →
      0 ≤ (r.sub p).dot (q.sub p) / (q.sub p).sq ∧ (r.sub p).dot (q.sub p) / (q.sub p).sq ≤ 1 ∧
      ((r.sub (p.along ((r.sub p).dot (q.sub p) / (q.sub p).sq) (q.sub p))).dot (q.sub p)) = 0 := by
    intro p q r h1 h2 h3
    rw [h1] at hpos
    exact ⟨(proj_range p q r hpos h2 h3).1, (proj_range p q r hpos h2 h3).2, proj_core p q r hpos.ne'⟩
  have e0 : edgeVec [a, b, c] 0 = some (c.sub b) := rfl
  have e1 : edgeVec [a, b, c] 1 = some (a.sub c) := rfl
  have e2 : edgeVec [a, b, c] 2 = some (b.sub a) := rfl
  have m0 := hmax 0 _ e0
  have m1 := hmax 1 _ e1
  have m2 := hmax 2 _ e2
  have negx : ∀ v w : V3 K, (⟨-(v.sub w).x, -(v.sub w).y, -(v.sub w).z⟩ : V3 K) = w.sub v := by
    intro v w; simp only [V3.sub, neg_sub]
  have hcase : i = 0 ∨ i = 1 ∨ i = 2 := by omega
  rcases hcase with rfl | rfl | rfl
  · rw [e0] at hu; cases hu
    obtain ⟨x1, x2, x3⟩ := main b c a rfl (by rw [sqneg a b]; exact m2) m1
    refine ⟨_, _, b, c, a, ?_, rfl, Or.inl ⟨rfl, rfl, rfl⟩, x1, x2, rfl, x3⟩
    have : projectTo [a, b, c] 0 = some
        (V3.dot ⟨-(b.sub a).x, -(b.sub a).y, -(b.sub a).z⟩ (c.sub b) / (c.sub b).sq,
          b.along (V3.dot ⟨-(b.sub a).x, -(b.sub a).y, -(b.sub a).z⟩ (c.sub b) / (c.sub b).sq) (c.sub b)) := rfl
    rw [this, negx]
  · rw [e1] at hu; cases hu
    obtain ⟨x1, x2, x3⟩ := main c a b rfl (by rw [sqneg b c]; exact m0) m2
    refine ⟨_, _, c, a, b, ?_, rfl, Or.inr (Or.inl ⟨rfl, rfl, rfl⟩), x1, x2, rfl, x3⟩
    have : projectTo [a, b, c] 1 = some
        (V3.dot ⟨-(c.sub b).x, -(c.sub b).y, -(c.sub b).z⟩ (a.sub c) / (a.sub c).sq,
          c.along (V3.dot ⟨-(c.sub b).x, -(c.sub b).y, -(c.sub b).z⟩ (a.sub c) / (a.sub c).sq) (a.sub c)) := rfl
    rw [this, negx]
  · rw [e2] at hu; cases hu
    obtain ⟨x1, x2, x3⟩ := main a b c rfl (by rw [sqneg c a]; exact m1) m0
    refine ⟨_, _, a, b, c, ?_, rfl, Or.inr (Or.inr ⟨rfl, rfl, rfl⟩), x1, x2, rfl, x3⟩
    have : projectTo [a, b, c] 2 = some
        (V3.dot ⟨-(a.sub c).x, -(a.sub c).y, -(a.sub c).z⟩ (b.sub a) / (b.sub a).sq,
          a.along (V3.dot ⟨-(a.sub c).x, -(a.sub c).y, -(a.sub c).z⟩ (b.sub a) / (b.sub a).sq) (b.sub a)) := rfl
    rw [this, negx]

/-- A flat triangle: the node `(1, 1, 0)` is projected to `(1, 0, 0)`. -/
example : edgeVec (K := ℚ) [⟨1, 1, 0⟩, ⟨0, 0, 0⟩, ⟨10, 0, 0⟩] 0 = some ⟨10, 0, 0⟩ ∧
    projectTo (K := ℚ) [⟨1, 1, 0⟩, ⟨0, 0, 0⟩, ⟨10, 0, 0⟩] 0 = some (1 / 10, ⟨1, 0, 0⟩) := by
  constructor <;> simp [edgeVec, projectTo, edges, V3.sub, V3.dot, V3.sq, V3.along] <;> norm_num

end Verif.Heal
