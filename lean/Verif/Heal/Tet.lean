import Mathlib.Tactic.LinearCombination
import Verif.Heal.Shape

/-!
The geometric part of `_check_flat_tetra` (src/bgem/gmsh/heal_mesh.py:647-786, 788-838) in exact arithmetic: which of the flat
cases is taken, where the nodes are moved and where two edges of the flattened tetrahedron cross.
-/
namespace Verif.Heal

variable {K : Type} [Field K] [LinearOrder K] [IsStrictOrderedRing K]

/-- `np.cross` -/
def V3.cross (a b : V3 K) : V3 K := ⟨a.y * b.z - a.z * b.y, a.z * b.x - a.x * b.z, a.x * b.y - a.y * b.x⟩
/-- `t * a` -/
def V3.mul (t : K) (a : V3 K) : V3 K := ⟨t * a.x, t * a.y, t * a.z⟩
/-- `l[i]`; the positions used below exist for lists of four nodes. -/
def at3 (l : List (V3 K)) (i : Nat) : V3 K := l.getD i ⟨0, 0, 0⟩

/-- `Tetrahedron.measure` (heal_mesh.py:66-69): `np.linalg.det` of the differences to the first node, divided by 6. -/
def tetVol (ns : List (V3 K)) : K :=
  ((at3 ns 1).sub (at3 ns 0)).dot (((at3 ns 2).sub (at3 ns 0)).cross ((at3 ns 3).sub (at3 ns 0))) / 6

/-- `Triangle.normal` (heal_mesh.py:141-142). -/
def triNormal (a b c : V3 K) : V3 K := (b.sub a).cross (c.sub a)

/-- `face_normals` (heal_mesh.py:72-77). -/
def faceNormals (ns : List (V3 K)) : List (V3 K) :=
  faces.map fun f => V3.mul (-1) (triNormal (at3 ns (nth f 0)) (at3 ns (nth f 1)) (at3 ns (nth f 2)))

/-- `normal_component`, `avg`, `flat_nodes` (heal_mesh.py:673-675). -/
def flatten (ns : List (V3 K)) (n : V3 K) : List (V3 K) :=
  let avg := (ns.map fun v => v.dot n).sum / 4
  ns.map fun v => v.along (-(v.dot n - avg)) n

/-- `np.argmax` of three numbers: the first maximum. -/
def argmax3 (a b c : K) : Nat := if a < b then (if b < c then 2 else 1) else if a < c then 2 else 0

/-- `np.linalg.det` of the rows `sub_rows[i]` of the matrix with the columns `u` and `-w` (heal_mesh.py:722-725). -/
def minor (u w : V3 K) : Nat → K
  | 0 => u.x * -w.y - -w.x * u.y
  | 1 => u.x * -w.z - -w.x * u.z
  | _ => u.y * -w.z - -w.y * u.z

/-- `np.linalg.solve(M, -rhs)` (heal_mesh.py:727-728) for these rows, by the rule of Cramer. -/
def solve2 (u w r : V3 K) : Nat → K × K
  | 0 => ((-r.x * -w.y - -w.x * -r.y) / minor u w 0, (u.x * -r.y - -r.x * u.y) / minor u w 0)
  | 1 => ((-r.x * -w.z - -w.x * -r.z) / minor u w 1, (u.x * -r.z - -r.x * u.z) / minor u w 1)
  | _ => ((-r.y * -w.z - -w.y * -r.z) / minor u w 2, (u.y * -r.z - -r.y * u.z) / minor u w 2)

/-- The assertions for a parameter (heal_mesh.py:739, 742, 744-745). -/
def midT (t : K) : Prop := 1 / 20 < |t - 0| ∧ 1 / 20 < |t - 1| ∧ 0 < t ∧ t < 1

instance (t : K) : Decidable (midT t) := inferInstanceAs (Decidable (_ ∧ _ ∧ _ ∧ _))

/-- `_heal_quad_flat_case` up to the assertions (heal_mesh.py:717-745). A singular matrix raises `LinAlgError`, which has the
same effect as a failed assertion. -/
def quadCase (fl : List (V3 K)) (pos neg : Nat × Nat) : Flat (V3 K) :=
  let p0 := at3 fl pos.1
  let u := (at3 fl pos.2).sub p0
  let q0 := at3 fl neg.1
  let w := (at3 fl neg.2).sub q0
  let im := argmax3 |minor u w 0| |minor u w 1| |minor u w 2|
  let t := solve2 u w (p0.sub q0) im
  if minor u w im = 0 then .fail
  else if midT t.1 ∧ midT t.2 then .quad pos neg fl (p0.along t.1 u) else .fail

/-- `rel_dist > 0.05` (heal_mesh.py:807-813) for one edge: the squares are compared. The test of the minimum is the test of all
three. An edge of length zero gives `nan` in the code; `tri_edges` shows that there is none. -/
def farFrom (x a b : V3 K) : Prop :=
  let e := b.sub a
  let t := e.dot (x.sub a) / e.sq
  e.sq / 400 < (x.sub (a.along t e)).sq

instance (x a b : V3 K) : Decidable (farFrom x a b) := inferInstanceAs (Decidable (_ < _))

/-- `_heal_triangle_flat_case` up to the assertion (heal_mesh.py:797-813). -/
def triCase (fl : List (V3 K)) (outer : Nat) : Flat (V3 K) :=
  let o := (List.range 4).filter (· ≠ 3 - outer)
  let x := at3 fl (3 - outer)
  if ∀ e ∈ edges 3, farFrom x (at3 fl (nth o e.1)) (at3 fl (nth o e.2)) then .tri outer fl else .fail

/-- `list(set.intersection(...))` of two faces (heal_mesh.py:685, 688); a set of numbers from 0 to 3 is listed in increasing order. -/
def sharedEdge (i j : Nat) : Nat × Nat :=
  let l := (List.range 4).filter fun v => v ∈ faces.getD i [] ∧ v ∈ faces.getD j []
  (nth l 0, nth l 1)

/-- The choice of the case (heal_mesh.py:679-699) for the products `cos` of the face normals and the common normal. -/
def flatBy (fl : List (V3 K)) (cos : List K) : Flat (V3 K) :=
  match (List.range 4).filter fun i => 0 < cos.getD i 0, (List.range 4).filter fun i => cos.getD i 0 ≤ 0 with
  | [i, j], [k, l] => quadCase fl (sharedEdge i j) (sharedEdge k l)
  | [i], _ => triCase fl i
  | _, [k] => triCase fl k
  | _, _ => .fail

/-- `_check_flat_tetra` after the test of the faces (heal_mesh.py:670-699), for any vector `n` as `common_normal`: nothing is
assumed of the singular value decomposition that computes it. In exact arithmetic the assertion of line 676 holds,
see `flatten_plane`. -/
def flatCase (ns : List (V3 K)) (n : V3 K) : Flat (V3 K) :=
  flatBy (flatten ns n) ((faceNormals ns).map fun m => m.dot n)

/-! ### Normals and weights -/

section
variable (a b c d n : V3 K)

/-- The weight of the node opposite to a face. -/
def wt (a b c n : V3 K) : K := (V3.mul (-1) (triNormal a b c)).dot n

omit [LinearOrder K] [IsStrictOrderedRing K] in
theorem cos_eq : (faceNormals [a, b, c, d]).map (fun m => m.dot n) = [wt a b c n, wt a d b n, wt a c d n, wt b d c n] := rfl

omit [LinearOrder K] [IsStrictOrderedRing K] in
theorem wt_sum : wt a b c n + wt a d b n + wt a c d n + wt b d c n = 0 := by
  simp only [wt, triNormal, V3.mul, V3.cross, V3.sub, V3.dot]; ring

/-- The face normals of a tetrahedron of positive measure point outside: the node opposite to the face is behind it, by six
times the measure. -/
theorem normals_outer :
    (V3.mul (-1) (triNormal a b c)).dot (d.sub a) = -6 * tetVol [a, b, c, d] ∧
    (V3.mul (-1) (triNormal a d b)).dot (c.sub a) = -6 * tetVol [a, b, c, d] ∧
    (V3.mul (-1) (triNormal a c d)).dot (b.sub a) = -6 * tetVol [a, b, c, d] ∧
    (V3.mul (-1) (triNormal b d c)).dot (a.sub b) = -6 * tetVol [a, b, c, d] := by
  simp only [tetVol, at3, List.getD_cons_zero, List.getD_cons_succ, triNormal, V3.mul, V3.cross, V3.sub, V3.dot]
  refine ⟨?_, ?_, ?_, ?_⟩ <;> field_simp <;> ring

omit [LinearOrder K] [IsStrictOrderedRing K] in
/-- The weights are barycentric up to the normal. -/
theorem balance_raw [CharZero K] :
    (wt b d c n * a.x + wt a c d n * b.x + wt a d b n * c.x + wt a b c n * d.x = -6 * tetVol [a, b, c, d] * n.x ∧
    wt b d c n * a.y + wt a c d n * b.y + wt a d b n * c.y + wt a b c n * d.y = -6 * tetVol [a, b, c, d] * n.y) ∧
    wt b d c n * a.z + wt a c d n * b.z + wt a d b n * c.z + wt a b c n * d.z = -6 * tetVol [a, b, c, d] * n.z := by
  have h6 : (6 : K) ≠ 0 := by norm_num
  simp only [tetVol, at3, List.getD_cons_zero, List.getD_cons_succ, wt, triNormal, V3.mul, V3.cross, V3.sub, V3.dot]
  refine ⟨⟨?_, ?_⟩, ?_⟩ <;> field_simp <;> ring

end

/-- The flattened node. -/
def flat1 (v n : V3 K) (g : K) : V3 K := v.along (-(v.dot n - g)) n

/-- `avg` -/
def avg4 (a b c d n : V3 K) : K := ([a, b, c, d].map fun v => v.dot n).sum / 4

omit [LinearOrder K] [IsStrictOrderedRing K] in
theorem flatten_eq (a b c d n : V3 K) : flatten [a, b, c, d] n = [flat1 a n (avg4 a b c d n), flat1 b n (avg4 a b c d n),
    flat1 c n (avg4 a b c d n), flat1 d n (avg4 a b c d n)] := rfl

omit [LinearOrder K] [IsStrictOrderedRing K] in
/-- The flattened nodes are in the plane with the normal `n`. -/
theorem flat1_dot {v n : V3 K} (g : K) (hn : n.dot n = 1) : (flat1 v n g).dot n = g := by
  have : (flat1 v n g).dot n = v.dot n - (v.dot n - g) * n.dot n := by
    simp only [flat1, V3.along, V3.dot]; ring
  rw [this, hn]; ring

/-- The weights of the nodes are barycentric for the flattened nodes. -/
theorem flat_balance {a b c d n : V3 K} (g : K) (hn : n.dot n = 1) :
    wt b d c n * (flat1 a n g).x + wt a c d n * (flat1 b n g).x + wt a d b n * (flat1 c n g).x + wt a b c n * (flat1 d n g).x = 0 ∧
    wt b d c n * (flat1 a n g).y + wt a c d n * (flat1 b n g).y + wt a d b n * (flat1 c n g).y + wt a b c n * (flat1 d n g).y = 0 ∧
    wt b d c n * (flat1 a n g).z + wt a c d n * (flat1 b n g).z + wt a d b n * (flat1 c n g).z + wt a b c n * (flat1 d n g).z = 0 := by
  obtain ⟨⟨hx, hy⟩, hz⟩ := balance_raw a b c d n
  have hs := wt_sum a b c d n
  set wa := wt b d c n
  set wb := wt a c d n
  set wc := wt a d b n
  set wd := wt a b c n
  set V := -6 * tetVol [a, b, c, d]
  have hdot : wa * a.dot n + wb * b.dot n + wc * c.dot n + wd * d.dot n = V := by
    have : wa * a.dot n + wb * b.dot n + wc * c.dot n + wd * d.dot n = V * n.dot n := by
      simp only [V3.dot]; linear_combination n.x * hx + n.y * hy + n.z * hz
    rw [this, hn, mul_one]
  simp only [flat1, V3.along]
  refine ⟨?_, ?_, ?_⟩
  · linear_combination hx - n.x * hdot + g * n.x * hs
  · linear_combination hy - n.y * hdot + g * n.y * hs
  · linear_combination hz - n.z * hdot + g * n.z * hs

omit [LinearOrder K] [IsStrictOrderedRing K] in
/-- Areas seen along the normal are not changed by flattening. -/
theorem cross_flat (p0 p1 q0 q1 n : V3 K) (g : K) :
    (((flat1 p1 n g).sub (flat1 p0 n g)).cross ((flat1 q1 n g).sub (flat1 q0 n g))).dot n = ((p1.sub p0).cross (q1.sub q0)).dot n := by
  simp only [flat1, V3.along, V3.cross, V3.sub, V3.dot]; ring

/-! ### Crossing of two edges -/

omit [IsStrictOrderedRing K] in
theorem argmax3_le (a b c : K) : argmax3 a b c = 0 ∨ argmax3 a b c = 1 ∨ argmax3 a b c = 2 := by
  unfold argmax3
  split_ifs <;> simp

theorem minor_zero {u w : V3 K} (h : minor u w (argmax3 |minor u w 0| |minor u w 1| |minor u w 2|) = 0) :
    minor u w 0 = 0 ∧ minor u w 1 = 0 ∧ minor u w 2 = 0 := by
  have key : ∀ x y : K, ¬ |x| < |y| → x = 0 → y = 0 := by
    intro x y h hx
    rw [hx, abs_zero, abs_pos, not_not] at h
    exact h
  have key2 : ∀ x y : K, |x| < |y| → y = 0 → False := by
    intro x y h hy
    rw [hy, abs_zero] at h
    exact absurd h (not_lt.2 (abs_nonneg _))
  unfold argmax3 at h
  by_cases h1 : |minor u w 0| < |minor u w 1|
  · by_cases h2 : |minor u w 1| < |minor u w 2|
    · rw [if_pos h1, if_pos h2] at h
      exact absurd h (fun hh => key2 _ _ h2 hh)
    · rw [if_pos h1, if_neg h2] at h
      exact absurd h (fun hh => key2 _ _ h1 hh)
  · by_cases h2 : |minor u w 0| < |minor u w 2|
    · rw [if_neg h1, if_pos h2] at h
      exact absurd h (fun hh => key2 _ _ h2 hh)
    · rw [if_neg h1, if_neg h2] at h
      exact ⟨h, key _ _ h1 h, key _ _ h2 h⟩

omit [LinearOrder K] [IsStrictOrderedRing K] in
/-- The solution of any regular pair of rows is the common solution. -/
theorem solve2_eq {u w r : V3 K} {t s : K} (hx : u.x * t - w.x * s = -r.x) (hy : u.y * t - w.y * s = -r.y)
    (hz : u.z * t - w.z * s = -r.z) {i : Nat} (hi : i = 0 ∨ i = 1 ∨ i = 2) (hm : minor u w i ≠ 0) : solve2 u w r i = (t, s) := by
  rcases hi with rfl | rfl | rfl
  · have hm' : minor u w 0 = u.x * -w.y - -w.x * u.y := rfl
    have h1 : (-r.x * -w.y - -w.x * -r.y) = t * minor u w 0 := by rw [hm', ← hx, ← hy]; ring
    have h2 : (u.x * -r.y - -r.x * u.y) = s * minor u w 0 := by rw [hm', ← hx, ← hy]; ring
    simp only [solve2]
    rw [h1, h2, mul_div_assoc, mul_div_assoc, div_self hm, mul_one, mul_one]
  · have hm' : minor u w 1 = u.x * -w.z - -w.x * u.z := rfl
    have h1 : (-r.x * -w.z - -w.x * -r.z) = t * minor u w 1 := by rw [hm', ← hx, ← hz]; ring
    have h2 : (u.x * -r.z - -r.x * u.z) = s * minor u w 1 := by rw [hm', ← hx, ← hz]; ring
    simp only [solve2]
    rw [h1, h2, mul_div_assoc, mul_div_assoc, div_self hm, mul_one, mul_one]
  · have hm' : minor u w 2 = u.y * -w.z - -w.y * u.z := rfl
    have h1 : (-r.y * -w.z - -w.y * -r.z) = t * minor u w 2 := by rw [hm', ← hy, ← hz]; ring
    have h2 : (u.y * -r.z - -r.y * u.z) = s * minor u w 2 := by rw [hm', ← hy, ← hz]; ring
    simp only [solve2]
    rw [h1, h2, mul_div_assoc, mul_div_assoc, div_self hm, mul_one, mul_one]

theorem midT_iff {t : K} : midT t ↔ 1 / 20 < t ∧ t < 19 / 20 := by
  unfold midT
  constructor
  · rintro ⟨h1, h2, h3, h4⟩
    rw [sub_zero, abs_of_pos h3] at h1
    rw [abs_of_neg (by linarith)] at h2
    exact ⟨h1, by linarith⟩
  · rintro ⟨h1, h2⟩
    have h0 : 0 < t := lt_trans (by norm_num) h1
    have h3 : t < 1 := lt_trans h2 (by norm_num)
    rw [sub_zero, abs_of_pos h0, abs_of_neg (by linarith)]
    exact ⟨h1, by linarith, h0, h3⟩

/-- Two edges with weights of the same crossing point: `quadCase` finds this point. -/
theorem quad_core {fl : List (V3 K)} {pos neg : Nat × Nat} {P0 P1 Q0 Q1 n : V3 K} (e0 : at3 fl pos.1 = P0) (e1 : at3 fl pos.2 = P1)
    (e2 : at3 fl neg.1 = Q0) (e3 : at3 fl neg.2 = Q1) {α0 α1 β0 β1 : K} (hS : 0 < α0 + α1) (hsum : α0 + α1 = β0 + β1)
    (hx : α0 * P0.x + α1 * P1.x = β0 * Q0.x + β1 * Q1.x) (hy : α0 * P0.y + α1 * P1.y = β0 * Q0.y + β1 * Q1.y)
    (hz : α0 * P0.z + α1 * P1.z = β0 * Q0.z + β1 * Q1.z) (hc : ((P1.sub P0).cross (Q1.sub Q0)).dot n ≠ 0) :
    P0.along (α1 / (α0 + α1)) (P1.sub P0) = Q0.along (β1 / (α0 + α1)) (Q1.sub Q0) ∧
    quadCase fl pos neg = if (1 / 20 < α1 / (α0 + α1) ∧ α1 / (α0 + α1) < 19 / 20) ∧
        (1 / 20 < β1 / (α0 + α1) ∧ β1 / (α0 + α1) < 19 / 20)
      then .quad pos neg fl (P0.along (α1 / (α0 + α1)) (P1.sub P0)) else .fail := by
  set S := α0 + α1 with hSd
  have hS0 : S ≠ 0 := hS.ne'
  have row : ∀ p0 p1 q0 q1 : K, α0 * p0 + α1 * p1 = β0 * q0 + β1 * q1 →
      (p1 - p0) * (α1 / S) - (q1 - q0) * (β1 / S) = -(p0 - q0) := by
    intro p0 p1 q0 q1 h
    have : (p1 - p0) * (α1 / S) - (q1 - q0) * (β1 / S) = ((p1 - p0) * α1 - (q1 - q0) * β1) / S := by ring
    rw [this, div_eq_iff hS0]
    linear_combination h - p0 * hSd - q0 * hsum + q0 * hSd
  have rx := row _ _ _ _ hx
  have ry := row _ _ _ _ hy
  have rz := row _ _ _ _ hz
  constructor
  · simp only [V3.along, V3.sub, V3.mk.injEq]
    refine ⟨?_, ?_, ?_⟩ <;> linarith
  · have hm : minor (P1.sub P0) (Q1.sub Q0) (argmax3 |minor (P1.sub P0) (Q1.sub Q0) 0| |minor (P1.sub P0) (Q1.sub Q0) 1|
        |minor (P1.sub P0) (Q1.sub Q0) 2|) ≠ 0 := by
      intro h0
      obtain ⟨m0, m1, m2⟩ := minor_zero h0
      apply hc
      simp only [minor] at m0 m1 m2
      simp only [V3.cross, V3.dot]
      linear_combination (-n.z) * m0 + n.y * m1 - n.x * m2
    have hsol := solve2_eq (u := P1.sub P0) (w := Q1.sub Q0) (r := P0.sub Q0) rx ry rz (argmax3_le _ _ _) hm
    unfold quadCase
    simp only [e0, e1, e2, e3]
    rw [if_neg hm, hsol]
    simp only [midT_iff]

/-! ### Which case is taken -/

/-- Nonzero area seen along `n`. -/
theorem quad_area (a b c d n : V3 K) : ((b.sub a).cross (d.sub c)).dot n = wt a b c n + wt a d b n ∧
    ((c.sub a).cross (d.sub b)).dot n = -(wt a b c n + wt a c d n) ∧
    ((d.sub a).cross (c.sub b)).dot n = wt a d b n + wt a c d n := by
  simp only [wt, triNormal, V3.mul, V3.cross, V3.sub, V3.dot]
  refine ⟨?_, ?_, ?_⟩ <;> ring

omit [IsStrictOrderedRing K] in
theorem pos_length (w0 w1 w2 w3 : K) : ([w0, w1, w2, w3].filter (0 < ·)).length =
    (if 0 < w0 then 1 else 0) + (if 0 < w1 then 1 else 0) + (if 0 < w2 then 1 else 0) + (if 0 < w3 then 1 else 0) := by
  simp only [List.filter_cons, List.filter_nil]
  split_ifs <;> simp_all

/-- **C131**, quad case: if two of the face normals have a positive product with the common normal, then two opposite edges
(together all four nodes) of the flattened tetrahedron cross in a point, and the outcome is this crossing, unless the point is
nearer than one twentieth of an edge to one of its ends: then the check raises. -/
theorem flat_quad {a b c d n : V3 K} (hn : n.dot n = 1)
    (h2 : (((faceNormals [a, b, c, d]).map fun m => m.dot n).filter (0 < ·)).length = 2) :
    ∃ (pos neg : Nat × Nat) (t s : K) (X : V3 K), [pos.1, pos.2, neg.1, neg.2].Perm [0, 1, 2, 3] ∧
      X = (at3 (flatten [a, b, c, d] n) pos.1).along t ((at3 (flatten [a, b, c, d] n) pos.2).sub (at3 (flatten [a, b, c, d] n) pos.1)) ∧
      X = (at3 (flatten [a, b, c, d] n) neg.1).along s ((at3 (flatten [a, b, c, d] n) neg.2).sub (at3 (flatten [a, b, c, d] n) neg.1)) ∧
      0 ≤ t ∧ t ≤ 1 ∧ 0 < s ∧ s < 1 ∧
      flatCase [a, b, c, d] n = if (1 / 20 < t ∧ t < 19 / 20) ∧ (1 / 20 < s ∧ s < 19 / 20)
        then .quad pos neg (flatten [a, b, c, d] n) X else .fail := by
  set g := avg4 a b c d n with hg
  have hfl : flatten [a, b, c, d] n = [flat1 a n g, flat1 b n g, flat1 c n g, flat1 d n g] := flatten_eq a b c d n
  obtain ⟨bx, by', bz⟩ := flat_balance (a := a) (b := b) (c := c) (d := d) g hn
  have hs := wt_sum a b c d n
  obtain ⟨q1, q2, q3⟩ := quad_area a b c d n
  unfold flatCase
  rw [cos_eq] at h2 ⊢
  rw [hfl]
  set w0 := wt a b c n
  set w1 := wt a d b n
  set w2 := wt a c d n
  set w3 := wt b d c n
  set fl := [flat1 a n g, flat1 b n g, flat1 c n g, flat1 d n g] with hfld
  rw [pos_length] at h2
  have fin : ∀ (pos neg : Nat × Nat) (P0 P1 Q0 Q1 : V3 K), at3 fl pos.1 = P0 → at3 fl pos.2 = P1 → at3 fl neg.1 = Q0 →
      at3 fl neg.2 = Q1 → [pos.1, pos.2, neg.1, neg.2].Perm [0, 1, 2, 3] → ∀ α0 α1 β0 β1 : K, 0 ≤ α0 → 0 ≤ α1 → 0 < β0 → 0 < β1 →
      α0 + α1 = β0 + β1 → α0 * P0.x + α1 * P1.x = β0 * Q0.x + β1 * Q1.x → α0 * P0.y + α1 * P1.y = β0 * Q0.y + β1 * Q1.y →
      α0 * P0.z + α1 * P1.z = β0 * Q0.z + β1 * Q1.z → ((P1.sub P0).cross (Q1.sub Q0)).dot n ≠ 0 →
      flatBy fl [w0, w1, w2, w3] = quadCase fl pos neg →
      ∃ (pos neg : Nat × Nat) (t s : K) (X : V3 K), [pos.1, pos.2, neg.1, neg.2].Perm [0, 1, 2, 3] ∧
        X = (at3 fl pos.1).along t ((at3 fl pos.2).sub (at3 fl pos.1)) ∧
        X = (at3 fl neg.1).along s ((at3 fl neg.2).sub (at3 fl neg.1)) ∧ 0 ≤ t ∧ t ≤ 1 ∧ 0 < s ∧ s < 1 ∧
        flatBy fl [w0, w1, w2, w3] = if (1 / 20 < t ∧ t < 19 / 20) ∧ (1 / 20 < s ∧ s < 19 / 20)
          then .quad pos neg fl X else .fail := by
    intro pos neg P0 P1 Q0 Q1 e0 e1 e2 e3 hp α0 α1 β0 β1 k0 k1 k2 k3 hsum hx hy hz hc hq
    have hS : 0 < α0 + α1 := by linarith
    obtain ⟨r1, r2⟩ := quad_core e0 e1 e2 e3 hS hsum hx hy hz hc
    refine ⟨pos, neg, α1 / (α0 + α1), β1 / (α0 + α1), _, hp, by rw [e0, e1], by rw [e2, e3]; exact r1,
      div_nonneg k1 hS.le, ?_, div_pos k3 hS, ?_, by rw [hq]; exact r2⟩
    · rw [div_le_one hS]; linarith
    · rw [div_lt_one hS]; linarith
  by_cases h0 : 0 < w0 <;> by_cases h1 : 0 < w1 <;> by_cases h2' : 0 < w2 <;> by_cases h3 : 0 < w3 <;>
    simp only [h0, h1, h2', h3, if_true, if_false] at h2 <;> try omega
  · have hq : flatBy fl [w0, w1, w2, w3] = quadCase fl (0, 1) (2, 3) := by
      simp [flatBy, List.range, List.range.loop, List.filter_cons, h0, h1, h2', h3, not_le.2, not_lt.1, sharedEdge, faces, nth]
    refine fin (0, 1) (2, 3) (flat1 a n g) (flat1 b n g) (flat1 c n g) (flat1 d n g) rfl rfl rfl rfl (by decide) (-w3) (-w2) (w1) (w0) (by linarith) (by linarith) (by linarith) (by linarith)
      (by linarith) (by linarith) (by linarith) (by linarith) ?_ hq
    rw [cross_flat]
    simp only [V3.cross, V3.sub, V3.dot] at q1 q2 q3 ⊢
    intro h0'
    linarith
  · have hq : flatBy fl [w0, w1, w2, w3] = quadCase fl (0, 2) (1, 3) := by
      simp [flatBy, List.range, List.range.loop, List.filter_cons, h0, h1, h2', h3, not_le.2, not_lt.1, sharedEdge, faces, nth]
    refine fin (0, 2) (1, 3) (flat1 a n g) (flat1 c n g) (flat1 b n g) (flat1 d n g) rfl rfl rfl rfl (by decide) (-w3) (-w1) (w2) (w0) (by linarith) (by linarith) (by linarith) (by linarith)
      (by linarith) (by linarith) (by linarith) (by linarith) ?_ hq
    rw [cross_flat]
    simp only [V3.cross, V3.sub, V3.dot] at q1 q2 q3 ⊢
    intro h0'
    linarith
  · have hq : flatBy fl [w0, w1, w2, w3] = quadCase fl (1, 2) (0, 3) := by
      simp [flatBy, List.range, List.range.loop, List.filter_cons, h0, h1, h2', h3, not_le.2, not_lt.1, sharedEdge, faces, nth]
    refine fin (1, 2) (0, 3) (flat1 b n g) (flat1 c n g) (flat1 a n g) (flat1 d n g) rfl rfl rfl rfl (by decide) (-w2) (-w1) (w3) (w0) (by linarith) (by linarith) (by linarith) (by linarith)
      (by linarith) (by linarith) (by linarith) (by linarith) ?_ hq
    rw [cross_flat]
    simp only [V3.cross, V3.sub, V3.dot] at q1 q2 q3 ⊢
    intro h0'
    linarith
  · have hq : flatBy fl [w0, w1, w2, w3] = quadCase fl (0, 3) (1, 2) := by
      simp [flatBy, List.range, List.range.loop, List.filter_cons, h0, h1, h2', h3, not_le.2, not_lt.1, sharedEdge, faces, nth]
    refine fin (0, 3) (1, 2) (flat1 a n g) (flat1 d n g) (flat1 b n g) (flat1 c n g) rfl rfl rfl rfl (by decide) (-w3) (-w0) (w2) (w1) (by linarith) (by linarith) (by linarith) (by linarith)
      (by linarith) (by linarith) (by linarith) (by linarith) ?_ hq
    rw [cross_flat]
    simp only [V3.cross, V3.sub, V3.dot] at q1 q2 q3 ⊢
    intro h0'
    linarith
  · have hq : flatBy fl [w0, w1, w2, w3] = quadCase fl (1, 3) (0, 2) := by
      simp [flatBy, List.range, List.range.loop, List.filter_cons, h0, h1, h2', h3, not_le.2, not_lt.1, sharedEdge, faces, nth]
    refine fin (1, 3) (0, 2) (flat1 b n g) (flat1 d n g) (flat1 a n g) (flat1 c n g) rfl rfl rfl rfl (by decide) (-w2) (-w0) (w3) (w1) (by linarith) (by linarith) (by linarith) (by linarith)
      (by linarith) (by linarith) (by linarith) (by linarith) ?_ hq
    rw [cross_flat]
    simp only [V3.cross, V3.sub, V3.dot] at q1 q2 q3 ⊢
    intro h0'
    linarith
  · have hq : flatBy fl [w0, w1, w2, w3] = quadCase fl (2, 3) (0, 1) := by
      simp [flatBy, List.range, List.range.loop, List.filter_cons, h0, h1, h2', h3, not_le.2, not_lt.1, sharedEdge, faces, nth]
    refine fin (2, 3) (0, 1) (flat1 c n g) (flat1 d n g) (flat1 a n g) (flat1 b n g) rfl rfl rfl rfl (by decide) (-w1) (-w0) (w3) (w2) (by linarith) (by linarith) (by linarith) (by linarith)
      (by linarith) (by linarith) (by linarith) (by linarith) ?_ hq
    rw [cross_flat]
    simp only [V3.cross, V3.sub, V3.dot] at q1 q2 q3 ⊢
    intro h0'
    linarith

end Verif.Heal
