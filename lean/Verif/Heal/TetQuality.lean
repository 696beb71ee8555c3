import Mathlib.Analysis.SpecialFunctions.Pow.Real
import Verif.Heal.TetCases

/-!
The measure `gmsh_gamma` of tetrahedra (src/bgem/gmsh/heal_mesh.py:19-28, 79-83, 95-108, 144-148) in exact arithmetic of real
numbers.
-/
namespace Verif.Heal

/-- `np.linalg.norm` -/
noncomputable def V3.len (v : V3 ℝ) : ℝ := √v.sq

/-- The constant `1e-300`. -/
noncomputable def tiny : ℝ := 1 / 10 ^ 300

theorem tiny_pos : 0 < tiny := by unfold tiny; positivity

/-- `Triangle.measure` (heal_mesh.py:144-148). -/
noncomputable def triArea (a b c : V3 ℝ) : ℝ := ((c.sub a).cross (b.sub a)).len / 2

/-- `face_areas` (heal_mesh.py:79-83). -/
noncomputable def faceAreas (ns : List (V3 ℝ)) : List ℝ :=
  faces.map fun f => triArea (at3 ns (nth f 0)) (at3 ns (nth f 1)) (at3 ns (nth f 2))

/-- `edge_lens` (heal_mesh.py:19-28) of an element with `k` nodes. -/
noncomputable def edgeLens (k : Nat) (ns : List (V3 ℝ)) : List ℝ :=
  (edges k).map fun e => ((at3 ns e.2).sub (at3 ns e.1)).len

/-- `x_area` (heal_mesh.py:101-102) of the lengths `a b c A B C`. -/
noncomputable def xArea (l : List ℝ) : ℝ :=
  let p := l.getD 0 0 * l.getD 3 0
  let q := l.getD 1 0 * l.getD 4 0
  let r := l.getD 2 0 * l.getD 5 0
  (p + q + r) * (p + q - r) * (p - q + r) * (-p + q + r)

open Classical in
/-- `Tetrahedron.gmsh_gamma` (heal_mesh.py:95-108); `none` is the failed assertion. The quotient by `sum(faces)` is zero in the
model if all faces are degenerate, where numpy gives `nan`. -/
noncomputable def tetGamma (ns : List (V3 ℝ)) : Option ℝ :=
  let v := |tetVol ns|
  let r := 3 * v / (faceAreas ns).sum
  let x := xArea (edgeLens 4 ns)
  if 0 < x then some (3 * r / max tiny (√x / 24 / max tiny v)) else none

/-! ### The radius of the sphere through the nodes -/

/-- Twelve times the volume times the vector from the first node to the centre of the sphere through the nodes. -/
noncomputable def centreVec (a b c : V3 ℝ) : V3 ℝ :=
  ⟨a.sq * (b.cross c).x + b.sq * (c.cross a).x + c.sq * (a.cross b).x,
    a.sq * (b.cross c).y + b.sq * (c.cross a).y + c.sq * (a.cross b).y,
    a.sq * (b.cross c).z + b.sq * (c.cross a).z + c.sq * (a.cross b).z⟩

theorem len_sq (v : V3 ℝ) : v.len ^ 2 = v.sq := Real.sq_sqrt (sq_nonneg3 v)

theorem len_nonneg (v : V3 ℝ) : 0 ≤ v.len := Real.sqrt_nonneg _

theorem edgeLens_eq (a b c d : V3 ℝ) : edgeLens 4 [a, b, c, d] =
    [(b.sub a).len, (c.sub a).len, (d.sub a).len, (d.sub c).len, (d.sub b).len, (c.sub b).len] := rfl

/-- The formula of Crelle: `x_area` is the square of twice the length of `centreVec`. -/
theorem xArea_eq (o a b c : V3 ℝ) : xArea (edgeLens 4 [o, a, b, c]) =
    4 * (centreVec (a.sub o) (b.sub o) (c.sub o)).sq := by
  rw [edgeLens_eq]
  have h : ∀ p q r P Q R : ℝ, xArea [p, q, r, P, Q, R] = 2 * (p ^ 2 * P ^ 2) * (q ^ 2 * Q ^ 2) + 2 * (q ^ 2 * Q ^ 2) * (r ^ 2 * R ^ 2) +
      2 * (r ^ 2 * R ^ 2) * (p ^ 2 * P ^ 2) - (p ^ 2 * P ^ 2) ^ 2 - (q ^ 2 * Q ^ 2) ^ 2 - (r ^ 2 * R ^ 2) ^ 2 := by
    intro p q r P Q R
    simp only [xArea, List.getD_cons_zero, List.getD_cons_succ]
    ring
  rw [h]
  simp only [len_sq]
  set u := a.sub o with hu
  set v := b.sub o with hv
  set w := c.sub o with hw
  have e1 : c.sub b = w.sub v := by rw [hw, hv]; simp only [V3.sub, V3.mk.injEq]; refine ⟨?_, ?_, ?_⟩ <;> ring
  have e2 : c.sub a = w.sub u := by rw [hw, hu]; simp only [V3.sub, V3.mk.injEq]; refine ⟨?_, ?_, ?_⟩ <;> ring
  have e3 : b.sub a = v.sub u := by rw [hv, hu]; simp only [V3.sub, V3.mk.injEq]; refine ⟨?_, ?_, ?_⟩ <;> ring
  rw [e1, e2, e3]
  clear_value u v w
  have d : ∀ x y : V3 ℝ, (x.sub y).sq = x.sq + y.sq - 2 * x.dot y := by
    intro x y; simp only [V3.sub, V3.sq, V3.dot]; ring
  rw [d w v, d w u, d v u]
  -- products of the cross products
  have cc : ∀ x y z t : V3 ℝ, (x.cross y).dot (z.cross t) = x.dot z * y.dot t - x.dot t * y.dot z := by
    intro x y z t; simp only [V3.cross, V3.dot]; ring
  have cs : ∀ x y : V3 ℝ, x.dot y = y.dot x := by
    intro x y; simp only [V3.dot]; ring
  have en : (centreVec u v w).sq = u.sq ^ 2 * (v.cross w).dot (v.cross w) + v.sq ^ 2 * (w.cross u).dot (w.cross u) +
      w.sq ^ 2 * (u.cross v).dot (u.cross v) + 2 * (u.sq * v.sq * (v.cross w).dot (w.cross u)) +
      2 * (v.sq * w.sq * (w.cross u).dot (u.cross v)) + 2 * (w.sq * u.sq * (u.cross v).dot (v.cross w)) := by
    simp only [centreVec, V3.sq, V3.dot]; ring
  rw [en, cc, cc, cc, cc, cc, cc, cs w v, cs w u, cs v u]
  have ss : ∀ x : V3 ℝ, x.dot x = x.sq := fun _ => rfl
  simp only [ss]
  ring

/-- The centre has the same distance to all nodes. -/
theorem centre_dist {a b c : V3 ℝ} (hv : a.dot (b.cross c) ≠ 0) {o : V3 ℝ}
    (ho : o = V3.mul (1 / (2 * a.dot (b.cross c))) (centreVec a b c)) :
    (o.sub a).sq = o.sq ∧ (o.sub b).sq = o.sq ∧ (o.sub c).sq = o.sq := by
  have d : ∀ x y : V3 ℝ, (x.sub y).sq = x.sq + y.sq - 2 * x.dot y := by
    intro x y; simp only [V3.sub, V3.sq, V3.dot]; ring
  have h1 : o.dot a = a.sq / 2 := by
    rw [ho]
    have : (V3.mul (1 / (2 * a.dot (b.cross c))) (centreVec a b c)).dot a =
        1 / (2 * a.dot (b.cross c)) * (a.sq * a.dot (b.cross c)) := by
      simp only [V3.mul, centreVec, V3.dot, V3.cross, V3.sq]; ring
    rw [this]; field_simp
  have h2 : o.dot b = b.sq / 2 := by
    rw [ho]
    have : (V3.mul (1 / (2 * a.dot (b.cross c))) (centreVec a b c)).dot b =
        1 / (2 * a.dot (b.cross c)) * (b.sq * a.dot (b.cross c)) := by
      simp only [V3.mul, centreVec, V3.dot, V3.cross, V3.sq]; ring
    rw [this]; field_simp
  have h3 : o.dot c = c.sq / 2 := by
    rw [ho]
    have : (V3.mul (1 / (2 * a.dot (b.cross c))) (centreVec a b c)).dot c =
        1 / (2 * a.dot (b.cross c)) * (c.sq * a.dot (b.cross c)) := by
      simp only [V3.mul, centreVec, V3.dot, V3.cross, V3.sq]; ring
    rw [this]; field_simp
  rw [d, d, d, h1, h2, h3]
  refine ⟨?_, ?_, ?_⟩ <;> ring

/-- Cauchy and Schwarz. -/
theorem dot_le (u v : V3 ℝ) : u.dot v ≤ u.len * v.len := by
  have h : u.dot v ^ 2 ≤ (u.len * v.len) ^ 2 := by
    rw [mul_pow, len_sq, len_sq]
    have e : u.sq * v.sq - u.dot v ^ 2 = (u.cross v).sq := by
      simp only [V3.sq, V3.dot, V3.cross]; ring
    have := sq_nonneg3 (u.cross v)
    linarith
  exact le_trans (le_abs_self _) (abs_le_of_sq_le_sq h (mul_nonneg (len_nonneg _) (len_nonneg _)))

theorem len_zero {v : V3 ℝ} (h : v.len = 0) : v.x = 0 ∧ v.y = 0 ∧ v.z = 0 := by
  apply sq_zero3
  rw [← len_sq, h]; ring

/-- Equality of Cauchy and Schwarz for vectors in and across a plane: what is parallel to the normal is across. -/
theorem dot_eq {n y e : V3 ℝ} (hne : n.sq ≠ 0) (heq : n.dot y ^ 2 = n.sq * y.sq) (h : n.dot e = 0) : y.dot e = 0 := by
  have h0 : (n.cross y).sq = 0 := by
    have e : n.sq * y.sq - n.dot y ^ 2 = (n.cross y).sq := by
      simp only [V3.sq, V3.dot, V3.cross]; ring
    linarith
  obtain ⟨hx, hy, hz⟩ := sq_zero3 h0
  have e1 : n.sq * y.dot e = n.dot y * n.dot e + ((n.cross y).x * (n.cross e).x + (n.cross y).y * (n.cross e).y +
      (n.cross y).z * (n.cross e).z) := by
    simp only [V3.sq, V3.dot, V3.cross]; ring
  rw [h, hx, hy, hz] at e1
  have : n.sq * y.dot e = 0 := by linarith
  exact (mul_eq_zero.1 this).resolve_left hne

/-- The areas of the faces by the four outer normals. -/
theorem areas_eq (o a b c : V3 ℝ) : (faceAreas [o, a, b, c]).sum =
    ((V3.mul (-1) ((a.sub o).cross (b.sub o))).len + (V3.mul (-1) ((c.sub o).cross (a.sub o))).len +
      (V3.mul (-1) ((b.sub o).cross (c.sub o))).len +
      (V3.mul (-1) (((c.sub o).sub (a.sub o)).cross ((b.sub o).sub (a.sub o)))).len) / 2 := by
  have e : ∀ p q r : V3 ℝ, triArea p q r = (V3.mul (-1) ((q.sub p).cross (r.sub p))).len / 2 := by
    intro p q r
    unfold triArea V3.len
    congr 2
    simp only [V3.mul, V3.cross, V3.sub, V3.sq, V3.dot]; ring
  have e2 : ∀ p q r : V3 ℝ, (q.sub r).sub (p.sub r) = q.sub p := by
    intro p q r; simp only [V3.sub, V3.mk.injEq]; refine ⟨?_, ?_, ?_⟩ <;> ring
  rw [e2, e2]
  show triArea o a b + (triArea o c a + (triArea o b c + (triArea a c b + 0))) = _
  rw [e, e, e, e]
  ring

/-- The inequality of Euler for a tetrahedron `0 u v w` and the centre `O` of its sphere, and the case of equality. -/
theorem euler {u v w O : V3 ℝ} (hD : u.dot (v.cross w) ≠ 0) (hu : (O.sub u).sq = O.sq) (hv : (O.sub v).sq = O.sq)
    (hw : (O.sub w).sq = O.sq) {L : ℝ} (hL : L = (V3.mul (-1) (u.cross v)).len + (V3.mul (-1) (w.cross u)).len +
      (V3.mul (-1) (v.cross w)).len + (V3.mul (-1) ((w.sub u).cross (v.sub u))).len) :
    3 * |u.dot (v.cross w)| ≤ O.len * L ∧
    (3 * |u.dot (v.cross w)| = O.len * L → u.sq = v.sq ∧ u.sq = w.sq ∧ u.sq = (v.sub u).sq ∧ u.sq = (w.sub u).sq ∧
      u.sq = (w.sub v).sq) := by
  set n0 := V3.mul (-1) (u.cross v) with h0
  set n1 := V3.mul (-1) (w.cross u) with h1
  set n2 := V3.mul (-1) (v.cross w) with h2
  set n3 := V3.mul (-1) ((w.sub u).cross (v.sub u)) with h3
  have lu : (O.sub u).len = O.len := by unfold V3.len; rw [hu]
  have lv : (O.sub v).len = O.len := by unfold V3.len; rw [hv]
  have lw : (O.sub w).len = O.len := by unfold V3.len; rw [hw]
  have hsum : n0.dot (O.sub w) + n1.dot (O.sub v) + n2.dot (O.sub u) + n3.dot O = 3 * u.dot (v.cross w) := by
    rw [h0, h1, h2, h3]; simp only [V3.mul, V3.cross, V3.sub, V3.dot]; ring
  obtain ⟨ε, hε, habs⟩ : ∃ ε : ℝ, ε ^ 2 = 1 ∧ |u.dot (v.cross w)| = ε * u.dot (v.cross w) := by
    rcases le_total 0 (u.dot (v.cross w)) with h | h
    · exact ⟨1, by norm_num, by rw [abs_of_nonneg h]; ring⟩
    · exact ⟨-1, by norm_num, by rw [abs_of_nonpos h]; ring⟩
  have cs : ∀ n y : V3 ℝ, ε * n.dot y ≤ y.len * n.len := by
    intro n y
    have hh : (ε * n.dot y) ^ 2 ≤ (y.len * n.len) ^ 2 := by
      rw [mul_pow, hε, one_mul, mul_pow, len_sq, len_sq]
      have e : n.sq * y.sq - n.dot y ^ 2 = (n.cross y).sq := by
        simp only [V3.sq, V3.dot, V3.cross]; ring
      have := sq_nonneg3 (n.cross y)
      linarith
    exact le_trans (le_abs_self _) (abs_le_of_sq_le_sq hh (mul_nonneg (len_nonneg _) (len_nonneg _)))
  have c0 := cs n0 (O.sub w)
  have c1 := cs n1 (O.sub v)
  have c2 := cs n2 (O.sub u)
  have c3 := cs n3 O
  rw [lw] at c0
  rw [lv] at c1
  rw [lu] at c2
  have hE : 3 * |u.dot (v.cross w)| = ε * n0.dot (O.sub w) + ε * n1.dot (O.sub v) + ε * n2.dot (O.sub u) + ε * n3.dot O := by
    rw [habs]; linear_combination (-ε) * hsum
  refine ⟨by rw [hE, hL]; linarith, fun heq => ?_⟩
  rw [hE, hL] at heq
  have q0 : ε * n0.dot (O.sub w) = O.len * n0.len := by linarith
  have q1 : ε * n1.dot (O.sub v) = O.len * n1.len := by linarith
  have q2 : ε * n2.dot (O.sub u) = O.len * n2.len := by linarith
  have q3 : ε * n3.dot O = O.len * n3.len := by linarith
  have sqq : ∀ (n y : V3 ℝ), y.sq = O.sq → ε * n.dot y = O.len * n.len → n.dot y ^ 2 = n.sq * y.sq := by
    intro n y hy h
    have := congrArg (· ^ 2) h
    simp only [mul_pow, hε, one_mul, len_sq] at this
    rw [this, hy]; ring
  -- the normals are not zero
  have nz : ∀ n e : V3 ℝ, n.dot e = -u.dot (v.cross w) → n.sq ≠ 0 := by
    intro n e he h
    obtain ⟨hx, hy, hz⟩ := sq_zero3 h
    apply hD
    have : n.dot e = 0 := by simp only [V3.dot, hx, hy, hz]; ring
    linarith
  have z0 := nz n0 w (by rw [h0]; simp only [V3.mul, V3.cross, V3.dot]; ring)
  have z1 := nz n1 v (by rw [h1]; simp only [V3.mul, V3.cross, V3.dot]; ring)
  have z2 := nz n2 u (by rw [h2]; simp only [V3.mul, V3.cross, V3.dot]; ring)
  have z3 := nz n3 (V3.mul (-1) u) (by rw [h3]; simp only [V3.mul, V3.cross, V3.sub, V3.dot]; ring)
  -- vectors to the centre are across the faces
  have a0u := dot_eq (e := u) z0 (sqq _ _ hw q0) (by rw [h0]; simp only [V3.mul, V3.cross, V3.dot]; ring)
  have a0v := dot_eq (e := v) z0 (sqq _ _ hw q0) (by rw [h0]; simp only [V3.mul, V3.cross, V3.dot]; ring)
  have a1u := dot_eq (e := u) z1 (sqq _ _ hv q1) (by rw [h1]; simp only [V3.mul, V3.cross, V3.dot]; ring)
  have a1w := dot_eq (e := w) z1 (sqq _ _ hv q1) (by rw [h1]; simp only [V3.mul, V3.cross, V3.dot]; ring)
  have a2v := dot_eq (e := v) z2 (sqq _ _ hu q2) (by rw [h2]; simp only [V3.mul, V3.cross, V3.dot]; ring)
  have a2w := dot_eq (e := w) z2 (sqq _ _ hu q2) (by rw [h2]; simp only [V3.mul, V3.cross, V3.dot]; ring)
  have d : ∀ x y z : V3 ℝ, (x.sub y).dot z = x.dot z - y.dot z := by
    intro x y z; simp only [V3.sub, V3.dot]; ring
  have dd : ∀ x y : V3 ℝ, (x.sub y).sq = x.sq + y.sq - 2 * x.dot y := by
    intro x y; simp only [V3.sub, V3.sq, V3.dot]; ring
  have cm : ∀ x y : V3 ℝ, x.dot y = y.dot x := by
    intro x y; simp only [V3.dot]; ring
  rw [d] at a0u a0v a1u a1w a2v a2w
  rw [dd] at hu hv hw
  rw [cm w u] at a0u
  rw [cm w v] at a0v
  rw [cm v u] at a1u
  rw [dd v u, dd w u, dd w v, cm v u, cm w u, cm w v]
  refine ⟨?_, ?_, ?_, ?_, ?_⟩ <;> linarith

/-- In a regular tetrahedron the inequality is an equality. -/
theorem euler_regular {u v w : V3 ℝ} {q : ℝ} (hq : 0 < q) (hu : u.sq = q) (hv : v.sq = q) (hw : w.sq = q) (huv : u.dot v = q / 2)
    (huw : u.dot w = q / 2) (hvw : v.dot w = q / 2) {O : V3 ℝ} (hO : O = V3.mul (1 / (2 * u.dot (v.cross w))) (centreVec u v w)) :
    3 * |u.dot (v.cross w)| = O.len * ((V3.mul (-1) (u.cross v)).len + (V3.mul (-1) (w.cross u)).len +
      (V3.mul (-1) (v.cross w)).len + (V3.mul (-1) ((w.sub u).cross (v.sub u))).len) := by
  have cc : ∀ x y z t : V3 ℝ, (x.cross y).dot (z.cross t) = x.dot z * y.dot t - x.dot t * y.dot z := by
    intro x y z t; simp only [V3.cross, V3.dot]; ring
  have cs : ∀ x y : V3 ℝ, x.dot y = y.dot x := by
    intro x y; simp only [V3.dot]; ring
  have ss : ∀ x : V3 ℝ, x.dot x = x.sq := fun _ => rfl
  have mm : ∀ x : V3 ℝ, (V3.mul (-1) x).sq = x.dot x := by
    intro x; simp only [V3.mul, V3.sq, V3.dot]; ring
  set D := u.dot (v.cross w) with hD
  have hD2 : D ^ 2 = q ^ 3 / 2 := by
    have : D ^ 2 = u.sq * v.sq * w.sq + 2 * u.dot v * v.dot w * u.dot w - u.sq * v.dot w ^ 2 - v.sq * u.dot w ^ 2 -
        w.sq * u.dot v ^ 2 := by
      rw [hD]; simp only [V3.cross, V3.dot, V3.sq]; ring
    rw [this, hu, hv, hw, huv, huw, hvw]; ring
  have hD0 : D ≠ 0 := by
    intro h
    rw [h] at hD2
    have : 0 < q ^ 3 := by positivity
    linarith
  have hN : (centreVec u v w).sq = 3 / 4 * q ^ 4 := by
    have en : (centreVec u v w).sq = u.sq ^ 2 * (v.cross w).dot (v.cross w) + v.sq ^ 2 * (w.cross u).dot (w.cross u) +
        w.sq ^ 2 * (u.cross v).dot (u.cross v) + 2 * (u.sq * v.sq * (v.cross w).dot (w.cross u)) +
        2 * (v.sq * w.sq * (w.cross u).dot (u.cross v)) + 2 * (w.sq * u.sq * (u.cross v).dot (v.cross w)) := by
      simp only [centreVec, V3.sq, V3.dot]; ring
    rw [en, cc, cc, cc, cc, cc, cc, cs w v, cs w u, cs v u]
    simp only [ss, hu, hv, hw, huv, huw, hvw]
    ring
  have hO2 : O.sq = 3 * q / 8 := by
    have : O.sq = (1 / (2 * D)) ^ 2 * (centreVec u v w).sq := by
      rw [hO]; simp only [V3.mul, V3.sq, V3.dot]; ring
    rw [this, hN, div_pow, mul_pow, hD2]
    field_simp; ring
  have n0 : (V3.mul (-1) (u.cross v)).sq = 3 / 4 * q ^ 2 := by
    rw [mm, cc, cs v u, ss, ss, hu, hv, huv]; ring
  have n1 : (V3.mul (-1) (w.cross u)).sq = 3 / 4 * q ^ 2 := by
    rw [mm, cc, cs w u, ss, ss, hu, hw, huw]; ring
  have n2 : (V3.mul (-1) (v.cross w)).sq = 3 / 4 * q ^ 2 := by
    rw [mm, cc, cs w v, ss, ss, hv, hw, hvw]; ring
  have n3 : (V3.mul (-1) ((w.sub u).cross (v.sub u))).sq = 3 / 4 * q ^ 2 := by
    have d1 : (w.sub u).dot (w.sub u) = q := by
      have : (w.sub u).dot (w.sub u) = w.sq + u.sq - 2 * u.dot w := by simp only [V3.sub, V3.dot, V3.sq]; ring
      rw [this, hu, hw, huw]; ring
    have d2 : (v.sub u).dot (v.sub u) = q := by
      have : (v.sub u).dot (v.sub u) = v.sq + u.sq - 2 * u.dot v := by simp only [V3.sub, V3.dot, V3.sq]; ring
      rw [this, hu, hv, huv]; ring
    have d3 : (w.sub u).dot (v.sub u) = q / 2 := by
      have : (w.sub u).dot (v.sub u) = v.dot w - u.dot w - u.dot v + u.sq := by simp only [V3.sub, V3.dot, V3.sq]; ring
      rw [this, hu, huv, huw, hvw]; ring
    rw [mm, cc, cs (v.sub u) (w.sub u), d1, d2, d3]; ring
  unfold V3.len
  rw [n0, n1, n2, n3, hO2]
  set s := √(3 / 4 * q ^ 2) with hs
  have s2 : s ^ 2 = 3 / 4 * q ^ 2 := Real.sq_sqrt (by positivity)
  set r := √(3 * q / 8) with hr
  have r2 : r ^ 2 = 3 * q / 8 := Real.sq_sqrt (by positivity)
  have h1 : (3 * |D|) ^ 2 = (r * (s + s + s + s)) ^ 2 := by
    rw [mul_pow, sq_abs, hD2]
    have : (r * (s + s + s + s)) ^ 2 = 16 * r ^ 2 * s ^ 2 := by ring
    rw [this, r2, s2]; ring
  have p1 : 0 ≤ 3 * |D| := by positivity
  have p2 : 0 ≤ r * (s + s + s + s) := by positivity
  exact (sq_eq_sq₀ p1 p2).1 h1

/-- **C134**: for a tetrahedron of positive or negative volume `gmsh_gamma` does not fail and is three times the radius of the
inscribed sphere (three times the volume by the sum of the areas) divided by the radius of the sphere through the nodes. It is
greater than 0 and at most 1, and 1 exactly if all edges have the same length. The constant `1e-300` of the code bounds the
volume and, for the two last statements, the radius. -/
theorem tetGamma_range {a b c d : V3 ℝ} (hv : tiny ≤ |tetVol [a, b, c, d]|) :
    ∃ (γ R : ℝ) (O : V3 ℝ), tetGamma [a, b, c, d] = some γ ∧ 0 < γ ∧ γ ≤ 1 ∧ 0 < R ∧
      (∀ v ∈ [a, b, c, d], (O.sub v).len = R) ∧
      (tiny ≤ R → γ = 3 * (3 * |tetVol [a, b, c, d]| / (faceAreas [a, b, c, d]).sum) / R ∧
        (γ = 1 ↔ ∀ x ∈ edgeLens 4 [a, b, c, d], ∀ y ∈ edgeLens 4 [a, b, c, d], x = y)) := by
  have ht := tiny_pos
  set u := b.sub a with hu
  set v := c.sub a with hvd
  set w := d.sub a with hw
  set D := u.dot (v.cross w) with hD
  have hV : tetVol [a, b, c, d] = D / 6 := rfl
  have hVpos : 0 < |tetVol [a, b, c, d]| := lt_of_lt_of_le ht hv
  have hD0 : D ≠ 0 := by
    intro h
    rw [hV, h] at hVpos
    simp at hVpos
  have hVD : |tetVol [a, b, c, d]| = |D| / 6 := by rw [hV, abs_div]; norm_num
  have hDpos : 0 < |D| := abs_pos.2 hD0
  set O := V3.mul (1 / (2 * D)) (centreVec u v w) with hO
  obtain ⟨ou, ov, ow⟩ := centre_dist (a := u) (b := v) (c := w) hD0 hO
  obtain ⟨heu, heq⟩ := euler hD0 ou ov ow rfl
  set L := (V3.mul (-1) (u.cross v)).len + (V3.mul (-1) (w.cross u)).len + (V3.mul (-1) (v.cross w)).len +
    (V3.mul (-1) ((w.sub u).cross (v.sub u))).len with hL
  have hA : (faceAreas [a, b, c, d]).sum = L / 2 := areas_eq a b c d
  have hR0 : 0 < O.len := by
    rcases (len_nonneg O).eq_or_lt with h | h
    · rw [← h] at heu; linarith
    · exact h
  have hL0 : 0 < L := by
    have hL1 : 0 ≤ L := by
      rw [hL]
      have := len_nonneg (V3.mul (-1) (u.cross v))
      have := len_nonneg (V3.mul (-1) (w.cross u))
      have := len_nonneg (V3.mul (-1) (v.cross w))
      have := len_nonneg (V3.mul (-1) ((w.sub u).cross (v.sub u)))
      linarith
    rcases hL1.eq_or_lt with h | h
    · rw [← h] at heu; linarith
    · exact h
  -- the radius
  have hN : (centreVec u v w).sq = (2 * D) ^ 2 * O.sq := by
    have : O.sq = (1 / (2 * D)) ^ 2 * (centreVec u v w).sq := by
      rw [hO]; simp only [V3.mul, V3.sq, V3.dot]; ring
    rw [this]; field_simp
  have hx : xArea (edgeLens 4 [a, b, c, d]) = (4 * |D| * O.len) ^ 2 := by
    rw [xArea_eq, hN, mul_pow _ O.len, mul_pow 4, sq_abs, len_sq]; ring
  have hxs : √(xArea (edgeLens 4 [a, b, c, d])) = 4 * |D| * O.len := by
    rw [hx, Real.sqrt_sq (by positivity)]
  have hxpos : 0 < xArea (edgeLens 4 [a, b, c, d]) := by rw [hx]; positivity
  have hRR : √(xArea (edgeLens 4 [a, b, c, d])) / 24 / max tiny |tetVol [a, b, c, d]| = O.len := by
    rw [max_eq_right hv, hxs, hVD]; field_simp; norm_num
  have hg : tetGamma [a, b, c, d] = some (3 * (3 * |tetVol [a, b, c, d]| / (faceAreas [a, b, c, d]).sum) / max tiny O.len) := by
    unfold tetGamma
    simp only [hRR, if_pos hxpos]
  have hnum : 3 * (3 * |tetVol [a, b, c, d]| / (faceAreas [a, b, c, d]).sum) = 3 * |D| / L := by
    rw [hVD, hA]; field_simp; ring
  have hnum0 : 0 < 3 * |D| / L := by positivity
  have hmax : 0 < max tiny O.len := lt_of_lt_of_le ht (le_max_left _ _)
  refine ⟨_, O.len, a.along 1 O, hg, ?_, ?_, hR0, ?_, ?_⟩
  · rw [hnum]; positivity
  · rw [hnum, div_le_one hmax, div_le_iff₀ hL0]
    calc 3 * |D| ≤ O.len * L := heu
      _ ≤ max tiny O.len * L := mul_le_mul_of_nonneg_right (le_max_right _ _) hL0.le
  · have key : ∀ x : V3 ℝ, (a.along 1 O).sub x = O.sub (x.sub a) := by
      intro x; simp only [V3.along, V3.sub, V3.mk.injEq]; refine ⟨?_, ?_, ?_⟩ <;> ring
    intro x hx
    rw [key]
    simp only [List.mem_cons, List.not_mem_nil, or_false] at hx
    rcases hx with rfl | rfl | rfl | rfl
    · congr 1; simp only [V3.sub, sub_self, sub_zero]
    · unfold V3.len; rw [ou]
    · unfold V3.len; rw [ov]
    · unfold V3.len; rw [ow]
  · intro hR
    rw [max_eq_right hR]
    refine ⟨rfl, ?_⟩
    rw [hnum, edgeLens_eq a b c d]
    have e3 : d.sub c = w.sub v := by rw [hw, hvd]; simp only [V3.sub, V3.mk.injEq]; refine ⟨?_, ?_, ?_⟩ <;> ring
    have e4 : d.sub b = w.sub u := by rw [hw, hu]; simp only [V3.sub, V3.mk.injEq]; refine ⟨?_, ?_, ?_⟩ <;> ring
    have e5 : c.sub b = v.sub u := by rw [hvd, hu]; simp only [V3.sub, V3.mk.injEq]; refine ⟨?_, ?_, ?_⟩ <;> ring
    rw [e3, e4, e5, ← hu, ← hvd, ← hw]
    constructor
    · intro h1
      have h2 : 3 * |D| = O.len * L := by
        rw [div_div, div_eq_one_iff_eq (by positivity)] at h1
        rw [h1]; ring
      obtain ⟨k1, k2, k3, k4, k5⟩ := heq h2
      have all : ∀ x ∈ [u.len, v.len, w.len, (w.sub v).len, (w.sub u).len, (v.sub u).len], x = u.len := by
        intro x hx
        simp only [List.mem_cons, List.not_mem_nil, or_false] at hx
        rcases hx with rfl | rfl | rfl | rfl | rfl | rfl
        · rfl
        · unfold V3.len; rw [k1]
        · unfold V3.len; rw [k2]
        · unfold V3.len; rw [k5]
        · unfold V3.len; rw [k4]
        · unfold V3.len; rw [k3]
      intro x hx y hy
      rw [all x hx, all y hy]
    · intro hall
      have sqe : ∀ x y : V3 ℝ, x.len = y.len → x.sq = y.sq := by
        intro x y h; rw [← len_sq, ← len_sq, h]
      have k1 := sqe v u (hall _ (by simp) _ (by simp))
      have k2 := sqe w u (hall _ (by simp) _ (by simp))
      have k3 := sqe (v.sub u) u (hall _ (by simp) _ (by simp))
      have k4 := sqe (w.sub u) u (hall _ (by simp) _ (by simp))
      have k5 := sqe (w.sub v) u (hall _ (by simp) _ (by simp))
      have dd : ∀ x y : V3 ℝ, (x.sub y).sq = x.sq + y.sq - 2 * y.dot x := by
        intro x y; simp only [V3.sub, V3.sq, V3.dot]; ring
      rw [dd] at k3 k4 k5
      have hq : 0 < u.sq := by
        rcases (sq_nonneg3 u).eq_or_lt with h | h
        · exfalso
          obtain ⟨x0, y0, z0⟩ := sq_zero3 h.symm
          apply hD0
          rw [hD]; simp only [V3.dot, x0, y0, z0]; ring
        · exact h
      have := euler_regular hq rfl k1 k2 (by linarith) (by linarith) (by linarith) hO
      rw [div_div, this, mul_comm L, div_self]
      positivity

/-- **C134**, the other half: four nodes in a plane on one circle make the check fail (`assert x_area > 0`): the square, which is
the flattest tetrahedron with crossing edges, cannot be measured and not be healed. -/
theorem tetGamma_fails {a b c d O : V3 ℝ} (hv : tetVol [a, b, c, d] = 0)
    (hO : (O.sub a).sq = (O.sub b).sq ∧ (O.sub a).sq = (O.sub c).sq ∧ (O.sub a).sq = (O.sub d).sq) :
    tetGamma [a, b, c, d] = none := by
  have hN : centreVec (b.sub a) (c.sub a) (d.sub a) = ⟨0, 0, 0⟩ := by
    set u := b.sub a with hu
    set v := c.sub a with hvd
    set w := d.sub a with hw
    set y := O.sub a with hy
    have hD : u.dot (v.cross w) = 0 := by
      have : tetVol [a, b, c, d] = u.dot (v.cross w) / 6 := rfl
      rw [this] at hv
      linarith
    have f : ∀ x : V3 ℝ, (O.sub x).sq = y.sq + (x.sub a).sq - 2 * y.dot (x.sub a) := by
      intro x; rw [hy]; simp only [V3.sub, V3.sq, V3.dot]; ring
    obtain ⟨h1, h2, h3⟩ := hO
    rw [f b, ← hu] at h1
    rw [f c, ← hvd] at h2
    rw [f d, ← hw] at h3
    clear_value u v w y
    have g1 : u.sq = 2 * y.dot u := by linarith
    have g2 : v.sq = 2 * y.dot v := by linarith
    have g3 : w.sq = 2 * y.dot w := by linarith
    unfold centreVec
    rw [g1, g2, g3]
    simp only [V3.cross, V3.dot] at hD ⊢
    simp only [V3.mk.injEq]
    refine ⟨?_, ?_, ?_⟩
    · linear_combination 2 * y.x * hD
    · linear_combination 2 * y.y * hD
    · linear_combination 2 * y.z * hD
  have hx : xArea (edgeLens 4 [a, b, c, d]) = 0 := by
    rw [xArea_eq, hN]; simp [V3.sq, V3.dot]
  unfold tetGamma
  simp only [hx, lt_irrefl, if_false]

/-- The unit square. -/
example : tetGamma [⟨0, 0, 0⟩, ⟨1, 0, 0⟩, ⟨1, 1, 0⟩, ⟨0, 1, 0⟩] = none :=
  tetGamma_fails (O := ⟨1 / 2, 1 / 2, 0⟩) (by simp [tetVol, at3, V3.sub, V3.dot, V3.cross])
    (by simp only [V3.sub, V3.sq, V3.dot]; norm_num)

/-- The corner of a cube is a tetrahedron for `tetGamma_range`, with quality less than 1. -/
example : ∃ γ, tetGamma [⟨0, 0, 0⟩, ⟨1, 0, 0⟩, ⟨0, 1, 0⟩, ⟨0, 0, 1⟩] = some γ ∧ 0 < γ ∧ γ ≤ 1 := by
  have hv : tetVol (K := ℝ) [⟨0, 0, 0⟩, ⟨1, 0, 0⟩, ⟨0, 1, 0⟩, ⟨0, 0, 1⟩] = 1 / 6 := by
    simp [tetVol, at3, V3.sub, V3.dot, V3.cross]
  obtain ⟨γ, -, -, h1, h2, h3, -⟩ := tetGamma_range (a := ⟨0, 0, 0⟩) (b := ⟨1, 0, 0⟩) (c := ⟨0, 1, 0⟩) (d := ⟨0, 0, 1⟩) (by
    rw [hv, abs_of_pos (by norm_num)]; unfold tiny
    exact one_div_le_one_div_of_le (by norm_num) (le_trans (by norm_num) (le_self_pow₀ (by norm_num : (1 : ℝ) ≤ 10) (by norm_num : (300 : ℕ) ≠ 0))))
  exact ⟨γ, h1, h2, h3⟩

end Verif.Heal
