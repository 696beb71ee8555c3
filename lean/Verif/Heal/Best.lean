import Verif.Heal.TetQuality

/-! The plane that flat tetrahedra are projected to is the best one, and `skew_line_dist` is the distance of two lines. -/
namespace Verif.Heal

section
variable {K : Type} [Field K] [LinearOrder K] [IsStrictOrderedRing K]

/-- The vectors of the edges of a tetrahedron (heal_mesh.py:19-22, 58). -/
def edgeVecs (ns : List (V3 K)) : List (V3 K) := (edges 4).map fun e => (at3 ns e.2).sub (at3 ns e.1)

/-- What `common_normal` returns (heal_mesh.py:112-119): the last row of the third factor of `np.linalg.svd` of the edge vectors is a unit
vector with the least sum of squares of products with them. -/
structure IsCommonNormal (ns : List (V3 K)) (n : V3 K) : Prop where
  unit : n.sq = 1
  least : ∀ m : V3 K, m.sq = 1 → ((edgeVecs ns).map fun e => e.dot n ^ 2).sum ≤ ((edgeVecs ns).map fun e => e.dot m ^ 2).sum

/-- Sum of the squares of the distances from the points to others. -/
def moves (ps vs : List (V3 K)) : K := ((ps.zip vs).map fun q => (q.1.sub q.2).sq).sum

theorem cauchy_unit (d m : V3 K) (hm : m.sq = 1) : d.dot m ^ 2 ≤ d.sq := by
  simp only [V3.sq, V3.dot] at *
  have h : d.x * d.x + d.y * d.y + d.z * d.z = (d.x * d.x + d.y * d.y + d.z * d.z) * (m.x * m.x + m.y * m.y + m.z * m.z) := by
    rw [hm, mul_one]
  rw [h]
  nlinarith [sq_nonneg (d.x * m.y - d.y * m.x), sq_nonneg (d.y * m.z - d.z * m.y), sq_nonneg (d.x * m.z - d.z * m.x)]

theorem spread4 (p q r s c : K) :
    (q - p) ^ 2 + ((r - p) ^ 2 + ((s - p) ^ 2 + ((s - r) ^ 2 + ((s - q) ^ 2 + (r - q) ^ 2)))) ≤
      4 * ((p - c) ^ 2 + ((q - c) ^ 2 + ((r - c) ^ 2 + (s - c) ^ 2))) := by
  nlinarith [sq_nonneg (p + q + r + s - 4 * c)]

/-- **C175.** The projection of a tetrahedron by `_check_flat_tetra` (heal_mesh.py:669-675) is the best one: moving its nodes to any other
points in one plane moves them at least as far, in the sum of squares. -/
theorem flatten_best {a b c d n : V3 K} (hn : IsCommonNormal [a, b, c, d] n) {m : V3 K} (hm : m.sq = 1) {h : K} {p q r s : V3 K}
    (hp : p.dot m = h) (hq : q.dot m = h) (hr : r.dot m = h) (hs : s.dot m = h) :
    moves (flatten [a, b, c, d] n) [a, b, c, d] ≤ moves [p, q, r, s] [a, b, c, d] := by
  have e : ∀ k : V3 K, ((edgeVecs [a, b, c, d]).map fun e => e.dot k ^ 2).sum =
      (b.dot k - a.dot k) ^ 2 + ((c.dot k - a.dot k) ^ 2 + ((d.dot k - a.dot k) ^ 2 + ((d.dot k - c.dot k) ^ 2 +
        ((d.dot k - b.dot k) ^ 2 + (c.dot k - b.dot k) ^ 2)))) := by
    intro k
    have : (edgeVecs [a, b, c, d]) = [b.sub a, c.sub a, d.sub a, d.sub c, d.sub b, c.sub b] := rfl
    rw [this]
    simp only [List.map_cons, List.map_nil, List.sum_cons, List.sum_nil, V3.sub, V3.dot]
    ring
  have f : ∀ (v : V3 K) (g : K), ((flat1 v n g).sub v).sq = (v.dot n - g) ^ 2 := by
    intro v g
    have : ((flat1 v n g).sub v).sq = (v.dot n - g) ^ 2 * n.sq := by
      simp only [flat1, V3.along, V3.sub, V3.sq, V3.dot]
      ring
    rw [this, hn.unit, mul_one]
  have k1 := hn.least m hm
  rw [e, e] at k1
  have k2 := spread4 (a.dot m) (b.dot m) (c.dot m) (d.dot m) h
  have g : ∀ (x v : V3 K), x.dot m = h → (v.dot m - h) ^ 2 ≤ (x.sub v).sq := by
    intro x v hx
    have := cauchy_unit (x.sub v) m hm
    have e1 : (x.sub v).dot m = h - v.dot m := by
      rw [← hx]
      simp only [V3.sub, V3.dot]
      ring
    rw [e1] at this
    linarith [show (v.dot m - h) ^ 2 = (h - v.dot m) ^ 2 by ring]
  have g1 := g p a hp
  have g2 := g q b hq
  have g3 := g r c hr
  have g4 := g s d hs
  rw [flatten_eq]
  simp only [moves, List.zip_cons_cons, List.zip_nil_right, List.map_cons, List.map_nil, List.sum_cons, List.sum_nil, add_zero, f]
  have av : avg4 a b c d n = (a.dot n + b.dot n + c.dot n + d.dot n) / 4 := by
    simp only [avg4, List.map_cons, List.map_nil, List.sum_cons, List.sum_nil]
    ring
  rw [av]
  have k3 : 4 * ((a.dot n - (a.dot n + b.dot n + c.dot n + d.dot n) / 4) ^ 2 + ((b.dot n - (a.dot n + b.dot n + c.dot n + d.dot n) / 4) ^ 2 +
      ((c.dot n - (a.dot n + b.dot n + c.dot n + d.dot n) / 4) ^ 2 + (d.dot n - (a.dot n + b.dot n + c.dot n + d.dot n) / 4) ^ 2))) =
      (b.dot n - a.dot n) ^ 2 + ((c.dot n - a.dot n) ^ 2 + ((d.dot n - a.dot n) ^ 2 + ((d.dot n - c.dot n) ^ 2 +
        ((d.dot n - b.dot n) ^ 2 + (c.dot n - b.dot n) ^ 2)))) := by ring
  linarith

/-- **C175.** A tetrahedron in a plane stays as it is. -/
theorem flatten_flat {a b c d n : V3 K} (hn : IsCommonNormal [a, b, c, d] n) {m : V3 K} (hm : m.sq = 1) {h : K}
    (ha : a.dot m = h) (hb : b.dot m = h) (hc : c.dot m = h) (hd : d.dot m = h) : flatten [a, b, c, d] n = [a, b, c, d] := by
  have k := flatten_best hn hm ha hb hc hd
  rw [flatten_eq] at *
  have z : ∀ v : V3 K, (v.sub v).sq = 0 := fun v => by simp [V3.sub, V3.sq, V3.dot]
  simp only [moves, List.zip_cons_cons, List.zip_nil_right, List.map_cons, List.map_nil, List.sum_cons, List.sum_nil, add_zero, z] at k
  have nn : ∀ v : V3 K, 0 ≤ v.sq := fun v => add_nonneg (add_nonneg (mul_self_nonneg _) (mul_self_nonneg _)) (mul_self_nonneg _)
  have same : ∀ v w : V3 K, (v.sub w).sq ≤ 0 → v = w := by
    intro v w hv
    obtain ⟨x, y, z⟩ := v
    obtain ⟨x', y', z'⟩ := w
    simp only [V3.sub, V3.sq, V3.dot] at hv
    have h1 := mul_self_nonneg (x - x')
    have h2 := mul_self_nonneg (y - y')
    have h3 := mul_self_nonneg (z - z')
    rw [sub_eq_zero.1 (mul_self_eq_zero.1 (le_antisymm (by linarith) h1)), sub_eq_zero.1 (mul_self_eq_zero.1 (le_antisymm (by linarith) h2)),
      sub_eq_zero.1 (mul_self_eq_zero.1 (le_antisymm (by linarith) h3))]
  have n1 := nn ((flat1 a n (avg4 a b c d n)).sub a)
  have n2 := nn ((flat1 b n (avg4 a b c d n)).sub b)
  have n3 := nn ((flat1 c n (avg4 a b c d n)).sub c)
  have n4 := nn ((flat1 d n (avg4 a b c d n)).sub d)
  rw [same (flat1 a n _) a (by linarith), same (flat1 b n _) b (by linarith), same (flat1 c n _) c (by linarith),
    same (flat1 d n _) d (by linarith)]

end

/-- The hypotheses: a thin tetrahedron over the plane `z = 0` and another plane. -/
theorem flatten_best_case : IsCommonNormal ([⟨0, 0, 0⟩, ⟨4, 0, 1⟩, ⟨4, 4, 0⟩, ⟨0, 4, 1⟩] : List (V3 ℚ)) ⟨0, 0, 1⟩ ∧
    (⟨3 / 5, 0, 4 / 5⟩ : V3 ℚ).sq = 1 ∧
    flatten ([⟨0, 0, 0⟩, ⟨4, 0, 1⟩, ⟨4, 4, 0⟩, ⟨0, 4, 1⟩] : List (V3 ℚ)) ⟨0, 0, 1⟩ =
      [⟨0, 0, 1 / 2⟩, ⟨4, 0, 1 / 2⟩, ⟨4, 4, 1 / 2⟩, ⟨0, 4, 1 / 2⟩] := by
  refine ⟨⟨by norm_num [V3.sq, V3.dot], fun m hm => ?_⟩, by norm_num [V3.sq, V3.dot], by
    norm_num [flatten, V3.dot, V3.along]⟩
  have : edgeVecs ([⟨0, 0, 0⟩, ⟨4, 0, 1⟩, ⟨4, 4, 0⟩, ⟨0, 4, 1⟩] : List (V3 ℚ)) =
      [⟨4, 0, 1⟩, ⟨4, 4, 0⟩, ⟨0, 4, 1⟩, ⟨-4, 0, 1⟩, ⟨-4, 4, 0⟩, ⟨0, 4, -1⟩] := by
    norm_num [edgeVecs, edges, at3, V3.sub]
  rw [this]
  simp only [List.map_cons, List.map_nil, List.sum_cons, List.sum_nil, V3.sq, V3.dot] at *
  nlinarith [sq_nonneg m.x, sq_nonneg m.y, sq_nonneg m.z]

/-- `skew_line_dist` (heal_mesh.py:122-128). -/
noncomputable def skewLineDist (ns : List (V3 ℝ)) : ℝ × V3 ℝ :=
  let u := (at3 ns 1).sub (at3 ns 0)
  let v := (at3 ns 3).sub (at3 ns 2)
  let c := u.cross v
  let n := V3.mul (1 / c.len) c
  (n.dot ((at3 ns 0).sub (at3 ns 2)), n)

/-- **C176.** For lines that are not parallel `skew_line_dist` returns a unit vector normal to both and, up to the sign, the distance of
the lines through the first two and the last two nodes. -/
theorem skew_line_dist {a b c d : V3 ℝ} (h : ((b.sub a).cross (d.sub c)).sq ≠ 0) :
    (skewLineDist [a, b, c, d]).2.sq = 1 ∧ (skewLineDist [a, b, c, d]).2.dot (b.sub a) = 0 ∧
    (skewLineDist [a, b, c, d]).2.dot (d.sub c) = 0 ∧
    (∀ s t, |(skewLineDist [a, b, c, d]).1| ≤ ((a.along s (b.sub a)).sub (c.along t (d.sub c))).len) ∧
    ∃ s t, |(skewLineDist [a, b, c, d]).1| = ((a.along s (b.sub a)).sub (c.along t (d.sub c))).len := by
  obtain ⟨u, hu⟩ : ∃ u, b.sub a = u := ⟨_, rfl⟩
  obtain ⟨v, hv⟩ : ∃ v, d.sub c = v := ⟨_, rfl⟩
  have e2 : (skewLineDist [a, b, c, d]).2 = V3.mul (1 / (u.cross v).len) (u.cross v) := by rw [← hu, ← hv]; rfl
  have e1 : (skewLineDist [a, b, c, d]).1 = (V3.mul (1 / (u.cross v).len) (u.cross v)).dot (a.sub c) := by rw [← hu, ← hv]; rfl
  rw [e2, e1]
  rw [hu, hv] at h ⊢
  have nn : 0 ≤ (u.cross v).sq := add_nonneg (add_nonneg (mul_self_nonneg _) (mul_self_nonneg _)) (mul_self_nonneg _)
  have lp : 0 < (u.cross v).len := Real.sqrt_pos.2 (lt_of_le_of_ne nn (Ne.symm h))
  have ls : (u.cross v).len ^ 2 = (u.cross v).sq := Real.sq_sqrt nn
  obtain ⟨l, hl⟩ : ∃ l, (u.cross v).len = l := ⟨_, rfl⟩
  rw [hl] at lp ls ⊢
  have un : (V3.mul (1 / l) (u.cross v)).sq = 1 := by
    have : (V3.mul (1 / l) (u.cross v)).sq = (1 / l) ^ 2 * (u.cross v).sq := by simp only [V3.mul, V3.sq, V3.dot]; ring
    rw [this, ← ls]
    field_simp
  have nu : (V3.mul (1 / l) (u.cross v)).dot u = 0 := by simp only [V3.mul, V3.cross, V3.dot]; ring
  have nv : (V3.mul (1 / l) (u.cross v)).dot v = 0 := by simp only [V3.mul, V3.cross, V3.dot]; ring
  have key : ∀ s t, (V3.mul (1 / l) (u.cross v)).dot (a.sub c) = ((a.along s u).sub (c.along t v)).dot (V3.mul (1 / l) (u.cross v)) := by
    intro s t
    have : ((a.along s u).sub (c.along t v)).dot (V3.mul (1 / l) (u.cross v)) = (V3.mul (1 / l) (u.cross v)).dot (a.sub c) +
        s * (V3.mul (1 / l) (u.cross v)).dot u - t * (V3.mul (1 / l) (u.cross v)).dot v := by
      simp only [V3.along, V3.sub, V3.dot]
      ring
    rw [this, nu, nv]
    ring
  refine ⟨un, nu, nv, fun s t => ?_, ((c.sub a).cross v).dot (u.cross v) / l ^ 2, ((c.sub a).cross u).dot (u.cross v) / l ^ 2, ?_⟩
  · rw [key s t]
    exact Real.abs_le_sqrt (cauchy_unit _ _ un)
  · have hl0 : l ≠ 0 := lp.ne'
    have hd : (a.along (((c.sub a).cross v).dot (u.cross v) / l ^ 2) u).sub (c.along (((c.sub a).cross u).dot (u.cross v) / l ^ 2) v) =
        V3.mul ((u.cross v).dot (a.sub c) / l ^ 2) (u.cross v) := by
      simp only [V3.along, V3.sub, V3.mul, V3.mk.injEq]
      refine ⟨?_, ?_, ?_⟩ <;>
      · field_simp
        rw [ls]
        simp only [V3.cross, V3.dot, V3.sq]
        ring
    rw [hd, V3.len]
    have : (V3.mul ((u.cross v).dot (a.sub c) / l ^ 2) (u.cross v)).sq = ((V3.mul (1 / l) (u.cross v)).dot (a.sub c)) ^ 2 := by
      have e3 : (V3.mul ((u.cross v).dot (a.sub c) / l ^ 2) (u.cross v)).sq = ((u.cross v).dot (a.sub c) / l ^ 2) ^ 2 * (u.cross v).sq := by
        simp only [V3.mul, V3.sq, V3.dot]; ring
      have e4 : (V3.mul (1 / l) (u.cross v)).dot (a.sub c) = (u.cross v).dot (a.sub c) / l := by simp only [V3.mul, V3.dot]; ring
      rw [e3, e4, ← ls]
      field_simp
    rw [this, Real.sqrt_sq_eq_abs]

/-- The hypothesis: two lines at the distance 3. -/
theorem skew_case : ((V3.sub ⟨1, 0, 0⟩ ⟨0, 0, 0⟩).cross (V3.sub ⟨0, 2, 3⟩ ⟨0, 1, (3 : ℝ)⟩)).sq ≠ 0 ∧
    skewLineDist [⟨0, 0, 0⟩, ⟨1, 0, 0⟩, ⟨0, 1, 3⟩, ⟨0, 2, 3⟩] = (-3, ⟨0, 0, 1⟩) := by
  constructor
  · norm_num [V3.sub, V3.cross, V3.sq, V3.dot]
  · norm_num [skewLineDist, at3, V3.sub, V3.cross, V3.mul, V3.len, V3.sq, V3.dot]

end Verif.Heal
