import Verif.Heal.Tet

/-!
The triangle case of `_check_flat_tetra`, why one of the cases always applies, and what flattening and splitting do with volumes.
-/
namespace Verif.Heal

variable {K : Type} [Field K] [LinearOrder K] [IsStrictOrderedRing K]

theorem sq_nonneg3 (v : V3 K) : 0 ≤ v.sq := by
  simp only [V3.sq, V3.dot]
  exact add_nonneg (add_nonneg (mul_self_nonneg _) (mul_self_nonneg _)) (mul_self_nonneg _)

theorem sq_zero3 {v : V3 K} (h : v.sq = 0) : v.x = 0 ∧ v.y = 0 ∧ v.z = 0 := by
  simp only [V3.sq, V3.dot] at h
  have hx := mul_self_nonneg v.x
  have hy := mul_self_nonneg v.y
  have hz := mul_self_nonneg v.z
  exact ⟨mul_self_eq_zero.1 (by linarith), mul_self_eq_zero.1 (by linarith), mul_self_eq_zero.1 (by linarith)⟩

/-- The foot of the perpendicular is the nearest point of a line. -/
theorem farFrom_iff {x a b : V3 K} (h : (b.sub a).sq ≠ 0) :
    farFrom x a b ↔ ∀ t : K, (b.sub a).sq / 400 < (x.sub (a.along t (b.sub a))).sq := by
  set e := b.sub a with he
  set t0 := e.dot (x.sub a) / e.sq with ht0
  have h0 : t0 * e.sq = e.dot (x.sub a) := by rw [ht0, div_mul_cancel₀ _ h]
  have key : ∀ t, (x.sub (a.along t e)).sq = (x.sub (a.along t0 e)).sq + (t - t0) ^ 2 * e.sq := by
    intro t
    have h1 : ∀ t, (x.sub (a.along t e)).sq = (x.sub a).sq - 2 * t * e.dot (x.sub a) + t ^ 2 * e.sq := by
      intro t; simp only [V3.sub, V3.along, V3.sq, V3.dot]; ring
    rw [h1, h1]
    linear_combination (2 * (t - t0)) * h0
  show e.sq / 400 < (x.sub (a.along t0 e)).sq ↔ _
  constructor
  · intro hlt t
    rw [key t]
    have := mul_nonneg (sq_nonneg (t - t0)) (sq_nonneg3 e)
    linarith
  · intro hall
    exact hall t0

/-- Every line through two of the points is farther than one twentieth of their distance. -/
def FarAll (x : V3 K) (l : List (V3 K)) : Prop :=
  ∀ p ∈ l, ∀ q ∈ l, p ≠ q → ∀ t : K, (q.sub p).sq / 400 < (x.sub (p.along t (q.sub p))).sq

omit [LinearOrder K] [IsStrictOrderedRing K] in
theorem line_swap (x p q : V3 K) (t : K) : (q.sub p).sq = (p.sub q).sq ∧
    (x.sub (p.along t (q.sub p))).sq = (x.sub (q.along (1 - t) (p.sub q))).sq := by
  simp only [V3.sub, V3.along, V3.sq, V3.dot]
  constructor <;> ring

theorem ne_of_sq {p q : V3 K} (h : (q.sub p).sq ≠ 0) : p ≠ q := by
  rintro rfl
  apply h
  simp [V3.sub, V3.sq, V3.dot]

theorem far3 {x p q r : V3 K} (h1 : (q.sub p).sq ≠ 0) (h2 : (r.sub q).sq ≠ 0) (h3 : (p.sub r).sq ≠ 0) :
    (farFrom x q r ∧ farFrom x r p ∧ farFrom x p q) ↔ FarAll x [p, q, r] := by
  rw [farFrom_iff h1, farFrom_iff h2, farFrom_iff h3]
  constructor
  · rintro ⟨f1, f2, f3⟩ y hy z hz hne t
    have sw : ∀ {u v : V3 K}, (∀ t : K, (v.sub u).sq / 400 < (x.sub (u.along t (v.sub u))).sq) →
        (u.sub v).sq / 400 < (x.sub (v.along t (u.sub v))).sq := by
      intro u v h
      have e := line_swap x v u t
      rw [e.1, e.2]
      exact h (1 - t)
    simp only [List.mem_cons, List.not_mem_nil, or_false] at hy hz
    rcases hy with rfl | rfl | rfl <;> rcases hz with rfl | rfl | rfl
    · exact absurd rfl hne
    · exact f3 t
    · exact sw f2
    · exact sw f3
    · exact absurd rfl hne
    · exact f1 t
    · exact f2 t
    · exact sw f1
    · exact absurd rfl hne
  · intro h
    exact ⟨h q (by simp) r (by simp) (ne_of_sq h2), h r (by simp) p (by simp) (ne_of_sq h3), h p (by simp) q (by simp) (ne_of_sq h1)⟩

/-- The edges of a face that is seen along `n` as a triangle with area have lengths. -/
theorem tri_edges {p q r n : V3 K} (g : K) (h : wt p q r n ≠ 0) : ((flat1 q n g).sub (flat1 p n g)).sq ≠ 0 ∧
    ((flat1 r n g).sub (flat1 q n g)).sq ≠ 0 ∧ ((flat1 p n g).sub (flat1 r n g)).sq ≠ 0 := by
  have e : wt p q r n = -(((flat1 q n g).sub (flat1 p n g)).cross ((flat1 r n g).sub (flat1 p n g))).dot n := by
    rw [cross_flat]; simp only [wt, triNormal, V3.mul, V3.dot]; ring
  rw [e] at h
  refine ⟨?_, ?_, ?_⟩ <;> intro h0 <;> obtain ⟨hx, hy, hz⟩ := sq_zero3 h0 <;> apply h <;>
    simp only [V3.sub] at hx hy hz <;> simp only [V3.sub, V3.cross, V3.dot]
  · rw [hx, hy, hz]; ring
  · rw [show (flat1 r n g).x = (flat1 q n g).x by linarith, show (flat1 r n g).y = (flat1 q n g).y by linarith,
      show (flat1 r n g).z = (flat1 q n g).z by linarith]; ring
  · rw [show (flat1 r n g).x = (flat1 p n g).x by linarith, show (flat1 r n g).y = (flat1 p n g).y by linarith,
      show (flat1 r n g).z = (flat1 p n g).z by linarith]; ring

omit [LinearOrder K] [IsStrictOrderedRing K] in
/-- The order of the nodes of a face changes at most the sign of its weight. -/
theorem wt_turn (p q r n : V3 K) : wt p r q n = -wt p q r n ∧ wt q r p n = wt p q r n := by
  simp only [wt, triNormal, V3.mul, V3.cross, V3.sub, V3.dot]
  constructor <;> ring

/-- **C131**, triangle case: if one or three of the face normals have a positive product with the common normal, then a
flattened node is in the triangle of the other three, and the outcome is this triangle, unless the node is nearer than one
twentieth of a side to the line of this side: then the check raises. -/
theorem flat_tri {a b c d n : V3 K} (hn : n.dot n = 1)
    (h13 : (((faceNormals [a, b, c, d]).map fun m => m.dot n).filter (0 < ·)).length = 1 ∨
      (((faceNormals [a, b, c, d]).map fun m => m.dot n).filter (0 < ·)).length = 3) :
    ∃ (outer i j k : Nat) (l1 l2 l3 : K), outer < 4 ∧ [i, j, k].Perm (faces.getD outer []) ∧ 3 - outer ∉ faces.getD outer [] ∧
      0 ≤ l1 ∧ 0 ≤ l2 ∧ 0 ≤ l3 ∧ l1 + l2 + l3 = 1 ∧
      (∀ f : V3 K → K, (f = V3.x ∨ f = V3.y ∨ f = V3.z) → f (at3 (flatten [a, b, c, d] n) (3 - outer)) =
        l1 * f (at3 (flatten [a, b, c, d] n) i) + l2 * f (at3 (flatten [a, b, c, d] n) j) + l3 * f (at3 (flatten [a, b, c, d] n) k)) ∧
      (FarAll (at3 (flatten [a, b, c, d] n) (3 - outer)) [at3 (flatten [a, b, c, d] n) i, at3 (flatten [a, b, c, d] n) j,
          at3 (flatten [a, b, c, d] n) k] → flatCase [a, b, c, d] n = .tri outer (flatten [a, b, c, d] n)) ∧
      (¬ FarAll (at3 (flatten [a, b, c, d] n) (3 - outer)) [at3 (flatten [a, b, c, d] n) i, at3 (flatten [a, b, c, d] n) j,
          at3 (flatten [a, b, c, d] n) k] → flatCase [a, b, c, d] n = .fail) := by
  set g := avg4 a b c d n with hg
  have hfl : flatten [a, b, c, d] n = [flat1 a n g, flat1 b n g, flat1 c n g, flat1 d n g] := flatten_eq a b c d n
  obtain ⟨bx, by', bz⟩ := flat_balance (a := a) (b := b) (c := c) (d := d) g hn
  have hs := wt_sum a b c d n
  unfold flatCase
  rw [cos_eq] at h13 ⊢
  rw [hfl]
  have z0 := tri_edges (p := a) (q := b) (r := c) (n := n) g
  have z1 := tri_edges (p := a) (q := b) (r := d) (n := n) g
  have z2 := tri_edges (p := a) (q := c) (r := d) (n := n) g
  have z3 := tri_edges (p := b) (q := c) (r := d) (n := n) g
  rw [show wt a b d n = -wt a d b n by rw [(wt_turn a b d n).1]; ring] at z1
  rw [show wt b c d n = -wt b d c n by rw [(wt_turn b c d n).1]; ring] at z3
  set w0 := wt a b c n
  set w1 := wt a d b n
  set w2 := wt a c d n
  set w3 := wt b d c n
  set fl := [flat1 a n g, flat1 b n g, flat1 c n g, flat1 d n g] with hfld
  rw [pos_length] at h13
  have fin : ∀ (outer i j k : Nat) (x p q r : V3 K), at3 fl (3 - outer) = x → at3 fl i = p → at3 fl j = q → at3 fl k = r →
      outer < 4 → [i, j, k].Perm (faces.getD outer []) → 3 - outer ∉ faces.getD outer [] →
      (List.range 4).filter (· ≠ 3 - outer) = [i, j, k] → ∀ wo u1 u2 u3 : K, wo ≠ 0 →
      ((0 < wo ∧ u1 ≤ 0 ∧ u2 ≤ 0 ∧ u3 ≤ 0) ∨ (wo ≤ 0 ∧ 0 < u1 ∧ 0 < u2 ∧ 0 < u3)) → wo + u1 + u2 + u3 = 0 →
      wo * x.x + u1 * p.x + u2 * q.x + u3 * r.x = 0 → wo * x.y + u1 * p.y + u2 * q.y + u3 * r.y = 0 →
      wo * x.z + u1 * p.z + u2 * q.z + u3 * r.z = 0 →
      (q.sub p).sq ≠ 0 → (r.sub q).sq ≠ 0 → (p.sub r).sq ≠ 0 → flatBy fl [w0, w1, w2, w3] = triCase fl outer →
      ∃ (outer i j k : Nat) (l1 l2 l3 : K), outer < 4 ∧ [i, j, k].Perm (faces.getD outer []) ∧ 3 - outer ∉ faces.getD outer [] ∧
        0 ≤ l1 ∧ 0 ≤ l2 ∧ 0 ≤ l3 ∧ l1 + l2 + l3 = 1 ∧
        (∀ f : V3 K → K, (f = V3.x ∨ f = V3.y ∨ f = V3.z) → f (at3 fl (3 - outer)) =
          l1 * f (at3 fl i) + l2 * f (at3 fl j) + l3 * f (at3 fl k)) ∧
        (FarAll (at3 fl (3 - outer)) [at3 fl i, at3 fl j, at3 fl k] → flatBy fl [w0, w1, w2, w3] = .tri outer fl) ∧
        (¬ FarAll (at3 fl (3 - outer)) [at3 fl i, at3 fl j, at3 fl k] → flatBy fl [w0, w1, w2, w3] = .fail) := by
    intro outer i j k x p q r ex ep eq er ho hp hno hrange wo u1 u2 u3 hwo hsign hsum hx hy hz d1 d2 d3 hq
    have hl : ∀ u : K, ((0 < wo ∧ u ≤ 0) ∨ (wo ≤ 0 ∧ 0 < u)) → 0 ≤ -u / wo := by
      rintro u (⟨h1, h2⟩ | ⟨h1, h2⟩)
      · exact div_nonneg (by linarith) h1.le
      · exact div_nonneg_of_nonpos (by linarith) h1
    have hv : ∀ X P Q R : K, wo * X + u1 * P + u2 * Q + u3 * R = 0 → X = -u1 / wo * P + -u2 / wo * Q + -u3 / wo * R := by
      intro X P Q R h
      field_simp
      linarith
    have hfar : (∀ e ∈ edges 3, farFrom x (at3 fl (nth [i, j, k] e.1)) (at3 fl (nth [i, j, k] e.2))) ↔ FarAll x [p, q, r] := by
      rw [← far3 d1 d2 d3, ← ep, ← eq, ← er]
      simp [edges, nth]
    have ht : triCase fl outer = if ∀ e ∈ edges 3, farFrom x (at3 fl (nth [i, j, k] e.1)) (at3 fl (nth [i, j, k] e.2))
        then .tri outer fl else .fail := by
      unfold triCase
      simp only [hrange, ex]
    refine ⟨outer, i, j, k, -u1 / wo, -u2 / wo, -u3 / wo, ho, hp, hno, ?_, ?_, ?_, ?_, ?_, ?_, ?_⟩
    · exact hl u1 (hsign.imp (fun h => ⟨h.1, h.2.1⟩) fun h => ⟨h.1, h.2.1⟩)
    · exact hl u2 (hsign.imp (fun h => ⟨h.1, h.2.2.1⟩) fun h => ⟨h.1, h.2.2.1⟩)
    · exact hl u3 (hsign.imp (fun h => ⟨h.1, h.2.2.2⟩) fun h => ⟨h.1, h.2.2.2⟩)
    · field_simp; linarith
    · rw [ex, ep, eq, er]
      rintro f (rfl | rfl | rfl)
      · exact hv _ _ _ _ hx
      · exact hv _ _ _ _ hy
      · exact hv _ _ _ _ hz
    · rw [ex, ep, eq, er, hq, ht]
      intro h
      rw [if_pos (hfar.2 h)]
    · rw [ex, ep, eq, er, hq, ht]
      intro h
      rw [if_neg (fun hh => h (hfar.1 hh))]
  by_cases h0 : 0 < w0 <;> by_cases h1 : 0 < w1 <;> by_cases h2' : 0 < w2 <;> by_cases h3 : 0 < w3 <;>
    simp only [h0, h1, h2', h3, if_true, if_false] at h13 <;> try omega
  · have hq : flatBy fl [w0, w1, w2, w3] = triCase fl 3 := by
      simp [flatBy, List.range, List.range.loop, List.filter_cons, h0, h1, h2', h3, not_le.2, not_lt.1]
    have hwo : w3 ≠ 0 := (ne_of_lt (by linarith))
    obtain ⟨d1, d2, d3⟩ := z3 (neg_ne_zero.2 hwo)
    exact fin 3 1 2 3 (flat1 a n g) (flat1 b n g) (flat1 c n g) (flat1 d n g) rfl rfl rfl rfl (by decide) (by decide) (by decide) (by decide) w3 w2 w1 w0 hwo
      (Or.inr ⟨by linarith, by linarith, by linarith, by linarith⟩) (by linarith) (by linarith) (by linarith) (by linarith) d1 d2 d3 hq
  · have hq : flatBy fl [w0, w1, w2, w3] = triCase fl 2 := by
      simp [flatBy, List.range, List.range.loop, List.filter_cons, h0, h1, h2', h3, not_le.2, not_lt.1]
    have hwo : w2 ≠ 0 := (ne_of_lt (by linarith))
    obtain ⟨d1, d2, d3⟩ := z2 hwo
    exact fin 2 0 2 3 (flat1 b n g) (flat1 a n g) (flat1 c n g) (flat1 d n g) rfl rfl rfl rfl (by decide) (by decide) (by decide) (by decide) w2 w3 w1 w0 hwo
      (Or.inr ⟨by linarith, by linarith, by linarith, by linarith⟩) (by linarith) (by linarith) (by linarith) (by linarith) d1 d2 d3 hq
  · have hq : flatBy fl [w0, w1, w2, w3] = triCase fl 1 := by
      simp [flatBy, List.range, List.range.loop, List.filter_cons, h0, h1, h2', h3, not_le.2, not_lt.1]
    have hwo : w1 ≠ 0 := (ne_of_lt (by linarith))
    obtain ⟨d1, d2, d3⟩ := z1 (neg_ne_zero.2 hwo)
    exact fin 1 0 1 3 (flat1 c n g) (flat1 a n g) (flat1 b n g) (flat1 d n g) rfl rfl rfl rfl (by decide) (by decide) (by decide) (by decide) w1 w3 w2 w0 hwo
      (Or.inr ⟨by linarith, by linarith, by linarith, by linarith⟩) (by linarith) (by linarith) (by linarith) (by linarith) d1 d2 d3 hq
  · have hq : flatBy fl [w0, w1, w2, w3] = triCase fl 0 := by
      simp [flatBy, List.range, List.range.loop, List.filter_cons, h0, h1, h2', h3, not_le.2, not_lt.1]
    have hwo : w0 ≠ 0 := (ne_of_gt (by linarith))
    obtain ⟨d1, d2, d3⟩ := z0 hwo
    exact fin 0 0 1 2 (flat1 d n g) (flat1 a n g) (flat1 b n g) (flat1 c n g) rfl rfl rfl rfl (by decide) (by decide) (by decide) (by decide) w0 w3 w2 w1 hwo
      (Or.inl ⟨by linarith, by linarith, by linarith, by linarith⟩) (by linarith) (by linarith) (by linarith) (by linarith) d1 d2 d3 hq
  · have hq : flatBy fl [w0, w1, w2, w3] = triCase fl 0 := by
      simp [flatBy, List.range, List.range.loop, List.filter_cons, h0, h1, h2', h3, not_le.2, not_lt.1]
    have hwo : w0 ≠ 0 := (ne_of_lt (by linarith))
    obtain ⟨d1, d2, d3⟩ := z0 hwo
    exact fin 0 0 1 2 (flat1 d n g) (flat1 a n g) (flat1 b n g) (flat1 c n g) rfl rfl rfl rfl (by decide) (by decide) (by decide) (by decide) w0 w3 w2 w1 hwo
      (Or.inr ⟨by linarith, by linarith, by linarith, by linarith⟩) (by linarith) (by linarith) (by linarith) (by linarith) d1 d2 d3 hq
  · have hq : flatBy fl [w0, w1, w2, w3] = triCase fl 1 := by
      simp [flatBy, List.range, List.range.loop, List.filter_cons, h0, h1, h2', h3, not_le.2, not_lt.1]
    have hwo : w1 ≠ 0 := (ne_of_gt (by linarith))
    obtain ⟨d1, d2, d3⟩ := z1 (neg_ne_zero.2 hwo)
    exact fin 1 0 1 3 (flat1 c n g) (flat1 a n g) (flat1 b n g) (flat1 d n g) rfl rfl rfl rfl (by decide) (by decide) (by decide) (by decide) w1 w3 w2 w0 hwo
      (Or.inl ⟨by linarith, by linarith, by linarith, by linarith⟩) (by linarith) (by linarith) (by linarith) (by linarith) d1 d2 d3 hq
  · have hq : flatBy fl [w0, w1, w2, w3] = triCase fl 2 := by
      simp [flatBy, List.range, List.range.loop, List.filter_cons, h0, h1, h2', h3, not_le.2, not_lt.1]
    have hwo : w2 ≠ 0 := (ne_of_gt (by linarith))
    obtain ⟨d1, d2, d3⟩ := z2 hwo
    exact fin 2 0 2 3 (flat1 b n g) (flat1 a n g) (flat1 c n g) (flat1 d n g) rfl rfl rfl rfl (by decide) (by decide) (by decide) (by decide) w2 w3 w1 w0 hwo
      (Or.inl ⟨by linarith, by linarith, by linarith, by linarith⟩) (by linarith) (by linarith) (by linarith) (by linarith) d1 d2 d3 hq
  · have hq : flatBy fl [w0, w1, w2, w3] = triCase fl 3 := by
      simp [flatBy, List.range, List.range.loop, List.filter_cons, h0, h1, h2', h3, not_le.2, not_lt.1]
    have hwo : w3 ≠ 0 := (ne_of_gt (by linarith))
    obtain ⟨d1, d2, d3⟩ := z3 (neg_ne_zero.2 hwo)
    exact fin 3 1 2 3 (flat1 a n g) (flat1 b n g) (flat1 c n g) (flat1 d n g) rfl rfl rfl rfl (by decide) (by decide) (by decide) (by decide) w3 w2 w1 w0 hwo
      (Or.inl ⟨by linarith, by linarith, by linarith, by linarith⟩) (by linarith) (by linarith) (by linarith) (by linarith) d1 d2 d3 hq

/-- For a tetrahedron with a volume one, two or three of the products are positive: `assert False` (heal_mesh.py:699) is never
reached. -/
theorem flat_some {a b c d n : V3 K} (hn : n.dot n = 1) (hv : tetVol [a, b, c, d] ≠ 0) :
    (((faceNormals [a, b, c, d]).map fun m => m.dot n).filter (0 < ·)).length = 1 ∨
    (((faceNormals [a, b, c, d]).map fun m => m.dot n).filter (0 < ·)).length = 2 ∨
    (((faceNormals [a, b, c, d]).map fun m => m.dot n).filter (0 < ·)).length = 3 := by
  rw [cos_eq, pos_length]
  have hs := wt_sum a b c d n
  obtain ⟨⟨bx, by'⟩, bz⟩ := balance_raw a b c d n
  set w0 := wt a b c n
  set w1 := wt a d b n
  set w2 := wt a c d n
  set w3 := wt b d c n
  by_cases h0 : 0 < w0 <;> by_cases h1 : 0 < w1 <;> by_cases h2 : 0 < w2 <;> by_cases h3 : 0 < w3 <;>
    simp only [h0, h1, h2, h3, if_true, if_false] <;> try (simp; done)
  · exfalso; linarith
  · exfalso
    have e0 : w0 = 0 := by linarith
    have e1 : w1 = 0 := by linarith
    have e2 : w2 = 0 := by linarith
    have e3 : w3 = 0 := by linarith
    rw [e0, e1, e2, e3] at bx by' bz
    have hV : -6 * tetVol [a, b, c, d] ≠ 0 := mul_ne_zero (by norm_num) hv
    have nx : n.x = 0 := (mul_eq_zero.1 (by linarith : -6 * tetVol [a, b, c, d] * n.x = 0)).resolve_left hV
    have ny : n.y = 0 := (mul_eq_zero.1 (by linarith : -6 * tetVol [a, b, c, d] * n.y = 0)).resolve_left hV
    have nz : n.z = 0 := (mul_eq_zero.1 (by linarith : -6 * tetVol [a, b, c, d] * n.z = 0)).resolve_left hV
    simp only [V3.dot, nx, ny, nz] at hn
    norm_num at hn

/-- **C132**: flattening moves every node along the common normal to one plane, through the mean of the nodes: the flattened
tetrahedron has no volume (the assertion of line 676) and its node sum is the old one. -/
theorem flatten_plane {a b c d n : V3 K} (hn : n.dot n = 1) :
    ∃ fa fb fc fd g, flatten [a, b, c, d] n = [fa, fb, fc, fd] ∧
      (∀ v f, (v, f) ∈ [(a, fa), (b, fb), (c, fc), (d, fd)] → f.dot n = g ∧ f = v.along (g - v.dot n) n) ∧
      4 * g = (a.dot n + b.dot n + c.dot n + d.dot n) ∧ tetVol [fa, fb, fc, fd] = 0 ∧
      fa.x + fb.x + fc.x + fd.x = a.x + b.x + c.x + d.x ∧ fa.y + fb.y + fc.y + fd.y = a.y + b.y + c.y + d.y ∧
      fa.z + fb.z + fc.z + fd.z = a.z + b.z + c.z + d.z := by
  set g := avg4 a b c d n with hg
  have h4 : 4 * g = a.dot n + b.dot n + c.dot n + d.dot n := by
    rw [hg]; simp only [avg4, List.map_cons, List.map_nil, List.sum_cons, List.sum_nil]; field_simp; ring
  refine ⟨_, _, _, _, g, flatten_eq a b c d n, ?_, h4, ?_, ?_, ?_, ?_⟩
  · intro v f hm
    have key : ∀ v : V3 K, (flat1 v n g).dot n = g ∧ flat1 v n g = v.along (g - v.dot n) n := by
      intro v
      refine ⟨flat1_dot g hn, ?_⟩
      unfold flat1
      rw [neg_sub]
    simp only [List.mem_cons, Prod.mk.injEq, List.not_mem_nil, or_false] at hm
    rcases hm with ⟨rfl, rfl⟩ | ⟨rfl, rfl⟩ | ⟨rfl, rfl⟩ | ⟨rfl, rfl⟩ <;> exact key _
  · -- the differences are orthogonal to `n`
    have hd : ∀ u v : V3 K, ((flat1 u n g).sub (flat1 v n g)).dot n = 0 := by
      intro u v
      have h1 := flat1_dot (v := u) g hn
      have h2 := flat1_dot (v := v) g hn
      simp only [V3.dot, V3.sub] at h1 h2 ⊢
      linarith
    have hdet : ∀ u v w : V3 K, u.dot n = 0 → v.dot n = 0 → w.dot n = 0 → u.dot (v.cross w) = 0 := by
      intro u v w h1 h2 h3
      have e : u.dot (v.cross w) * n.dot n = u.dot n * ((v.cross w).dot n) + v.dot n * ((w.cross u).dot n) +
          w.dot n * ((u.cross v).dot n) := by
        simp only [V3.cross, V3.dot]; ring
      rw [hn, h1, h2, h3, mul_one] at e
      rw [e]; ring
    simp only [tetVol, at3, List.getD_cons_zero, List.getD_cons_succ]
    rw [hdet _ _ _ (hd _ _) (hd _ _) (hd _ _), zero_div]
  · simp only [flat1, V3.along]
    linear_combination n.x * h4
  · simp only [flat1, V3.along]
    linear_combination n.y * h4
  · simp only [flat1, V3.along]
    linear_combination n.z * h4

/-- **C133**: an element that has the edge from node `i` to node `j`, split at a point of this edge (heal_mesh.py:764-774: the new
node takes the place of the one, then of the other end), keeps its volume and its orientation: the two parts have the
volumes `1 - t` and `t` times the old one. -/
theorem split_volume {a b c d x : V3 K} {t : K} {i j : Nat} (hi : i < 4) (hj : j < 4) (hij : i ≠ j)
    (hx : x = (at3 [a, b, c, d] i).along t ((at3 [a, b, c, d] j).sub (at3 [a, b, c, d] i))) :
    tetVol ([a, b, c, d].set i x) = (1 - t) * tetVol [a, b, c, d] ∧ tetVol ([a, b, c, d].set j x) = t * tetVol [a, b, c, d] := by
  subst hx
  have ci : i = 0 ∨ i = 1 ∨ i = 2 ∨ i = 3 := by omega
  have cj : j = 0 ∨ j = 1 ∨ j = 2 ∨ j = 3 := by omega
  rcases ci with rfl | rfl | rfl | rfl <;> rcases cj with rfl | rfl | rfl | rfl <;> first | (exact absurd rfl hij) | skip
  all_goals
    simp only [List.set_cons_zero, List.set_cons_succ, tetVol, at3, List.getD_cons_zero, List.getD_cons_succ, V3.cross, V3.sub,
      V3.dot, V3.along]
    constructor <;> ring

/-- **C133**, general form, with the triangle case (heal_mesh.py:829-836): a node with the barycentric coordinates `l` takes the
place of one node after the other; the parts have the volumes `l i` times the old one. They sum up to the old volume; nodes
with `l i = 0`, as the node opposite to the face that is split, give no part. -/
theorem split_volume3 {a b c d x : V3 K} {l : Nat → K} (hl : l 0 + l 1 + l 2 + l 3 = 1)
    (hx : x = ⟨l 0 * a.x + l 1 * b.x + l 2 * c.x + l 3 * d.x, l 0 * a.y + l 1 * b.y + l 2 * c.y + l 3 * d.y,
      l 0 * a.z + l 1 * b.z + l 2 * c.z + l 3 * d.z⟩) {i : Nat} (hi : i < 4) :
    tetVol ([a, b, c, d].set i x) = l i * tetVol [a, b, c, d] := by
  subst hx
  have h3 : l 3 = 1 - l 0 - l 1 - l 2 := by linarith
  have ci : i = 0 ∨ i = 1 ∨ i = 2 ∨ i = 3 := by omega
  rcases ci with rfl | rfl | rfl | rfl <;>
    simp only [List.set_cons_zero, List.set_cons_succ, tetVol, at3, List.getD_cons_zero, List.getD_cons_succ, V3.cross, V3.sub,
      V3.dot, h3] <;> ring

/-- The outcome as numbers: `[1]` and the two edges and the crossing, `[2]` and the outer face, or `[0]` for a failure. -/
def show' : Flat (V3 ℚ) → List ℚ
  | .quad p q _ x => [1, p.1, p.2, q.1, q.2, x.x, x.y, x.z]
  | .tri o _ => [2, o]
  | _ => [0]

/-- Two edges crossing in the middle, at the mean height. -/
example : show' (flatCase [⟨0, 0, 0⟩, ⟨2, 2, 0⟩, ⟨2, 0, 1 / 10⟩, ⟨0, 2, 1 / 10⟩] ⟨0, 0, 1⟩) = [1, 0, 1, 2, 3, 1, 1, 1 / 20] := by
  decide +kernel

/-- A node over the middle of a triangle. -/
example : show' (flatCase [⟨0, 0, 0⟩, ⟨3, 0, 0⟩, ⟨0, 3, 0⟩, ⟨1, 1, 1 / 10⟩] ⟨0, 0, 1⟩) = [2, 0] := by
  decide +kernel

/-- **C131**: a flat tetrahedron for which the check raises, because two edges cross near an end. -/
example : tetVol (K := ℚ) [⟨0, 0, 0⟩, ⟨2, 0, 0⟩, ⟨1, -48 / 5, 1 / 10⟩, ⟨1, 2 / 5, 1 / 10⟩] ≠ 0 ∧
    show' (flatCase [⟨0, 0, 0⟩, ⟨2, 0, 0⟩, ⟨1, -48 / 5, 1 / 10⟩, ⟨1, 2 / 5, 1 / 10⟩] ⟨0, 0, 1⟩) = [0] := by
  decide +kernel

end Verif.Heal
