import Verif.Approx.Hull
import Mathlib.Analysis.SpecialFunctions.Complex.Arg
import Mathlib.Data.Finset.Sort

/-!
Model of `min_bounding_rect` (src/bgem/bspline/bspline_approx.py:172-238) in exact arithmetic of real numbers.
-/
namespace Verif.Approx

open Real

/-- Differences of consecutive points (bspline_approx.py:181). -/
noncomputable def edges : List (ℝ × ℝ) → List (ℝ × ℝ)
  | a :: b :: l => (b.1 - a.1, b.2 - a.2) :: edges (b :: l)
  | _ => []

/-- The angle of an edge moved to the first quadrant (bspline_approx.py:184-187): `arctan2`, then `%` of Python, then `abs`. -/
noncomputable def edgeAngle (e : ℝ × ℝ) : ℝ :=
  let a := Complex.arg ⟨e.1, e.2⟩
  |a - π / 2 * ⌊a / (π / 2)⌋|

/-- The rotated point (bspline_approx.py:200-204). -/
noncomputable def rot (a : ℝ) (p : ℝ × ℝ) : ℝ × ℝ :=
  (cos a * p.1 + cos (a - π / 2) * p.2, cos (a + π / 2) * p.1 + cos a * p.2)

/-- `np.dot([x, y], R)` (bspline_approx.py:233-236). -/
noncomputable def rotBack (a : ℝ) (p : ℝ × ℝ) : ℝ × ℝ :=
  (p.1 * cos a + p.2 * cos (a + π / 2), p.1 * cos (a - π / 2) + p.2 * cos a)

/-- `np.nanmin` of a nonempty list. -/
noncomputable def minOf (x : ℝ) (l : List ℝ) : ℝ := l.foldl min x

/-- `np.nanmax` of a nonempty list. -/
noncomputable def maxOf (x : ℝ) (l : List ℝ) : ℝ := l.foldl max x

/-- A candidate: angle, `min_x`, `max_x`, `min_y`, `max_y`. -/
structure Box where
  angle : ℝ
  x0 : ℝ
  x1 : ℝ
  y0 : ℝ
  y1 : ℝ

/-- The area (bspline_approx.py:213). -/
noncomputable def Box.area (b : Box) : ℝ := (b.x1 - b.x0) * (b.y1 - b.y0)

/-- The bounds for an angle (bspline_approx.py:204-210) of the points `p :: l`. -/
noncomputable def boxAt (p : ℝ × ℝ) (l : List (ℝ × ℝ)) (a : ℝ) : Box :=
  ⟨a, minOf (rot a p).1 (l.map fun q => (rot a q).1), maxOf (rot a p).1 (l.map fun q => (rot a q).1),
    minOf (rot a p).2 (l.map fun q => (rot a q).2), maxOf (rot a p).2 (l.map fun q => (rot a q).2)⟩

/-- The loop over the angles (bspline_approx.py:193-217); `none` is the initial value with infinite area. -/
noncomputable def best (p : ℝ × ℝ) (l : List (ℝ × ℝ)) : Option Box → List ℝ → Option Box
  | m, [] => m
  | none, a :: as => best p l (some (boxAt p l a)) as
  | some b, a :: as => best p l (some (if (boxAt p l a).area < b.area then boxAt p l a else b)) as

/-- The corners (bspline_approx.py:220-238). -/
noncomputable def Box.corners (b : Box) : List (ℝ × ℝ) :=
  [rotBack b.angle (b.x0, b.y1), rotBack b.angle (b.x0, b.y0), rotBack b.angle (b.x1, b.y0), rotBack b.angle (b.x1, b.y1)]

/-- `min_bounding_rect` (bspline_approx.py:172-238) of the points `p :: l`. Without edges the bounds are zeros. -/
noncomputable def minBoundingRect (p : ℝ × ℝ) (l : List (ℝ × ℝ)) : List (ℝ × ℝ) :=
  let angles := ((edges (p :: l)).map edgeAngle).toFinset.sort (· ≤ ·)
  match best p l none angles with
  | none => (⟨0, 0, 0, 0, 0⟩ : Box).corners
  | some b => b.corners

theorem minOf_le (x : ℝ) (l : List ℝ) : (∀ y ∈ x :: l, minOf x l ≤ y) ∧ minOf x l ∈ x :: l := by
  induction l generalizing x with
  | nil => simp [minOf]
  | cons b l ih =>
    have := ih (min x b)
    simp only [minOf, List.foldl_cons] at this ⊢
    refine ⟨fun y hy => ?_, ?_⟩
    · simp only [List.mem_cons] at hy
      rcases hy with rfl | rfl | hy
      · exact le_trans (this.1 _ List.mem_cons_self) (min_le_left _ _)
      · exact le_trans (this.1 _ List.mem_cons_self) (min_le_right _ _)
      · exact this.1 y (by simp [hy])
    · have h2 := this.2
      simp only [List.mem_cons] at h2 ⊢
      rcases h2 with h2 | h2
      · rw [h2]
        rcases min_choice x b with h | h <;> rw [h] <;> simp
      · simp [h2]

theorem le_maxOf (x : ℝ) (l : List ℝ) : (∀ y ∈ x :: l, y ≤ maxOf x l) ∧ maxOf x l ∈ x :: l := by
  induction l generalizing x with
  | nil => simp [maxOf]
  | cons b l ih =>
    have := ih (max x b)
    simp only [maxOf, List.foldl_cons] at this ⊢
    refine ⟨fun y hy => ?_, ?_⟩
    · simp only [List.mem_cons] at hy
      rcases hy with rfl | rfl | hy
      · exact le_trans (le_max_left _ _) (this.1 _ List.mem_cons_self)
      · exact le_trans (le_max_right _ _) (this.1 _ List.mem_cons_self)
      · exact this.1 y (by simp [hy])
    · have h2 := this.2
      simp only [List.mem_cons] at h2 ⊢
      rcases h2 with h2 | h2
      · rw [h2]
        rcases max_choice x b with h | h <;> rw [h] <;> simp
      · simp [h2]

theorem rot_eq (a : ℝ) (p : ℝ × ℝ) : rot a p = (cos a * p.1 + sin a * p.2, -sin a * p.1 + cos a * p.2) := by
  simp [rot, cos_sub_pi_div_two, cos_add_pi_div_two]

theorem rotBack_eq (a : ℝ) (p : ℝ × ℝ) : rotBack a p = (p.1 * cos a - p.2 * sin a, p.1 * sin a + p.2 * cos a) := by
  simp only [rotBack, cos_sub_pi_div_two, cos_add_pi_div_two]
  ext <;> simp
  ring

theorem rotBack_rot (a : ℝ) (p : ℝ × ℝ) : rotBack a (rot a p) = p := by
  have h := sin_sq_add_cos_sq a
  rw [rotBack_eq, rot_eq]
  ext
  · simp only; linear_combination p.1 * h
  · simp only; linear_combination p.2 * h

/-- The loop returns the box of one of the angles, with the least area of all. -/
theorem best_spec (p : ℝ × ℝ) (l : List (ℝ × ℝ)) (as : List ℝ) (m : Option Box) (hm : ∀ b, m = some b → ∃ a, b = boxAt p l a) :
    (m = none ∧ as = [] ∧ best p l m as = none) ∨
    ∃ b, best p l m as = some b ∧ (∃ a, b = boxAt p l a) ∧ (∀ c, m = some c → b.area ≤ c.area) ∧
      (∀ a ∈ as, b.area ≤ (boxAt p l a).area) := by
  induction as generalizing m with
  | nil =>
    cases m with
    | none => exact Or.inl ⟨rfl, rfl, rfl⟩
    | some b => exact Or.inr ⟨b, rfl, hm b rfl, fun c hc => by cases hc; exact le_rfl, by simp⟩
  | cons a as ih =>
    right
    cases m with
    | none =>
      rcases ih (some (boxAt p l a)) (fun b hb => ⟨a, (Option.some.inj hb).symm⟩) with h | ⟨b, h1, h2, h3, h4⟩
      · exact absurd h.1 (by simp)
      · exact ⟨b, h1, h2, by simp, fun x hx => by
          rcases List.mem_cons.1 hx with rfl | hx
          · exact h3 _ rfl
          · exact h4 x hx⟩
    | some c =>
      rcases ih (some (if (boxAt p l a).area < c.area then boxAt p l a else c)) (fun b hb => by
          have := Option.some.inj hb
          split at this
          · exact ⟨a, this.symm⟩
          · obtain ⟨x, hx⟩ := hm c rfl
            exact ⟨x, by rw [← this, hx]⟩) with h | ⟨b, h1, h2, h3, h4⟩
      · exact absurd h.1 (by simp)
      · have h3 := h3 _ rfl
        refine ⟨b, h1, h2, fun d hd => ?_, fun x hx => ?_⟩
        · cases hd
          split at h3
          · rename_i hlt; exact h3.trans hlt.le
          · exact h3
        · rcases List.mem_cons.1 hx with rfl | hx
          · split at h3
            · exact h3
            · rename_i hlt; exact h3.trans (not_lt.1 hlt)
          · exact h4 x hx

/-- All points are between the bounds. -/
theorem boxAt_bounds (p : ℝ × ℝ) (l : List (ℝ × ℝ)) (a : ℝ) (q : ℝ × ℝ) (hq : q ∈ p :: l) :
    (boxAt p l a).x0 ≤ (rot a q).1 ∧ (rot a q).1 ≤ (boxAt p l a).x1 ∧ (boxAt p l a).y0 ≤ (rot a q).2 ∧
      (rot a q).2 ≤ (boxAt p l a).y1 := by
  have h1 : (rot a q).1 ∈ (rot a p).1 :: l.map fun q => (rot a q).1 := by
    rcases List.mem_cons.1 hq with rfl | hq
    · simp
    · exact List.mem_cons_of_mem _ (List.mem_map.2 ⟨q, hq, rfl⟩)
  have h2 : (rot a q).2 ∈ (rot a p).2 :: l.map fun q => (rot a q).2 := by
    rcases List.mem_cons.1 hq with rfl | hq
    · simp
    · exact List.mem_cons_of_mem _ (List.mem_map.2 ⟨q, hq, rfl⟩)
  exact ⟨(minOf_le _ _).1 _ h1, (le_maxOf _ _).1 _ h1, (minOf_le _ _).1 _ h2, (le_maxOf _ _).1 _ h2⟩

/-- The bounds are attained. -/
theorem boxAt_attained (p : ℝ × ℝ) (l : List (ℝ × ℝ)) (a : ℝ) :
    (∃ q ∈ p :: l, (rot a q).1 = (boxAt p l a).x0) ∧ (∃ q ∈ p :: l, (rot a q).1 = (boxAt p l a).x1) ∧
    (∃ q ∈ p :: l, (rot a q).2 = (boxAt p l a).y0) ∧ ∃ q ∈ p :: l, (rot a q).2 = (boxAt p l a).y1 := by
  have key : ∀ (f : ℝ × ℝ → ℝ) (x : ℝ), x ∈ f p :: l.map f → ∃ q ∈ p :: l, f q = x := by
    intro f x hx
    rcases List.mem_cons.1 hx with rfl | hx
    · exact ⟨p, by simp, rfl⟩
    · obtain ⟨q, hq, rfl⟩ := List.mem_map.1 hx
      exact ⟨q, by simp [hq], rfl⟩
  exact ⟨key (fun q => (rot a q).1) _ (minOf_le _ _).2, key (fun q => (rot a q).1) _ (le_maxOf _ _).2,
    key (fun q => (rot a q).2) _ (minOf_le _ _).2, key (fun q => (rot a q).2) _ (le_maxOf _ _).2⟩

/-- A point between the bounds is in the convex hull of the corners. -/
theorem mem_corners (b : Box) (q : ℝ × ℝ) (hx0 : b.x0 ≤ (rot b.angle q).1) (hx1 : (rot b.angle q).1 ≤ b.x1)
    (hy0 : b.y0 ≤ (rot b.angle q).2) (hy1 : (rot b.angle q).2 ≤ b.y1) : q ∈ convexHull ℝ {x | x ∈ b.corners} := by
  have key : ∀ {lo x hi : ℝ}, lo ≤ x → x ≤ hi → ∃ s t : ℝ, 0 ≤ s ∧ 0 ≤ t ∧ s + t = 1 ∧ x = s * lo + t * hi := by
    intro lo x hi h1 h2
    rcases eq_or_lt_of_le (h1.trans h2) with h | h
    · exact ⟨1, 0, zero_le_one, le_rfl, by ring, by linarith⟩
    · have hne : hi - lo ≠ 0 := by linarith
      refine ⟨(hi - x) / (hi - lo), (x - lo) / (hi - lo), div_nonneg (by linarith) (by linarith),
        div_nonneg (by linarith) (by linarith), ?_, ?_⟩ <;> field_simp <;> ring
  obtain ⟨s, t, hs, ht, hst, hx⟩ := key hx0 hx1
  obtain ⟨u, v, hu, hv, huv, hy⟩ := key hy0 hy1
  have hc := convex_convexHull ℝ {x | x ∈ b.corners}
  have hin : ∀ c ∈ b.corners, c ∈ convexHull ℝ {x | x ∈ b.corners} := fun c h => subset_convexHull ℝ _ h
  have m0 : u • rotBack b.angle (b.x0, b.y0) + v • rotBack b.angle (b.x0, b.y1) ∈ convexHull ℝ {x | x ∈ b.corners} :=
    hc (hin _ (by simp [Box.corners])) (hin _ (by simp [Box.corners])) hu hv huv
  have m1 : u • rotBack b.angle (b.x1, b.y0) + v • rotBack b.angle (b.x1, b.y1) ∈ convexHull ℝ {x | x ∈ b.corners} :=
    hc (hin _ (by simp [Box.corners])) (hin _ (by simp [Box.corners])) hu hv huv
  have m := hc m0 m1 hs ht hst
  convert m using 1
  rw [← rotBack_rot b.angle q]
  simp only [rotBack_eq]
  rw [hx, hy]
  ext
  · simp only [Prod.fst_add, Prod.smul_fst, smul_eq_mul]
    have e1 : u = 1 - v := by linarith
    have e2 : s = 1 - t := by linarith
    rw [e1, e2]; ring
  · simp only [Prod.snd_add, Prod.smul_snd, smul_eq_mul]
    have e1 : u = 1 - v := by linarith
    have e2 : s = 1 - t := by linarith
    rw [e1, e2]; ring

/-- The angle of an edge differs from its direction by a multiple of the right angle. -/
theorem edgeAngle_spec (e : ℝ × ℝ) :
    ∃ k : ℤ, edgeAngle e = Complex.arg ⟨e.1, e.2⟩ - k * (π / 2) := by
  have hp : 0 < π / 2 := by positivity
  refine ⟨⌊Complex.arg ⟨e.1, e.2⟩ / (π / 2)⌋, ?_⟩
  unfold edgeAngle
  have h := Int.floor_le (Complex.arg ⟨e.1, e.2⟩ / (π / 2))
  rw [le_div_iff₀ hp] at h
  rw [abs_of_nonneg (by linarith)]
  ring

theorem cos_sin_mul (k : ℤ) : cos (k * (π / 2)) * sin (k * (π / 2)) = 0 := by
  have : sin (2 * (k * (π / 2))) = 0 := by
    rw [show 2 * (k * (π / 2)) = k * π by ring]
    exact sin_int_mul_pi k
  rw [sin_two_mul] at this
  linarith

/-- The rotation by the angle of an edge makes the edge parallel to an axis. -/
theorem rot_edge (e : ℝ × ℝ) : (rot (edgeAngle e) e).1 = 0 ∨ (rot (edgeAngle e) e).2 = 0 := by
  obtain ⟨k, hk⟩ := edgeAngle_spec e
  set z : ℂ := ⟨e.1, e.2⟩ with hz
  have h1 : ‖z‖ * cos z.arg = e.1 := Complex.norm_mul_cos_arg z
  have h2 : ‖z‖ * sin z.arg = e.2 := Complex.norm_mul_sin_arg z
  rw [rot_eq, hk, ← h1, ← h2]
  have e1 : cos (z.arg - k * (π / 2)) * (‖z‖ * cos z.arg) + sin (z.arg - k * (π / 2)) * (‖z‖ * sin z.arg) =
      ‖z‖ * cos (k * (π / 2)) := by
    have := cos_sub (z.arg - k * (π / 2)) z.arg
    rw [show z.arg - k * (π / 2) - z.arg = -(k * (π / 2)) by ring, cos_neg] at this
    rw [this]; ring
  have e2 : -sin (z.arg - k * (π / 2)) * (‖z‖ * cos z.arg) + cos (z.arg - k * (π / 2)) * (‖z‖ * sin z.arg) =
      ‖z‖ * sin (k * (π / 2)) := by
    have := sin_sub z.arg (z.arg - k * (π / 2))
    rw [show z.arg - (z.arg - k * (π / 2)) = k * (π / 2) by ring] at this
    rw [this]; ring
  simp only
  rw [e1, e2]
  rcases mul_eq_zero.1 (cos_sin_mul k) with h | h
  · left; rw [h, mul_zero]
  · right; rw [h, mul_zero]

/-- The area of the parallelogram with the sides `c0 - c1` and `c2 - c1`. -/
noncomputable def areaOf (c0 c1 c2 : ℝ × ℝ) : ℝ := |(c0.1 - c1.1) * (c2.2 - c1.2) - (c0.2 - c1.2) * (c2.1 - c1.1)|

/-- The result for at least two points is a rectangle that contains all points; every side has one of them; its area is the
least of all rectangles containing the points with a side along an edge of the list: for a unit vector `(c, s)` with such a
direction and bounds of the points in this direction and in the orthogonal one. -/
theorem rect_spec (p q : ℝ × ℝ) (l : List (ℝ × ℝ)) :
    ∃ c0 c1 c2 c3, minBoundingRect p (q :: l) = [c0, c1, c2, c3] ∧
      (c0.1 - c1.1) * (c2.1 - c1.1) + (c0.2 - c1.2) * (c2.2 - c1.2) = 0 ∧ c3 = (c0.1 + c2.1 - c1.1, c0.2 + c2.2 - c1.2) ∧
      (∀ x ∈ p :: q :: l, x ∈ convexHull ℝ {c0, c1, c2, c3}) ∧
      (∀ e ∈ edges (p :: q :: l), e ≠ 0 → ∀ c s : ℝ, c ^ 2 + s ^ 2 = 1 → c * e.2 = s * e.1 → ∀ a b u v : ℝ,
        (∀ x ∈ p :: q :: l, a ≤ c * x.1 + s * x.2 ∧ c * x.1 + s * x.2 ≤ b ∧ u ≤ -s * x.1 + c * x.2 ∧ -s * x.1 + c * x.2 ≤ v) →
        areaOf c0 c1 c2 ≤ (b - a) * (v - u)) := by
  set as := ((edges (p :: q :: l)).map edgeAngle).toFinset.sort (· ≤ ·) with has
  have hmem : ∀ e ∈ edges (p :: q :: l), edgeAngle e ∈ as := by
    intro e he
    rw [has, Finset.mem_sort, List.mem_toFinset]
    exact List.mem_map.2 ⟨e, he, rfl⟩
  rcases best_spec p (q :: l) as none (by simp) with h | ⟨b, hb, ⟨α, hα⟩, -, hmin⟩
  · have := hmem (q.1 - p.1, q.2 - p.2) (by simp [edges])
    rw [h.2.1] at this
    simp at this
  have hbx : b.x0 ≤ b.x1 := by
    have := boxAt_bounds p (q :: l) α p (by simp)
    rw [← hα] at this
    linarith
  have hby : b.y0 ≤ b.y1 := by
    have := boxAt_bounds p (q :: l) α p (by simp)
    rw [← hα] at this
    linarith
  have hang : b.angle = α := by rw [hα]; rfl
  have hsc := sin_sq_add_cos_sq b.angle
  have hcor : minBoundingRect p (q :: l) = b.corners := by
    show (match best p (q :: l) none as with
      | none => (⟨0, 0, 0, 0, 0⟩ : Box).corners
      | some b => b.corners) = b.corners
    rw [hb]
  have harea : areaOf (rotBack b.angle (b.x0, b.y1)) (rotBack b.angle (b.x0, b.y0)) (rotBack b.angle (b.x1, b.y0)) = b.area := by
    have : (rotBack b.angle (b.x0, b.y1)).1 - (rotBack b.angle (b.x0, b.y0)).1 = -(b.y1 - b.y0) * sin b.angle ∧
        (rotBack b.angle (b.x0, b.y1)).2 - (rotBack b.angle (b.x0, b.y0)).2 = (b.y1 - b.y0) * cos b.angle ∧
        (rotBack b.angle (b.x1, b.y0)).1 - (rotBack b.angle (b.x0, b.y0)).1 = (b.x1 - b.x0) * cos b.angle ∧
        (rotBack b.angle (b.x1, b.y0)).2 - (rotBack b.angle (b.x0, b.y0)).2 = (b.x1 - b.x0) * sin b.angle := by
      simp only [rotBack_eq]
      refine ⟨?_, ?_, ?_, ?_⟩ <;> ring
    unfold areaOf
    rw [this.1, this.2.1, this.2.2.1, this.2.2.2]
    have e : -(b.y1 - b.y0) * sin b.angle * ((b.x1 - b.x0) * sin b.angle) - (b.y1 - b.y0) * cos b.angle * ((b.x1 - b.x0) * cos b.angle)
        = -b.area := by
      unfold Box.area
      linear_combination (-(b.x1 - b.x0) * (b.y1 - b.y0)) * hsc
    rw [e, abs_neg, abs_of_nonneg]
    exact mul_nonneg (by linarith) (by linarith)
  refine ⟨rotBack b.angle (b.x0, b.y1), rotBack b.angle (b.x0, b.y0), rotBack b.angle (b.x1, b.y0), rotBack b.angle (b.x1, b.y1),
    hcor, ?_, ?_, ?_, ?_⟩
  · simp only [rotBack_eq]; ring
  · simp only [rotBack_eq]
    ext <;> simp only <;> ring
  · intro x hx
    have hbd := boxAt_bounds p (q :: l) α x hx
    rw [← hα, ← hang] at hbd
    have hm := mem_corners b x hbd.1 hbd.2.1 hbd.2.2.1 hbd.2.2.2
    convert hm using 2
    ext y
    simp [Box.corners]
  · intro e he hne c s hcs hpar a b' u v hbd
    rw [harea]
    refine (hmin _ (hmem e he)).trans ?_
    set θ := edgeAngle e with hθ
    have hSC := sin_sq_add_cos_sq θ
    set lam := c * e.1 + s * e.2 with hlam
    have he1 : e.1 = lam * c := by rw [hlam]; linear_combination (-e.1) * hcs - s * hpar
    have he2 : e.2 = lam * s := by rw [hlam]; linear_combination (-e.2) * hcs + c * hpar
    have hl0 : lam ≠ 0 := by
      intro h0
      apply hne
      rw [h0, zero_mul] at he1 he2
      exact Prod.ext he1 he2
    -- the width in a direction
    have width : ∀ (d lo hi x y : ℝ), d ^ 2 = 1 → lo ≤ x → x ≤ hi → lo ≤ y → y ≤ hi → d * x - d * y ≤ hi - lo := by
      intro d lo hi x y hd h1 h2 h3 h4
      have : (d - 1) * (d + 1) = 0 := by linear_combination hd
      rcases mul_eq_zero.1 this with h | h
      · rw [show d = 1 by linarith]; linarith
      · rw [show d = -1 by linarith]; linarith
    obtain ⟨⟨x0, mx0, ex0⟩, ⟨x1, mx1, ex1⟩, ⟨y0, my0, ey0⟩, ⟨y1, my1, ey1⟩⟩ := boxAt_attained p (q :: l) θ
    have w0 : 0 ≤ (boxAt p (q :: l) θ).x1 - (boxAt p (q :: l) θ).x0 := by
      have := boxAt_bounds p (q :: l) θ p (by simp); linarith
    have w1 : 0 ≤ (boxAt p (q :: l) θ).y1 - (boxAt p (q :: l) θ).y0 := by
      have := boxAt_bounds p (q :: l) θ p (by simp); linarith
    have hW0 : 0 ≤ b' - a := by have := hbd p (by simp); linarith
    have hH0 : 0 ≤ v - u := by have := hbd p (by simp); linarith
    unfold Box.area
    rcases rot_edge e with hr | hr
    · rw [rot_eq] at hr
      simp only at hr
      rw [← hθ, he1, he2] at hr
      have hx : cos θ * c + sin θ * s = 0 := by
        have : lam * (cos θ * c + sin θ * s) = 0 := by linear_combination hr
        exact (mul_eq_zero.1 this).resolve_left hl0
      set d := -cos θ * s + sin θ * c with hd
      have hC : cos θ = d * -s := by rw [hd]; linear_combination (-cos θ) * hcs + c * hx
      have hS : sin θ = d * c := by rw [hd]; linear_combination (-sin θ) * hcs + s * hx
      have hd2 : d ^ 2 = 1 := by
        rw [hC, hS] at hSC
        linear_combination hSC - d ^ 2 * hcs
      have f1 : ∀ x, (rot θ x).1 = d * (-s * x.1 + c * x.2) := by
        intro x; rw [rot_eq]; simp only; rw [hC, hS]; ring
      have f2 : ∀ x, (rot θ x).2 = -d * (c * x.1 + s * x.2) := by
        intro x; rw [rot_eq]; simp only; rw [hC, hS]; ring
      have g1 : (boxAt p (q :: l) θ).x1 - (boxAt p (q :: l) θ).x0 ≤ v - u := by
        rw [← ex0, ← ex1, f1, f1]
        exact width d u v _ _ hd2 (hbd x1 mx1).2.2.1 (hbd x1 mx1).2.2.2 (hbd x0 mx0).2.2.1 (hbd x0 mx0).2.2.2
      have g2 : (boxAt p (q :: l) θ).y1 - (boxAt p (q :: l) θ).y0 ≤ b' - a := by
        rw [← ey0, ← ey1, f2, f2]
        exact width (-d) a b' _ _ (by rw [neg_sq]; exact hd2) (hbd y1 my1).1 (hbd y1 my1).2.1 (hbd y0 my0).1 (hbd y0 my0).2.1
      calc _ ≤ (v - u) * (b' - a) := mul_le_mul g1 g2 w1 hH0
        _ = _ := mul_comm _ _
    · rw [rot_eq] at hr
      simp only at hr
      rw [← hθ, he1, he2] at hr
      have hx : -sin θ * c + cos θ * s = 0 := by
        have : lam * (-sin θ * c + cos θ * s) = 0 := by linear_combination hr
        exact (mul_eq_zero.1 this).resolve_left hl0
      set d := cos θ * c + sin θ * s with hd
      have hC : cos θ = d * c := by rw [hd]; linear_combination (-cos θ) * hcs + s * hx
      have hS : sin θ = d * s := by rw [hd]; linear_combination (-sin θ) * hcs - c * hx
      have hd2 : d ^ 2 = 1 := by
        rw [hC, hS] at hSC
        linear_combination hSC - d ^ 2 * hcs
      have f1 : ∀ x, (rot θ x).1 = d * (c * x.1 + s * x.2) := by
        intro x; rw [rot_eq]; simp only; rw [hC, hS]; ring
      have f2 : ∀ x, (rot θ x).2 = d * (-s * x.1 + c * x.2) := by
        intro x; rw [rot_eq]; simp only; rw [hC, hS]; ring
      have g1 : (boxAt p (q :: l) θ).x1 - (boxAt p (q :: l) θ).x0 ≤ b' - a := by
        rw [← ex0, ← ex1, f1, f1]
        exact width d a b' _ _ hd2 (hbd x1 mx1).1 (hbd x1 mx1).2.1 (hbd x0 mx0).1 (hbd x0 mx0).2.1
      have g2 : (boxAt p (q :: l) θ).y1 - (boxAt p (q :: l) θ).y0 ≤ v - u := by
        rw [← ey0, ← ey1, f2, f2]
        exact width d u v _ _ hd2 (hbd y1 my1).2.2.1 (hbd y1 my1).2.2.2 (hbd y0 my0).2.2.1 (hbd y0 my0).2.2.2
      exact mul_le_mul g1 g2 w1 hW0

/-- Without edges the result is four times the origin, also if the only point is another one. -/
theorem rect_single (p : ℝ × ℝ) : minBoundingRect p [] = [(0, 0), (0, 0), (0, 0), (0, 0)] := by
  simp [minBoundingRect, edges, best, Box.corners, rotBack]

end Verif.Approx
