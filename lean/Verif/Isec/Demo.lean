import Verif.Isec.Main
import Verif.Isec.Jac
/-! Concrete surfaces and curves for the theorems about intersections, and the runs that show what fails. -/
namespace Verif.Isec
open Verif.Spline Finset

set_option linter.unusedSectionVars false

section
variable {K : Type} [Field K] [LinearOrder K] [IsStrictOrderedRing K]

/-- one quadratic interval `[0, 1]` -/
def bez : Basis K := ⟨2, [0, 0, 0, 1, 1, 1]⟩

theorem bez_valid : (bez : Basis K).Valid where
  sorted := by simp [bez]
  start := by
    intro i hi
    have : i = 0 ∨ i = 1 ∨ i = 2 := by simp only [bez] at hi; omega
    rcases this with rfl | rfl | rfl <;> rfl
  stop := by
    intro i hi
    have : i = 0 ∨ i = 1 ∨ i = 2 := by simp only [bez] at hi; omega
    rcases this with rfl | rfl | rfl <;> rfl
  len := by simp [bez]
  lt := by simp [bez, Basis.lo, Basis.hi, Basis.k]

theorem bez_inner : Inner (bez : Basis K) := by
  intro i h0 h1
  simp only [bez, Basis.size, List.length_cons, List.length_nil] at h1
  have : i = 1 ∨ i = 2 := by omega
  rcases this with rfl | rfl <;> simp [bez, Basis.k]

theorem bez_unit : UnitBasis (bez : Basis K) where
  valid := bez_valid
  deg := rfl
  lo := rfl
  hi := rfl
  simple := by
    intro i h0 h1
    simp only [bez, Basis.size, List.length_cons, List.length_nil] at h1
    have : i = 2 := by omega
    subst this
    simp [bez, Basis.k]

/-- the values of the three functions -/
theorem bez_val {t : K} (h0 : 0 ≤ t) (h1 : t ≤ 1) : (bez : Basis K).val 0 t = (1 - t) ^ 2 ∧
    (bez : Basis K).val 1 t = 2 * t * (1 - t) ∧ (bez : Basis K).val 2 t = t ^ 2 := by
  obtain ⟨r, hf, hv, _⟩ := fast_deg2 (bez : Basis K) bez_valid rfl (by simp [bez, Basis.k, Basis.size, Basis.hi]) t ⟨h0, h1⟩
  obtain ⟨r', hf', hr', _⟩ := bez_valid.find (t := t) ⟨h0, h1⟩
  rw [hf] at hf'
  cases hf'
  have hr0 : r = 0 := by
    have : (bez : Basis K).nIntervals = 1 := rfl
    omega
  subst hr0
  rw [bez_valid.evalVec hr'] at hv
  have hv := Except.ok.inj hv
  have e : (List.range ((bez : Basis K).degree + 1)) = [0, 1, 2] := rfl
  rw [e] at hv
  simp only [List.map_cons, List.map_nil, Basis.evalVector2, bez, Basis.k, List.cons.injEq] at hv
  obtain ⟨a, b, c, _⟩ := hv
  unfold bez
  refine ⟨a.trans ?_, b.trans ?_, c.trans ?_⟩ <;> simp <;> ring

/-- the surface over one quadratic patch whose coordinates are affine functions `a + b u + c v` -/
def affSurf (f : Fin 3 → K × K × K) : Surface K :=
  ⟨bez, bez, [0, 1, 2].map fun (i : Nat) => [0, 1, 2].map fun (j : Nat) =>
    [0, 1, 2].map fun (d : Fin 3) => (f d).1 + (f d).2.1 * i / 2 + (f d).2.2 * j / 2, false⟩

/-- the curve over one quadratic interval whose coordinates are affine functions `a + b t` -/
def affCurve (f : Fin 3 → K × K) : Curve K :=
  ⟨bez, [0, 1, 2].map fun (i : Nat) => [0, 1, 2].map fun (d : Fin 3) => (f d).1 + (f d).2 * i / 2, false⟩

theorem affSurf_good (f : Fin 3 → K × K × K) : GoodSurf (affSurf f) :=
  ⟨bez_valid, bez_valid, rfl, rfl, bez_inner, bez_inner, rfl, rfl⟩

theorem affCurve_good (f : Fin 3 → K × K) : GoodCurve (affCurve f) := ⟨bez_valid, rfl, bez_inner, rfl, rfl⟩

theorem affSurf_at (f : Fin 3 → K × K × K) {u v : K} (u0 : 0 ≤ u) (u1 : u ≤ 1) (v0 : 0 ≤ v) (v1 : v ≤ 1) :
    SurfAt (affSurf f) u v fun d => (f d).1 + (f d).2.1 * u + (f d).2.2 * v := by
  have h := surfAt_local (S := affSurf f) bez_valid bez_valid rfl rfl (show 0 < 2 by omega) (show 0 < 2 by omega) bez_inner bez_inner
    (iu := 0) (iv := 0) (show 0 < 1 by omega) (show 0 < 1 by omega) (u := u) (v := v) u0 u1 v0 v1
  convert h using 2
  rename_i d
  obtain ⟨a0, a1, a2⟩ := bez_val u0 u1
  obtain ⟨b0, b1, b2⟩ := bez_val v0 v1
  have e : (affSurf f).ub = bez ∧ (affSurf f).vb = bez := ⟨rfl, rfl⟩
  have e3 : range ((bez : Basis K).degree + 1) = range 3 := rfl
  simp only [vec, e.1, e.2, e3, sum_range_succ, range_zero, sum_empty, zero_add, a0, a1, a2, b0, b1, b2]
  have hp : ∀ i j : Fin 3, (affSurf f).pole i j d = (f d).1 + (f d).2.1 * (i : Nat) / 2 + (f d).2.2 * (j : Nat) / 2 := by
    intro i j
    fin_cases i <;> fin_cases j <;> fin_cases d <;> rfl
  have p := fun i j => hp i j
  rw [show (affSurf f).pole 0 0 d = _ from hp 0 0, show (affSurf f).pole 0 1 d = _ from hp 0 1,
    show (affSurf f).pole 0 2 d = _ from hp 0 2, show (affSurf f).pole 1 0 d = _ from hp 1 0,
    show (affSurf f).pole 1 1 d = _ from hp 1 1, show (affSurf f).pole 1 2 d = _ from hp 1 2,
    show (affSurf f).pole 2 0 d = _ from hp 2 0, show (affSurf f).pole 2 1 d = _ from hp 2 1,
    show (affSurf f).pole 2 2 d = _ from hp 2 2]
  have c0 : (((0 : Fin 3) : Nat) : K) = 0 := by simp
  have c1 : (((1 : Fin 3) : Nat) : K) = 1 := by simp
  have c2 : (((2 : Fin 3) : Nat) : K) = 2 := by simp
  rw [c0, c1, c2]
  field_simp
  ring

theorem affCurve_at (f : Fin 3 → K × K) {t : K} (t0 : 0 ≤ t) (t1 : t ≤ 1) :
    CurveAt (affCurve f) t fun d => (f d).1 + (f d).2 * t := by
  have h := curveAt_local (C := affCurve f) bez_valid rfl rfl (show 0 < 2 by omega) bez_inner (it := 0) (show 0 < 1 by omega)
    (t := t) t0 t1
  convert h using 2
  rename_i d
  obtain ⟨a0, a1, a2⟩ := bez_val t0 t1
  have e : (affCurve f).basis = bez := rfl
  have e3 : range ((bez : Basis K).degree + 1) = range 3 := rfl
  simp only [vec, e, e3, sum_range_succ, range_zero, sum_empty, zero_add, a0, a1, a2]
  have hp : ∀ i : Fin 3, (affCurve f).pole i d = (f d).1 + (f d).2 * (i : Nat) / 2 := by
    intro i
    fin_cases i <;> fin_cases d <;> rfl
  rw [show (affCurve f).pole 0 d = _ from hp 0, show (affCurve f).pole 1 d = _ from hp 1,
    show (affCurve f).pole 2 d = _ from hp 2]
  have c0 : (((0 : Fin 3) : Nat) : K) = 0 := by simp
  have c1 : (((1 : Fin 3) : Nat) : K) = 1 := by simp
  have c2 : (((2 : Fin 3) : Nat) : K) = 2 := by simp
  rw [c0, c1, c2]
  field_simp
  ring

end

/-! ### C57 and C110 -/

/-- the plane `z = 0` over the unit square -/
def planeF {K : Type} [Field K] : Fin 3 → K × K × K := ![(0, 1, 0), (0, 0, 1), (0, 0, 0)]

/-- a curve that leaves the plane steeply -/
def steepF : Fin 3 → ℚ × ℚ := ![(-1, 3), (1 / 2, 0), (19 / 20, 1 / 10)]

/-- C57 cannot be strengthened: at equality `conv` is true although the points at the returned parameters are further
apart than `abs_tol` (the loop goes on and moves the parameters after `conv` was computed). -/
theorem conv_wrong_at_equality : ∃ (S : Surface ℚ) (C : Curve ℚ) (f : Found ℚ), GoodSurf S ∧ GoodCurve C ∧
    getIntersection solve3 S C 0 0 0 1 1 = .ok f ∧ f.conv = true ∧
    ∀ x1 x2, SurfAt S (f.uvt 0) (f.uvt 1) x1 → CurveAt C (f.uvt 2) x2 → 1 ^ 2 < sq (fun i => x1 i - x2 i) := by
  have hrun : (match getIntersection solve3 (affSurf planeF) (affCurve steepF) 0 0 0 1 1 with
      | .ok f => decide (f.conv = true ∧ f.uvt 0 = 0 ∧ f.uvt 1 = 1 / 2 ∧ f.uvt 2 = 0)
      | .error _ => false) = true := by decide +kernel
  cases hg : getIntersection solve3 (affSurf planeF) (affCurve steepF) 0 0 0 1 1 with
  | error e => rw [hg] at hrun; simp at hrun
  | ok f =>
    rw [hg] at hrun
    simp only [decide_eq_true_eq] at hrun
    obtain ⟨h1, h2, h3, h4⟩ := hrun
    refine ⟨_, _, f, affSurf_good _, affCurve_good _, hg, h1, ?_⟩
    intro x1 x2 s1 s2
    rw [h2, h3] at s1
    rw [h4] at s2
    rw [s1.unique (affSurf_at planeF (le_refl 0) zero_le_one (by norm_num) (by norm_num)),
      s2.unique (affCurve_at steepF (le_refl 0) zero_le_one)]
    simp [sq, planeF, steepF]

theorem fin3 (d : Fin 3) : d = 0 ∨ d = 1 ∨ d = 2 := by fin_cases d <;> simp

theorem vec3_0 {α : Type} (a b c : α) : (![a, b, c] : Fin 3 → α) 0 = a := rfl
theorem vec3_1 {α : Type} (a b c : α) : (![a, b, c] : Fin 3 → α) 1 = b := rfl
theorem vec3_2 {α : Type} (a b c : α) : (![a, b, c] : Fin 3 → α) 2 = c := rfl

/-- a line across the plane -/
noncomputable def lineF : Fin 3 → ℝ × ℝ := ![(1 / 4, 0), (1 / 3, 0), (-1 / 5, 1)]

/-- The hypotheses of `affine_converges` hold for a plane and a line across it. -/
example : ∃ f, getIntersection solve3 (affSurf planeF) (affCurve lineF) 0 0 0 5 (1 / 1000 : ℝ) = .ok f ∧ f.conv = true ∧
    (f.uvt = ![1 / 4, 1 / 3, 1 / 5] ∨ (f.uvt 0 = (0 + 1) / 2 ∧ f.uvt 1 = (0 + 1) / 2 ∧ f.uvt 2 = (0 + 1) / 2)) ∧
    ∀ x1 x2, SurfAt (affSurf planeF) (f.uvt 0) (f.uvt 1) x1 → CurveAt (affCurve lineF) (f.uvt 2) x2 →
      sq (fun i => x1 i - x2 i) < (1 / 1000) ^ 2 := by
  refine affine_converges (affSurf_good planeF) (affCurve_good lineF) (show 0 < 1 by omega) (show 0 < 1 by omega)
    (show 0 < 1 by omega) zero_lt_one zero_lt_one zero_lt_one ![![1, 0, 0], ![0, 1, 0], ![0, 0, -1]]
    ![-1 / 4, -1 / 3, 1 / 5] ?_ ?_ ![1 / 4, 1 / 3, 1 / 5] ?_ ?_ 5 (by omega) _ (by norm_num)
  · rintro p x1 x2 ⟨⟨u0, u1⟩, ⟨v0, v1⟩, ⟨t0, t1⟩⟩ s1 s2 d
    rw [s1.unique (affSurf_at planeF u0 u1 v0 v1), s2.unique (affCurve_at lineF t0 t1)]
    rcases fin3 d with rfl | rfl | rfl <;> simp only [mul3, planeF, lineF, vec3_0, vec3_1, vec3_2] <;> ring
  · simp only [det3, vec3_0, vec3_1, vec3_2]
    norm_num
  · exact ⟨⟨show (0 : ℝ) ≤ 1 / 4 by norm_num, show (1 / 4 : ℝ) ≤ 1 by norm_num⟩,
      ⟨show (0 : ℝ) ≤ 1 / 3 by norm_num, show (1 / 3 : ℝ) ≤ 1 by norm_num⟩,
      ⟨show (0 : ℝ) ≤ 1 / 5 by norm_num, show (1 / 5 : ℝ) ≤ 1 by norm_num⟩⟩
  · intro d
    rcases fin3 d with rfl | rfl | rfl <;> simp only [mul3, vec3_0, vec3_1, vec3_2] <;> norm_num

/-! ### C58 -/

theorem valid_of {B : Basis ℚ} (h : B.knots.Pairwise (· ≤ ·) ∧ (∀ i, i ≤ B.degree → B.knots[i]? = B.knots[0]?) ∧
    (∀ i, i ≤ B.degree → B.knots.reverse[i]? = B.knots.reverse[0]?) ∧ 2 * B.degree + 2 ≤ B.knots.length ∧ B.lo < B.hi) :
    B.Valid := ⟨h.1, h.2.1, h.2.2.1, h.2.2.2.1, h.2.2.2.2⟩

/-- two intervals -/
def two : Basis ℚ := ⟨2, [0, 0, 0, 1 / 2, 1, 1, 1]⟩

theorem two_unit : UnitBasis two where
  valid := valid_of (by decide +kernel)
  deg := rfl
  lo := rfl
  hi := rfl
  simple := by
    intro i h0 h1
    have e : two.size = 4 := rfl
    have : i = 2 ∨ i = 3 := by omega
    rcases this with rfl | rfl <;> decide +kernel

/-- a surface of two times two patches -/
def twoSurf : Surface ℚ := ⟨two, two, [], false⟩

/-- A corner of four patches: the hypotheses of `surface_point_patches` hold and all four patches are listed. -/
example : Holds two 0 (1 / 2) ∧ Holds two 1 (1 / 2) ∧
    (SurfPoint.init twoSurf 0 1 (1 / 2, 1 / 2)).map (fun p => p.patchId twoSurf) = .ok [1, 3, 0, 2] := by
  refine ⟨⟨by decide, by decide +kernel, by decide +kernel⟩, ⟨by decide, by decide +kernel, by decide +kernel⟩, ?_⟩
  decide +kernel

/-- the domain `[0, 2]` with an inner knot at 1 -/
def wide : Basis ℚ := ⟨2, [0, 0, 0, 1, 2, 2, 2]⟩

/-- a double inner knot -/
def double : Basis ℚ := ⟨2, [0, 0, 0, 1 / 2, 1 / 2, 1, 1, 1]⟩

/-- The hypotheses of the three refutations hold. -/
example : wide.Valid ∧ wide.hi ≠ 0 ∧ wide.hi ≠ 1 ∧ 1 + 1 = wide.nIntervals ∧ wide.k (1 + 2) < wide.hi ∧
    wide.k (0 + 3) = 1 ∧ 0 + 1 < wide.nIntervals ∧
    double.Valid ∧ 0 + 2 < double.nIntervals ∧ double.k (0 + 3) = double.k (0 + 4) :=
  ⟨valid_of (by decide +kernel), by decide +kernel, by decide +kernel, rfl, by decide +kernel, by decide +kernel, by decide,
    valid_of (by decide +kernel), by decide, by decide +kernel⟩

/-! ### C107 -/

/-- the box query of a tree that returns exactly the patches whose boxes meet the given one -/
def boxFind (S : Surface ℚ) (b : List ℚ × List ℚ) : List Nat :=
  match S.boxes with
  | .ok l => (List.range l.length).filter fun i =>
      (List.range 3).all fun d => decide ((l.getD i ([], [])).1.getD d 0 ≤ b.2.getD d 0 ∧ b.1.getD d 0 ≤ (l.getD i ([], [])).2.getD d 0)
  | .error _ => []

/-- `z = u + v - 3/4` -/
def slopeF : Fin 3 → ℚ × ℚ × ℚ := ![(0, 1, 0), (0, 0, 1), (-3 / 4, 1, 1)]

/-- Two crossing planes: the search returns two points, those on the main curves `u = 0` and `v = 0`. -/
example : (getIntersections solve3 (boxFind (affSurf planeF)) (affSurf slopeF) (affSurf planeF) 10 (1 / 1000)).map
    (fun l => l.map fun p => (p.a.uv, p.b.uv, p.xyz 0, p.xyz 1, p.xyz 2)) =
    .ok [((0, 3 / 4), (0, 3 / 4), 0, 3 / 4, 0), ((3 / 4, 0), (3 / 4, 0), 3 / 4, 0, 0)] := by
  decide +kernel

/-- The tree proposes only patches of the surface. -/
example : ∀ b, ∀ i ∈ boxFind (affSurf planeF) b, i < (affSurf (planeF (K := ℚ))).ub.nIntervals * (affSurf (planeF (K := ℚ))).vb.nIntervals := by
  intro b i hi
  have hl : ∃ l, (affSurf (planeF (K := ℚ))).boxes = .ok l ∧ l.length = 1 := ⟨_, rfl, rfl⟩
  obtain ⟨l, h1, h2⟩ := hl
  unfold boxFind at hi
  rw [h1] at hi
  have := (List.mem_filter.1 hi).1
  rw [h2] at this
  exact List.mem_range.1 this

/-- `z = u` -/
def tiltF : Fin 3 → ℚ × ℚ × ℚ := ![(0, 1, 0), (0, 0, 1), (0, 1, 0)]

/-- `z = u + 1/4` -/
def tilt2F : Fin 3 → ℚ × ℚ × ℚ := ![(0, 1, 0), (0, 0, 1), (1 / 4, 1, 0)]

/-- C107 does not hold for every pair of surfaces: one singular matrix ends the whole search with LinAlgError. Here the
surfaces are two parallel planes without a common point. -/
theorem parallel_surfaces_raise : ∃ S1 S2 : Surface ℚ, GoodSurf S1 ∧ GoodSurf S2 ∧ (∃ b, S2.boxes = .ok b) ∧
    getIntersections solve3 (boxFind S2) S1 S2 10 (1 / 1000) = .error .linAlgError := by
  refine ⟨affSurf tilt2F, affSurf tiltF, affSurf_good _, affSurf_good _, ⟨_, rfl⟩, ?_⟩
  have h : (match getIntersections solve3 (boxFind (affSurf tiltF)) (affSurf tilt2F) (affSurf tiltF) 10 (1 / 1000) with
      | .ok _ => false
      | .error e => decide (e = .linAlgError)) = true := by decide +kernel
  cases hg : getIntersections solve3 (boxFind (affSurf tiltF)) (affSurf tilt2F) (affSurf tiltF) 10 (1 / 1000) with
  | ok l => rw [hg] at h; simp at h
  | error e => rw [hg] at h; simp only [decide_eq_true_eq] at h; rw [h]

/-! ### C109 -/

/-- One point in two patches that is not connected: listed twice, and reported by no list of unconnected points. -/
example : getInsidePoints [false] [[0], [0]] [0, 1] = .ok [0, 0] ∧ unconnectedPatchPoints [[0], [0]] [0, 1] = .ok [] := by
  decide +kernel

end Verif.Isec
