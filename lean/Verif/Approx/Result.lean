import Verif.Approx.Solve
import Mathlib.Analysis.SpecialFunctions.Pow.NNReal

/-!
The result of `SurfaceApprox.compute_approximation` (src/bgem/bspline/bspline_approx.py:385-476) against the input points,
and the default number of intervals (bspline_approx.py:366-380, 479-495).
-/
namespace Verif.Approx

open Verif.Spline Verif.ZSurf Finset

variable {K : Type} [Field K] [LinearOrder K] [IsStrictOrderedRing K]

/-- The point with parameters `u, v` of the parallelogram given by three points. -/
def quadPoint (q0 q1 q2 : V2 K) (u v : K) : V2 K :=
  ⟨q1.x + u * (q2.x - q1.x) + v * (q0.x - q1.x), q1.y + u * (q2.y - q1.y) + v * (q0.y - q1.y)⟩

/-- Twice the oriented area of the triangle of the three points. -/
def area2 (q0 q1 q2 : V2 K) : K := (q2.x - q1.x) * (q0.y - q1.y) - (q0.x - q1.x) * (q2.y - q1.y)

theorem snap_mem (x : K) : 0 ≤ snap x ∧ snap x ≤ 1 :=
  ⟨le_min (le_max_right _ _) zero_le_one, min_le_right _ _⟩

theorem snap_id {x : K} (h0 : 0 ≤ x) (h1 : x ≤ 1) : snap x = x := by
  unfold snap; rw [max_eq_left h0, min_eq_left h1]

theorem inv_of_area {q0 q1 q2 : V2 K} (h : area2 q0 q1 q2 ≠ 0) :
    ∃ mi, (M2.cols (q2.sub q1) (q0.sub q1)).inv = some mi := by
  unfold M2.inv
  rw [if_neg]
  · exact ⟨_, rfl⟩
  · simpa [M2.det, M2.cols, V2.sub, area2] using h

theorem uv_of_point {q0 q1 q2 : V2 K} {mi : M2 K} (h : (M2.cols (q2.sub q1) (q0.sub q1)).inv = some mi) (u v : K) :
    mi.mulV ((quadPoint q0 q1 q2 u v).sub q1) = ⟨u, v⟩ := by
  have := (inv_spec h ⟨u, v⟩).2
  rw [← this]
  congr 1
  simp only [quadPoint, V2.sub, M2.cols, M2.mulV, V2.mk.injEq]
  constructor <;> ring

theorem point_of_uv {q0 q1 q2 : V2 K} {mi : M2 K} (h : (M2.cols (q2.sub q1) (q0.sub q1)).inv = some mi) (p : V2 K) :
    quadPoint q0 q1 q2 (mi.mulV (p.sub q1)).x (mi.mulV (p.sub q1)).y = p := by
  have := (inv_spec h (p.sub q1)).1
  have e1 := congrArg V2.x this
  have e2 := congrArg V2.y this
  simp only [M2.cols, M2.mulV, V2.sub] at e1 e2
  obtain ⟨x, y⟩ := p
  simp only [quadPoint, M2.mulV, V2.sub, V2.mk.injEq]
  constructor
  · linear_combination e1
  · linear_combination e2

theorem snap_near {eps x : K} (he : 0 < eps) (h0 : -eps < x) (h1 : x ≤ 1 + eps) : |x - snap x| ≤ eps := by
  unfold snap
  rw [abs_le]
  rcases le_total 0 x with h2 | h2
  · rw [max_eq_left h2]
    rcases le_total x 1 with h3 | h3
    · rw [min_eq_left h3]; constructor <;> linarith
    · rw [min_eq_right h3]; constructor <;> linarith
  · rw [max_eq_right h2, min_eq_left zero_le_one]; constructor <;> linarith

/-- C100. What `_compute_uv_points` keeps: no exception for a proper parallelogram; all parameters are in the unit square and
belong to an input point up to `eps`; the heights are a sublist of the input heights; an input point in the closed
parallelogram is kept with its exact parameters, and if all points are inside, they keep their numbers. -/
theorem uv_points_spec {eps : K} (he : 0 < eps) {q0 q1 q2 : V2 K} (hq : area2 q0 q1 q2 ≠ 0) (pts : List (V2 K × K)) :
    ∃ l, uvPoints eps q0 q1 q2 pts = .ok l ∧ (l.map fun e => e.2).Sublist (pts.map fun p => p.2) ∧
      (∀ e ∈ l, (0 ≤ e.1.1 ∧ e.1.1 ≤ 1) ∧ (0 ≤ e.1.2 ∧ e.1.2 ≤ 1) ∧ ∃ u v, (quadPoint q0 q1 q2 u v, e.2) ∈ pts ∧
        |u - e.1.1| ≤ eps ∧ |v - e.1.2| ≤ eps) ∧
      (∀ u v z, (quadPoint q0 q1 q2 u v, z) ∈ pts → 0 ≤ u ∧ u ≤ 1 ∧ 0 ≤ v ∧ v ≤ 1 → ((u, v), z) ∈ l) ∧
      ((∀ p ∈ pts, ∃ u v, (0 ≤ u ∧ u ≤ 1 ∧ 0 ≤ v ∧ v ≤ 1) ∧ p.1 = quadPoint q0 q1 q2 u v) →
        ∀ (i : Nat) (u v z : K), pts[i]? = some (quadPoint q0 q1 q2 u v, z) → l[i]? = some ((u, v), z)) := by
  obtain ⟨mi, hmi⟩ := inv_of_area hq
  have hcut : ∀ {u v : K}, 0 ≤ u ∧ u ≤ 1 ∧ 0 ≤ v ∧ v ≤ 1 → inCut eps (⟨u, v⟩ : V2 K) = true := by
    rintro u v ⟨u0, u1, v0, v1⟩
    simp only [inCut, Bool.and_eq_true, decide_eq_true_eq]
    exact ⟨⟨⟨by linarith, by linarith⟩, by linarith⟩, by linarith⟩
  refine ⟨_, by unfold uvPoints; rw [hmi], ?_, ?_, ?_, ?_⟩
  · rw [List.map_map]
    have h := (List.filter_sublist (p := fun p => inCut eps p.1)
      (l := pts.map fun p => (mi.mulV (p.1.sub q1), p.2))).map (fun p => p.2)
    rw [List.map_map] at h
    exact h
  · intro e h
    simp only [List.mem_map, List.mem_filter] at h
    obtain ⟨p, ⟨⟨a, ha, rfl⟩, hc⟩, rfl⟩ := h
    simp only [inCut, Bool.and_eq_true, decide_eq_true_eq] at hc
    obtain ⟨⟨⟨c1, c2⟩, c3⟩, c4⟩ := hc
    exact ⟨snap_mem _, snap_mem _, _, _, (by rw [point_of_uv hmi]; exact ha), snap_near he c1 c3, snap_near he c2 c4⟩
  · rintro u v z h hb
    simp only [List.mem_map, List.mem_filter]
    refine ⟨(⟨u, v⟩, z), ⟨⟨_, h, by rw [uv_of_point hmi]⟩, hcut hb⟩, ?_⟩
    rw [snap_id hb.1 hb.2.1, snap_id hb.2.2.1 hb.2.2.2]
  · intro hall i u v z hi
    have hb : 0 ≤ u ∧ u ≤ 1 ∧ 0 ≤ v ∧ v ≤ 1 := by
      obtain ⟨u', v', hb, e⟩ := hall _ (List.mem_of_getElem? hi)
      have h1 := uv_of_point hmi u v
      simp only at e
      rw [e, uv_of_point hmi] at h1
      simp only [V2.mk.injEq] at h1
      rw [← h1.1, ← h1.2]
      exact hb
    rw [List.filter_eq_self.2, List.map_map, List.getElem?_map, hi]
    · simp only [Option.map_some, Function.comp, uv_of_point hmi]
      rw [snap_id hb.1 hb.2.1, snap_id hb.2.2.1 hb.2.2.2]
    · intro p hp
      simp only [List.mem_map] at hp
      obtain ⟨a, ha, rfl⟩ := hp
      obtain ⟨u', v', hb', e⟩ := hall a ha
      simp only [e, uv_of_point hmi]
      exact hcut hb'

/-- C101. The Z surface of heights `z` at the XY position of a kept point is the row of the product of the matrix with `z`. -/
theorem surface_at_point (cs : Consts K) (hca : 0 ≤ cs.atol) (hcr : 0 ≤ cs.crtol) {ub vb : Basis K} (hu : Fit2 ub) (hv : Fit2 vb)
    {q0 q1 q2 : V2 K} (hq : area2 q0 q1 q2 ≠ 0) (ps : List (K × K)) (hp : ∀ p ∈ ps, ub.Dom p.1 ∧ vb.Dom p.2)
    (w : World K) (z : Nat → K) : ∃ ts S o, lsItems ub vb 0 ps = .ok ts ∧ fitSurface ub vb z = .ok S ∧
      Obj.new cs w.length (complete q0 q1 q2) S = .ok o ∧
      ∀ (i : Nat) (u v : K), ps[i]? = some (u, v) → evalXY cs (w ++ [o]) w.length (quadPoint q0 q1 q2 u v).x (quadPoint q0 q1 q2 u v).y =
        .ok ((quadPoint q0 q1 q2 u v).x, (quadPoint q0 q1 q2 u v).y, mulVec ts (ub.size * vb.size) z i) := by
  obtain ⟨ts, h1, _, _, h4⟩ := ls_matrix_correct hu hv ps hp
  obtain ⟨S, hS, hpole, hev⟩ := h4 z
  obtain ⟨S', s1, s2, s3, s4, s5, s6⟩ := fitSurface_ok hu.valid hv.valid z
  rw [hS] at s1
  cases s1
  obtain ⟨mi, hmi⟩ := inv_of_area hq
  have hcl : allclose cs ((q0.add q2).sub q1) ((q0.add q2).sub q1) = true := by
    simp only [allclose, sub_self, abs_zero, Bool.and_eq_true, decide_eq_true_eq]
    exact ⟨add_nonneg hca (mul_nonneg hcr (abs_nonneg _)), add_nonneg hca (mul_nonneg hcr (abs_nonneg _))⟩
  let o : Obj K := ⟨S, complete q0 q1 q2, complete q0 q1 q2, true, w.length,
    some ⟨q1, M2.cols (q2.sub q1) (q0.sub q1), mi⟩, (idMat, ⟨0, 0⟩), (1, 0), (1, 0), false⟩
  have hnew : Obj.new cs w.length (complete q0 q1 q2) S = .ok o := by
    unfold Obj.new
    rw [if_neg (by rw [s4]; simp), if_neg (by rw [s5]; simp)]
    simp only [Obj.resetXY, complete, hcl, if_true, hmi, Obj.resetZ]
    rfl
  refine ⟨ts, S, o, h1, hS, hnew, fun i u v hi => ?_⟩
  have hw : (w ++ [o])[w.length]? = some o := by simp
  have e1 : xyToUv (w ++ [o]) w.length ⟨(quadPoint q0 q1 q2 u v).x, (quadPoint q0 q1 q2 u v).y⟩ = .ok ⟨u, v⟩ := by
    unfold xyToUv
    rw [hw]
    simp only [o, hw, if_true]
    unfold Lin.xyToUv
    exact congrArg _ (uv_of_point hmi u v)
  have e2 : uvToXy (w ++ [o]) w.length ⟨u, v⟩ = .ok (quadPoint q0 q1 q2 u v) := by
    unfold uvToXy
    rw [hw]
    simp only [o, hw, if_true]
    simp only [Lin.uvToXy, M2.cols, M2.mulV, V2.sub, V2.add, quadPoint, Except.ok.injEq, V2.mk.injEq]
    constructor <;> ring
  have e3 : o.zEval cs u v = .ok (mulVec ts (ub.size * vb.size) z i) := by
    unfold Obj.zEval zRaw
    have := hev i (u, v) hi cs.c4 cs.rtol
    simp only [o]
    simp only at this
    rw [this]
    simp
  unfold evalXY
  rw [e1]
  simp only [evalPoint, hw, e3, e2]

/-! ### Default number of intervals -/

/-- `_compute_default_nuv` (bspline_approx.py:479-495) for `n` points and sides of length `du`, `dv`; real numbers. -/
noncomputable def defaultNuv (n : Nat) (du dv : ℝ) : ℤ × ℤ :=
  let nv := Real.sqrt (n * dv / du)
  let nu := nv * du / dv
  (max 1 (⌊nu / 3⌋ - 2), max 1 (⌊nv / 3⌋ - 2))

/-- `compute_default_nuv` (bspline_approx.py:366-380): the error branch. -/
noncomputable def computeDefaultNuv (n : Nat) (du dv : ℝ) : Option (ℤ × ℤ) :=
  let r := defaultNuv n du dv
  if r.1 < 1 ∨ r.2 < 1 then none else some r

/-- C102. The exception "Two few points" is never raised; and when no number was raised to 1, there are at most a ninth as many
poles as points. -/
theorem default_nuv {n : Nat} {du dv : ℝ} (hu : 0 < du) (hv : 0 < dv) :
    ∃ a b : ℤ, computeDefaultNuv n du dv = some (a, b) ∧ 1 ≤ a ∧ 1 ≤ b ∧ (1 < a → 1 < b → 9 * ((a + 2) * (b + 2)) ≤ n) := by
  obtain ⟨a, b, h⟩ : ∃ a b, defaultNuv n du dv = (a, b) := ⟨_, _, rfl⟩
  have ha : a = max 1 (⌊Real.sqrt (n * dv / du) * du / dv / 3⌋ - 2) := (congrArg Prod.fst h).symm
  have hb : b = max 1 (⌊Real.sqrt (n * dv / du) / 3⌋ - 2) := (congrArg Prod.snd h).symm
  have a1 : 1 ≤ a := by rw [ha]; exact le_max_left _ _
  have b1 : 1 ≤ b := by rw [hb]; exact le_max_left _ _
  refine ⟨a, b, ?_, a1, b1, fun h1 h2 => ?_⟩
  · unfold computeDefaultNuv
    simp only [h]
    rw [if_neg (by omega)]
  · set s := Real.sqrt (n * dv / du) with hs
    have s0 : 0 ≤ s := Real.sqrt_nonneg _
    have s2 : s * s = n * dv / du := Real.mul_self_sqrt (by positivity)
    have ea : a + 2 = ⌊s * du / dv / 3⌋ := by
      rcases max_choice 1 (⌊s * du / dv / 3⌋ - 2) with hm | hm <;> rw [hm] at ha <;> omega
    have eb : b + 2 = ⌊s / 3⌋ := by
      rcases max_choice 1 (⌊s / 3⌋ - 2) with hm | hm <;> rw [hm] at hb <;> omega
    have fa : ((a + 2 : ℤ) : ℝ) ≤ s * du / dv / 3 := by rw [ea]; exact Int.floor_le _
    have fb : ((b + 2 : ℤ) : ℝ) ≤ s / 3 := by rw [eb]; exact Int.floor_le _
    have pa : (0 : ℝ) ≤ ((a + 2 : ℤ) : ℝ) := by exact_mod_cast (by omega : (0 : ℤ) ≤ a + 2)
    have hm := mul_le_mul fa fb (by exact_mod_cast (by omega : (0 : ℤ) ≤ b + 2)) (by positivity)
    have e : s * du / dv / 3 * (s / 3) = n / 9 := by
      have : s * du / dv / 3 * (s / 3) = s * s * (du / dv) / 9 := by ring
      rw [this, s2]
      field_simp
    rw [e] at hm
    have : (((9 * ((a + 2) * (b + 2)) : ℤ)) : ℝ) ≤ ((n : ℤ) : ℝ) := by push_cast at hm ⊢; linarith
    exact_mod_cast this

/-- For few points there are more unknowns than points, against the comment in line 470. -/
theorem default_nuv_few : computeDefaultNuv 1 1 1 = some (1, 1) := by
  unfold computeDefaultNuv defaultNuv
  norm_num

end Verif.Approx
