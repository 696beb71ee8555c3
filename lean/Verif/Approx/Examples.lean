import Verif.Approx.Simple
import Verif.Approx.Result
import Verif.Approx.Energy

/-!
Concrete cases for the theorems of the fit (src/bgem/bspline/bspline_approx.py:385-669).
-/
namespace Verif.Approx

open Verif.Spline Verif.ZSurf Finset

/-- the basis of degree 2 with two intervals -/
def exB : Basis ℚ := ⟨2, [0, 0, 0, 1 / 2, 1, 1, 1]⟩

/-- the basis of degree 2 with one interval -/
def exB1 : Basis ℚ := ⟨2, [0, 0, 0, 1, 1, 1]⟩

/-- two points on the same and two on different cells -/
def exPs : List (ℚ × ℚ) := [(0, 0), (1 / 4, 1 / 2), (1, 1), (3 / 4, 1)]

theorem exB_eq : Basis.equidistant 2 2 (0 : ℚ) 1 = .ok exB := by decide +kernel

theorem exB1_eq : Basis.equidistant 2 1 (0 : ℚ) 1 = .ok exB1 := by decide +kernel

theorem exB_fit : Fit2S exB ∧ ∀ t, exB.Dom t ↔ 0 ≤ t ∧ t ≤ 1 := by
  obtain ⟨B, e, h, _, _, d⟩ := equidistant_fitS (K := ℚ) (n := 2) (by omega)
  rw [exB_eq] at e
  cases e
  exact ⟨h, d⟩

theorem exB1_fit : Fit2S exB1 ∧ ∀ t, exB1.Dom t ↔ 0 ≤ t ∧ t ≤ 1 := by
  obtain ⟨B, e, h, _, _, d⟩ := equidistant_fitS (K := ℚ) (n := 1) (by omega)
  rw [exB1_eq] at e
  cases e
  exact ⟨h, d⟩

theorem exPs_dom : ∀ p ∈ exPs, exB.Dom p.1 ∧ exB1.Dom p.2 := by
  intro p hp
  rw [exB_fit.2, exB1_fit.2]
  simp only [exPs, List.mem_cons, List.not_mem_nil, or_false] at hp
  rcases hp with rfl | rfl | rfl | rfl <;> norm_num

/-- C54: nine items for a point; the row of the point `(1/4, 1/2)` for the heights `0, 1, 2, …` -/
example : ∃ ts, lsItems exB exB1 0 exPs = .ok ts ∧ ts.length = 36 ∧ entry ts 1 5 = 5 / 16 ∧
    mulVec ts 12 (fun k => (k : ℚ)) 1 = 39 / 8 ∧ mulVec ts 12 (fun k => (k : ℚ)) 2 = 11 := by
  obtain ⟨ts, h⟩ : ∃ ts, lsItems exB exB1 0 exPs = .ok ts := (lsItems_ok exB_fit.1.toFit2 exB1_fit.1.toFit2 exPs 0 exPs_dom).imp
    fun _ h => h.1
  have e : ts = ((lsItems exB exB1 0 exPs).toOption.getD []) := by rw [h]; rfl
  refine ⟨ts, h, ?_⟩
  rw [e]
  decide +kernel

example := ls_matrix_correct exB_fit.1.toFit2 exB1_fit.1.toFit2 exPs exPs_dom

/-- C97: the system for these points has exactly one solution, for every heights -/
example (g : Nat → ℚ) := fit_unique exB_fit.1 exB1_fit.1 (q := 1 / 4) (by norm_num) (by norm_num)
  (List.cons_ne_nil _ _) exPs_dom (lam := 1 / 10) (by norm_num) g

/-- C98: and it is the minimum of the cost -/
example (g : Nat → ℚ) : ∃ ts z, lsItems exB exB1 0 exPs = .ok ts ∧ ∀ y,
    cost ts (regItems exB exB1 (1 / 4)) 4 12 (1 / 10) g z ≤ cost ts (regItems exB exB1 (1 / 4)) 4 12 (1 / 10) g y := by
  obtain ⟨ts, h, z, hz, _⟩ := fit_unique exB_fit.1 exB1_fit.1 (q := 1 / 4) (by norm_num) (by norm_num)
    (List.cons_ne_nil _ _) exPs_dom (lam := 1 / 10) (by norm_num) g
  exact ⟨ts, z, h, fit_minimal exB_fit.1.toFit2 exB1_fit.1.toFit2 (1 / 4) (by norm_num) hz⟩

/-- the regularization term of a surface that is not flat -/
example : form (regItems exB exB1 (1 / 4)) 12 (fun k => (k : ℚ)) (fun k => (k : ℚ)) ≠ 0 := by decide +kernel

/-- C99 fails: the three points of `error_not_norm` -/
example := error_not_norm exB_fit.1 exB1_fit.1 (q := 1 / 4) (by norm_num) (by norm_num) (u := 1 / 3) (v := 1 / 3)
  (lam := 1 / 10) ((exB_fit.2 _).2 (by norm_num)) ((exB1_fit.2 _).2 (by norm_num)) (by norm_num)
  (fun k => if k = 2 then 3 else 0) rfl rfl rfl

/-- C100: a quad of area 8 and three points, one of them outside and one in the tolerance -/
example : uvPoints (1 / 100 : ℚ) ⟨0, 2⟩ ⟨0, 0⟩ ⟨4, 0⟩ [(⟨1, 1⟩, 5), (⟨5, 1⟩, 6), (⟨401 / 100, 2⟩, 7)] =
    .ok [((1 / 4, 1 / 2), 5), ((1, 1), 7)] := by decide +kernel

example := uv_points_spec (eps := (1 / 100 : ℚ)) (by norm_num) (q0 := ⟨0, 2⟩) (q1 := ⟨0, 0⟩) (q2 := ⟨4, 0⟩)
  (by norm_num [area2]) [(⟨1, 1⟩, 5), (⟨5, 1⟩, 6), (⟨401 / 100, 2⟩, 7)]

/-- C101: the surface over this quad -/
example := surface_at_point (⟨1 / 1000, 1 / 1000, 1 / 1000, 1 / 1000⟩ : Consts ℚ) (by norm_num) (by norm_num) exB_fit.1.toFit2
  exB1_fit.1.toFit2 (q0 := ⟨0, 2⟩) (q1 := ⟨0, 0⟩) (q2 := ⟨4, 0⟩) (by norm_num [area2]) exPs exPs_dom [] fun k => (k : ℚ)

/-- C102: 900 points on a square give 8 intervals in each direction -/
example : computeDefaultNuv 900 2 2 = some (8, 8) := by
  have h : Real.sqrt 900 = 30 := by
    rw [show (900 : ℝ) = 30 ^ 2 by norm_num]
    exact Real.sqrt_sq (by norm_num)
  unfold computeDefaultNuv defaultNuv
  norm_num [h]

/-- C103: the surface with heights `0, 1, 2, …` -/
example : ∃ (ub vb : Basis ℝ) (S : Surface ℝ), Basis.equidistant 2 3 (0 : ℝ) 1 = .ok ub ∧
    Basis.equidistant 2 2 (0 : ℝ) 1 = .ok vb ∧ fitSurface ub vb (fun k => (k : ℝ)) = .ok S ∧
    ∀ (c4 rtol : ℝ) (V : ℝ → ℝ → ℝ), (∀ u v, 0 ≤ u → u ≤ 1 → 0 ≤ v → v ≤ 1 → S.eval c4 rtol u v = .ok [some (V u v)]) →
      form (regItems ub vb (1 / Real.sqrt 20)) (ub.size * vb.size) (fun k => (k : ℝ)) (fun k => (k : ℝ)) =
      4 * ∫ v in (0 : ℝ)..1, ∫ u in (0 : ℝ)..1, (deriv (fun s => V s v) u ^ 2 + deriv (fun s => V u s) v ^ 2) := by
  obtain ⟨ub, e1, f1, _, _, d1, _⟩ := equidistant_fit (K := ℝ) (n := 3) (by omega)
  obtain ⟨vb, e2, f2, _, _, d2, _⟩ := equidistant_fit (K := ℝ) (n := 2) (by omega)
  obtain ⟨S, hS, _⟩ := fitSurface_ok f1.valid f2.valid fun k => (k : ℝ)
  exact ⟨ub, vb, S, e1, e2, hS, fun c4 rtol V hV => reg_energy (by omega) (by omega) e1 e2 _ hS hV⟩

/-- C103: and such a `V` exists for every surface of the fit -/
theorem fit_values {nu nv : Nat} (hnu : 0 < nu) (hnv : 0 < nv) {ub vb : Basis ℝ}
    (hub : Basis.equidistant 2 nu (0 : ℝ) 1 = .ok ub) (hvb : Basis.equidistant 2 nv (0 : ℝ) 1 = .ok vb) (z : Nat → ℝ)
    (c4 rtol : ℝ) : ∃ (S : Surface ℝ) (V : ℝ → ℝ → ℝ), fitSurface ub vb z = .ok S ∧
      ∀ u v, 0 ≤ u → u ≤ 1 → 0 ≤ v → v ≤ 1 → S.eval c4 rtol u v = .ok [some (V u v)] := by
  have hu := equi_ok hnu hub
  have hv := equi_ok hnv hvb
  obtain ⟨S, hS, _⟩ := fitSurface_ok hu.fit.valid hv.fit.valid z
  have h : ∀ u v : ℝ, ∃ x, 0 ≤ u → u ≤ 1 → 0 ≤ v → v ≤ 1 → S.eval c4 rtol u v = .ok [some x] := by
    intro u v
    by_cases hd : 0 ≤ u ∧ u ≤ 1 ∧ 0 ≤ v ∧ v ≤ 1
    · obtain ⟨ts, _, _, _, h⟩ := ls_matrix_correct hu.fit hv.fit [(u, v)] fun p hp => by
        simp only [List.mem_cons, List.not_mem_nil, or_false] at hp
        subst hp
        exact ⟨(hu.dom u).2 ⟨hd.1, hd.2.1⟩, (hv.dom v).2 ⟨hd.2.2.1, hd.2.2.2⟩⟩
      obtain ⟨S', e, _, h⟩ := h z
      rw [hS] at e
      cases e
      exact ⟨_, fun _ _ _ _ => h 0 (u, v) rfl c4 rtol⟩
    · exact ⟨0, fun a b c d => absurd ⟨a, b, c, d⟩ hd⟩
  choose V hV using h
  exact ⟨S, V, hS, fun u v => hV u v⟩

end Verif.Approx
