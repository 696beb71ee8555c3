import Verif.Front.TotalDemo

/-! Points added between two segments that meet in an acute angle. -/

namespace Verif.Front
open Verif.Decomp (St Id HE Geom segPt between Planar Tiled)
open Verif.Plane (parametric projectPoint intersection dist2)

/-- Two segments with a common end and a point near both. -/
def spire : List (Call ℚ) := [.addLine (40, 0) (0, 0), .addLine (0, 0) (40, 9), .addPoint (2, 1 / 5)]

/-- The hypotheses of C166 hold for calls that add a point near two segments. -/
theorem spire_returns : AllNeat demoCfg spire demo0 ∧ AllValid demoCfg spire demo0 ∧
    (calls demoCfg spire demo0 = .error .recursion ∨ ∃ f, calls demoCfg spire demo0 = .ok f) := by
  have hN : AllNeat demoCfg spire demo0 := allNeatB_ok (by decide +kernel)
  have hV : AllValid demoCfg spire demo0 := allValidB_ok (by decide +kernel)
  obtain ⟨_, _, h3, h4⟩ := house_neat
  exact ⟨hN, hV, calls_return Verif.Decomp.demo_arg demo_nrm (by norm_num [demoCfg, Verif.Decomp.demo])
    (by norm_num [demoCfg, Verif.Decomp.demo]) demoRange_ok h4 (by norm_num [demoCfg]) h3 (fun l p h => h) (by norm_num [demoRange])
    (by decide +kernel) hN hV⟩

/-- C168 fails if two segments are near: with the tolerance 1 the point for (2, 1/5) is put at (41/9, 0). This is also a case of the
second alternative of C167. -/
theorem add_point_far : ∃ f f', calls demoCfg (spire.take 2) demo0 = .ok f ∧ Run demoCfg demoRange f ∧
    addPoint demoCfg (2, 1 / 5) f = .ok (3, f') ∧ 3 ∉ f.dec.pid.live ∧ f'.dec.pseg 3 ≠ none ∧ f.tol = 1 ∧ f'.dec.xy 3 = (41 / 9, 0) ∧
    2 * f.tol * (2 * f.tol) < dist2 (2, 1 / 5) (f'.dec.xy 3) := by
  obtain ⟨f, hf, h⟩ := after_ok (os := spire.take 2) (t := fun f => decide (3 ∉ f.dec.pid.live ∧ f.tol = 1) &&
    adds (2, 1 / 5) 3 (fun f' => decide (f'.dec.xy 3 = (41 / 9, 0) ∧ f'.dec.pseg 3 ≠ none)) f) (by decide +kernel)
  rw [Bool.and_eq_true] at h
  obtain ⟨f', h1, h2⟩ := adds_ok h.2
  obtain ⟨k1, k2⟩ := of_decide_eq_true h.1
  obtain ⟨k3, k4⟩ := of_decide_eq_true h2
  refine ⟨f, f', hf, demo_run (by decide +kernel) hf, h1, k1, k4, k2, k3, ?_⟩
  rw [k2, k3]
  norm_num [dist2]

end Verif.Front
