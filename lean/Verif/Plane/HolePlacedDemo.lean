import Verif.Plane.HolePlaced
import Verif.Plane.TilingDemo

/-! A segment between two triangles in a square is removed. -/

namespace Verif.Decomp
open Verif.Plane

/-- A square, two triangles in it with a free point in each, and a segment from one triangle to the other. -/
def twoTriangles : List Draw := [
  .point (0, 0) 0, .point (12, 0) 0, .point (12, 12) 0, .point (0, 12) 0, .line 0 1, .line 1 2, .line 2 3, .line 3 0,
  .point (1, 2) 1, .point (5, 2) 1, .point (3, 6) 1, .line 4 5, .line 5 6, .line 6 4,
  .point (7, 3) 1, .point (11, 3) 1, .point (9, 8) 1, .line 7 8, .line 8 9, .line 9 7,
  .point (3, 3) 2, .point (9, 4) 3, .line 5 7]

/-- The hypotheses of `hole_bridge`: one hole, with two polygons in it, falls into two holes with one polygon in each. -/
theorem hole_bridge_case : ∃ s s' e, Drawing demo s ∧ e ∈ s.sid.live ∧ s.wire (e, true) = s.wire (e, false) ∧
    (∀ v, s.next (e, v) ≠ some (e, !v)) ∧ (∀ q ∈ s.qid.live, s.wire (e, true) ≠ some (s.outer q)) ∧ deleteSegment demo e s = .ok s' ∧
    Near demo s' ∧ s.parent (s.outer 2) = s.parent (s.outer 3) ∧ s'.parent (s'.outer 2) ≠ s'.parent (s'.outer 3) ∧
    s'.parent (s'.outer 2) ≠ none ∧ s'.qid.live.length = 4 := by
  have : (match draws twoTriangles init with
    | some s => match deleteSegment demo 10 s with
      | .ok s' => decide (10 ∈ s.sid.live ∧ s.wire (10, true) = s.wire (10, false) ∧
        (s.next (10, true) ≠ some (10, false) ∧ s.next (10, false) ≠ some (10, true)) ∧
        (∀ q ∈ s.qid.live, s.wire (10, true) ≠ some (s.outer q))) && nearB s' &&
        decide (s.parent (s.outer 2) = s.parent (s.outer 3) ∧ s'.parent (s'.outer 2) ≠ s'.parent (s'.outer 3) ∧
          s'.parent (s'.outer 2) ≠ none ∧ s'.qid.live.length = 4)
      | .error _ => false
    | none => false) = true := by decide +kernel
  split at this
  · next s hs =>
    split at this
    · next s' hs' =>
      simp only [Bool.and_eq_true, decide_eq_true_eq] at this
      obtain ⟨⟨⟨h1, h2, h3, h4⟩, h5⟩, h6⟩ := this
      exact ⟨s, s', 10, draws_ok .init hs, h1, h2, fun v => by cases v; exacts [h3.2, h3.1], h4, hs', nearB_ok h5, h6⟩
    · cases this
  · cases this

end Verif.Decomp
