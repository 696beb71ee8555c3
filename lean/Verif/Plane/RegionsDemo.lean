import Verif.Plane.Regions
import Verif.Plane.TilingDemo

/-! Lines in a square with a triangle: the regions before and after. -/

namespace Verif.Decomp
open Verif.Plane

/-- The hypotheses of `new_segment_regions` and `delete_segment_regions`: a line across the square divides its polygon, the points `(10, 1)` and
`(11, 11)` of it come to different polygons, and a deleted side of the triangle gives its polygon to the one around it. -/
theorem regions_case : ∃ s s1 s2 e, Drawing demo s ∧ 9 ∈ s.pid.live ∧ 10 ∈ s.pid.live ∧ FreeLine s 9 10 ∧
    newSegment demo 9 10 s = .ok (e, s1) ∧ Near demo s1 ∧ s1.change = .split 1 3 ∧ Off s1 (10, 1) ∧ Off s1 (11, 11) ∧ Off s1 (4, 3) ∧
    polyContains s 1 (10, 1) = .ok true ∧ polyContains s 1 (11, 11) = .ok true ∧
    polyContains s1 1 (10, 1) ≠ polyContains s1 1 (11, 11) ∧ polyContains s1 2 (4, 3) = .ok true ∧
    4 ∈ s1.sid.live ∧ deleteSegment demo 4 s1 = .ok s2 ∧ s1.wire (4, true) ≠ s1.wire (4, false) ∧
    (∃ q, s2.change = .remove q 2 ∧ polyContains s2 q (4, 3) = .ok true) := by
  have : (match draws (fullDrawing.take 18) init with
    | some s => match newSegment demo 9 10 s with
      | .ok r => match deleteSegment demo 4 r.2 with
        | .ok s2 => decide (9 ∈ s.pid.live ∧ 10 ∈ s.pid.live) && freeLineB s 9 10 && nearB r.2 && decide (r.2.change = .split 1 3) &&
          offB r.2 (10, 1) && offB r.2 (11, 11) && offB r.2 (4, 3) &&
          decide (polyContains s 1 (10, 1) = .ok true ∧ polyContains s 1 (11, 11) = .ok true ∧
            polyContains r.2 1 (10, 1) ≠ polyContains r.2 1 (11, 11) ∧ polyContains r.2 2 (4, 3) = .ok true) &&
          decide (4 ∈ r.2.sid.live ∧ r.2.wire (4, true) ≠ r.2.wire (4, false)) &&
          (match s2.change with
            | .remove q q' => decide (q' = 2 ∧ polyContains s2 q (4, 3) = .ok true)
            | _ => false)
        | .error _ => false
      | .error _ => false
    | none => false) = true := by decide +kernel
  split at this
  · next s hs =>
    split at this
    · next r hr =>
      split at this
      · next s2 hs2 =>
        simp only [Bool.and_eq_true, decide_eq_true_eq] at this
        obtain ⟨⟨⟨⟨⟨⟨⟨⟨⟨⟨a1, a2⟩, a3⟩, a4⟩, a5⟩, a6⟩, a7⟩, a8⟩, ⟨b1, b2, b3, b4⟩⟩, ⟨c1, c2⟩⟩, a9⟩ := this
        refine ⟨s, r.2, s2, r.1, draws_ok .init hs, a1, a2, freeLineB_ok a1 a2 a3, hr, nearB_ok a4, a5, offB_ok a6, offB_ok a7, offB_ok a8,
          b1, b2, b3, b4, c1, hs2, c2, ?_⟩
        split at a9
        · next q q' hq =>
          obtain ⟨rfl, k⟩ := of_decide_eq_true a9
          exact ⟨q, hq, k⟩
        · cases a9
      · cases this
    · cases this
  · cases this

/-- The hypotheses of `split_segment_regions`: a side of the triangle with a point of its polygon. -/
theorem split_regions_case : ∃ s s' n, Drawing demo s ∧ 4 ∈ s.sid.live ∧ 0 ∈ s.qid.live ∧
    splitSegment 4 s.pid.append.1 (addFreePoint (segPt s 4 (1 / 2)) 0 s).2 = .ok (n, s') ∧ n ∉ s.sid.live ∧ Off s (4, 3) ∧
    polyContains s' 2 (4, 3) = .ok true := by
  have : (match draws fullDrawing init with
    | some s => match splitSegment 4 s.pid.append.1 (addFreePoint (segPt s 4 (1 / 2)) 0 s).2 with
      | .ok r => decide (4 ∈ s.sid.live ∧ 0 ∈ s.qid.live ∧ r.1 ∉ s.sid.live ∧ polyContains r.2 2 (4, 3) = .ok true) && offB s (4, 3)
      | .error _ => false
    | none => false) = true := by decide +kernel
  split at this
  · next s hs =>
    split at this
    · next r hr =>
      simp only [Bool.and_eq_true, decide_eq_true_eq] at this
      obtain ⟨⟨a1, a2, a3, a4⟩, a5⟩ := this
      exact ⟨s, r.2, r.1, draws_ok .init hs, a1, a2, hr, a3, offB_ok a5, a4⟩
    · cases this
  · cases this

/-- The hypotheses of `join_segments_regions`: the divided side is put together again. -/
theorem join_regions_case : ∃ s s1 s' n, Drawing demo s ∧ Joinable s 11 4 n ∧ Aligned s 11 4 n ∧ Proper demo s (.joinSegments 11 4 n) ∧
    joinSegments 11 4 n s = .ok s1 ∧ removeFreePoint 11 s1 = .ok s' ∧ Off s (4, 3) ∧ Off s' (4, 3) ∧
    polyContains s' 2 (4, 3) = .ok true := by
  have : (match draws (fullDrawing ++ [.onSeg 4 (1 / 2)]) init with
    | some s => match joinSegments 11 4 10 s with
      | .ok s1 => match removeFreePoint 11 s1 with
        | .ok s' => goodB s (.joinSegments 11 4 10) && offB s (4, 3) && offB s' (4, 3) && decide (polyContains s' 2 (4, 3) = .ok true)
        | .error _ => false
      | .error _ => false
    | none => false) = true := by decide +kernel
  split at this
  · next s hs =>
    split at this
    · next s1 h1 =>
      split at this
      · next s' h2 =>
        simp only [Bool.and_eq_true, decide_eq_true_eq] at this
        obtain ⟨⟨⟨a1, a2⟩, a3⟩, a4⟩ := this
        obtain ⟨k1, k2⟩ := goodB_ok a1
        exact ⟨s, s1, s', 10, draws_ok .init hs, k1.1, k1.2, k2, h1, h2, offB_ok a2, offB_ok a3, a4⟩
      · cases this
    · cases this
  · cases this

end Verif.Decomp
