import Verif.Plane.Total
import Verif.Plane.TilingDemo
import Verif.Decomp.TotalJoin
import Verif.Decomp.TotalBridge

/-! Calls on drawings that raise nothing. -/

namespace Verif.Decomp
open Verif.Plane

variable {K : Type} [Field K] [LinearOrder K] [IsStrictOrderedRing K] {g : Geom K}

/-- `new_segment` of a free line raises nothing if the line is longer than the shortest direction that `insert_vector` accepts. -/
theorem new_segment_returns (hg : ArgOk g) (ht : 0 ≤ g.tiny) {s : St K} (h : Drawing g s) {a b : Id} (ha : a ∈ s.pid.live)
    (hb : b ∈ s.pid.live) (hl : FreeLine s a b)
    (hv : g.tiny < |(s.xy b).1 - (s.xy a).1| ∨ g.tiny < |(s.xy b).2 - (s.xy a).2|) :
    ∃ e s', newSegment g a b s = .ok (e, s') :=
  newSegment_total hg ht (h.tiled hg) ha hb hl hv

/-- `split_segment` at a point without segments raises nothing. -/
theorem split_segment_returns (hg : ArgOk g) {s : St K} (h : Drawing g s) {e mid : Id} (he : e ∈ s.sid.live) (hm : mid ∈ s.pid.live)
    (hf : s.pseg mid = none) : ∃ r, splitSegment e mid s = .ok r :=
  splitSegment_total (h.tiled hg).drawn.nested he hm hf

/-- `delete_segment` raises nothing if the segment has different wires on its sides, a free end, or a wire on its sides that is not the
outer wire of a polygon. -/
theorem delete_segment_returns (hg : ArgOk g) {s : St K} (h : Drawing g s) {e : Id} (he : e ∈ s.sid.live)
    (hb : s.wire (e, true) = s.wire (e, false) → (∃ v, s.next (e, v) = some (e, !v)) ∨ ∀ q ∈ s.qid.live, s.wire (e, true) ≠ some (s.outer q)) :
    ∃ s', deleteSegment g e s = .ok s' :=
  deleteSegment_returns (h.tiled hg).drawn.nested he hb

/-- `join_segments` of the two only segments of a point raises nothing. -/
theorem join_segments_returns (hg : ArgOk g) {s : St K} (h : Drawing g s) {mid e0 e1 : Id} (hJ : Joinable s mid e0 e1)
    (hd : ∀ d : HE, d.1 ∈ s.sid.live → s.vtx d = mid → d.1 = e0 ∨ d.1 = e1) : ∃ s', joinSegments mid e0 e1 s = .ok s' :=
  joinSegments_total (h.tiled hg).drawn.nested hJ hd

/-- `remove_free_point` of a point without segments raises nothing. -/
theorem remove_free_point_returns (hg : ArgOk g) {s : St K} (h : Drawing g s) {p : Id} (hp : p ∈ s.pid.live) (hf : s.pseg p = none) :
    ∃ s', removeFreePoint p s = .ok s' :=
  removeFreePoint_total (h.tiled hg).drawn.nested.free hp hf

/-- `Point.move` raises nothing. -/
theorem move_returns (hg : ArgOk g) {s : St K} (h : Drawing g s) {p : Id} {d : K × K} (hp : p ∈ s.pid.live) :
    ∃ s', movePoint p d s = .ok s' :=
  movePoint_total (h.tiled hg).drawn.nested.inv.links hp

/-- The hypotheses of the theorems above in one drawing: a free line across the upper part of the square, a segment of the triangle to
delete and one to divide at a free point, and a point that divides a side of the square into two segments. -/
theorem returns_case : ∃ s, Drawing demo s ∧ s.qid.live.length = 4 ∧
    (3 ∈ s.pid.live ∧ 9 ∈ s.pid.live ∧ FreeLine s 3 9 ∧ demo.tiny < |(s.xy 9).1 - (s.xy 3).1|) ∧
    (4 ∈ s.sid.live ∧ s.wire (4, true) ≠ s.wire (4, false)) ∧ (8 ∈ s.pid.live ∧ s.pseg 8 = none) ∧
    Joinable s 11 0 10 ∧ ∀ d : HE, d.1 ∈ s.sid.live → s.vtx d = 11 → d.1 = 0 ∨ d.1 = 10 := by
  have : (match draws (fullDrawing ++ [.onSeg 0 (1 / 2)]) init with
    | some s => decide (s.qid.live.length = 4) && decide (3 ∈ s.pid.live ∧ 9 ∈ s.pid.live) && freeLineB s 3 9 &&
      decide (demo.tiny < (s.xy 9).1 - (s.xy 3).1) &&
      decide (4 ∈ s.sid.live ∧ s.wire (4, true) ≠ s.wire (4, false)) && decide (8 ∈ s.pid.live ∧ s.pseg 8 = none) &&
      goodB s (.joinSegments 11 0 10) && s.sid.live.all fun e => [true, false].all fun v =>
        (decide (s.vtx (e, v) ≠ 11) || decide (e = 0 ∨ e = 10))
    | none => false) = true := by decide +kernel
  split at this
  · next s hs =>
    simp only [Bool.and_eq_true, decide_eq_true_eq] at this
    obtain ⟨⟨⟨⟨⟨⟨⟨h1, h2⟩, h3⟩, h4⟩, h5⟩, h6⟩, h7⟩, h8⟩ := this
    refine ⟨s, draws_ok .init hs, h1, ⟨h2.1, h2.2, freeLineB_ok h2.1 h2.2 h3, h4.trans_le (le_abs_self _)⟩, h5, h6, (goodB_ok h7).1.1, fun d hd hv => ?_⟩
    have k := List.all_eq_true.1 (List.all_eq_true.1 h8 d.1 hd) d.2 (by cases d.2 <;> simp)
    rw [Bool.or_eq_true, decide_eq_true_eq, decide_eq_true_eq] at k
    exact k.resolve_left (not_not.2 hv)
  · cases this

end Verif.Decomp
