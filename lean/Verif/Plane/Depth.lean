import Verif.Plane.Winding
import Verif.Plane.TilingDemo
import Verif.Decomp.Depth
import Verif.Decomp.Hang

/-! `Polygon.depth` and `Wire.neighbors` in drawings. -/

namespace Verif.Decomp
open Verif.Plane

section
variable {K : Type} [Field K] [LinearOrder K]

/-- The wires above a wire, up to the one without a parent. -/
theorem depthGo_list {s : St K} (h0 : s.parent 0 = none) (hn : ∀ w p, s.parent w = some p → w ≠ 0) {w : Id} (hU : Up s.parent w) :
    ∃ l : List Id, l.Nodup ∧ (∀ v, v ∈ l ↔ v ≠ 0 ∧ Anc s.parent w v) ∧ ∀ n, l.length < n → depthGo s n w = .ok l.length := by
  induction hU with
  | root =>
    refine ⟨[], List.nodup_nil, fun v => ?_, fun n h => ?_⟩
    · rw [anc_none h0]
      simp
    · obtain ⟨m, rfl⟩ : ∃ m, n = m + 1 := ⟨n - 1, by simp at h; omega⟩
      unfold depthGo
      rw [h0]
      rfl
  | @step w p hp hU ih =>
    obtain ⟨l, h1, h2, h3⟩ := ih
    refine ⟨w :: l, List.nodup_cons.2 ⟨fun hh => ?_, h1⟩, fun v => ?_, fun n h => ?_⟩
    · exact (Up.step hp hU).not_anc h0 hp ((h2 w).1 hh).2
    · rw [List.mem_cons, h2, anc_some hp]
      constructor
      · rintro (rfl | ⟨k1, k2⟩)
        · exact ⟨hn _ _ hp, Or.inl rfl⟩
        · exact ⟨k1, Or.inr k2⟩
      · rintro ⟨k1, k2 | k2⟩
        · exact Or.inl k2
        · exact Or.inr ⟨k1, k2⟩
    · rw [List.length_cons] at h
      obtain ⟨m, rfl⟩ : ∃ m, n = m + 1 := ⟨n - 1, by omega⟩
      unfold depthGo
      rw [hp]
      simp only
      rw [h3 m (by omega)]
      rfl

variable [IsStrictOrderedRing K] {g : Geom K} {s : St K}

/-- `Polygon.depth` is the number of wires around the polygon: those, other than the root wire, that contain a point of it. -/
theorem polygon_depth (hg : ArgOk g) (h : Drawing g s) {q : Id} (hq : q ∈ s.qid.live) {x : K × K} (hx : Off s x)
    (hc : polyContains s q x = .ok true) {n : Nat} (hn : s.wid.live.length < n) :
    depth s n q = .ok (s.wid.live.filter fun w => decide (w ≠ 0 ∧ containsPoint s w x = .ok true)).length := by
  have hT := h.tiled hg
  have hN := hT.drawn.nested.nest
  obtain ⟨q0, k0, he⟩ := exact_ex hT.drawn hT.good hx
  have hqq := polyContains_exact hT.drawn.nested k0 he hq
  rw [hc] at hqq
  have hqq : q = q0 := by simpa using hqq
  subst hqq
  have ho := (hN.outs q hq).1
  obtain ⟨l, h1, h2, h3⟩ := depthGo_list hN.p0 (fun w p hp hw => by rw [hw, hN.p0] at hp; cases hp) (hN.chain _ ho)
  have hmem : ∀ v, v ∈ l ↔ v ∈ s.wid.live.filter fun w => decide (w ≠ 0 ∧ containsPoint s w x = .ok true) := by
    intro v
    rw [h2, List.mem_filter, decide_eq_true_eq]
    constructor
    · rintro ⟨a1, a2⟩
      have hv : v ∈ s.wid.live := anc_live (W := fun w => w ∈ s.wid.live) hN.closed ho a2
      obtain ⟨b, b1, b2⟩ := contains_in hT.drawn.nested hv x
      exact ⟨hv, a1, by rw [b1, b2.2 ((he v hv).2 a2)]⟩
    · rintro ⟨hv, a1, a2⟩
      obtain ⟨b, b1, b2⟩ := contains_in hT.drawn.nested hv x
      rw [a2] at b1
      cases b1
      exact ⟨a1, (he v hv).1 (b2.1 rfl)⟩
  have hlen : l.length = (s.wid.live.filter fun w => decide (w ≠ 0 ∧ containsPoint s w x = .ok true)).length :=
    ((List.perm_ext_iff_of_nodup h1 (hT.drawn.nested.inv.wids.nd.filter _)).2 hmem).length_eq
  rw [← hlen]
  refine h3 n (lt_of_le_of_lt ?_ hn)
  rw [hlen]
  exact List.length_filter_le _ _

/-- The polygons inside the outer wire of a polygon are deeper than it. -/
theorem depth_inside (hg : ArgOk g) (h : Drawing g s) {q r : Id} (hq : q ∈ s.qid.live) (hr : r ∈ s.qid.live) (hne : r ≠ q) {x : K × K}
    (hx : Off s x) (hc : polyContains s r x = .ok true) (hw : containsPoint s (s.outer q) x = .ok true) {n : Nat}
    (hn : s.wid.live.length < n) : ∃ i j, depth s n q = .ok i ∧ depth s n r = .ok j ∧ i < j := by
  have hT := h.tiled hg
  have hN := hT.drawn.nested.nest
  obtain ⟨q0, k0, he⟩ := exact_ex hT.drawn hT.good hx
  have hqq := polyContains_exact hT.drawn.nested k0 he hr
  rw [hc] at hqq
  have hqq : r = q0 := by simpa using hqq
  subst hqq
  have ho := (hN.outs q hq).1
  have ho' := (hN.outs r hr).1
  have hA : Anc s.parent (s.outer r) (s.outer q) := by
    obtain ⟨b, b1, b2⟩ := contains_in hT.drawn.nested ho x
    rw [hw] at b1
    cases b1
    exact (he _ ho).1 (b2.1 rfl)
  have hroot : ∀ w p, s.parent w = some p → w ≠ 0 := fun w p hp hw => by rw [hw, hN.p0] at hp; cases hp
  obtain ⟨l, h1, h2, h3⟩ := depthGo_list hN.p0 hroot (hN.chain _ ho)
  obtain ⟨l', h1', h2', h3'⟩ := depthGo_list hN.p0 hroot (hN.chain _ ho')
  have hnot : s.outer r ∉ l := fun hh => hne (hN.out_inj hr hq (Anc.antisymm (hN.chain _ ho') hN.p0 hA ((h2 _).1 hh).2))
  have hr0 : s.outer r ≠ 0 := by
    intro hh
    rw [hh, anc_none hN.p0] at hA
    exact hne (hN.out_inj hr hq (hh.trans hA.symm))
  have hlt : l.length < l'.length := by
    have : (s.outer r :: l).length ≤ l'.length :=
      ((List.nodup_cons.2 ⟨hnot, h1⟩).subperm fun v hv => by
        rcases List.mem_cons.1 hv with rfl | hv
        · exact (h2' _).2 ⟨hr0, .refl⟩
        · obtain ⟨a1, a2⟩ := (h2 v).1 hv
          exact (h2' v).2 ⟨a1, hA.trans a2⟩).length_le
    exact this
  have hle : l'.length < n := by
    refine lt_of_le_of_lt ?_ hn
    exact (h1'.subperm fun v hv => anc_live (W := fun w => w ∈ s.wid.live) hN.closed ho' ((h2' v).1 hv).2).length_le
  exact ⟨_, _, h3 n (hlt.trans hle), h3' n hle, hlt⟩

/-- `Wire.neighbors` gives wires that exist, and each of them has the wire among its neighbors. -/
theorem neighbors_symm (hg : ArgOk g) (h : Drawing g s) {w : Id} (hw : w ∈ s.wid.live) (h0 : w ≠ 0) :
    ∃ l, neighbors s w = .ok l ∧ l ≠ [] ∧ ∀ v ∈ l, v ∈ s.wid.live ∧ v ≠ 0 ∧ ∃ l', neighbors s v = .ok l' ∧ w ∈ l' := by
  have hT := h.tiled hg
  have hL := hT.drawn.nested.inv.links
  have hW := hT.drawn.nested.wires
  have key : ∀ w ∈ s.wid.live, w ≠ 0 → ∃ l, neighbors s w = .ok l ∧
      ∀ y, y ∈ l ↔ ∃ d : HE, d.1 ∈ s.sid.live ∧ s.wire d = some w ∧ s.wire (flip d) = some y := by
    intro w hw h0
    obtain ⟨l, h1, _, h3, _⟩ := wire_walk_of hL hW hw h0
    obtain ⟨k, k1, k2⟩ := mapM_need (l := l) (f := fun h => s.wire (flip h)) fun d hd => by
      obtain ⟨v', e1, _, _⟩ := hW.lab (flip d) ((h3 d).1 hd).1
      exact ⟨v', e1⟩
    refine ⟨k, by unfold neighbors; rw [h1]; exact k1, fun y => (k2 y).trans ⟨?_, ?_⟩⟩
    · rintro ⟨d, a1, a2⟩
      exact ⟨d, ((h3 d).1 a1).1, ((h3 d).1 a1).2, a2⟩
    · rintro ⟨d, a1, a2, a3⟩
      exact ⟨d, (h3 d).2 ⟨a1, a2⟩, a3⟩
  obtain ⟨l, h1, h2⟩ := key w hw h0
  refine ⟨l, h1, ?_, fun v hv => ?_⟩
  · obtain ⟨d, _, d2, d3⟩ := hW.seg w hw h0
    obtain ⟨v', e1, _, _⟩ := hW.lab (flip d) d2
    have := (h2 v').2 ⟨d, d2, d3, e1⟩
    exact fun hh => by rw [hh] at this; cases this
  · obtain ⟨d, a1, a2, a3⟩ := (h2 v).1 hv
    obtain ⟨v', e1, e2, e3⟩ := hW.lab (flip d) a1
    rw [a3] at e1
    cases e1
    obtain ⟨l', f1, f2⟩ := key v e2 e3
    exact ⟨e2, e3, l', f1, (f2 w).2 ⟨flip d, a1, a3, by rw [flip_flip, a2]⟩⟩

end

/-- A drawing with four polygons: the upper and the lower part of a square, the lower one, 3, with a triangle, 2, in it. The vertices of
the triangle and of the lower part wind around a point in the triangle, those of the upper part do not; the hole of the lower part
runs clockwise around it; depths and neighbors of the wires. -/
theorem fullDrawing_vertices : ∃ s, Drawing demo s ∧ s.qid.live = [0, 1, 2, 3] ∧ Off s (7 / 2, 3) ∧
    polyContains s 2 (7 / 2, 3) = .ok true ∧ containsPoint s (s.outer 3) (7 / 2, 3) = .ok true ∧ s.wid.live.length < 9 ∧
    polyVertices s 0 = .ok [] ∧ polyVertices s 2 = .ok [5, 6, 7] ∧ polyVertices s 3 = .ok [10, 0, 1, 9] ∧
    polyVertices s 1 = .ok [9, 2, 3, 10] ∧
    List.map s.xy [5, 6, 7] = [(2, 2), (6, 2), (4, 5)] ∧ winding (List.map s.xy [5, 6, 7]) (7 / 2, 3) = 1 ∧
    winding (List.map s.xy [10, 0, 1, 9]) (7 / 2, 3) = 1 ∧ winding (List.map s.xy [9, 2, 3, 10]) (7 / 2, 3) = 0 ∧
    s.wpoly 3 = some 3 ∧ s.outer 3 = 5 ∧ (wireAll s 3).toOption.map (fun l => winding (l.map fun d => s.xy (s.vtx d)) (7 / 2, 3)) = some (-1) ∧
    depth s 9 0 = .ok 0 ∧ depth s 9 1 = .ok 2 ∧ depth s 9 2 = .ok 4 ∧ depth s 9 3 = .ok 2 ∧
    neighbors s 3 = .ok [4, 4, 4] ∧ neighbors s 2 = .ok [5, 1, 1, 1] := by
  have : (match draws fullDrawing init with
    | some s => offB s (7 / 2, 3) && decide (s.qid.live = [0, 1, 2, 3] ∧
      polyContains s 2 (7 / 2, 3) = .ok true ∧ containsPoint s (s.outer 3) (7 / 2, 3) = .ok true ∧ s.wid.live.length < 9 ∧
      polyVertices s 0 = .ok [] ∧ polyVertices s 2 = .ok [5, 6, 7] ∧ polyVertices s 3 = .ok [10, 0, 1, 9] ∧
      polyVertices s 1 = .ok [9, 2, 3, 10] ∧
      List.map s.xy [5, 6, 7] = [(2, 2), (6, 2), (4, 5)] ∧ winding (List.map s.xy [5, 6, 7]) (7 / 2, 3) = 1 ∧
      winding (List.map s.xy [10, 0, 1, 9]) (7 / 2, 3) = 1 ∧ winding (List.map s.xy [9, 2, 3, 10]) (7 / 2, 3) = 0 ∧
      s.wpoly 3 = some 3 ∧ s.outer 3 = 5 ∧
      (wireAll s 3).toOption.map (fun l => winding (l.map fun d => s.xy (s.vtx d)) (7 / 2, 3)) = some (-1) ∧
      depth s 9 0 = .ok 0 ∧ depth s 9 1 = .ok 2 ∧ depth s 9 2 = .ok 4 ∧ depth s 9 3 = .ok 2 ∧
      neighbors s 3 = .ok [4, 4, 4] ∧ neighbors s 2 = .ok [5, 1, 1, 1])
    | none => false) = true := by decide +kernel
  split at this
  · next s hs =>
    rw [Bool.and_eq_true, decide_eq_true_eq] at this
    exact ⟨s, draws_ok .init hs, this.2.1, offB_ok this.1, this.2.2⟩
  · cases this

end Verif.Decomp
