import Verif.Plane.Exact

/-! `Polygon.contains_point`: every point off the segments is in one polygon. -/

namespace Verif.Decomp
open Verif.Plane

section
variable {K : Type} [Field K] [LinearOrder K]

/-- The loop of `Polygon.contains_point` (polygon.py:63-65): true if none of the wires contains the point. -/
def outsideAll (s : St K) (xy : K × K) : List Id → Except Err Bool
  | [] => .ok true
  | c :: l => do
    if ← containsPoint s c xy then .ok false
    else outsideAll s xy l

/-- `Polygon.contains_point` (polygon.py:54-66): in the outer wire and in none of the childs of it. -/
def polyContains (s : St K) (q : Id) (xy : K × K) : Except Err Bool := do
  if ← containsPoint s (s.outer q) xy then outsideAll s xy (s.childs (s.outer q))
  else .ok false

variable [IsStrictOrderedRing K]

/-- `Wire.contains_point` for all wires. -/
theorem contains_in {s : St K} (h : Nested s) {w : Id} (hw : w ∈ s.wid.live) (x : K × K) :
    ∃ b, containsPoint s w x = .ok b ∧ (b = true ↔ w = 0 ∨ cnt s x w = 1) := by
  by_cases h0 : w = 0
  · subst h0
    exact ⟨true, by unfold containsPoint; rw [if_pos h.nest.p0], by simp⟩
  · exact ⟨_, contains_cnt h.inv.links h.wires hw h0 x, by simp [h0]⟩

theorem outsideAll_iff {s : St K} (h : Nested s) (x : K × K) : ∀ l : List Id, (∀ c ∈ l, c ∈ s.wid.live) →
    ∃ b, outsideAll s x l = .ok b ∧ (b = true ↔ ∀ c ∈ l, ¬ (c = 0 ∨ cnt s x c = 1))
  | [], _ => ⟨true, rfl, by simp⟩
  | c :: l, hl => by
    obtain ⟨b, h1, h2⟩ := contains_in h (hl c List.mem_cons_self) x
    obtain ⟨b', h3, h4⟩ := outsideAll_iff h x l fun y hy => hl y (List.mem_cons_of_mem _ hy)
    unfold outsideAll
    rw [h1, h3]
    cases b with
    | true => exact ⟨false, rfl, by simp only [Bool.false_eq_true, false_iff]; exact fun k => k c List.mem_cons_self (h2.1 rfl)⟩
    | false =>
      refine ⟨b', rfl, h4.trans ⟨fun k y hy => ?_, fun k y hy => k y (List.mem_cons_of_mem _ hy)⟩⟩
      rcases List.mem_cons.1 hy with rfl | hy
      · exact fun hh => absurd (h2.2 hh) (by simp)
      · exact k y hy

/-- `Polygon.contains_point` by the counts. -/
theorem polyContains_iff {s : St K} (h : Nested s) {q : Id} (hq : q ∈ s.qid.live) (x : K × K) :
    ∃ b, polyContains s q x = .ok b ∧
      (b = true ↔ (s.outer q = 0 ∨ cnt s x (s.outer q) = 1) ∧ ∀ c ∈ s.childs (s.outer q), ¬ (c = 0 ∨ cnt s x c = 1)) := by
  have ho := (h.nest.outs q hq).1
  obtain ⟨b, h1, h2⟩ := contains_in h ho x
  obtain ⟨b', h3, h4⟩ := outsideAll_iff h x (s.childs (s.outer q)) fun c hc => (h.tree.child ho hc).1
  unfold polyContains
  rw [h1]
  cases b with
  | true => exact ⟨b', h3, h4.trans ⟨fun k => ⟨h2.1 rfl, k⟩, fun k => k.2⟩⟩
  | false => exact ⟨false, rfl, by simp only [Bool.false_eq_true, false_iff]; exact fun k => absurd (h2.2 k.1) (by simp)⟩

/-- A point in the wires above the outer wire of `q0` is in the polygon `q0` and in no other. -/
theorem polyContains_exact {s : St K} (h : Nested s) {x : K × K} {q0 : Id} (hq0 : q0 ∈ s.qid.live) (he : Exact s x q0) {q : Id}
    (hq : q ∈ s.qid.live) : polyContains s q x = .ok (decide (q = q0)) := by
  obtain ⟨b, h1, h2⟩ := polyContains_iff h hq x
  have ho := (h.nest.outs q hq).1
  rw [h1, Except.ok.injEq]
  refine Bool.eq_iff_iff.2 (h2.trans ⟨fun k => ?_, fun k => ?_⟩)
  · have ha := (he _ ho).1 k.1
    rcases ha.last with hh | ⟨c, hc, hp⟩
    · exact decide_eq_true (h.nest.out_inj hq hq0 hh.symm)
    · have hcl : c ∈ s.wid.live := anc_live h.nest.closed (h.nest.outs q0 hq0).1 hc
      have hne : c ≠ s.outer q := fun hh => (h.nest.chain c hcl).not_anc h.nest.p0 hp (hh ▸ .refl)
      exact absurd ((he c hcl).2 hc) (k.2 c ((h.tree.childs_iff ho hcl hne).2 hp))
  · rw [decide_eq_true_eq] at k
    subst k
    refine ⟨(he _ ho).2 .refl, fun c hc hh => ?_⟩
    obtain ⟨hcl, hp⟩ := h.tree.child ho hc
    exact (h.nest.chain c hcl).not_anc h.nest.p0 hp ((he c hcl).1 hh)

variable {g : Geom K} {s : St K}

/-- `Polygon.contains_point` tells the polygons apart: for a planar drawing and a point off the segments, it is true for exactly
one polygon, and never raises. -/
theorem polygons_partition (h : Drawn g s) (hG : Good s) {x : K × K} (hx : Off s x) :
    ∃ q0 ∈ s.qid.live, ∀ q ∈ s.qid.live, polyContains s q x = .ok (decide (q = q0)) := by
  obtain ⟨q0, h0, he⟩ := exact_ex h hG hx
  exact ⟨q0, h0, fun q hq => polyContains_exact h.nested h0 he hq⟩

/-- A point to the left of a side of a wire is in the polygon of the wire. -/
theorem polygon_beside (h : Drawn g s) (hG : Good s) {d : HE} {x : K × K} (hx : Sees s d x) {w q : Id} (hw : s.wire d = some w)
    (hq : s.wpoly w = some q) : polyContains s q x = .ok true := by
  obtain ⟨w', q', h1, _, _, h2, h3⟩ := h.nested.side hx.live
  rw [hw] at h1
  cases h1
  rw [hq] at h2
  cases h2
  rw [polyContains_exact h.nested h3 (hG w d x q hx hw hq) h3]
  simp

end
end Verif.Decomp
