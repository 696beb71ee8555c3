import Verif.Plane.Depth

/-! `get_childs` in drawings: the listed polygons fill the inside of the outer wire. -/

namespace Verif.Decomp
open Verif.Plane

variable {K : Type} [Field K] [LinearOrder K] [IsStrictOrderedRing K] {g : Geom K} {s : St K}

theorem inside_anc (h : Nested s) {w x : Id} (hw : w ∈ s.wid.live) (hx : Inside s w x) : Anc s.parent x w := by
  have : x ∈ s.wid.live ∧ Anc s.parent x w := by
    unfold Inside at hx
    induction hx with
    | refl => exact ⟨hw, .refl⟩
    | tail _ h2 ih =>
      have k := h.tree.child ih.1 h2
      exact ⟨k.1, .head k.2 ih.2⟩
  exact this.2

theorem anc_inside (h : Nested s) {w x : Id} (hx : x ∈ s.wid.live) (ha : Anc s.parent x w) : Inside s w x := by
  unfold Anc at ha
  induction ha using Relation.ReflTransGen.head_induction_on with
  | refl => exact .refl
  | head h1 _ ih =>
    next a c _ =>
    have hc := h.nest.par_ex hx h1
    have hne : a ≠ c := fun hh => h.nest.self hx (hh ▸ h1)
    exact (ih hc).tail ((h.tree.childs_iff hc hx hne).2 h1)

/-- **C178.** `get_childs(q)` lists existing polygons whose regions together are the inside of the outer wire of `q`: a point off the
segments is inside this wire exactly if it is in one of the listed polygons. -/
theorem get_childs_fill (hg : ArgOk g) (h : Drawing g s) {q : Id} (hq : q ∈ s.qid.live) :
    ∃ N l, (∀ n, N ≤ n → getChilds s n q = .ok l) ∧ (∀ r ∈ l, r ∈ s.qid.live) ∧
      ∀ x, Off s x → (containsPoint s (s.outer q) x = .ok true ↔ ∃ r ∈ l, polyContains s r x = .ok true) := by
  have hT := h.tiled hg
  have hN := hT.drawn.nested
  have ho := (hN.nest.outs q hq).1
  obtain ⟨N, l, h1, h2⟩ := getChilds_exact hN.forest ho (fun w hw => by
    obtain ⟨q', _, k, _⟩ := hN.nest.pols w hw
    rw [k]
    simp)
  have hl : ∀ r ∈ l, r ∈ s.qid.live ∧ Anc s.parent (s.outer r) (s.outer q) := by
    intro r hr
    rcases (h1 r).1 hr with rfl | ⟨w, k1, k2, k3⟩
    · exact ⟨hq, .refl⟩
    · obtain ⟨r', m1, m2, _⟩ := hN.nest.pols w (Inside.live hN.tree.toTree ho k1)
      rw [k2] at m2
      cases m2
      exact ⟨m1, k3 ▸ inside_anc hN ho k1⟩
  refine ⟨N, l, h2, fun r hr => (hl r hr).1, fun x hx => ?_⟩
  obtain ⟨q0, m0, he⟩ := exact_ex hT.drawn hT.good hx
  obtain ⟨b, b1, b2⟩ := contains_in hN ho x
  rw [b1, Except.ok.injEq, b2, he _ ho]
  have ho0 := (hN.nest.outs q0 m0)
  constructor
  · intro ha
    exact ⟨q0, (h1 q0).2 (Or.inr ⟨s.outer q0, anc_inside hN ho0.1 ha, ho0.2, rfl⟩), by rw [polyContains_exact hN m0 he m0]; simp⟩
  · rintro ⟨r, hr, hc⟩
    rw [polyContains_exact hN m0 he (hl r hr).1] at hc
    have : r = q0 := by simpa using hc
    exact this ▸ (hl r hr).2

/-- The hypotheses: the polygon 3 of `fullDrawing` has the triangle inside it, and the point `(7/2, 3)` is in the triangle. -/
theorem childs_case : ∃ s, Drawing demo s ∧ 3 ∈ s.qid.live ∧ getChilds s 9 3 = .ok [3, 3, 2] ∧ Off s (7 / 2, 3) ∧
    containsPoint s (s.outer 3) (7 / 2, 3) = .ok true ∧ polyContains s 3 (7 / 2, 3) = .ok false ∧ polyContains s 2 (7 / 2, 3) = .ok true ∧
    Off s (11, 11) ∧ containsPoint s (s.outer 3) (11, 11) = .ok false := by
  have : (match draws fullDrawing init with
    | some s => offB s (7 / 2, 3) && offB s (11, 11) && decide (3 ∈ s.qid.live ∧ getChilds s 9 3 = .ok [3, 3, 2] ∧
        containsPoint s (s.outer 3) (7 / 2, 3) = .ok true ∧ polyContains s 3 (7 / 2, 3) = .ok false ∧
        polyContains s 2 (7 / 2, 3) = .ok true ∧ containsPoint s (s.outer 3) (11, 11) = .ok false)
    | none => false) = true := by decide +kernel
  split at this
  · next s hs =>
    simp only [Bool.and_eq_true, decide_eq_true_eq] at this
    obtain ⟨⟨a1, a2⟩, b1, b2, b3, b4, b5, b6⟩ := this
    exact ⟨s, draws_ok .init hs, b1, b2, offB_ok a1, b3, b4, b5, offB_ok a2, b6⟩
  · cases this

end Verif.Decomp
