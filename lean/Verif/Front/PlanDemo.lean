import Verif.Front.Plan
import Verif.Front.Demo

/-! Runs for the planarity of the drawing. -/

namespace Verif.Front
open Verif.Decomp (St Id HE Geom segPt between Planar)
open Verif.Plane (parametric projectPoint intersection dist2)

/-- An open line between two points is not snapped. -/
theorem Open.plain {c : Cfg ℚ} (hord : ∀ l p, p ∈ c.order l → p ∈ l) {f : Fr ℚ} {a b : Id} {om : List Id} (ha : a ∈ om) (hb : b ∈ om)
    (h : Open c f a b) : ∀ {n : Nat}, Plain c n a b om f
  | 0 => trivial
  | n + 1 => by
    intro x cs hx hcs
    refine ⟨fun p hp => ?_, fun _ => h⟩
    exfalso
    obtain ⟨hp, t, h0, h1, hn⟩ := snapTo_some hp
    obtain ⟨hom, e, he, v, hv⟩ := candidatePts_mem hord hcs hp
    have := h.ends e he v (by rw [hv]; rintro rfl; exact hom ha) (by rw [hv]; rintro rfl; exact hom hb) t h0 h1
    rw [hv] at this
    exact absurd hn (not_lt.2 this)

/-- The ends of the line, added as points, and then the test. -/
def bothAdded (x y : ℚ × ℚ) (t : Id → Id → Fr ℚ → Bool) (f : Fr ℚ) : Bool :=
  match addPoint demoCfg x f with
  | .ok r => match addPoint demoCfg y r.2 with
    | .ok s => t r.1 s.1 s.2
    | .error _ => true
  | .error _ => true

theorem bothAdded_ok {x y : ℚ × ℚ} {t : Id → Id → Fr ℚ → Bool} {f : Fr ℚ} (h : bothAdded x y t f = true) {a b : Id} {f1 f2 : Fr ℚ}
    (h1 : addPoint demoCfg x f = .ok (a, f1)) (h2 : addPoint demoCfg y f1 = .ok (b, f2)) : t a b f2 = true := by
  unfold bothAdded at h
  rw [h1] at h
  dsimp only at h
  rw [h2] at h
  exact h

theorem call_after {o : Call ℚ} {f f' : Fr ℚ} {t : Fr ℚ → Bool} (h : call demoCfg f o = .ok f')
    (ht : (match call demoCfg f o with
      | .ok g => t g
      | .error _ => true) = true) : t f' = true := by
  rw [h] at ht
  exact ht

/-- A horizontal line with no segment around. -/
theorem open_empty {f : Fr ℚ} {a b : Id} (h1 : f.dec.sid.live = []) (h2 : ∀ p ∈ f.dec.pid.live, p = a ∨ p = b) : Open demoCfg f a b where
  ends e he := by rw [h1] at he; cases he
  two e e' t t' h := by have := h.1; rw [h1] at this; cases this
  start e t h := by have := h.1; rw [h1] at this; cases this
  free p hp ha hb := by rcases h2 p hp with h | h <;> contradiction
  away e he := by rw [h1] at he; cases he

/-- What is known of the drawing after the first line and the ends of the second one. -/
def crossFacts (a b : Id) (f : Fr ℚ) : Prop :=
  a = 2 ∧ b = 3 ∧ f.tol = 1 ∧ f.dec.pid.live = [0, 1, 2, 3] ∧ f.dec.sid.live = [0] ∧ f.dec.vtx (0, false) = 0 ∧ f.dec.vtx (0, true) = 1 ∧
    f.dec.xy 0 = (0, 0) ∧ f.dec.xy 1 = (10, 0) ∧ f.dec.xy 2 = (5, 5) ∧ f.dec.xy 3 = (5, -5) ∧ f.dec.vec 0 = (10, 0) ∧
    intersection demoCfg.eps (0, 0) (10, 0) (5, 5) (5, -5) = some (1 / 2, 1 / 2)

instance (a b : Id) (f : Fr ℚ) : Decidable (crossFacts a b f) := by unfold crossFacts; infer_instance

theorem crossFacts.open {a b : Id} {f : Fr ℚ} (h : crossFacts a b f) : Open demoCfg f a b := by
  obtain ⟨rfl, rfl, h1, h0, h2, h3, h4, h5, h6, h7, h8, h9, h10⟩ := h
  have hcr : ∀ e t, Crosses demoCfg f 2 3 e t → e = 0 ∧ t = (1 / 2, 1 / 2) := by
    rintro e t ⟨he, ht⟩
    rw [h2, List.mem_singleton] at he
    subst he
    rw [h3, h5, h7, h8, h9, h10] at ht
    exact ⟨rfl, (Option.some.inj ht).symm⟩
  refine ⟨⟨?_, ?_, ?_⟩, ?_, ?_⟩
  · intro e he v _ _ s _ _
    rw [h2, List.mem_singleton] at he
    subst he
    cases v
    · rw [h3, h5, h1]
      simp only [lineAt, h7, h8, dist2, parametric, sub]
      nlinarith [mul_self_nonneg (5 + s * (-5 - 5))]
    · rw [h4, h6, h1]
      simp only [lineAt, h7, h8, dist2, parametric, sub]
      nlinarith [mul_self_nonneg (5 + s * (-5 - 5))]
  · intro e e' t t' h h' hne
    exact absurd ((hcr e t h).1.trans (hcr e' t' h').1.symm) hne
  · intro e t h
    obtain ⟨rfl, rfl⟩ := hcr e t h
    simp only [lineAt, h7, h8, dist2, parametric, sub, h1]
    norm_num
  · intro p hp ha hb s s0 s1 hx
    rw [h0] at hp
    simp only [List.mem_cons, List.not_mem_nil, or_false] at hp
    simp only [lineAt, h7, h8, parametric, sub] at hx
    rcases hp with rfl | rfl | rfl | rfl
    · rw [h5] at hx
      have := congrArg Prod.fst hx
      norm_num at this
    · rw [h6] at hx
      have := congrArg Prod.fst hx
      norm_num at this
    · exact ha rfl
    · exact hb rfl
  · intro e he p hp _ u _ _
    rw [h2, List.mem_singleton] at he
    subst he
    rw [h1]
    simp only [segPt, between, h3, h4, h5, h6, dist2]
    rcases hp with rfl | rfl
    · rw [h7]
      nlinarith [mul_self_nonneg (5 - (0 + u * (10 - 0)))]
    · rw [h8]
      nlinarith [mul_self_nonneg (5 - (0 + u * (10 - 0)))]

/-- C156: two lines that cross are tidy, and the drawing has a point in the crossing. -/
theorem cross_tidy : AllTidy demoCfg cross demo0 ∧ (∀ o ∈ cross, Fits demoRange o) ∧
    demoCfg.eps * demoCfg.eps * (8 * (demoRange.C * demoRange.C)) < demoRange.m * demoRange.m := by
  refine ⟨⟨?_, ?_⟩, by decide +kernel, by norm_num [demoCfg, demoRange]⟩
  · intro a f1 b f2 h1 h2
    have h := bothAdded_ok (t := fun a b f => decide (f.dec.sid.live = [] ∧ ∀ p ∈ f.dec.pid.live, p = a ∨ p = b)) (by decide +kernel) h1 h2
    obtain ⟨k1, k2⟩ := of_decide_eq_true h
    exact (open_empty k1 k2).plain (fun l p h => h) (by simp) (by simp)
  · intro f hf
    refine ⟨?_, fun _ _ => trivial⟩
    intro a f1 b f2 h1 h2
    have h := bothAdded_ok (t := fun a b f => decide (crossFacts a b f)) (call_after (t := fun g => bothAdded (5, 5) (5, -5)
      (fun a b f => decide (crossFacts a b f)) g) hf (by decide +kernel)) h1 h2
    exact (of_decide_eq_true h : crossFacts a b f2).open.plain (fun l p h => h) (by simp) (by simp)

theorem cross_planar : ∃ f, calls demoCfg cross demo0 = .ok f ∧ Planar f.dec := by
  obtain ⟨f, hf, _⟩ := cross_run
  obtain ⟨h1, h2, h3⟩ := cross_tidy
  exact ⟨f, hf, calls_planar demoRange_ok (by norm_num [demoCfg]) h3 (fun l p h => h) (init_good (by norm_num [demoRange])) h2 h1
    Verif.Decomp.init_planar hf⟩

/-- What is known of the drawing before the line through an end of a segment. -/
def throughFacts (a b : Id) (f : Fr ℚ) : Prop :=
  a = 2 ∧ b = 3 ∧ f.tol = 1 ∧ f.dec.pid.live = [0, 1, 2, 3] ∧ f.dec.sid.live = [0] ∧ f.dec.vtx (0, false) = 0 ∧ f.dec.vtx (0, true) = 1 ∧
    f.dec.xy 0 = (5, 0) ∧ f.dec.xy 1 = (5, 5) ∧ f.dec.xy 2 = (0, 0) ∧ f.dec.xy 3 = (10, 0) ∧ f.dec.vec 0 = (0, 5) ∧
    intersection demoCfg.eps (5, 0) (0, 5) (0, 0) (5, 0) = none

instance (a b : Id) (f : Fr ℚ) : Decidable (throughFacts a b f) := by unfold throughFacts; infer_instance

theorem throughFacts.open {a b : Id} {f : Fr ℚ} (h : throughFacts a b f) : Open demoCfg f 2 0 := by
  obtain ⟨rfl, rfl, h1, h0, h2, h3, h4, h5, h6, h7, h8, h9, h10⟩ := h
  have hcr : ∀ e t, ¬ Crosses demoCfg f 2 0 e t := by
    rintro e t ⟨he, ht⟩
    rw [h2, List.mem_singleton] at he
    subst he
    rw [h3, h5, h7, h9, h10] at ht
    cases ht
  refine ⟨⟨?_, fun e e' t t' h => absurd h (hcr e t), fun e t h => absurd h (hcr e t)⟩, ?_, ?_⟩
  · intro e he v _ hv s _ _
    rw [h2, List.mem_singleton] at he
    subst he
    cases v
    · exact absurd h3 hv
    · rw [h4, h6, h1]
      simp only [lineAt, h5, h7, dist2, parametric, sub]
      nlinarith [mul_self_nonneg (5 - (0 + s * (5 - 0)))]
  · intro p hp ha hb s s0 s1 hx
    rw [h0] at hp
    simp only [List.mem_cons, List.not_mem_nil, or_false] at hp
    simp only [lineAt, h5, h7, parametric, sub] at hx
    rcases hp with rfl | rfl | rfl | rfl
    · exact hb rfl
    · rw [h6] at hx
      have := congrArg Prod.snd hx
      norm_num at this
    · exact ha rfl
    · rw [h8] at hx
      have := congrArg Prod.fst hx
      norm_num at this
      linarith
  · intro e he p hp hv u _ _
    rw [h2, List.mem_singleton] at he
    subst he
    rw [h1]
    rcases hp with rfl | rfl
    · simp only [segPt, between, h3, h4, h5, h6, h7, dist2]
      nlinarith [mul_self_nonneg (0 - (0 + u * (5 - 0)))]
    · exact absurd h3 (hv false)

/-- What is known after the first half of the line. -/
def halfFacts (f : Fr ℚ) : Prop :=
  f.tol = 1 ∧ f.dec.pid.live = [0, 1, 2, 3] ∧ f.dec.sid.live = [0, 1] ∧ f.dec.vtx (0, false) = 0 ∧ f.dec.vtx (0, true) = 1 ∧
    f.dec.vtx (1, false) = 2 ∧ f.dec.vtx (1, true) = 0 ∧ f.dec.xy 0 = (5, 0) ∧ f.dec.xy 1 = (5, 5) ∧ f.dec.xy 2 = (0, 0) ∧
    f.dec.xy 3 = (10, 0) ∧ f.dec.vec 0 = (0, 5) ∧ f.dec.vec 1 = (5, 0) ∧
    intersection demoCfg.eps (5, 0) (0, 5) (5, 0) (10, 0) = none ∧ intersection demoCfg.eps (0, 0) (5, 0) (5, 0) (10, 0) = none

instance (f : Fr ℚ) : Decidable (halfFacts f) := by unfold halfFacts; infer_instance

theorem halfFacts.open {f : Fr ℚ} (h : halfFacts f) : Open demoCfg f 0 3 := by
  obtain ⟨h1, h0, h2, h3, h4, h5, h6, x0, x1, x2, x3, v0, v1, i0, i1⟩ := h
  have hcr : ∀ e t, ¬ Crosses demoCfg f 0 3 e t := by
    rintro e t ⟨he, ht⟩
    rw [h2] at he
    simp only [List.mem_cons, List.not_mem_nil, or_false] at he
    rcases he with rfl | rfl
    · rw [h3, x0, x3, v0, i0] at ht
      cases ht
    · rw [h5, x0, x2, x3, v1, i1] at ht
      cases ht
  refine ⟨⟨?_, fun e e' t t' h => absurd h (hcr e t), fun e t h => absurd h (hcr e t)⟩, ?_, ?_⟩
  · intro e he v hv _ s s0 _
    rw [h2] at he
    simp only [List.mem_cons, List.not_mem_nil, or_false] at he
    rcases he with rfl | rfl
    · cases v
      · exact absurd h3 hv
      · rw [h4, x1, h1]
        simp only [lineAt, x0, x3, dist2, parametric, sub]
        nlinarith [mul_self_nonneg (5 - (5 + s * (10 - 5)))]
    · cases v
      · rw [h5, x2, h1]
        simp only [lineAt, x0, x3, dist2, parametric, sub]
        nlinarith
      · exact absurd h6 hv
  · intro p hp ha hb s s0 s1 hx
    rw [h0] at hp
    simp only [List.mem_cons, List.not_mem_nil, or_false] at hp
    simp only [lineAt, x0, x3, parametric, sub] at hx
    rcases hp with rfl | rfl | rfl | rfl
    · exact ha rfl
    · rw [x1] at hx
      have := congrArg Prod.snd hx
      norm_num at this
    · rw [x2] at hx
      have := congrArg Prod.fst hx
      norm_num at this
      linarith
    · exact hb rfl
  · intro e he p hp hv u u0 u1
    rw [h2] at he
    simp only [List.mem_cons, List.not_mem_nil, or_false] at he
    rw [h1]
    rcases he with rfl | rfl
    · rcases hp with rfl | rfl
      · exact absurd h3 (hv false)
      · simp only [segPt, between, h3, h4, x0, x1, x3, dist2]
        nlinarith [mul_self_nonneg (0 - (0 + u * (5 - 0)))]
    · rcases hp with rfl | rfl
      · exact absurd h6 (hv true)
      · simp only [segPt, between, h5, h6, x0, x2, x3, dist2]
        nlinarith

/-- The first half of the line, and then the test. -/
def halfAdded (f : Fr ℚ) : Bool :=
  match addLinePts demoCfg 49 2 0 [0, 2, 3] f with
  | .ok r => decide (halfFacts r.2)
  | .error _ => true

/-- The point to which the line is snapped is the point 0. -/
def snapsToZero (f : Fr ℚ) : Bool :=
  match boxOf f [f.dec.xy 2, f.dec.xy 3] with
  | .ok x => match candidatePts demoCfg [2, 3] f (f.sl.intersect x) with
    | .ok cs => match snapTo f 2 3 cs with
      | .ok s => decide (s = some 0)
      | .error _ => false
    | .error _ => true
  | .error _ => true

/-- C156: a line through an end of a segment, which is divided there, is tidy. -/
theorem through_tidy : AllTidy demoCfg [.addLine (5, 0) (5, 5), .addLine (0, 0) (10, 0)] demo0 := by
  refine ⟨?_, ?_⟩
  · intro a f1 b f2 h1 h2
    have h := bothAdded_ok (t := fun a b f => decide (f.dec.sid.live = [] ∧ ∀ p ∈ f.dec.pid.live, p = a ∨ p = b)) (by decide +kernel) h1 h2
    obtain ⟨k1, k2⟩ := of_decide_eq_true h
    exact (open_empty k1 k2).plain (fun l p h => h) (by simp) (by simp)
  · intro f hf
    refine ⟨?_, fun _ _ => trivial⟩
    intro a f1 b f2 h1 h2
    have h := bothAdded_ok (t := fun a b f => decide (throughFacts a b f) && snapsToZero f && halfAdded f) (call_after (t := fun g =>
      bothAdded (0, 0) (10, 0) (fun a b f => decide (throughFacts a b f) && snapsToZero f && halfAdded f) g) hf (by decide +kernel)) h1 h2
    simp only [Bool.and_eq_true, decide_eq_true_eq] at h
    obtain ⟨⟨k1, k2⟩, k3⟩ := h
    obtain ⟨rfl, rfl, _⟩ := id k1
    change Plain demoCfg (49 + 1) 2 3 [2, 3] f2
    intro x cs hx hcs
    have hs : ∀ s, snapTo f2 2 3 cs = .ok s → s = some 0 := by
      intro s hs
      unfold snapsToZero at k2
      rw [hx] at k2
      dsimp only at k2
      rw [hcs] at k2
      dsimp only at k2
      rw [hs] at k2
      exact of_decide_eq_true k2
    refine ⟨fun p hp => ?_, fun hn => by cases hs none hn⟩
    cases hs _ hp
    refine ⟨k1.open.plain (fun l p h => h) (by simp) (by simp), fun l f' hl => ?_⟩
    unfold halfAdded at k3
    rw [hl] at k3
    exact (of_decide_eq_true k3 : halfFacts f').open.plain (fun l p h => h) (by simp) (by simp)

/-- C157 fails: a line through a free point is not divided in it, as only ends of segments are searched (polygons.py:480-489). The
point 0 is in the middle of the segment 0. A line that starts in the point then touches the segment without a common end. -/
theorem planar_lost : (∃ f, calls demoCfg [.addPoint (5, 0), .addLine (0, 0) (10, 0)] demo0 = .ok f ∧ Run demoCfg demoRange f ∧
      f.dec.sid.live = [0] ∧ 0 ∈ f.dec.pid.live ∧ f.dec.xy 0 = segPt f.dec 0 (1 / 2) ∧ ∀ v, f.dec.vtx (0, v) ≠ 0) ∧
    ∃ f, calls demoCfg [.addPoint (5, 0), .addLine (0, 0) (10, 0), .addLine (5, 0) (5, 5)] demo0 = .ok f ∧ Run demoCfg demoRange f ∧
      f.dec.sid.live = [0, 1] ∧ segPt f.dec 0 (1 / 2) = segPt f.dec 1 0 ∧ ∀ v v', f.dec.vtx (0, v) ≠ f.dec.vtx (1, v') := by
  constructor
  · obtain ⟨f, hf, h⟩ := after_ok (os := [.addPoint (5, 0), .addLine (0, 0) (10, 0)]) (t := fun f =>
      decide (f.dec.sid.live = [0] ∧ 0 ∈ f.dec.pid.live ∧ f.dec.xy 0 = segPt f.dec 0 (1 / 2) ∧ ∀ v, f.dec.vtx (0, v) ≠ 0)) (by decide +kernel)
    exact ⟨f, hf, demo_run (by decide +kernel) hf, of_decide_eq_true h⟩
  · obtain ⟨f, hf, h⟩ := after_ok (os := [.addPoint (5, 0), .addLine (0, 0) (10, 0), .addLine (5, 0) (5, 5)]) (t := fun f =>
      decide (f.dec.sid.live = [0, 1] ∧ segPt f.dec 0 (1 / 2) = segPt f.dec 1 0 ∧ ∀ v v', f.dec.vtx (0, v) ≠ f.dec.vtx (1, v')))
      (by decide +kernel)
    exact ⟨f, hf, demo_run (by decide +kernel) hf, of_decide_eq_true h⟩

end Verif.Front
