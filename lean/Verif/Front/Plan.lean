import Verif.Front.Line

/-! Lines and points added by the frontend keep the drawing planar: segments meet only in common ends. -/

namespace Verif.Front
open Verif.Decomp (St Id HE Geom segPt between Planar)
open Verif.Plane (parametric projectPoint intersection dist2)

variable {K : Type} [Field K] [LinearOrder K] [IsStrictOrderedRing K]

/-! ### Points and deletions -/

theorem pointOnSegment_planar {c : Cfg K} {r : Range K} (hm : 0 < r.m) {f f' : Fr K} (hG : Good c r f) {e : Id}
    (he : e ∈ f.dec.sid.live) {t : K} {m : Id × Id} (h : pointOnSegment e t f = .ok (m, f')) (hP : Planar f.dec) : Planar f'.dec := by
  by_cases h0 : scaledLt t (dot (f.dec.vec e) (f.dec.vec e)) f.tol
  · unfold pointOnSegment at h
    dsimp only at h
    rw [if_pos h0] at h
    cases h
    exact hP
  by_cases h1 : scaledLt (1 - t) (dot (f.dec.vec e) (f.dec.vec e)) f.tol
  · unfold pointOnSegment at h
    dsimp only at h
    rw [if_neg h0, if_pos h1] at h
    cases h
    exact hP
  obtain ⟨g1, g2, g3, g4, g5, g6, g7, g8, g9, g10, g11, g12, g13⟩ := pointOnSegment_split hm hG he h h0 h1
  obtain ⟨po, so, hM⟩ := hG.mirror
  have ht : 0 < f.tol := lt_of_lt_of_le hm hM.tol.1
  have t0 := (not_scaledLt ht h0).1
  have t1 := (not_scaledLt ht h1).1
  exact hP.split hG.reach.reach.inv.links he t0 (by linarith) g4 g5 g6 (g7.trans (at_seg hG he t)) g8
    (fun i hi hie => (g9 i hi hie).2) g10 g11 g12 g13

/-- `add_point` keeps the drawing planar. -/
theorem addPoint_planar {c : Cfg K} {r : Range K} (hr : r.Ok) {f f' : Fr K} (hG : Good c r f) {x : K × K} (hx : Bounded r.C x)
    {p : Id} (h : addPoint c x f = .ok (p, f')) (hP : Planar f.dec) : Planar f'.dec := by
  obtain ⟨po, so, hM⟩ := hG.mirror
  have ht : 0 < f.tol := lt_of_lt_of_le hr.m hM.tol.1
  have htt : 0 < f.tol * f.tol := mul_pos ht ht
  have hI := hG.reach.reach.inv
  unfold addPoint at h
  simp only [bindOk] at h
  obtain ⟨s, hs, h⟩ := h
  have hso := snapPoint_spec hr hG hx hs
  cases s with
  | point q => cases h; exact hP
  | segment e t =>
    obtain ⟨hfar, he, hnear⟩ := hso
    simp only [bindOk] at h
    obtain ⟨⟨m, f2⟩, h, h'⟩ := h
    cases h'
    exact pointOnSegment_planar hr.m hG he h hP
  | polygon q =>
    obtain ⟨hfar, hno, _⟩ := hso
    dsimp only at h
    obtain ⟨hfr, _, hxy1, hvt1, hs1, hps1, hpl1, htol1, hvec1⟩ := addPt_mirror hr.m h hI hM hx
    have hlive1 : ∀ i, i ∈ f'.dec.pid.live ↔ i = p ∨ i ∈ f.dec.pid.live := by
      simp only [Front.addPt, bindOk] at h
      obtain ⟨_, _, b, _, ha⟩ := h
      cases ha
      intro i
      change i ∈ f.dec.pid.append.2.live ↔ _
      rw [(Verif.Decomp.Ids.append_ok hI.pids).2.1, List.mem_append, List.mem_singleton]
      tauto
    have hxp : f'.dec.xy p = x := by rw [hxy1, Function.update_self]
    have hzero : ∀ y : K × K, dist2 y y = 0 := fun y => by simp [dist2]
    refine hP.point hI.links hlive1 (fun i hi => ?_) hs1 hvt1 (fun i hi hh => ?_) (fun e he u u0 u1 hh => ?_)
    · rw [hxy1, Function.update_of_ne (ne_of_mem_of_not_mem hi hfr)]
    · refine hfar i hi ?_
      rw [hh, hxp]
      unfold Near
      rw [hzero]
      exact htt
    · refine hno e he u u0 u1 ?_
      rw [hxp] at hh
      rw [at_seg hG he, ← hh]
      unfold Near
      rw [hzero]
      exact htt

/-- `delete_segment` keeps the drawing planar. -/
theorem rmSegment_planar {c : Cfg K} {r : Range K} {f f' : Fr K} (hG : Good c r f) {e : Id} (h : rmSegment c e f = .ok f')
    (hP : Planar f.dec) : Planar f'.dec := by
  simp only [rmSegment, bindOk, liftD_ok, liftB_ok, key_ok] at h
  obtain ⟨_, he, sl, _, s, hs, h⟩ := h
  cases h
  have hD := (Verif.Decomp.deleteSegment_next hs hG.reach.reach.inv he).1
  exact hP.less (fun p hp => by rw [← hD.pid]; exact hp) (fun i hi => ((hD.live i).1 hi).2) hD.vtx hD.xy

theorem rmPt_planar {c : Cfg K} {r : Range K} {f f' : Fr K} (hG : Good c r f) {p : Id} (h : rmPt p f = .ok f')
    (hP : Planar f.dec) : Planar f'.dec := by
  simp only [rmPt, bindOk, liftD_ok, liftB_ok, key_ok] at h
  obtain ⟨_, _, pl, _, s, hs, h⟩ := h
  cases h
  obtain ⟨m, hm, h1, h2, h3, h4⟩ := removeFreePoint_objects hs
  obtain ⟨_, _, _, k⟩ := Verif.Decomp.Ids.remove_ok hG.reach.reach.inv.pids hm
  refine hP.less (fun q hq => ?_) (fun i hi => ?_) h3 h4
  · dsimp only at hq
    rw [h1] at hq
    exact ((k q).1 hq).2
  · dsimp only at hi
    rw [h2] at hi
    exact hi

theorem rmSegments_planar {c : Cfg K} {r : Range K} (hm : 0 < r.m) : ∀ {l : List HE} {f f' : Fr K}, Good c r f →
    rmSegments c l f = .ok f' → Planar f.dec → Good c r f' ∧ Planar f'.dec
  | [], f, f', hG, h, hP => by cases h; exact ⟨hG, hP⟩
  | d :: l, f, f', hG, h, hP => by
    simp only [rmSegments, bindOk] at h
    obtain ⟨f1, h1, h⟩ := h
    exact rmSegments_planar hm (prims_good hm (.single (.rmSegment h1)) hG) h (rmSegment_planar hG h1 hP)

/-- `delete_point` keeps the drawing planar. -/
theorem deletePoint_planar {c : Cfg K} {r : Range K} (hm : 0 < r.m) {f f' : Fr K} (hG : Good c r f) {p : Id}
    (h : deletePoint c p f = .ok f') (hP : Planar f.dec) : Planar f'.dec := by
  simp only [deletePoint, bindOk] at h
  obtain ⟨l, _, f1, h1, h⟩ := h
  obtain ⟨hG1, hP1⟩ := rmSegments_planar hm hG h1 hP
  exact rmPt_planar hG1 h hP1

/-! ### Where segments meet a line -/

/-- A line whose neighbourhood is clear, that goes through no other point and whose ends are not near to segments of which they
are not ends. -/
structure Open (c : Cfg K) (f : Fr K) (a b : Id) : Prop extends Clear c f a b where
  /-- No other point is on the line. -/
  free : ∀ p ∈ f.dec.pid.live, p ≠ a → p ≠ b → ∀ s, 0 ≤ s → s ≤ 1 → f.dec.xy p ≠ lineAt f a b s
  /-- A segment is not nearer than the tolerance to the ends of the line that are not its own ends. -/
  away : ∀ e ∈ f.dec.sid.live, ∀ p, p = a ∨ p = b → (∀ v, f.dec.vtx (e, v) ≠ p) → ∀ u, 0 ≤ u → u ≤ 1 →
    f.tol * f.tol ≤ dist2 (f.dec.xy p) (segPt f.dec e u)

theorem Bounded.dist2_le {C : K} {p q : K × K} (hp : Bounded C p) (hq : Bounded C q) : dist2 p q ≤ 8 * (C * C) := by
  obtain ⟨p1, p2, p3, p4⟩ := hp
  obtain ⟨q1, q2, q3, q4⟩ := hq
  have hC : 0 ≤ C := by linarith
  have h1 : (p.1 - q.1) * (p.1 - q.1) ≤ 4 * (C * C) := by
    have := mul_nonneg (by linarith : 0 ≤ 2 * C - (p.1 - q.1)) (by linarith : 0 ≤ 2 * C + (p.1 - q.1))
    linarith
  have h2 : (p.2 - q.2) * (p.2 - q.2) ≤ 4 * (C * C) := by
    have := mul_nonneg (by linarith : 0 ≤ 2 * C - (p.2 - q.2)) (by linarith : 0 ≤ 2 * C + (p.2 - q.2))
    linarith
  unfold dist2
  linarith

omit [LinearOrder K] [IsStrictOrderedRing K] in
theorem dist2_between (o x : K × K) (s t : K) : dist2 (between o x s) (between o x t) = (s - t) * (s - t) * dist2 o x := by
  simp only [dist2, between]
  ring

theorem dist2_nonneg (p q : K × K) : 0 ≤ dist2 p q := add_nonneg (mul_self_nonneg _) (mul_self_nonneg _)

/-- Points of a segment whose parameters differ by at most `eps` are nearer than the tolerance. -/
theorem between_near {C m tol eps : K} {o x : K × K} (ho : Bounded C o) (hx : Bounded C x) (hC : eps * eps * (8 * (C * C)) < m * m)
    (hm : 0 < m) (ht : m ≤ tol) {s t : K} (h1 : s - t ≤ eps) (h2 : t - s ≤ eps) :
    dist2 (between o x s) (between o x t) < tol * tol := by
  rw [dist2_between]
  have h3 : (s - t) * (s - t) ≤ eps * eps := by
    have := mul_nonneg (by linarith : 0 ≤ eps - (s - t)) (by linarith : 0 ≤ eps + (s - t))
    linarith
  have h4 := mul_le_mul_of_nonneg_right h3 (dist2_nonneg o x)
  have h5 := mul_le_mul_of_nonneg_left (ho.dist2_le hx) (mul_self_nonneg eps)
  have h6 := mul_self_le_mul_self hm.le ht
  linarith

/-- Two intervals that overlap only in ends. -/
theorem overlap_ends {α β t : K} (hα : 0 ≤ α → α ≤ 1 → α = 0 ∨ α = 1) (hβ : 0 ≤ β → β ≤ 1 → β = 0 ∨ β = 1)
    (h0 : (α ≤ 0 ∧ 0 ≤ β ∨ β ≤ 0 ∧ 0 ≤ α) → α = 0 ∨ β = 0) (h1 : (α ≤ 1 ∧ 1 ≤ β ∨ β ≤ 1 ∧ 1 ≤ α) → α = 1 ∨ β = 1)
    (n1 : ¬ (α = 0 ∧ β = 1)) (n2 : ¬ (α = 1 ∧ β = 0)) (t0 : 0 ≤ t) (t1 : t ≤ 1) (ht : α ≤ t ∧ t ≤ β ∨ β ≤ t ∧ t ≤ α) : t = α ∨ t = β := by
  have main : ∀ {α β : K}, (0 ≤ α → α ≤ 1 → α = 0 ∨ α = 1) → (0 ≤ β → β ≤ 1 → β = 0 ∨ β = 1) →
      (α ≤ 0 ∧ 0 ≤ β → α = 0 ∨ β = 0) → (α ≤ 1 ∧ 1 ≤ β → α = 1 ∨ β = 1) → ¬ (α = 0 ∧ β = 1) → α ≤ t → t ≤ β → t = α ∨ t = β := by
    intro α β hα hβ h0 h1 n1 ha hb
    rcases lt_trichotomy α 0 with h | h | h
    · rcases h0 ⟨h.le, by linarith⟩ with h' | h'
      · exact absurd h' h.ne
      · right; linarith
    · by_cases hb1 : β ≤ 1
      · rcases hβ (by linarith) hb1 with h' | h'
        · right; linarith
        · exact absurd ⟨h, h'⟩ n1
      · push Not at hb1
        rcases h1 ⟨by linarith, hb1.le⟩ with h' | h'
        · exact absurd (h.symm.trans h') zero_ne_one
        · exact absurd h' hb1.ne'
    · rcases hα h.le (by linarith) with h' | h'
      · exact absurd h' h.ne'
      · left; linarith
  rcases ht with ⟨h, h'⟩ | ⟨h, h'⟩
  · exact main hα hβ (fun h => h0 (Or.inl h)) (fun h => h1 (Or.inl h)) n1 h h'
  · exact (main hβ hα (fun h => (h0 (Or.inr h)).symm) (fun h => (h1 (Or.inr h)).symm) (fun h => n2 ⟨h.2, h.1⟩) h h').symm

omit [LinearOrder K] [IsStrictOrderedRing K] in
theorem lineAt_between (f : Fr K) (a b : Id) (t : K) : lineAt f a b t = between (f.dec.xy a) (f.dec.xy b) t := rfl

/-- A segment meets the line in one of its ends or crosses it, if the ends of the line are not joined yet. -/
theorem Open.meets {c : Cfg K} {r : Range K} {f : Fr K} (hG : Good c r f) (hm : 0 < r.m)
    (hC : c.eps * c.eps * (8 * (r.C * r.C)) < r.m * r.m) {a b : Id} (ha : a ∈ f.dec.pid.live) (hb : b ∈ f.dec.pid.live) (hab : a ≠ b)
    (hO : Open c f a b) (hP : Planar f.dec) {e : Id} (he : e ∈ f.dec.sid.live) {u t : K} (u0 : 0 ≤ u) (u1 : u ≤ 1) (t0 : 0 ≤ t)
    (t1 : t ≤ 1) (h : segPt f.dec e u = lineAt f a b t) (hj : ∀ v, ¬ (f.dec.vtx (e, v) = a ∧ f.dec.vtx (e, !v) = b)) :
    (∃ v, f.dec.xy (f.dec.vtx (e, v)) = lineAt f a b t) ∨ Crosses c f a b e (u, t) := by
  obtain ⟨po, so, hM⟩ := hG.mirror
  have hI := hG.reach.reach.inv
  have hV := Verif.Decomp.vectors_exact_partial hG.reach
  have hxab : f.dec.xy a ≠ f.dec.xy b := fun hh => hab (hP.pts a ha b hb hh)
  have hinj : ∀ {s s' : K}, lineAt f a b s = lineAt f a b s' → s = s' := fun hh => Verif.Decomp.between_inj hxab hh
  have la : lineAt f a b 0 = f.dec.xy a := Verif.Decomp.between_zero _ _
  have lb : lineAt f a b 1 = f.dec.xy b := Verif.Decomp.between_one _ _
  have hvl : ∀ v, f.dec.vtx (e, v) ∈ f.dec.pid.live := fun v => hI.links.vlive (e, v) he
  by_cases hpar : Verif.Plane.Parallel (f.dec.vec e) (sub (f.dec.xy b) (f.dec.xy a))
  · -- the segment is in the direction of the line
    left
    obtain ⟨κ, hκ⟩ : ∃ κ : K, ∀ w, segPt f.dec e w = lineAt f a b (t + (w - u) * κ) := by
      set v := f.dec.vec e with hv
      set d := sub (f.dec.xy b) (f.dec.xy a) with hd
      have hdd : d.1 * d.1 + d.2 * d.2 ≠ 0 := by
        intro h0
        have h1 : d.1 = 0 := by
          have : d.1 * d.1 = 0 := le_antisymm (by linarith [mul_self_nonneg d.2]) (mul_self_nonneg _)
          exact mul_self_eq_zero.1 this
        have h2 : d.2 = 0 := by
          have : d.2 * d.2 = 0 := le_antisymm (by linarith [mul_self_nonneg d.1]) (mul_self_nonneg _)
          exact mul_self_eq_zero.1 this
        apply hxab
        simp only [hd, sub] at h1 h2
        exact Prod.ext (by linear_combination -h1) (by linear_combination -h2)
      refine ⟨(v.1 * d.1 + v.2 * d.2) / (d.1 * d.1 + d.2 * d.2), fun w => ?_⟩
      have k1 : (v.1 * d.1 + v.2 * d.2) / (d.1 * d.1 + d.2 * d.2) * d.1 = v.1 := by
        rw [div_mul_eq_mul_div, div_eq_iff hdd]
        unfold Verif.Plane.Parallel at hpar
        linear_combination -d.2 * hpar
      have k2 : (v.1 * d.1 + v.2 * d.2) / (d.1 * d.1 + d.2 * d.2) * d.2 = v.2 := by
        rw [div_mul_eq_mul_div, div_eq_iff hdd]
        unfold Verif.Plane.Parallel at hpar
        linear_combination d.1 * hpar
      generalize (v.1 * d.1 + v.2 * d.2) / (d.1 * d.1 + d.2 * d.2) = κ at k1 k2
      rw [← at_seg hG he] at h ⊢
      simp only [at_, lineAt, parametric, Prod.mk.injEq] at h ⊢
      rw [← hv, ← hd] at *
      constructor
      · linear_combination h.1 - (w - u) * k1
      · linear_combination h.2 - (w - u) * k2
    have hend : ∀ v : Bool, ∀ α, f.dec.xy (f.dec.vtx (e, v)) = lineAt f a b α → 0 ≤ α → α ≤ 1 → α = 0 ∨ α = 1 := by
      intro v α hα h0 h1
      by_cases h2 : f.dec.vtx (e, v) = a
      · rw [h2, ← la] at hα
        exact Or.inl (hinj hα).symm
      by_cases h3 : f.dec.vtx (e, v) = b
      · rw [h3, ← lb] at hα
        exact Or.inr (hinj hα).symm
      exact absurd hα (hO.free _ (hvl v) h2 h3 α h0 h1)
    have e0 : f.dec.xy (f.dec.vtx (e, false)) = lineAt f a b (t - u * κ) := by
      have := hκ 0
      rw [← Verif.Decomp.segPt_end]
      simp only [Bool.false_eq_true, if_false]
      rw [this]
      congr 1
      ring
    have e1 : f.dec.xy (f.dec.vtx (e, true)) = lineAt f a b (t + (1 - u) * κ) := by
      have := hκ 1
      rw [← Verif.Decomp.segPt_end]
      simp only [if_true]
      exact this
    have hthrough : ∀ s p, p ∈ f.dec.pid.live → f.dec.xy p = lineAt f a b s →
        (t - u * κ ≤ s ∧ s ≤ t + (1 - u) * κ ∨ t + (1 - u) * κ ≤ s ∧ s ≤ t - u * κ) → t - u * κ = s ∨ t + (1 - u) * κ = s := by
      intro s p hp hx hs
      have hk : κ = (t + (1 - u) * κ) - (t - u * κ) := by ring
      have fin : ∀ w, 0 ≤ w → w ≤ 1 → s = t + (w - u) * κ → t - u * κ = s ∨ t + (1 - u) * κ = s := by
        intro w w0 w1 hw
        obtain ⟨v, hv⟩ := hP.on p hp e he w w0 w1 (by rw [hx, hκ w, hw])
        cases v
        · left; apply hinj; rw [← e0, hv, hx]
        · right; apply hinj; rw [← e1, hv, hx]
      by_cases hκ0 : κ = 0
      · left
        rw [hκ0] at hs ⊢
        rcases hs with ⟨h1, h2⟩ | ⟨h1, h2⟩ <;> linarith
      · refine fin ((s - t) / κ + u) ?_ ?_ (by field_simp; ring)
        · have : (s - t) / κ + u = (s - (t - u * κ)) / κ := by field_simp; ring
          rw [this]
          rcases lt_or_gt_of_ne hκ0 with hn | hp'
          · exact div_nonneg_of_nonpos (by rcases hs with ⟨h1, h2⟩ | ⟨h1, h2⟩ <;> linarith) hn.le
          · exact div_nonneg (by rcases hs with ⟨h1, h2⟩ | ⟨h1, h2⟩ <;> linarith) hp'.le
        · have : 1 - ((s - t) / κ + u) = (t + (1 - u) * κ - s) / κ := by field_simp; ring
          have h' : 0 ≤ (t + (1 - u) * κ - s) / κ := by
            rcases lt_or_gt_of_ne hκ0 with hn | hp'
            · exact div_nonneg_of_nonpos (by rcases hs with ⟨h1, h2⟩ | ⟨h1, h2⟩ <;> linarith) hn.le
            · exact div_nonneg (by rcases hs with ⟨h1, h2⟩ | ⟨h1, h2⟩ <;> linarith) hp'.le
          linarith
    have hident : ∀ v p s, p ∈ f.dec.pid.live → f.dec.xy (f.dec.vtx (e, v)) = lineAt f a b s → f.dec.xy p = lineAt f a b s →
        f.dec.vtx (e, v) = p := fun v p s hp h1 h2 => hP.pts _ (hvl v) _ hp (h1.trans h2.symm)
    have hfin := overlap_ends (α := t - u * κ) (β := t + (1 - u) * κ) (t := t) (hend false _ e0) (hend true _ e1)
      (hthrough 0 a ha la.symm) (hthrough 1 b hb lb.symm)
      (fun hh => hj false ⟨hident false a 0 ha (by rw [← hh.1]; exact e0) la.symm, hident true b 1 hb (by rw [← hh.2]; exact e1) lb.symm⟩)
      (fun hh => hj true ⟨hident true a 0 ha (by rw [← hh.2]; exact e1) la.symm, hident false b 1 hb (by rw [← hh.1]; exact e0) lb.symm⟩)
      t0 t1 (by
        rcases le_total 0 κ with hk | hk
        · left
          exact ⟨by linarith [mul_nonneg u0 hk], by linarith [mul_nonneg (sub_nonneg.2 u1) hk]⟩
        · right
          exact ⟨by linarith [mul_nonneg (sub_nonneg.2 u1) (neg_nonneg.2 hk)], by linarith [mul_nonneg u0 (neg_nonneg.2 hk)]⟩)
    rcases hfin with hh | hh
    · exact ⟨false, by rw [e0, ← hh]⟩
    · exact ⟨true, by rw [e1, ← hh]⟩
  · by_cases hw : Verif.Plane.Within c.eps (u, t)
    · right
      exact crosses_iff.2 ⟨he, hpar, (at_seg hG he u).trans h, hw⟩
    left
    have huniq : ∀ u' t', segPt f.dec e u' = lineAt f a b t' → u' = u ∧ t' = t := by
      intro u' t' h'
      rw [← at_seg hG he] at h h'
      exact parametric_parallel h' h hpar
    have hpt : ∀ v p, p = a ∨ p = b → f.dec.vtx (e, v) = p → f.dec.xy (f.dec.vtx (e, v)) = lineAt f a b t := by
      intro v p hp hv
      obtain ⟨t', ht'⟩ : ∃ t', f.dec.xy p = lineAt f a b t' := by
        rcases hp with rfl | rfl
        · exact ⟨0, la.symm⟩
        · exact ⟨1, lb.symm⟩
      have := (huniq _ t' ((Verif.Decomp.segPt_end f.dec e v).trans (by rw [hv]; exact ht'))).2
      rw [hv, ht', this]
    have nearSeg : ∀ v : Bool, (if v then 1 else 0) - u ≤ c.eps → u - (if v then 1 else 0) ≤ c.eps →
        f.dec.xy (f.dec.vtx (e, v)) = lineAt f a b t := by
      intro v k1 k2
      have hd := between_near (hM.pin _ (hvl false)) (hM.pin _ (hvl true)) hC hm hM.tol.1 k1 k2
      change dist2 (segPt f.dec e _) (segPt f.dec e u) < _ at hd
      rw [Verif.Decomp.segPt_end, h] at hd
      by_cases h2 : f.dec.vtx (e, v) = a
      · exact hpt v a (Or.inl rfl) h2
      by_cases h3 : f.dec.vtx (e, v) = b
      · exact hpt v b (Or.inr rfl) h3
      exact absurd hd (not_lt.2 (hO.ends e he v h2 h3 t t0 t1))
    have nearLine : ∀ s p, p = a ∨ p = b → f.dec.xy p = lineAt f a b s → s - t ≤ c.eps → t - s ≤ c.eps →
        ∃ v, f.dec.xy (f.dec.vtx (e, v)) = lineAt f a b t := by
      intro s p hp hx k1 k2
      have hd := between_near (hM.pin a ha) (hM.pin b hb) hC hm hM.tol.1 k1 k2
      change dist2 (lineAt f a b _) (lineAt f a b t) < _ at hd
      rw [← hx, ← h] at hd
      by_contra hno
      refine absurd hd (not_lt.2 (hO.away e he p hp (fun v hv => hno ⟨v, hpt v p hp hv⟩) u u0 u1))
    by_cases w1 : c.eps < u
    · by_cases w2 : u < 1 - c.eps
      · by_cases w3 : c.eps < t
        · by_cases w4 : t < 1 - c.eps
          · exact absurd ⟨⟨w1, w2⟩, w3, w4⟩ hw
          · exact nearLine 1 b (Or.inr rfl) lb.symm (by linarith) (by linarith)
        · exact nearLine 0 a (Or.inl rfl) la.symm (by linarith) (by linarith)
      · exact ⟨true, nearSeg true (by simp only [if_true]; linarith) (by simp only [if_true]; linarith)⟩
    · exact ⟨false, nearSeg false (by simp only [Bool.false_eq_true, if_false]; linarith) (by simp only [Bool.false_eq_true, if_false]; linarith)⟩

/-! ### The new segments -/

/-- One piece of the line from the parameter `τ` to the parameter `σ`. -/
theorem addSegment_planar {c : Cfg K} {r : Range K} {g g' : Fr K} (hG : Good c r g) {p q e : Id} {X Y : K × K} {τ σ : K}
    (h : addSegment c p q g = .ok (e, g')) (hP : Planar g.dec) (hXY : X ≠ Y) (hτσ : τ < σ)
    (hp : g.dec.xy p = between X Y τ) (hq : g.dec.xy q = between X Y σ)
    (hpts : ∀ i ∈ g.dec.pid.live, ∀ t, τ < t → t ≤ σ → g.dec.xy i = between X Y t → i = q)
    (hmeets : ∀ e ∈ g.dec.sid.live, ∀ u t, 0 ≤ u → u ≤ 1 → τ ≤ t → t ≤ σ → segPt g.dec e u = between X Y t →
      ∃ i ∈ g.dec.pid.live, g.dec.xy i = between X Y t) :
    Planar g'.dec ∧ g'.dec.xy = g.dec.xy ∧ g'.dec.pid = g.dec.pid ∧ g'.tol = g.tol ∧
      ∀ e ∈ g'.dec.sid.live, ∀ u t, 0 ≤ u → u ≤ 1 → σ ≤ t → segPt g'.dec e u = between X Y t →
        t = σ ∨ e ∈ g.dec.sid.live ∧ segPt g.dec e u = between X Y t := by
  have hI := hG.reach.reach.inv
  simp only [Front.addSegment, bindOk, liftD_ok, key_ok] at h
  obtain ⟨_, hpl, _, hql, ⟨e, s'⟩, h1, x, hx, h⟩ := h
  cases h
  dsimp only
  have hinj : ∀ {s s' : K}, between X Y s = between X Y s' → s = s' := fun hh => Verif.Decomp.between_inj hXY hh
  have hpart : ∀ u, between (g.dec.xy p) (g.dec.xy q) u = between X Y (τ + u * (σ - τ)) := by
    intro u
    rw [hp, hq, Verif.Decomp.between_part]
  have hrange : ∀ u, 0 ≤ u → u ≤ 1 → τ ≤ τ + u * (σ - τ) ∧ τ + u * (σ - τ) ≤ σ := by
    intro u u0 u1
    have k1 := mul_nonneg u0 (sub_nonneg.2 hτσ.le)
    have k2 := mul_nonneg (sub_nonneg.2 u1) (sub_nonneg.2 hτσ.le)
    exact ⟨by linarith, by linarith⟩
  rcases newSegment_objects h1 hI hpl hql with ⟨hf, hA⟩ | ⟨hf, rfl, v, v1, v2⟩
  · refine ⟨hP.segment hI.links hA ?_ ?_, hA.xy, hA.pid, rfl, ?_⟩
    · intro i hi u u0 u1 hh
      rw [hpart] at hh
      obtain ⟨k1, k2⟩ := hrange u u0 u1
      rcases k1.eq_or_lt with k | k
      · left
        rw [← k, ← hp] at hh
        exact hP.pts i hi p hpl hh
      · exact Or.inr (hpts i hi _ k k2 hh)
    · intro i hi u u' u0 u1 u0' u1' hh
      rw [hpart] at hh
      obtain ⟨k1, k2⟩ := hrange u' u0' u1'
      obtain ⟨j, hj, hx⟩ := hmeets i hi u _ u0 u1 k1 k2 hh
      exact ⟨j, hj, by rw [hh]; exact hx⟩
    · intro i hi u t u0 u1 ht hh
      rcases (hA.live i).1 hi with hi | rfl
      · right
        rw [Verif.Decomp.segPt_congr (s := g.dec) (fun v => hA.vo (i, v) (ne_of_mem_of_not_mem hi hA.fresh)) (fun v => by rw [hA.xy])] at hh
        exact ⟨hi, hh⟩
      · left
        rw [segPt, hA.v0, hA.v1, hA.xy, hpart] at hh
        have := hinj hh
        linarith [(hrange u u0 u1).2]
  · refine ⟨⟨hP.pts, hP.on, hP.meet⟩, rfl, rfl, rfl, ?_⟩
    intro i hi u t u0 u1 ht hh
    exact Or.inr ⟨hi, hh⟩

/-- The points of the division are joined in turn. -/
theorem newSegs_planar {c : Cfg K} {r : Range K} (hm : 0 < r.m) {b : Id} {X Y : K × K} (hXY : X ≠ Y) : ∀ {ds : List (Div K)} {a : Id}
    {g g' : Fr K} {l : List Id} {τ : K}, Good c r g → newSegs c b a ds g = .ok (l, g') → Planar g.dec → Apart g a (ds.map Div.mid) →
    (ds.map Div.mid ++ [b]).getLast? ≠ (a :: ds.map Div.mid).getLast? →
    τ < 1 → g.dec.xy a = between X Y τ → g.dec.xy b = Y →
    (∀ d ∈ ds, g.dec.xy d.mid = between X Y d.t ∧ d.mid ∈ g.dec.pid.live ∧ τ < d.t ∧ d.t < 1) → ds.Pairwise (fun x y => x.t < y.t) →
    (∀ i ∈ g.dec.pid.live, ∀ t, τ < t → t ≤ 1 → g.dec.xy i = between X Y t → i = b ∨ ∃ d ∈ ds, d.mid = i) →
    (∀ e ∈ g.dec.sid.live, ∀ u t, 0 ≤ u → u ≤ 1 → τ ≤ t → t ≤ 1 → segPt g.dec e u = between X Y t →
      ∃ i ∈ g.dec.pid.live, g.dec.xy i = between X Y t) → Planar g'.dec
  | [], a, g, g', l, τ, hG, h, hP, _, hlast, hτ, ha, hb, hds, hord, hpts, hmeets => by
    simp only [List.map_nil, List.nil_append, List.getLast?_singleton, ne_eq, Option.some.injEq] at hlast
    rw [newSegs, if_pos (fun hh => hlast hh.symm)] at h
    simp only [bindOk] at h
    obtain ⟨⟨e, f1⟩, h1, h⟩ := h
    cases h
    refine (addSegment_planar hG h1 hP hXY hτ ha (by rw [hb, Verif.Decomp.between_one]) ?_ hmeets).1
    intro i hi t t0 t1 hx
    rcases hpts i hi t t0 t1 hx with h | ⟨d, hd, _⟩
    · exact h
    · cases hd
  | d :: ds, a, g, g', l, τ, hG, h, hP, hap, hlast, hτ, ha, hb, hds, hord, hpts, hmeets => by
    obtain ⟨h1, h2, h3⟩ := hap
    rw [newSegs, if_neg h1, if_neg h2] at h
    simp only [bindOk] at h
    obtain ⟨⟨e, g1⟩, hadd, ⟨l', g2⟩, hn, h⟩ := h
    cases h
    obtain ⟨hd1, hd2, hd3, hd4⟩ := hds d (by simp)
    obtain ⟨ho1, ho2⟩ := List.pairwise_cons.1 hord
    have hinj : ∀ {s s' : K}, between X Y s = between X Y s' → s = s' := fun hh => Verif.Decomp.between_inj hXY hh
    obtain ⟨k1, k2, k3, k4, k5⟩ := addSegment_planar hG hadd hP hXY hd3 ha hd1 (by
      intro i hi t t0 t1 hx
      rcases hpts i hi t t0 (by linarith) hx with rfl | ⟨d', hd', rfl⟩
      · have := hinj ((Verif.Decomp.between_one X Y).trans (hb.symm.trans hx))
        linarith
      · rcases List.mem_cons.1 hd' with rfl | hd'
        · rfl
        · have h5 := (hds d' (by simp [hd'])).1
          rw [hx] at h5
          have := hinj h5
          have := ho1 d' hd'
          linarith) (fun e he u t u0 u1 t0 t1 => hmeets e he u t u0 u1 t0 (by linarith))
    have hG1 := prims_good hm (.single (.addSegment hadd)) hG
    refine newSegs_planar hm hXY (τ := d.t) hG1 hn k1 (h3.congr k2 k4) (by
      simpa [List.getLast?_append, List.getLast?_cons] using hlast) hd4 (by rw [k2]; exact hd1) (by rw [k2]; exact hb) ?_ ho2 ?_ ?_
    · intro d' hd'
      obtain ⟨j1, j2, j3, j4⟩ := hds d' (by simp [hd'])
      exact ⟨by rw [k2]; exact j1, by rw [k3]; exact j2, ho1 d' hd', j4⟩
    · intro i hi t t0 t1 hx
      rw [k3] at hi
      rw [k2] at hx
      rcases hpts i hi t (by linarith) t1 hx with h | ⟨d', hd', rfl⟩
      · exact Or.inl h
      · rcases List.mem_cons.1 hd' with rfl | hd'
        · rw [hx] at hd1
          have := hinj hd1
          linarith
        · exact Or.inr ⟨d', hd', rfl⟩
    · intro e' he' u t u0 u1 t0 t1 hx
      rw [k2, k3]
      rcases k5 e' he' u t u0 u1 t0 hx with rfl | ⟨he', hx'⟩
      · exact ⟨d.mid, hd2, hd1⟩
      · exact hmeets e' he' u t u0 u1 (by linarith) t1 hx'

theorem newSegment_old {g : Geom K} {a b e e' : Id} {s s' : St K} (hs : Verif.Decomp.newSegment g a b s = .ok (e, s'))
    (hI : Verif.Decomp.Inv s) (ha : a ∈ s.pid.live) (hb : b ∈ s.pid.live) (he : e' ∈ s.sid.live) {v : Bool} (h1 : s.vtx (e', v) = a)
    (h2 : s.vtx (e', !v) = b) : s' = Verif.Decomp.quiet s := by
  have hcon : ¬ (s.table (a, b) = none ∧ s.table (b, a) = none) := by
    rintro ⟨t1, t2⟩
    cases v with
    | false =>
      have := (hI.tab.exact_ (a, b).1 (a, b).2 e').2 ⟨he, h1, h2⟩
      rw [t1] at this
      cases this
    | true =>
      have := (hI.tab.exact_ (b, a).1 (b, a).2 e').2 ⟨he, h2, h1⟩
      rw [t2] at this
      cases this
  cases (Verif.Decomp.newSegment_cases hs hI.links ha hb).2 with
  | old ho hs' => exact hs'
  | wire t1 t2 => exact absurd ⟨t1, t2⟩ hcon
  | dendrite t1 t2 => exact absurd ⟨t1, t2⟩ hcon
  | join t1 t2 => exact absurd ⟨t1, t2⟩ hcon
  | split t1 t2 => exact absurd ⟨t1, t2⟩ hcon

/-- A line with the ends `a` and `b`, not snapped to a point between, keeps the drawing planar. -/
theorem leaf_planar {c : Cfg K} {r : Range K} (hr : r.Ok) (heps : 0 ≤ c.eps) (hC : c.eps * c.eps * (8 * (r.C * r.C)) < r.m * r.m)
    {f : Fr K} (hG : Good c r f) {a b : Id} (ha : a ∈ f.dec.pid.live) (hb : b ∈ f.dec.pid.live) (hab : a ≠ b) (hO : Open c f a b)
    (hP : Planar f.dec) {ds : List (Div K)} {f1 f' : Fr K} {l : List Id} (hl : lineIsecs c a b f = .ok (ds, f1))
    (h : lineSegs c a b ds f1 = .ok (l, f')) : Planar f'.dec ∧ ∀ p ∈ f.dec.pid.live, p ∈ f'.dec.pid.live := by
  have hI := hG.reach.reach.inv
  have hxab : f.dec.xy a ≠ f.dec.xy b := fun hh => hab (hP.pts a ha b hb hh)
  have hinj : ∀ {s s' : K}, lineAt f a b s = lineAt f a b s' → s = s' := fun hh => Verif.Decomp.between_inj hxab hh
  obtain ⟨done, hL, c3⟩ := lineIsecs_loop hr heps hG ha hb hO.toClear hl
  obtain ⟨hsort, hperm, hkeys, hitems, hap, hlast⟩ := loop_sorted ha hb hab hO.toClear hL
  unfold lineSegs at h
  generalize ds.insertionSort (fun x y : Div K => x.t ≤ y.t) = sd at h hsort hperm hkeys hitems hap hlast
  have hjoins := newSegs_joins hr.m hL.good h hap hlast
  refine ⟨?_, fun p hp => by rw [hjoins.2.2.1]; exact (hL.pts p hp).1⟩
  have hP1 := hL.plan hP
  by_cases hj : ∃ e ∈ f.dec.sid.live, ∃ v, f.dec.vtx (e, v) = a ∧ f.dec.vtx (e, !v) = b
  · -- the ends are joined already
    obtain ⟨e0, he0, v, hva, hvb⟩ := hj
    have hV := Verif.Decomp.vectors_exact_partial hG.reach
    have hline : ∀ t, lineAt f a b t = segPt f.dec e0 (if v then 1 - t else t) := by
      intro t
      rw [lineAt_between, segPt, ← hva, ← hvb]
      cases v
      · rfl
      · simp only [if_true, Bool.not_true, between, Prod.mk.injEq]
        constructor <;> ring
    have hpar : Verif.Plane.Parallel (f.dec.vec e0) (sub (f.dec.xy b) (f.dec.xy a)) := by
      rw [hV e0 he0, ← hva, ← hvb]
      unfold Verif.Plane.Parallel
      cases v <;> simp only [sub, Bool.not_true, Bool.not_false] <;> ring
    have hno : ∀ e t, ¬ Crosses c f a b e t := by
      intro e t hcr
      obtain ⟨he, hnp, hat, ⟨w1, w2⟩, w3, w4⟩ := crosses_iff.1 hcr
      have hne : e ≠ e0 := fun hh => hnp (hh ▸ hpar)
      rw [at_seg hG he, hline] at hat
      obtain ⟨w, w', _, hx⟩ := hP.meet e he e0 he0 hne _ _ (by linarith) (by linarith)
        (by cases v <;> simp <;> linarith) (by cases v <;> simp <;> linarith) hat
      rw [← Verif.Decomp.segPt_end] at hx
      have := Verif.Decomp.between_inj (hP.ends_ne hI.links he) hx
      cases w <;> simp at this <;> linarith
    have hsd : sd = [] := by
      cases sd with
      | nil => rfl
      | cons d sd =>
        obtain ⟨e, t, hcr, _⟩ := hitems d (by simp)
        exact absurd hcr (hno e t)
    subst hsd
    rw [newSegs, if_pos hab] at h
    simp only [bindOk] at h
    obtain ⟨⟨e, f2⟩, h1, h⟩ := h
    cases h
    simp only [Front.addSegment, bindOk, liftD_ok, key_ok] at h1
    obtain ⟨_, hpl, _, hql, ⟨e, s'⟩, h1, x, hx, h2⟩ := h1
    cases h2
    have hsame := hL.uncut e0 he0 (fun t => hno e0 t)
    have := newSegment_old h1 hL.good.reach.reach.inv hpl hql (hL.segs e0 he0) ((hsame v).trans hva) ((hsame (!v)).trans hvb)
    subst this
    exact ⟨hP1.pts, hP1.on, hP1.meet⟩
  · push Not at hj
    -- a segment meets the line in a point of the drawing
    have hmeet : ∀ e ∈ f1.dec.sid.live, ∀ u t, 0 ≤ u → u ≤ 1 → 0 ≤ t → t ≤ 1 → segPt f1.dec e u = lineAt f a b t →
        ∃ i ∈ f1.dec.pid.live, f1.dec.xy i = lineAt f a b t := by
      intro e he u t u0 u1 t0 t1 hh
      obtain ⟨e', he', hpart⟩ := hL.parts e he
      obtain ⟨u', v0, v1, hu⟩ := hpart u u0 u1
      rcases hO.meets hG hr.m hC ha hb hab hP he' v0 v1 t0 t1 (hu.symm.trans hh) (fun v hv => hj e' he' v hv.1 hv.2) with ⟨v, hv⟩ | hcr
      · obtain ⟨k1, k2⟩ := hL.pts _ (hI.links.vlive (e', v) he')
        exact ⟨_, k1, k2.trans hv⟩
      · obtain ⟨_, p, n, _, _, k3, _, k5, _⟩ := hL.cut e' (c3 e' _ hcr) _ hcr
        exact ⟨p, k3, k5⟩
    refine newSegs_planar hr.m hxab (τ := 0) hL.good h hP1 hap hlast zero_lt_one ?_ (hL.pts b hb).2 ?_ ?_ ?_ ?_
    · rw [(hL.pts a ha).2, Verif.Decomp.between_zero]
    · intro d hd
      obtain ⟨e, t, hcr, k1, k2, k3, k4⟩ := hitems d hd
      obtain ⟨_, _, _, _, w3, w4⟩ := crosses_iff.1 hcr
      exact ⟨by rw [k1]; exact k2, k4, by rw [k1]; linarith, by rw [k1]; linarith⟩
    · exact (hsort.and hkeys).imp fun hh => lt_of_le_of_ne hh.1 hh.2.1
    · intro i hi t t0 t1 hx
      rcases hL.news i hi with hi0 | ⟨d, hd, rfl⟩
      · rw [(hL.pts i hi0).2] at hx
        left
        by_contra hib
        by_cases hia : i = a
        · subst hia
          have := hinj (s := 0) (s' := t) ((Verif.Decomp.between_zero _ _).trans hx)
          linarith
        · exact hO.free i hi0 hia hib t t0.le t1 hx
      · exact Or.inr ⟨d, hperm.symm.subset hd, rfl⟩
    · intro e he u t u0 u1 t0 t1 hh
      exact hmeet e he u t u0 u1 t0 t1 hh

/-! ### Lines -/

/-- The line from `a` to `b`, or each of the parts into which `add_line_for_points` divides it in the points it is snapped to, is
open in the state in which it is added. -/
def Plain (c : Cfg K) : Nat → Id → Id → List Id → Fr K → Prop
  | 0, _, _, _, _ => True
  | n + 1, a, b, om, f => ∀ x cs, boxOf f [f.dec.xy a, f.dec.xy b] = .ok x → candidatePts c om f (f.sl.intersect x) = .ok cs →
      (∀ p, snapTo f a b cs = .ok (some p) → Plain c n a p (p :: om) f ∧
        ∀ l f', addLinePts c n a p (p :: om) f = .ok (l, f') → Plain c n p b (p :: om) f') ∧
      (snapTo f a b cs = .ok none → Open c f a b)

theorem addLinePts_planar {c : Cfg K} {r : Range K} (hr : r.Ok) (heps : 0 ≤ c.eps) (hC : c.eps * c.eps * (8 * (r.C * r.C)) < r.m * r.m)
    (hord : ∀ l p, p ∈ c.order l → p ∈ l) : ∀ {n : Nat} {f f' : Fr K} {a b : Id} {om l : List Id}, Good c r f → a ∈ f.dec.pid.live →
    b ∈ f.dec.pid.live → Plain c n a b om f → Planar f.dec → addLinePts c n a b om f = .ok (l, f') →
    Planar f'.dec ∧ ∀ p ∈ f.dec.pid.live, p ∈ f'.dec.pid.live
  | 0, f, f', a, b, om, l, _, _, _, _, _, h => by cases h
  | n + 1, f, f', a, b, om, l, hG, ha, hb, hpl, hP, h => by
    rw [addLinePts] at h
    split at h
    · cases h
      exact ⟨hP, fun p hp => hp⟩
    next hab =>
    simp only [bindOk] at h
    obtain ⟨x, hx, cs, hcs, s, hs, h⟩ := h
    obtain ⟨k1, k2⟩ := hpl x cs hx hcs
    cases s with
    | some p =>
      simp only [bindOk] at h
      obtain ⟨⟨l0, f1⟩, h0, ⟨l1, f2⟩, h1, h⟩ := h
      cases h
      obtain ⟨j1, j2⟩ := k1 p hs
      have hp : p ∈ f.dec.pid.live := by
        obtain ⟨_, e, he, v, hv⟩ := candidatePts_mem hord hcs (snapTo_some hs).1
        rw [← hv]
        exact hG.reach.reach.inv.links.vlive (e, v) he
      obtain ⟨q1, q2⟩ := addLinePts_planar hr heps hC hord hG ha hp j1 hP h0
      have hG1 := prims_good hr.m (addLinePts_prims h0) hG
      obtain ⟨w1, w2⟩ := addLinePts_planar hr heps hC hord hG1 (q2 p hp) (q2 b hb) (j2 l0 f1 h0) q1 h1
      exact ⟨w1, fun q hq => w2 q (q2 q hq)⟩
    | none =>
      simp only [bindOk] at h
      obtain ⟨⟨ds, f1⟩, hl, h⟩ := h
      exact leaf_planar hr heps hC hG ha hb hab (k2 hs) hP hl h

/-- Calls for which it is known that they keep the drawing planar: points are added anywhere and objects are deleted, lines are
added where they are open. -/
def Tidy (c : Cfg K) (f : Fr K) : Call K → Prop
  | .addLine x y => ∀ a f1 b f2, addPoint c x f = .ok (a, f1) → addPoint c y f1 = .ok (b, f2) → Plain c c.depth a b [a, b] f2
  | .addLineForPoints a b om => a ∈ f.dec.pid.live ∧ b ∈ f.dec.pid.live ∧ Plain c c.depth a b om f
  | .newSegment a b => a ≠ b ∧ Open c f a b ∧ ∀ e t, ¬ Crosses c f a b e t
  | .mergePoints _ _ => False
  | .movePoints _ _ => False
  | _ => True

/-- Each call is such one in the state after the calls before. -/
def AllTidy (c : Cfg K) : List (Call K) → Fr K → Prop
  | [], _ => True
  | o :: os, f => Tidy c f o ∧ ∀ f', call c f o = .ok f' → AllTidy c os f'

theorem call_planar {c : Cfg K} {r : Range K} (hr : r.Ok) (heps : 0 ≤ c.eps) (hC : c.eps * c.eps * (8 * (r.C * r.C)) < r.m * r.m)
    (hord : ∀ l p, p ∈ c.order l → p ∈ l) {f f' : Fr K} {o : Call K} (hG : Good c r f) (hF : Fits r o) (hT : Tidy c f o)
    (hP : Planar f.dec) (h : call c f o = .ok f') : Planar f'.dec := by
  cases o with
  | addPoint x =>
    simp only [call, bindOk] at h
    obtain ⟨⟨p, f1⟩, h1, h⟩ := h
    cases h
    exact addPoint_planar hr hG hF h1 hP
  | addLine x y =>
    simp only [call, bindOk] at h
    obtain ⟨⟨p, f1⟩, h1, h⟩ := h
    cases h
    simp only [addLine, bindOk] at h1
    obtain ⟨⟨a, f2⟩, ha, ⟨b, f3⟩, hb, h1⟩ := h1
    have hP2 := addPoint_planar hr hG hF.1 ha hP
    have hG2 := prims_good hr.m (addPoint_prims hF.1 ha) hG
    have hP3 := addPoint_planar hr hG2 hF.2 hb hP2
    have hG3 := prims_good hr.m (addPoint_prims hF.2 hb) hG2
    have hlive : ∀ {g g' : Fr K} {x : K × K} {p : Id}, Good c r g → Bounded r.C x → addPoint c x g = .ok (p, g') →
        p ∈ g'.dec.pid.live ∧ ∀ q ∈ g.dec.pid.live, q ∈ g'.dec.pid.live := by
      intro g g' x p hg hx hp
      rcases addPoint_cases hr hg hx hp with ⟨rfl, hp⟩ | ⟨_, _, _, hl, _⟩
      · exact ⟨hp, fun q hq => hq⟩
      · exact ⟨(hl p).2 (Or.inl rfl), fun q hq => (hl q).2 (Or.inr hq)⟩
    split at h1
    · cases h1
      exact hP3
    · simp only [bindOk] at h1
      obtain ⟨⟨l, f4⟩, h4, h1⟩ := h1
      cases h1
      exact (addLinePts_planar hr heps hC hord hG3 ((hlive hG2 hF.2 hb).2 a (hlive hG hF.1 ha).1) (hlive hG2 hF.2 hb).1
        (hT a f2 b f3 ha hb) hP3 h4).1
  | addLineForPoints a b om =>
    simp only [call, bindOk] at h
    obtain ⟨⟨l, f1⟩, h1, h⟩ := h
    cases h
    exact (addLinePts_planar hr heps hC hord hG hT.1 hT.2.1 hT.2.2 hP h1).1
  | newSegment a b =>
    obtain ⟨hab, hO, hno⟩ := hT
    simp only [call, bindOk] at h
    obtain ⟨⟨e, f1⟩, h1, h⟩ := h
    cases h
    have hk := h1
    simp only [Front.addSegment, bindOk, liftD_ok, key_ok] at hk
    obtain ⟨_, ha, _, hb, ⟨e, s'⟩, h2, x, hx, hk⟩ := hk
    cases hk
    have hxab : f.dec.xy a ≠ f.dec.xy b := fun hh => hab (hP.pts a ha b hb hh)
    by_cases hj : ∃ e ∈ f.dec.sid.live, ∃ v, f.dec.vtx (e, v) = a ∧ f.dec.vtx (e, !v) = b
    · obtain ⟨e0, he0, v, hva, hvb⟩ := hj
      have := newSegment_old h2 hG.reach.reach.inv ha hb he0 hva hvb
      subst this
      exact ⟨hP.pts, hP.on, hP.meet⟩
    · push Not at hj
      refine (addSegment_planar hG h1 hP hxab zero_lt_one (Verif.Decomp.between_zero _ _).symm (Verif.Decomp.between_one _ _).symm ?_ ?_).1
      · intro i hi t t0 t1 hx
        by_contra hib
        by_cases hia : i = a
        · subst hia
          have := Verif.Decomp.between_inj hxab ((Verif.Decomp.between_zero _ _).trans hx)
          linarith
        · exact hO.free i hi hia hib t t0.le t1 hx
      · intro e he u t u0 u1 t0 t1 hh
        rcases hO.meets hG hr.m hC ha hb hab hP he u0 u1 t0 t1 hh (fun v hv => hj e he v hv.1 hv.2) with ⟨v, hv⟩ | hcr
        · exact ⟨_, hG.reach.reach.inv.links.vlive (e, v) he, hv⟩
        · exact absurd hcr (hno e _)
  | deleteSegment e => exact rmSegment_planar hG h hP
  | deletePoint p => exact deletePoint_planar hr.m hG h hP
  | mergePoints a b => exact hT.elim
  | movePoints ps d => exact hT.elim
  | setTolerance t => cases h; exact hP
  | setAttr e b =>
    simp only [call, setAttr, bindOk, key_ok] at h
    obtain ⟨_, _, h⟩ := h
    cases h
    exact hP

theorem calls_planar {c : Cfg K} {r : Range K} (hr : r.Ok) (heps : 0 ≤ c.eps) (hC : c.eps * c.eps * (8 * (r.C * r.C)) < r.m * r.m)
    (hord : ∀ l p, p ∈ c.order l → p ∈ l) : ∀ {os : List (Call K)} {f f' : Fr K}, Good c r f → (∀ o ∈ os, Fits r o) → AllTidy c os f →
    Planar f.dec → calls c os f = .ok f' → Planar f'.dec
  | [], f, f', _, _, _, hP, h => by cases h; exact hP
  | o :: os, f, f', hG, hF, hT, hP, h => by
    simp only [calls, bindOk] at h
    obtain ⟨f1, h1, h⟩ := h
    have hG1 : Good c r f1 := calls_good hr.m (os := [o]) hG (fun o' ho' => hF o' (by simp at ho'; simp [ho']))
      (by simp only [calls, bindOk]; exact ⟨f1, h1, rfl⟩)
    exact calls_planar hr heps hC hord hG1 (fun o' ho' => hF o' (by simp [ho'])) (hT.2 f1 h1)
      (call_planar hr heps hC hord hG (hF o (by simp)) hT.1 hP h1) h

/-- **C156.** After any calls that add points anywhere, delete objects and add lines where they are open the drawing is planar:
different points have different coordinates, a point is on a segment only as its end, and two segments meet only in a common
end. -/
theorem drawing_planar {c : Cfg K} {r : Range K} (hr : r.Ok) (heps : 0 ≤ c.eps) (hC : c.eps * c.eps * (8 * (r.C * r.C)) < r.m * r.m)
    (hord : ∀ l p, p ∈ c.order l → p ∈ l) {tol : K} (ht : r.m ≤ tol ∧ tol ≤ r.T) {os : List (Call K)} (ho : ∀ o ∈ os, Fits r o)
    (hT : AllTidy c os (init r.inf r.rt2 tol)) {f : Fr K} (h : calls c os (init r.inf r.rt2 tol) = .ok f) :
    (∀ p ∈ f.dec.pid.live, ∀ q ∈ f.dec.pid.live, f.dec.xy p = f.dec.xy q → p = q) ∧
    (∀ p ∈ f.dec.pid.live, ∀ e ∈ f.dec.sid.live, ∀ u, 0 ≤ u → u ≤ 1 →
      f.dec.xy p = parametric (f.dec.xy (f.dec.vtx (e, false))) (f.dec.vec e) u → ∃ v, f.dec.vtx (e, v) = p) ∧
    ∀ e ∈ f.dec.sid.live, ∀ e' ∈ f.dec.sid.live, e ≠ e' → ∀ u u', 0 ≤ u → u ≤ 1 → 0 ≤ u' → u' ≤ 1 →
      parametric (f.dec.xy (f.dec.vtx (e, false))) (f.dec.vec e) u = parametric (f.dec.xy (f.dec.vtx (e', false))) (f.dec.vec e') u' →
      ∃ v v', f.dec.vtx (e, v) = f.dec.vtx (e', v') ∧
        f.dec.xy (f.dec.vtx (e, v)) = parametric (f.dec.xy (f.dec.vtx (e, false))) (f.dec.vec e) u := by
  have hG := calls_good (c := c) hr.m (init_good ht) ho h
  have hP := calls_planar hr heps hC hord (init_good ht) ho hT Verif.Decomp.init_planar h
  refine ⟨hP.pts, fun p hp e he u u0 u1 hx => ?_, fun e he e' he' hne u u' u0 u1 u0' u1' hx => ?_⟩
  · exact hP.on p hp e he u u0 u1 (hx.trans (at_seg hG he u))
  · obtain ⟨v, v', k1, k2⟩ := hP.meet e he e' he' hne u u' u0 u1 u0' u1' ((at_seg hG he u).symm.trans (hx.trans (at_seg hG he' u')))
    exact ⟨v, v', k1, k2.trans (at_seg hG he u).symm⟩

end Verif.Front
