import Verif.Plane.Count
import Verif.Plane.Sep
import Verif.Decomp.Planar

/-! Points from which a side of a segment is seen. -/

namespace Verif.Decomp
open Verif.Plane

section
variable {K : Type} [Field K] [LinearOrder K]

/-- Start of the side in its direction. -/
def org (s : St K) (d : HE) : K × K := s.xy (s.vtx (flip d))

/-- End of the side in its direction. -/
def dst (s : St K) (d : HE) : K × K := s.xy (s.vtx d)

/-- Point of the side with the parameter `τ` in its direction. -/
def onDart (s : St K) (d : HE) (τ : K) : K × K := parametric (org s d) (dir (org s d) (dst s d)) τ

/-- The segment meets the path nowhere. -/
abbrev SegApart (s : St K) (e : Id) (x y : K × K) : Prop := Apart (s.xy (s.vtx (e, false))) (s.xy (s.vtx (e, true))) x y

/-- `x` is to the left of the side `d`, and no other segment is between `x` and an inner point of it. -/
structure Sees (s : St K) (d : HE) (x : K × K) : Prop where
  live : d.1 ∈ s.sid.live
  left : 0 < side (org s d) (dst s d) x
  sight : ∃ τ, 0 < τ ∧ τ < 1 ∧ ∀ e ∈ s.sid.live, e ≠ d.1 → SegApart s e (onDart s d τ) x

/-- Twice the area of the triangle of two vectors; positive if `v` is counterclockwise from `u`. -/
def crs (u v : K × K) : K := u.1 * v.2 - u.2 * v.1

omit [LinearOrder K] in
theorem side_mix (a b p q : K × K) (t : K) : side a b (parametric p (dir p q) t) = (1 - t) * side a b p + t * side a b q := by
  simp only [side, parametric, dir]; ring

omit [LinearOrder K] in
theorem side_push (a b v : K × K) (τ t : K) :
    side a b (parametric (parametric a (dir a b) τ) v t) = t * crs (dir a b) v := by
  simp only [side, parametric, dir, crs]; ring

omit [LinearOrder K] in
theorem side_add (a b p v : K × K) (t : K) : side a b (parametric p v t) = side a b p + t * crs (dir a b) v := by
  simp only [side, parametric, dir, crs]; ring

omit [LinearOrder K] in
theorem onDart_flip (s : St K) (d : HE) (τ : K) : onDart s (flip d) τ = onDart s d (1 - τ) := by
  unfold onDart org dst
  rw [flip_flip]
  simp only [parametric, dir]
  ext <;> ring

omit [LinearOrder K] in
theorem side_flip (s : St K) (d : HE) (x : K × K) : side (org s (flip d)) (dst s (flip d)) x = - side (org s d) (dst s d) x := by
  unfold org dst
  rw [flip_flip, ← side_swap]

omit [LinearOrder K] in
theorem onDart_seg (s : St K) (d : HE) (τ : K) : onDart s d τ = segPt s d.1 (if d.2 then τ else 1 - τ) := by
  obtain ⟨e, v⟩ := d
  cases v
  · simp only [onDart, org, dst, flip, segPt, between, parametric, dir, Bool.not_false]
    ext <;> simp <;> ring
  · rfl

variable [IsStrictOrderedRing K]

/-- A part of the inside of a segment meets no other one. -/
theorem Planar.inner {s : St K} (h : Planar s) (hL : Links s ∅ ∅) {d : HE} (hd : d.1 ∈ s.sid.live) {t u : K} (ht : 0 < t ∧ t < 1)
    (hu : 0 < u ∧ u < 1) {e : Id} (he : e ∈ s.sid.live) (hne : e ≠ d.1) : SegApart s e (onDart s d t) (onDart s d u) := by
  rintro r ⟨x, x0, x1, rfl⟩ ⟨y, y0, y1, hr⟩
  have hz : parametric (onDart s d t) (dir (onDart s d t) (onDart s d u)) y = onDart s d (t + y * (u - t)) := by
    simp only [onDart, parametric, dir]; ext <;> ring
  have z0 : 0 < t + y * (u - t) := by
    have : t + y * (u - t) = (1 - y) * t + y * u := by ring
    rw [this]
    rcases eq_or_lt_of_le y0 with rfl | hy
    · simpa using ht.1
    · exact add_pos_of_nonneg_of_pos (mul_nonneg (by linarith) ht.1.le) (mul_pos hy hu.1)
  have z1 : t + y * (u - t) < 1 := by
    have : 1 - (t + y * (u - t)) = (1 - y) * (1 - t) + y * (1 - u) := by ring
    have h2 : 0 < (1 - y) * (1 - t) + y * (1 - u) := by
      rcases eq_or_lt_of_le y0 with rfl | hy
      · simpa using ht.2
      · exact add_pos_of_nonneg_of_pos (mul_nonneg (by linarith) (by linarith [ht.2])) (mul_pos hy (by linarith [hu.2]))
    linarith
  rw [hz, onDart_seg] at hr
  set z := t + y * (u - t)
  have hb : 0 < (if d.2 then z else 1 - z) ∧ (if d.2 then z else 1 - z) < 1 := by
    split_ifs <;> constructor <;> linarith
  obtain ⟨v, v', _, hx⟩ := h.meet d.1 hd e he hne.symm _ x hb.1.le hb.2.le x0 x1 hr.symm
  rw [← segPt_end] at hx
  have := between_inj (h.ends_ne hL hd) hx
  rw [← this] at hb
  split_ifs at hb <;> simp at hb

/-- Points to the left of a side are on the same side of its segment. -/
theorem own_apart (s : St K) (d : HE) {x y : K × K} (hx : 0 < side (org s d) (dst s d) x) (hy : 0 < side (org s d) (dst s d) y) :
    SegApart s d.1 x y := by
  have := sep_apart (sep_of_sides (Or.inl ⟨hx, hy⟩))
  obtain ⟨e, v⟩ := d
  cases v
  · exact this.swapL
  · exact this

theorem Sees.off {s : St K} {d : HE} {x : K × K} (h : Sees s d x) : Off s x := by
  intro e he hh
  by_cases hd : e = d.1
  · subst hd
    exact own_apart s d h.left h.left x hh (OnSeg.left x x)
  · obtain ⟨τ, _, _, hs⟩ := h.sight
    exact hs e he hd x hh (OnSeg.right _ x)

/-- All points near an inner point of a segment, in a direction to the left. -/
theorem sees_near {s : St K} (hL : Links s ∅ ∅) (hP : Planar s) {d : HE} (hd : d.1 ∈ s.sid.live) {τ : K} (h0 : 0 < τ) (h1 : τ < 1)
    {v : K × K} (hv : 0 < crs (dir (org s d) (dst s d)) v) :
    ∃ σ, 0 < σ ∧ ∀ t, 0 < t → t ≤ σ → Sees s d (parametric (onDart s d τ) v t) := by
  obtain ⟨σ, s0, hs⟩ := apart_push (fun e => s.xy (s.vtx (e, false))) (fun e => s.xy (s.vtx (e, true))) (p := onDart s d τ)
    (q := onDart s d τ) (0, 0) v (s.sid.live.filter fun e => decide (e ≠ d.1)) (by
      intro e he
      rw [List.mem_filter, decide_eq_true_iff] at he
      exact hP.inner hL hd ⟨h0, h1⟩ ⟨h0, h1⟩ he.1 he.2)
  refine ⟨σ, s0, fun t t0 t1 => ⟨hd, ?_, τ, h0, h1, fun e he hne => ?_⟩⟩
  · unfold onDart
    rw [side_push]
    exact mul_pos t0 hv
  · have := hs 0 le_rfl s0.le t t0.le t1 e (by rw [List.mem_filter, decide_eq_true_iff]; exact ⟨he, hne⟩)
    simpa [parametric] using this

theorem dir_pos {a b : K × K} (h : a ≠ b) : 0 < crs (dir a b) (-(dir a b).2, (dir a b).1) := by
  have := dot_self_pos (dir_ne h)
  simp only [dot, crs] at *
  linarith

omit [IsStrictOrderedRing K] in
theorem ends_ne' {s : St K} (hL : Links s ∅ ∅) (hP : Planar s) {d : HE} (hd : d.1 ∈ s.sid.live) : org s d ≠ dst s d := by
  obtain ⟨e, v⟩ := d
  cases v
  · exact (hP.ends_ne hL hd).symm
  · exact hP.ends_ne hL hd

theorem sees_ex {s : St K} (hL : Links s ∅ ∅) (hP : Planar s) {d : HE} (hd : d.1 ∈ s.sid.live) : ∃ x, Sees s d x := by
  obtain ⟨σ, h0, h1⟩ := sees_near hL hP hd (τ := 1 / 2) (by norm_num) (by norm_num) (dir_pos (ends_ne' hL hP hd))
  exact ⟨_, h1 σ h0 le_rfl⟩

/-- A point that sees a side is not separated from points near the side. -/
theorem Sees.near {s : St K} {d : HE} {x : K × K} (hd : d.1 ∈ s.sid.live) (hx : 0 < side (org s d) (dst s d) x) {τ : K}
    (h : ∀ e ∈ s.sid.live, e ≠ d.1 → SegApart s e (onDart s d τ) x) {t : K} (t0 : 0 < t) (t1 : t ≤ 1) :
    0 < side (org s d) (dst s d) (parametric (onDart s d τ) (dir (onDart s d τ) x) t) ∧
      Clear s (parametric (onDart s d τ) (dir (onDart s d τ) x) t) x := by
  have h1 : 0 < side (org s d) (dst s d) (parametric (onDart s d τ) (dir (onDart s d τ) x) t) := by
    rw [side_mix]
    have : side (org s d) (dst s d) (onDart s d τ) = 0 := side_param ..
    rw [this, mul_zero, zero_add]
    exact mul_pos t0 hx
  refine ⟨h1, fun e he => ?_⟩
  by_cases hd' : e = d.1
  · rw [hd']
    exact own_apart s d h1 hx
  · exact (h e he hd').sub ⟨t, t0.le, t1, rfl⟩ (OnSeg.right _ x)

/-- Points that see the same side agree in what is the same along free paths. -/
theorem sees_const {α : Type} {F : K × K → α} {s : St K} (hF : ∀ x y, Clear s x y → F x = F y) (hL : Links s ∅ ∅) (hP : Planar s)
    {d : HE} {x y : K × K} (hx : Sees s d x) (hy : Sees s d y) : F x = F y := by
  obtain ⟨τ, a0, a1, a2⟩ := hx.sight
  obtain ⟨τ', b0, b1, b2⟩ := hy.sight
  have hd := hx.live
  obtain ⟨σ, s0, hs⟩ := apart_push (fun e => s.xy (s.vtx (e, false))) (fun e => s.xy (s.vtx (e, true))) (p := onDart s d τ)
    (q := onDart s d τ') (dir (onDart s d τ) x) (dir (onDart s d τ') y) (s.sid.live.filter fun e => decide (e ≠ d.1)) (by
      intro e he
      rw [List.mem_filter, decide_eq_true_iff] at he
      exact hP.inner hL hd ⟨a0, a1⟩ ⟨b0, b1⟩ he.1 he.2)
  have t0 : 0 < min σ 1 := lt_min s0 one_pos
  obtain ⟨c1, c2⟩ := Sees.near hd hx.left a2 t0 (min_le_right _ _)
  obtain ⟨e1, e2⟩ := Sees.near hd hy.left b2 t0 (min_le_right _ _)
  rw [← hF _ _ c2, ← hF _ _ e2]
  refine hF _ _ fun e he => ?_
  by_cases hd' : e = d.1
  · rw [hd']
    exact own_apart s d c1 e1
  · exact hs _ t0.le (min_le_left _ _) _ t0.le (min_le_left _ _) e
      (by rw [List.mem_filter, decide_eq_true_iff]; exact ⟨he, hd'⟩)

/-- Points that see the same side are in the same wires. -/
theorem sees_same {s : St K} (hL : Links s ∅ ∅) (hW : Wires s) (hP : Planar s) {d : HE} {x y : K × K} (hx : Sees s d x)
    (hy : Sees s d y) : cnt s x = cnt s y := sees_const (F := cnt s) (fun _ _ hc => cnt_path hL hW hc) hL hP hx hy

/-- Points that see the two sides of a segment are joined by a path across the segment. -/
theorem sees_through {α : Type} {F : K × K → α} {s : St K} (hF : ∀ x y, Clear s x y → F x = F y) (hL : Links s ∅ ∅) (hP : Planar s)
    {d : HE} {x y : K × K} (hx : Sees s d x) (hy : Sees s (flip d) y) :
    ∃ x' y', F x' = F x ∧ F y' = F y ∧ (∀ e ∈ s.sid.live, e ≠ d.1 → SegApart s e x' y') ∧ SideCrosses s x' y' d ∧
      0 < side (org s d) (dst s d) x' := by
  obtain ⟨τ, a0, a1, a2⟩ := hx.sight
  have hd := hx.live
  set p := onDart s d τ with hp
  set v := dir p x with hv
  obtain ⟨σ, s0, hs⟩ := apart_push (fun e => s.xy (s.vtx (e, false))) (fun e => s.xy (s.vtx (e, true))) (p := p)
    (q := p) v (-v.1, -v.2) (s.sid.live.filter fun e => decide (e ≠ d.1)) (by
      intro e he
      rw [List.mem_filter, decide_eq_true_iff] at he
      exact hP.inner hL hd ⟨a0, a1⟩ ⟨a0, a1⟩ he.1 he.2)
  have t0 : 0 < min σ 1 := lt_min s0 one_pos
  obtain ⟨c1, c2⟩ := Sees.near hd hx.left a2 t0 (min_le_right _ _)
  set t := min σ 1 with ht
  have hmem : ∀ e ∈ s.sid.live, e ≠ d.1 → e ∈ s.sid.live.filter fun e => decide (e ≠ d.1) := fun e he hne => by
    rw [List.mem_filter, decide_eq_true_iff]; exact ⟨he, hne⟩
  have hps : side (org s d) (dst s d) (parametric p v t) = t * crs (dir (org s d) (dst s d)) v := side_push ..
  have hqs : side (org s d) (dst s d) (parametric p (-v.1, -v.2) t) = -(t * crs (dir (org s d) (dst s d)) v) := by
    have : side (org s d) (dst s d) (parametric p (-v.1, -v.2) t) = t * crs (dir (org s d) (dst s d)) (-v.1, -v.2) := side_push ..
    rw [this]; simp only [crs]; ring
  have c1' := c1
  rw [hps] at c1
  have hy' : Sees s (flip d) (parametric p (-v.1, -v.2) t) := by
    refine ⟨hd, ?_, 1 - τ, by linarith, by linarith, fun e he hne => ?_⟩
    · rw [side_flip, hqs]
      linarith
    · rw [onDart_flip, sub_sub_cancel]
      have := hs 0 le_rfl s0.le t t0.le (min_le_left _ _) e (hmem e he hne)
      simpa [parametric] using this
  refine ⟨parametric p v t, parametric p (-v.1, -v.2) t, hF _ _ c2, sees_const hF hL hP hy' hy,
    fun e he hne => hs _ t0.le (min_le_left _ _) _ t0.le (min_le_left _ _) e (hmem e he hne), ?_, c1'⟩
  have hcr : 0 < crs (dir (org s d) (dst s d)) v := by
    by_contra hh
    exact absurd c1 (not_lt.2 (mul_nonpos_of_nonneg_of_nonpos t0.le (not_lt.1 hh)))
  rw [← edge_crosses_iff]
  refine ⟨?_, τ, 1 / 2, ⟨a0, a1⟩, ⟨by norm_num, by norm_num⟩, ?_⟩
  · unfold Parallel
    intro hh
    have e1 : (edgeOf s d).1 = org s d := rfl
    have e2 : (edgeOf s d).2 = dst s d := rfl
    rw [e1, e2] at hh
    have : t * crs (dir (org s d) (dst s d)) v = 0 := by
      simp only [crs, dir, parametric] at hh ⊢
      linear_combination (-1 / 2) * hh
    rw [this] at c1
    exact lt_irrefl _ c1
  · have : parametric (edgeOf s d).1 (dir (edgeOf s d).1 (edgeOf s d).2) τ = p := rfl
    rw [this]
    simp only [parametric, dir]
    ext <;> simp <;> ring

/-- Points that see the two sides of a segment differ by the wires of the sides. -/
theorem sees_cross {s : St K} (hL : Links s ∅ ∅) (hW : Wires s) (hP : Planar s) {d : HE} {x y : K × K} (hx : Sees s d x)
    (hy : Sees s (flip d) y) (w : Id) :
    cnt s x w = cnt s y w + (if s.wire d = some w then 1 else 0) + (if s.wire (flip d) = some w then 1 else 0) := by
  obtain ⟨τ, a0, a1, a2⟩ := hx.sight
  have hd := hx.live
  set p := onDart s d τ with hp
  set v := dir p x with hv
  obtain ⟨σ, s0, hs⟩ := apart_push (fun e => s.xy (s.vtx (e, false))) (fun e => s.xy (s.vtx (e, true))) (p := p)
    (q := p) v (-v.1, -v.2) (s.sid.live.filter fun e => decide (e ≠ d.1)) (by
      intro e he
      rw [List.mem_filter, decide_eq_true_iff] at he
      exact hP.inner hL hd ⟨a0, a1⟩ ⟨a0, a1⟩ he.1 he.2)
  have t0 : 0 < min σ 1 := lt_min s0 one_pos
  obtain ⟨c1, c2⟩ := Sees.near hd hx.left a2 t0 (min_le_right _ _)
  set t := min σ 1 with ht
  have hmem : ∀ e ∈ s.sid.live, e ≠ d.1 → e ∈ s.sid.live.filter fun e => decide (e ≠ d.1) := fun e he hne => by
    rw [List.mem_filter, decide_eq_true_iff]; exact ⟨he, hne⟩
  have hps : side (org s d) (dst s d) (parametric p v t) = t * crs (dir (org s d) (dst s d)) v := side_push ..
  have hqs : side (org s d) (dst s d) (parametric p (-v.1, -v.2) t) = -(t * crs (dir (org s d) (dst s d)) v) := by
    have : side (org s d) (dst s d) (parametric p (-v.1, -v.2) t) = t * crs (dir (org s d) (dst s d)) (-v.1, -v.2) := side_push ..
    rw [this]; simp only [crs]; ring
  rw [hps] at c1
  have hy' : Sees s (flip d) (parametric p (-v.1, -v.2) t) := by
    refine ⟨hd, ?_, 1 - τ, by linarith, by linarith, fun e he hne => ?_⟩
    · rw [side_flip, hqs]
      linarith
    · rw [onDart_flip, sub_sub_cancel]
      have := hs 0 le_rfl s0.le t t0.le (min_le_left _ _) e (hmem e he hne)
      simpa [parametric] using this
  rw [← cnt_path hL hW c2, ← sees_same hL hW hP hy' hy]
  refine cnt_cross hL hW hd (fun e he hne => hs _ t0.le (min_le_left _ _) _ t0.le (min_le_left _ _) e (hmem e he hne)) ?_ w
  have hcr : 0 < crs (dir (org s d) (dst s d)) v := by
    by_contra hh
    exact absurd c1 (not_lt.2 (mul_nonpos_of_nonneg_of_nonpos t0.le (not_lt.1 hh)))
  rw [← edge_crosses_iff]
  refine ⟨?_, τ, 1 / 2, ⟨a0, a1⟩, ⟨by norm_num, by norm_num⟩, ?_⟩
  · unfold Parallel
    intro hh
    have e1 : (edgeOf s d).1 = org s d := rfl
    have e2 : (edgeOf s d).2 = dst s d := rfl
    rw [e1, e2] at hh
    have : t * crs (dir (org s d) (dst s d)) v = 0 := by
      simp only [crs, dir, parametric] at hh ⊢
      linear_combination (-1 / 2) * hh
    rw [this] at c1
    exact lt_irrefl _ c1
  · have : parametric (edgeOf s d).1 (dir (edgeOf s d).1 (edgeOf s d).2) τ = p := rfl
    rw [this]
    simp only [parametric, dir]
    ext <;> simp <;> ring

end
end Verif.Decomp
