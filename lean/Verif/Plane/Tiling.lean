import Verif.Plane.TiledSplit
import Verif.Front.Mirror

/-! The polygons of a drawing divide the plane. -/

namespace Verif.Decomp
open Verif.Plane

section
variable {K : Type} [Field K] [LinearOrder K]

/-- The straight line from `a` to `b` has no other points on it, and meets segments only in points; a segment from `a` to `b` may
be there. -/
structure FreeLine (s : St K) (a b : Id) : Prop where
  pts : ∀ p ∈ s.pid.live, ∀ u, 0 ≤ u → u ≤ 1 → s.xy p = between (s.xy a) (s.xy b) u → p = a ∨ p = b
  segs : ∀ i ∈ s.sid.live, (∀ v, ¬ (s.vtx (i, v) = a ∧ s.vtx (i, !v) = b)) → ∀ u u', 0 ≤ u → u ≤ 1 → 0 ≤ u' → u' ≤ 1 →
    segPt s i u = between (s.xy a) (s.xy b) u' → ∃ p ∈ s.pid.live, s.xy p = segPt s i u

variable [IsStrictOrderedRing K] {g : Geom K}

/-- Vectors with the same angle have the same direction. -/
theorem ang_dir (hg : ArgOk g) {u v : K × K} (hu : u ≠ (0, 0)) (hv : v ≠ (0, 0)) (h : g.ang u = g.ang v) :
    ∃ c, 0 < c ∧ u = (c * v.1, c * v.2) := by
  obtain ⟨lo, hw⟩ := hg.window
  have hpi : 0 < g.twoPi := by have := hw u; linarith [this.1, this.2]
  have no : ∀ {a b : K × K}, a ≠ (0, 0) → b ≠ (0, 0) → g.ang a = g.ang b → ¬ 0 < crs a b := by
    intro a b ha hb hab hh
    rcases (hg.turn a b ha hb).1 hh with k | k
    · linarith [k.1]
    · linarith
  have h0 : crs u v = 0 := by
    have h1 := no hu hv h
    have h2 := no hv hu h.symm
    rw [crs_swap] at h2
    linarith [not_lt.1 h1, not_lt.1 h2]
  obtain ⟨c, hc⟩ : ∃ c, u = (c * v.1, c * v.2) := by
    simp only [crs] at h0
    by_cases h1 : v.1 = 0
    · have h2 : v.2 ≠ 0 := fun h2 => hv (Prod.ext h1 h2)
      refine ⟨u.2 / v.2, Prod.ext ?_ ?_⟩
      · rw [h1, mul_zero, sub_zero] at h0
        rw [h1, mul_zero]
        exact (mul_eq_zero.1 h0).resolve_right h2
      · simp only; field_simp
    · refine ⟨u.1 / v.1, Prod.ext ?_ ?_⟩
      · simp only; field_simp
      · simp only; field_simp; linarith
  refine ⟨c, ?_, hc⟩
  rcases lt_trichotomy c 0 with k | k | k
  · exfalso
    have h3 := hg.scale (-c) (by linarith) (-v.1, -v.2)
    have h4 : (-c * -v.1, -c * -v.2) = u := by rw [hc]; ext <;> simp
    simp only [h4] at h3
    exact hg.opp v hv (h3.symm.trans h)
  · rw [k] at hc
    exact absurd (hc.trans (by simp)) hu
  · exact k

/-- No segment goes in the direction of a free line. -/
theorem FreeLine.newDir (hg : ArgOk g) {s : St K} (h : Drawn g s) {a b : Id} (ha : a ∈ s.pid.live) (hb : b ∈ s.pid.live) (hab : a ≠ b)
    (hl : FreeLine s a b) (hn : ∀ i ∈ s.sid.live, ∀ v, ¬ (s.vtx (i, v) = a ∧ s.vtx (i, !v) = b)) : NewDir g s a b := by
  intro d hd hda hh
  have hne : s.xy a ≠ s.xy b := fun k => hab (h.planar.pts a ha b hb k)
  have hfl : s.vtx (d.1, !d.2) ≠ s.vtx d := h.links.flip_ne hd
  have hol : s.vtx (d.1, !d.2) ∈ s.pid.live := h.links.vlive (d.1, !d.2) hd
  have hne' : s.xy a ≠ s.xy (s.vtx (d.1, !d.2)) := fun k => hfl ((h.planar.pts a ha _ hol k).symm.trans hda.symm)
  have z : ∀ {p : Id}, s.xy a ≠ s.xy p → diff s a p ≠ (0, 0) := fun {p} hp k => by
    simp only [diff, Prod.mk.injEq] at k
    exact hp (Prod.ext (by linarith [k.1]) (by linarith [k.2]))
  unfold dirAng at hh
  rw [hda] at hh
  obtain ⟨c, c0, hc⟩ := ang_dir hg (z hne') (z hne) hh
  simp only [diff, Prod.mk.injEq] at hc
  obtain ⟨h1, h2⟩ := hc
  -- a point of both near to `a`
  obtain ⟨t, t0, t1, t2⟩ : ∃ t, 0 < t ∧ t < 1 ∧ t * c < 1 := by
    refine ⟨1 / (c + 1), by positivity, ?_, ?_⟩
    · rw [div_lt_one (by linarith)]; linarith
    · rw [div_mul_eq_mul_div, one_mul, div_lt_one (by linarith)]; linarith
  have hpt : ∀ τ, segPt s d.1 (if d.2 then 1 - τ else τ) = between (s.xy a) (s.xy (s.vtx (d.1, !d.2))) τ := by
    intro τ
    obtain ⟨j, v⟩ := d
    cases v
    · simp only [segPt, between, ← hda, Bool.not_false, Bool.false_eq_true, if_false]
    · simp only [segPt, between, ← hda, Bool.not_true, if_true]
      ext <;> simp <;> ring
  have key : segPt s d.1 (if d.2 then 1 - t else t) = between (s.xy a) (s.xy b) (t * c) := by
    rw [hpt]
    simp only [between]
    ext
    · simp only; linear_combination t * h1
    · simp only; linear_combination t * h2
  obtain ⟨p, hp, hx⟩ := hl.segs d.1 hd (hn d.1 hd) _ (t * c) (by split <;> linarith) (by split <;> linarith) (by positivity) t2.le key
  rw [key] at hx
  rcases hl.pts p hp (t * c) (by positivity) t2.le hx with rfl | rfl
  · have : between (s.xy p) (s.xy b) 0 = between (s.xy p) (s.xy b) (t * c) := by rw [← hx, between_zero]
    have := between_inj hne this
    have : 0 < t * c := by positivity
    linarith
  · have : between (s.xy a) (s.xy p) 1 = between (s.xy a) (s.xy p) (t * c) := by rw [← hx, between_one]
    have := between_inj hne this
    linarith

omit [IsStrictOrderedRing K] in
theorem between_rev (o x : K × K) (u : K) : between x o u = between o x (1 - u) := by
  simp only [between]
  ext <;> simp <;> ring

theorem FreeLine.symm {s : St K} {a b : Id} (h : FreeLine s a b) : FreeLine s b a := by
  constructor
  · intro p hp u u0 u1 hh
    rw [between_rev] at hh
    exact (h.pts p hp (1 - u) (by linarith) (by linarith) hh).symm
  · intro i hi hn u u' u0 u1 u0' u1' hh
    rw [between_rev] at hh
    refine h.segs i hi (fun v hv => hn (!v) ⟨by rw [hv.2], by rw [Bool.not_not]; exact hv.1⟩) u (1 - u') u0 u1 (by linarith) (by linarith) hh

/-- `new_segment` on a free line. -/
theorem newLine_tiled (hg : ArgOk g) {a b e : Id} {s s' : St K} (hs : newSegment g a b s = .ok (e, s')) (h : Tiled g s)
    (ha : a ∈ s.pid.live) (hb : b ∈ s.pid.live) (hl : FreeLine s a b) (hnear : Near g s') : Tiled g s' := by
  have hI := h.drawn.nested.inv
  have hI' := newSegment_inv hs hI ha hb
  have hst : step g s (.newSegment a b) = .ok s' := by simp only [step, hs]; rfl
  by_cases hf : e ∈ s.sid.live
  · obtain ⟨hn, _⟩ | ⟨_, hq, _⟩ := Verif.Front.newSegment_objects hs hI ha hb
    · exact absurd hf hn
    rw [hq]
    exact h.quiet
  · obtain ⟨hA, _⟩ := newSegment_next hs hI ha hb hf
    have hn : ∀ i ∈ s.sid.live, ∀ v, ¬ (s.vtx (i, v) = a ∧ s.vtx (i, !v) = b) := by
      rintro i hi v ⟨h1, h2⟩
      have hie : i ≠ e := fun hh => hf (hh ▸ hi)
      refine hie (hI'.tab.unique (u := v) (v := false) ((hA.live i).2 (Or.inl hi)) ((hA.live e).2 (Or.inr rfl)) ?_ ?_)
      · rw [hA.vo (i, v) hie, h1, hA.v0]
      · rw [hA.vo (i, !v) hie, h2]; exact hA.v1.symm
    have hP := h.drawn.planar.segment hI.links hA hl.pts fun i hi u u' u0 u1 u0' u1' hh => hl.segs i hi (hn i hi) u u' u0 u1 u0' u1' hh
    have d1 := hl.newDir hg h.drawn ha hb hA.ne hn
    have d2 := hl.symm.newDir hg h.drawn hb ha hA.ne.symm fun i hi v hv =>
      hn i hi (!v) ⟨hv.2, by rw [Bool.not_not]; exact hv.1⟩
    exact newSegment_tiled hg hs h ha hb hP (newSegment_fan hg.toAngleOk hs hI ha hb hf h.drawn.fan d1 d2) hnear

/-- A free point moved without meeting a segment. -/
theorem movePoint_tiled (hg : ArgOk g) {p : Id} {d : K × K} {s s' : St K} (hs : movePoint p d s = .ok s') (h : Tiled g s)
    (hp : p ∈ s.pid.live) (hf : s.pseg p = none) (h1 : ∀ q ∈ s.pid.live, s.xy q = ((s.xy p).1 + d.1, (s.xy p).2 + d.2) → q = p)
    (h2 : Clear s (s.xy p) ((s.xy p).1 + d.1, (s.xy p).2 + d.2)) : Tiled g s' := by
  have hN := h.drawn.nested
  have hst : step g s (.move p d) = .ok s' := hs
  have hN' := step_nested hst hN ⟨trivial, trivial⟩
  have hF' := step_fan hg.toAngleOk hst hN.inv trivial ⟨hp, hf⟩ h.drawn.fan
  obtain ⟨vc, rfl⟩ := movePoint_eq hs
  have hno := hN.inv.links.no_seg hp (by simp) hf
  have hx : ∀ q, q ≠ p → upd s.xy p ((s.xy p).1 + d.1, (s.xy p).2 + d.2) q = s.xy q := fun q hq => by
    rw [upd, Function.update_of_ne hq]
  have hxp : upd s.xy p ((s.xy p).1 + d.1, (s.xy p).2 + d.2) p = ((s.xy p).1 + d.1, (s.xy p).2 + d.2) := by
    rw [upd, Function.update_self]
  have hpos : ∀ k : HE, k.1 ∈ s.sid.live → upd s.xy p ((s.xy p).1 + d.1, (s.xy p).2 + d.2) (s.vtx k) = s.xy (s.vtx k) :=
    fun k hk => hx _ (hno k hk)
  have hP' : Planar { s with xy := upd s.xy p ((s.xy p).1 + d.1, (s.xy p).2 + d.2), vec := vc } := by
    have hseg : ∀ e ∈ s.sid.live, segPt { s with xy := upd s.xy p ((s.xy p).1 + d.1, (s.xy p).2 + d.2), vec := vc } e = segPt s e :=
      fun e he => segPt_congr (fun v => rfl) (fun v => hpos (e, v) he)
    constructor
    · intro a ha b hb hab
      by_cases k1 : a = p <;> by_cases k2 : b = p
      · rw [k1, k2]
      · subst k1
        have hab : upd s.xy a _ a = upd s.xy a _ b := hab
        rw [hxp, hx b k2] at hab
        exact absurd (h1 b hb hab.symm) k2
      · subst k2
        have hab : upd s.xy b _ a = upd s.xy b _ b := hab
        rw [hxp, hx a k1] at hab
        exact absurd (h1 a ha hab) k1
      · have hab : upd s.xy p _ a = upd s.xy p _ b := hab
        rw [hx a k1, hx b k2] at hab
        exact h.drawn.planar.pts a ha b hb hab
    · intro a ha e he u u0 u1 hh
      rw [hseg e he] at hh
      by_cases k : a = p
      · subst k
        exfalso
        have hh : upd s.xy a _ a = _ := hh
        rw [hxp] at hh
        refine h2 e he _ ⟨u, u0, u1, hh⟩ ⟨1, zero_le_one, le_rfl, ?_⟩
        simp [parametric, dir]
      · have hh : upd s.xy p _ a = _ := hh
        rw [hx a k] at hh
        exact h.drawn.planar.on a ha e he u u0 u1 hh
    · intro e he e' he' hne u u' u0 u1 u0' u1' hh
      rw [hseg e he, hseg e' he'] at hh
      obtain ⟨v, v', a1, a2⟩ := h.drawn.planar.meet e he e' he' hne u u' u0 u1 u0' u1' hh
      refine ⟨v, v', a1, ?_⟩
      rw [hseg e he]
      exact (hpos (e, v) he).trans a2
  refine ⟨⟨hN', hP', hF'⟩, good_pic (s := s) rfl rfl hpos rfl rfl rfl rfl h.good, fun a ha r hr => ?_⟩
  refine Exact.frame (s := s) ?_ rfl
    (cnt_pic (s := s) (t := { s with xy := upd s.xy p ((s.xy p).1 + d.1, (s.xy p).2 + d.2), vec := vc }) rfl rfl hpos _) rfl rfl
  by_cases k : a = p
  · subst k
    have := (h.reg a ha r hr).congr (cnt_path hN.inv.links hN.wires h2)
    show Exact s (upd s.xy a _ a) r
    rw [hxp]
    exact this
  · show Exact s (upd s.xy p _ a) r
    rw [hx a k]
    exact h.reg a ha r hr

/-- Drawings made from the empty one. A free point is put off the segments, with no point there, into the polygon that contains it,
and is moved without meeting a segment. A point on a segment divides it. A line is free (`FreeLine`), and the points that
`contains_wire` tests are beside the segments in the new drawing (`Near`). If the removal of a segment splits a wire in two, segments
connect the outer wires with their parents afterwards (`Placed`); `unline_hole` has this for the wires of holes. Segments are
joined along a straight line and the point between them is removed. -/
inductive Drawing (g : Geom K) : St K → Prop where
  | init : Drawing g init
  | point {s : St K} {xy : K × K} {q : Id} (h : Drawing g s) (hq : q ∈ s.qid.live) (h1 : ∀ p ∈ s.pid.live, s.xy p ≠ xy) (h2 : Off s xy)
      (h3 : polyContains s q xy = .ok true) : Drawing g (addFreePoint xy q s).2
  | unpoint {s s' : St K} {p : Id} (h : Drawing g s) (hs : removeFreePoint p s = .ok s') : Drawing g s'
  | drag {s s' : St K} {p : Id} {d : K × K} (h : Drawing g s) (hp : p ∈ s.pid.live) (hf : s.pseg p = none)
      (h1 : ∀ q ∈ s.pid.live, s.xy q = ((s.xy p).1 + d.1, (s.xy p).2 + d.2) → q = p)
      (h2 : Clear s (s.xy p) ((s.xy p).1 + d.1, (s.xy p).2 + d.2)) (hs : movePoint p d s = .ok s') : Drawing g s'
  | onSeg {s s' : St K} {e q n : Id} {t : K} (h : Drawing g s) (he : e ∈ s.sid.live) (hq : q ∈ s.qid.live) (t0 : 0 < t) (t1 : t < 1)
      (hs : splitSegment e s.pid.append.1 (addFreePoint (segPt s e t) q s).2 = .ok (n, s')) : Drawing g s'
  | line {s s' : St K} {a b e : Id} (h : Drawing g s) (ha : a ∈ s.pid.live) (hb : b ∈ s.pid.live) (hl : FreeLine s a b)
      (hs : newSegment g a b s = .ok (e, s')) (hnear : Near g s') : Drawing g s'
  | unline {s s' : St K} {e : Id} (h : Drawing g s) (he : e ∈ s.sid.live)
      (hbr : s.wire (e, true) = s.wire (e, false) → (∀ v, s.next (e, v) ≠ some (e, !v)) → Placed s')
      (hs : deleteSegment g e s = .ok s') : Drawing g s'
  | join {s s1 s' : St K} {mid e0 e1 : Id} (h : Drawing g s) (hJ : Joinable s mid e0 e1) (hA : Aligned s mid e0 e1)
      (hB : Proper g s (.joinSegments mid e0 e1)) (hs : joinSegments mid e0 e1 s = .ok s1) (hr : removeFreePoint mid s1 = .ok s') :
      Drawing g s'

theorem init_tiled : Tiled g (init : St K) := by
  refine ⟨⟨init_nested, init_planar, ?_⟩, ?_, ?_⟩
  · constructor
    · intro e he; simp [init] at he
    · intro e he; simp [init] at he
    · intro d d' hd; simp [init] at hd
    · intro d k hd; simp [init] at hd
  · intro w d x q hx
    have := hx.live
    simp [init] at this
  · intro p hp
    simp [init] at hp

theorem Drawing.tiled (hg : ArgOk g) {s : St K} (h : Drawing g s) : Tiled g s := by
  induction h with
  | init => exact init_tiled
  | point _ hq h1 h2 h3 ih => exact addPoint_tiled hg ih hq h1 h2 h3
  | unpoint _ hs ih => exact removePoint_tiled hg hs ih
  | drag _ hp hf h1 h2 hs ih => exact movePoint_tiled hg hs ih hp hf h1 h2
  | onSeg _ he hq t0 t1 hs ih => exact pointOn_tiled hg ih he hq t0 t1 hs
  | line _ ha hb hl hs hn ih => exact newLine_tiled hg hs ih ha hb hl hn
  | unline _ he hbr hs ih => exact deleteSegment_tiled hg hs ih he hbr
  | join _ hJ hA hB hs hr ih => exact join_tiled hg ih hJ hA hB hs hr

/-! ### Properties of drawings -/

/-- The polygons divide the plane: every point off the segments is in one of them, by `Polygon.contains_point`, which raises
nothing. Deletions that split a wire in two have a condition; see `Drawing`. -/
theorem plane_partition (hg : ArgOk g) {s : St K} (h : Drawing g s) {x : K × K} (hx : Off s x) :
    ∃ q0 ∈ s.qid.live, polyContains s q0 x = .ok true ∧ ∀ q ∈ s.qid.live, q ≠ q0 → polyContains s q x = .ok false := by
  obtain ⟨q0, h0, hq⟩ := polygons_partition (h.tiled hg).drawn (h.tiled hg).good hx
  exact ⟨q0, h0, by rw [hq q0 h0]; simp, fun q hql hne => by rw [hq q hql]; simp [hne]⟩

theorem Tiled.home {s : St K} (hT : Tiled g s) {p : Id} (hp : p ∈ s.pid.live) (hf : s.pseg p = none) :
    ∃ q ∈ s.qid.live, s.ppoly p = some q ∧ p ∈ s.fpts q ∧ polyContains s q (s.xy p) = .ok true ∧
      ∀ q' ∈ s.qid.live, q' ≠ q → p ∉ s.fpts q' ∧ polyContains s q' (s.xy p) = .ok false := by
  have hF := hT.drawn.nested.free
  obtain ⟨q, hq⟩ := Option.ne_none_iff_exists'.1 ((hF.seg p hp).1 hf)
  obtain ⟨h1, h2⟩ := hF.full trivial p hp q hq
  have hE := hT.reg p hp q hq
  refine ⟨q, h1, hq, h2, by rw [polyContains_exact hT.drawn.nested h1 hE h1]; simp, fun q' hq' hne => ⟨fun hh => ?_, ?_⟩⟩
  · have := (hF.mem q' p hh).2
    rw [hq] at this
    exact hne (Option.some.inj this).symm
  · rw [polyContains_exact hT.drawn.nested h1 hE hq']
    simp [hne]

/-- A free point is listed in the polygon that contains it, and in no other. -/
theorem free_point_home (hg : ArgOk g) {s : St K} (h : Drawing g s) {p : Id} (hp : p ∈ s.pid.live) (hf : s.pseg p = none) :
    ∃ q ∈ s.qid.live, s.ppoly p = some q ∧ p ∈ s.fpts q ∧ polyContains s q (s.xy p) = .ok true ∧
      ∀ q' ∈ s.qid.live, q' ≠ q → p ∉ s.fpts q' ∧ polyContains s q' (s.xy p) = .ok false :=
  (h.tiled hg).home hp hf

/-- Points to the left of a side, with no segment between, are in the polygon of the wire of the side, and in no other. -/
theorem side_polygon (hg : ArgOk g) {s : St K} (h : Drawing g s) {d : HE} {x : K × K} (hx : Sees s d x) {w q : Id}
    (hw : s.wire d = some w) (hq : s.wpoly w = some q) :
    polyContains s q x = .ok true ∧ ∀ q' ∈ s.qid.live, q' ≠ q → polyContains s q' x = .ok false := by
  have hT := h.tiled hg
  obtain ⟨w', q0, h1, _, _, h2, h3⟩ := hT.drawn.nested.side hx.live
  rw [hw] at h1
  cases h1
  rw [hq] at h2
  cases h2
  have hE := hT.good w d x q hx hw hq
  exact ⟨by rw [polyContains_exact hT.drawn.nested h3 hE h3]; simp,
    fun q' hq' hne => by rw [polyContains_exact hT.drawn.nested h3 hE hq']; simp [hne]⟩

/-- Points connected by a path that meets no segment are in the same polygons. -/
theorem path_polygon (hg : ArgOk g) {s : St K} (h : Drawing g s) {x y : K × K} (hc : Clear s x y) {q : Id} (hq : q ∈ s.qid.live) :
    polyContains s q x = polyContains s q y := by
  have hT := h.tiled hg
  have hN := hT.drawn.nested
  obtain ⟨b, h1, h2⟩ := polyContains_iff hN hq x
  obtain ⟨b', h3, h4⟩ := polyContains_iff hN hq y
  rw [h1, h3, Except.ok.injEq]
  rw [cnt_path hN.inv.links hN.wires hc] at h2
  exact Bool.eq_iff_iff.2 (h2.trans h4.symm)

/-- Free points that can be connected without meeting a segment are in the same polygon: the assertion of `_new_wire`
(decomp.py:197-199) holds for them. -/
theorem free_ends (hg : ArgOk g) {s : St K} (h : Drawing g s) {a b : Id} (ha : a ∈ s.pid.live) (hb : b ∈ s.pid.live)
    (ha0 : s.pseg a = none) (hb0 : s.pseg b = none) (hc : Clear s (s.xy a) (s.xy b)) : s.ppoly a = s.ppoly b := by
  have hT := h.tiled hg
  have hF := hT.drawn.nested.free
  obtain ⟨q, hq⟩ := Option.ne_none_iff_exists'.1 ((hF.seg a ha).1 ha0)
  obtain ⟨q', hq'⟩ := Option.ne_none_iff_exists'.1 ((hF.seg b hb).1 hb0)
  rw [hq, hq', Option.some.injEq]
  refine Exact.unique hT.drawn.nested.nest (hF.full trivial a ha q hq).1 (hF.full trivial b hb q' hq').1 (hT.reg a ha q hq) ?_
  exact (hT.reg b hb q' hq').congr (cnt_path hT.drawn.links hT.drawn.nested.wires hc).symm

end
end Verif.Decomp
