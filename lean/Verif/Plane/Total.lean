import Verif.Plane.Tiling
import Verif.Decomp.TotalDel

/-! New lines in drawings: `new_segment` raises nothing. -/

namespace Verif.Decomp
open Verif.Plane

section
variable {K : Type} [Field K] [LinearOrder K] [IsStrictOrderedRing K] {g : Geom K}

/-- `Point.insert_vector` finds a corner if the segments around the point are linked. -/
theorem insertVector_found (hg : AngleOk g) {s : St K} (hL : Links s ∅ ∅) {p : Id} (hp : p ∈ s.pid.live)
    {v : K × K} (hv : g.tiny < |v.1| ∨ g.tiny < |v.2|) : ∃ r, insertVector g s p v = .ok r ∧ (r = none ↔ s.pseg p = none) := by
  unfold insertVector
  simp only [check, hv, if_true, bind, Except.bind]
  cases hps : s.pseg p with
  | none => exact ⟨none, rfl, by simp⟩
  | some d =>
    obtain ⟨k1, k2⟩ := hL.pseg_vtx hp (by simp) hps
    obtain ⟨m, hr, _⟩ := hL.ring p hp
    obtain ⟨l', h1, _⟩ := around_ring hL.sids hr ((hr.mem d).2 ⟨k1, k2, by simp⟩)
    dsimp only
    rw [h1]
    dsimp only
    obtain ⟨lo, hlo⟩ := hg.window
    have ht : ¬ 2 * g.twoPi ≤ turn g s (g.ang v) d := by
      unfold turn
      have l1 := hlo v
      have l2 := hlo (if d.2 then (-(s.vec d.1).1, -(s.vec d.1).2) else s.vec d.1)
      dsimp only
      generalize g.ang (if d.2 then (-(s.vec d.1).1, -(s.vec d.1).2) else s.vec d.1) = x at l2 ⊢
      split <;> intro <;> linarith
    simp only [List.cons_append, insertGo, if_neg ht]
    obtain ⟨r, hr⟩ := insertGo_found (g := g) (s := s) (a := g.ang v) (hs := l' ++ [d]) (last := turn g s (g.ang v) d) (x := d)
      (by simp) (by simp)
    rw [hr]
    exact ⟨_, rfl, by simp⟩

/-- An angle in the corner that is to the left of no side of it is opposite to the only side. -/
theorem gap_opposite {h lo U W A : K} (hU : lo < U ∧ U ≤ lo + 2 * h) (hW : lo < W ∧ W ≤ lo + 2 * h)
    (n1 : ¬ LeftOf h A U) (n2 : ¬ LeftOf h W A)
    (hc : (W < A ∧ A < U) ∨ (U ≤ W ∧ (A < U ∨ W < A))) : U = W ∧ ¬ LeftOf h U A := by
  unfold LeftOf at *
  rw [not_or, not_and_or, not_lt, not_lt, not_lt] at n1 n2
  rcases hc with ⟨c1, c2⟩ | ⟨c1, c2 | c2⟩
  · rcases n1.1 with k | k <;> rcases n2.1 with j | j <;> exfalso <;> linarith
  · have k := n1.1.resolve_left (not_le.2 c2)
    have : U = W := le_antisymm c1 (by linarith [n2.2])
    subst this
    exact ⟨rfl, by rintro (⟨a, b⟩ | a) <;> linarith⟩
  · have k := n2.1.resolve_left (not_le.2 c2)
    have : U = W := le_antisymm c1 (by linarith [n1.2])
    subst this
    exact ⟨rfl, by rintro (⟨a, b⟩ | a) <;> linarith [n1.2]⟩

/-- The start of a line in a corner is in the wires that contain points beside the sides of the corner. -/
theorem corner_ray (hg : ArgOk g) {s : St K} (hL : Links s ∅ ∅) (hW : Wires s) (hP : Planar s) (hF : Fan g s) {p : Id} {i : Ins}
    (hC : Corner s p i) {v : K × K} (hv0 : v ≠ (0, 0)) (hG : Gap g s v i)
    (hv : ∀ d : HE, d.1 ∈ s.sid.live → s.vtx d = p → dirAng g s d ≠ g.ang v) :
    ∃ τ, 0 < τ ∧ ∀ t, 0 < t → t ≤ τ → ∀ y, Sees s i.1 y → cnt s (parametric (s.xy p) v t) = cnt s y := by
  obtain ⟨d, k, w⟩ := i
  obtain ⟨hd, hdp, hk, _⟩ := hC
  dsimp only at hd hdp hk ⊢
  obtain ⟨k', e1, hkl, e2, _⟩ := hL.next_ok hd (by simp)
  rw [hk] at e1
  cases e1
  have hp : s.vtx d ∈ s.pid.live := hL.vlive d hd
  have hvk : s.vtx (flip k) = s.vtx d := e2
  have hfl : (flip k).1 ∈ s.sid.live := hkl
  have hok : org s k = dst s d := by unfold org dst; rw [hvk]
  have hne : ∀ m : HE, m.1 ∈ s.sid.live → outDir s m ≠ (0, 0) := fun m hm => dir_ne (ends_ne' hL hP hm).symm
  obtain ⟨lo, hwin⟩ := hg.window
  have hwin' : ∀ v, lo < g.ang v ∧ g.ang v ≤ lo + 2 * (g.twoPi / 2) := fun v => by
    have := hwin v
    rw [mul_div_cancel₀ _ two_ne_zero]
    exact this
  have hgap : InGap (AtPoint s d) (dirAng g s) d (flip k) (g.ang v) := by
    refine inGap_of_turn (lo := lo) (T := g.twoPi) (hF.cw _ _ hd hk) (hwin _) (hwin _) (hv _ hd hdp).symm
      (hv _ hfl (hvk.trans hdp)).symm ?_
    unfold Gap at hG
    rw [hF.turn_eq hg.toAngleOk hd, hF.turn_eq hg.toAngleOk hfl] at hG
    exact hG
  have hinj : ∀ m m' : HE, m.1 ∈ s.sid.live → m'.1 ∈ s.sid.live → s.vtx m = s.vtx m' →
      g.ang (outDir s m) = g.ang (outDir s m') → m = m' := fun m m' h1 h2 h3 h4 => hF.inj m m' h1 h2 h3 h4
  have hnv : ∀ m : HE, m.1 ∈ s.sid.live → s.vtx m = s.vtx d → g.ang (outDir s m) ≠ g.ang v := fun m hm hmv =>
    hv m hm (hmv.trans hdp)
  have hgap' : (g.ang (outDir s (flip k)) < g.ang v ∧ g.ang v < g.ang (outDir s d) ∧ ∀ m : HE, m.1 ∈ s.sid.live → s.vtx m = s.vtx d →
        ¬ (g.ang (outDir s (flip k)) < g.ang (outDir s m) ∧ g.ang (outDir s m) < g.ang (outDir s d))) ∨
      ((∀ m : HE, m.1 ∈ s.sid.live → s.vtx m = s.vtx d → g.ang (outDir s d) ≤ g.ang (outDir s m)) ∧
        (∀ m : HE, m.1 ∈ s.sid.live → s.vtx m = s.vtx d → g.ang (outDir s m) ≤ g.ang (outDir s (flip k))) ∧
        (g.ang v < g.ang (outDir s d) ∨ g.ang (outDir s (flip k)) < g.ang v)) := by
    rcases hgap with ⟨h1, h2, h3⟩ | ⟨h1, h2, h3⟩
    · exact Or.inl ⟨h1, h2, fun m a b => h3 m ⟨a, b⟩⟩
    · exact Or.inr ⟨fun m a b => h1 m ⟨a, b⟩, fun m a b => h2 m ⟨a, b⟩, h3⟩
  have hxy : s.xy p = dst s d := by unfold dst; rw [hdp]
  by_cases c1 : 0 < crs v (outDir s d)
  · obtain ⟨τ, t0, ht⟩ := corner_end hP hd hp c1 (fun m hm hmv hmd hh => by
      refine cw_narrow (hwin' (outDir s d)) (hwin' v) (hwin' (outDir s m)) ((hg.turn _ _ hv0 (hne d hd)).1 c1) ?_ ?_
        (fun hh => hmd (by rw [hinj m d hm hd hmv hh])) (hnv m hm hmv) ?_
      · show ¬ LeftOf _ _ _
        unfold LeftOf
        rw [← hg.turn _ _ (hne d hd) (hne m hm), crs_swap, neg_pos]
        exact not_lt.2 hh.2
      · show ¬ LeftOf _ _ _
        unfold LeftOf
        rw [← hg.turn _ _ (hne m hm) hv0, crs_swap, neg_pos]
        exact not_lt.2 hh.1
      · rcases hgap' with ⟨h1, h2, h3⟩ | ⟨h1, h2, h3 | h3⟩
        · exact Or.inl ⟨h2, fun hh => h3 m hm hmv ⟨h1.trans hh.1, hh.2⟩⟩
        · exact Or.inl ⟨h3, fun hh => not_lt.2 (h1 m hm hmv) hh.2⟩
        · exact Or.inr ⟨h1 m hm hmv, (h2 m hm hmv).trans h3.le⟩)
    refine ⟨τ, t0, fun t a b y hy => ?_⟩
    rw [hxy]
    exact sees_same hL hW hP (ht t a b) hy
  by_cases c2 : 0 < crs (outDir s (flip k)) v
  · obtain ⟨τ, t0, ht⟩ := corner_start hP hkl (hvk ▸ hp) c2 (fun m hm hmv hmd hh => by
      rw [hvk] at hmv
      refine cw_narrow (hwin' v) (hwin' (outDir s (flip k))) (hwin' (outDir s m)) ((hg.turn _ _ (hne _ hfl) hv0).1 c2) ?_ ?_
        (hnv m hm hmv) (fun hh => hmd (by rw [hinj m (flip k) hm hfl (hmv.trans hvk.symm) hh]; rfl)) ?_
      · show ¬ LeftOf _ _ _
        unfold LeftOf
        rw [← hg.turn _ _ hv0 (hne m hm), crs_swap, neg_pos]
        exact not_lt.2 hh.2
      · show ¬ LeftOf _ _ _
        unfold LeftOf
        rw [← hg.turn _ _ (hne m hm) (hne _ hfl), crs_swap, neg_pos]
        exact not_lt.2 hh.1
      · rcases hgap' with ⟨h1, h2, h3⟩ | ⟨h1, h2, h3 | h3⟩
        · exact Or.inl ⟨h1, fun hh => h3 m hm hmv ⟨hh.1, hh.2.trans h2⟩⟩
        · exact Or.inr ⟨h3.le.trans (h1 m hm hmv), h2 m hm hmv⟩
        · exact Or.inl ⟨h3, fun hh => not_lt.2 (h2 m hm hmv) hh.1⟩)
    refine ⟨τ, t0, fun t a b y hy => ?_⟩
    rw [hxy, ← hok]
    exact (corner_same hg hL hW hP hF hd hk hy (ht t a b)).symm
  · rw [hg.turn _ _ hv0 (hne d hd)] at c1
    have c1' := c1
    rw [hg.turn _ _ (hne _ hfl) hv0] at c2
    obtain ⟨hUW, c3⟩ := gap_opposite (hwin' (outDir s d)) (hwin' (outDir s (flip k))) c1 c2 (by
      rcases hgap' with ⟨h1, h2, _⟩ | ⟨h1, h2, h3⟩
      · exact Or.inl ⟨h1, h2⟩
      · exact Or.inr ⟨h1 _ hfl hvk, h3⟩)
    have hall : ∀ m : HE, m.1 ∈ s.sid.live → s.vtx m = s.vtx d → m = d := by
      intro m hm hmv
      refine hinj m d hm hd hmv ?_
      rcases hgap' with ⟨h1, h2, _⟩ | ⟨h1, h2, _⟩
      · exact absurd (h1.trans h2) (by rw [hUW]; exact lt_irrefl _)
      · exact le_antisymm (hUW ▸ h2 m hm hmv) (h1 m hm hmv)
    unfold LeftOf at c3
    rw [← hg.turn _ _ (hne d hd) hv0] at c3
    rw [← hg.turn _ _ hv0 (hne d hd)] at c1'
    have hnd := hnv d hd rfl
    have hud := hne d hd
    generalize hu : outDir s d = u at *
    have hz : crs u v = 0 := by
      rw [crs_swap] at c1'
      linarith [not_lt.1 c3, not_lt.1 c1']
    have hpos : 0 < u.1 * u.1 + u.2 * u.2 := dot_self_pos hud
    have hposv : 0 < v.1 * v.1 + v.2 * v.2 := dot_self_pos hv0
    have hz' : u.1 * v.2 - u.2 * v.1 = 0 := hz
    have hdot : v.1 * u.1 + v.2 * u.2 < 0 := by
      by_contra hh
      rcases eq_or_lt_of_le (not_lt.1 hh) with h0 | h0
      · have : (v.1 * v.1 + v.2 * v.2) * (u.1 * u.1 + u.2 * u.2) = 0 := by
          linear_combination (u.1 * v.2 - u.2 * v.1) * hz' - (v.1 * u.1 + v.2 * u.2) * h0
        exact absurd this (mul_pos hposv hpos).ne'
      · apply hnd
        have ht : 0 < (v.1 * u.1 + v.2 * u.2) / (v.1 * v.1 + v.2 * v.2) := div_pos h0 hposv
        rw [← hg.scale _ ht v]
        congr 1
        refine Prod.ext ?_ ?_
        · simp only
          rw [div_mul_eq_mul_div, eq_div_iff hposv.ne']
          linear_combination v.2 * hz'
        · simp only
          rw [div_mul_eq_mul_div, eq_div_iff hposv.ne']
          linear_combination (-v.1) * hz'
    obtain ⟨τ1, a1, b1⟩ := corner_end hP hd hp (c := (u.2, -u.1)) (by
        rw [hu]
        have : crs (u.2, -u.1) u = u.1 * u.1 + u.2 * u.2 := by simp only [crs]; ring
        rw [this]; exact hpos)
      (fun m hm hmv hmd => absurd (congrArg Prod.fst (hall m hm hmv)) hmd)
    obtain ⟨τ2, a2, b2⟩ := cone_clear hP hp (c1 := v) (c2 := (u.2, -u.1)) (by
        have : crs v (u.2, -u.1) = -(v.1 * u.1 + v.2 * u.2) := by simp only [crs]; ring
        rw [this]; linarith) (fun _ => False) (by
        intro m hm hmv _ hh
        rw [hall m hm hmv, hu] at hh
        have : crs u (u.2, -u.1) = -(u.1 * u.1 + u.2 * u.2) := by simp only [crs]; ring
        linarith [hh.2])
    refine ⟨τ2, a2, fun t x1 x2 y hy => ?_⟩
    have m0 : 0 < min τ1 τ2 := lt_min a1 a2
    rw [← sees_same hL hW hP (b1 _ m0 (min_le_left _ _)) hy, hxy]
    exact cnt_path hL hW fun e he => b2 t x1 x2 _ m0 (min_le_right _ _) e he (fun h => h)

/-- The inner points of a free line without a segment are off the segments. -/
theorem FreeLine.clear {s : St K} {a b : Id} (hl : FreeLine s a b) (hne : s.xy a ≠ s.xy b)
    (hn : ∀ i ∈ s.sid.live, ∀ v, ¬ (s.vtx (i, v) = a ∧ s.vtx (i, !v) = b)) {u u' : K} (u0 : 0 < u) (u1 : u < 1) (u0' : 0 < u') (u1' : u' < 1) :
    Clear s (between (s.xy a) (s.xy b) u) (between (s.xy a) (s.xy b) u') := by
  rintro e he r ⟨t, t0, t1, rfl⟩ ⟨x, x0, x1, hx⟩
  have hr : segPt s e t = between (s.xy a) (s.xy b) (u + x * (u' - u)) := by
    have : segPt s e t = parametric (s.xy (s.vtx (e, false))) (dir (s.xy (s.vtx (e, false))) (s.xy (s.vtx (e, true)))) t := rfl
    rw [this, hx]
    simp only [parametric, dir, between]
    ext <;> simp only <;> ring
  have y0 : 0 < u + x * (u' - u) := by
    rcases eq_or_lt_of_le x0 with h | h
    · rw [← h]; linarith
    · have : 0 < x * u' := mul_pos h u0'
      have : 0 ≤ (1 - x) * u := mul_nonneg (by linarith) u0.le
      linarith
  have y1 : u + x * (u' - u) < 1 := by
    rcases eq_or_lt_of_le x0 with h | h
    · rw [← h]; linarith
    · have : 0 < x * (1 - u') := mul_pos h (by linarith)
      have : 0 ≤ (1 - x) * (1 - u) := mul_nonneg (by linarith) (by linarith)
      linarith
  obtain ⟨p, hp, hpx⟩ := hl.segs e he (hn e he) t _ t0 t1 y0.le y1.le hr
  rw [hr] at hpx
  rcases hl.pts p hp _ y0.le y1.le hpx with rfl | rfl
  · have := between_inj hne ((between_zero _ _).trans hpx)
    linarith
  · have := between_inj hne ((between_one _ _).trans hpx)
    linarith

/-- The polygon of a corner is around the line in it. -/
theorem corner_exact (hg : ArgOk g) {s : St K} (hT : Tiled g s) {a b : Id} (ha : a ∈ s.pid.live) (hb : b ∈ s.pid.live) (hab : a ≠ b)
    (hl : FreeLine s a b) (hn : ∀ i ∈ s.sid.live, ∀ v, ¬ (s.vtx (i, v) = a ∧ s.vtx (i, !v) = b)) {i : Ins} (hC : Corner s a i)
    (hG : Gap g s (diff s a b) i) {u : K} (u0 : 0 < u) (u1 : u < 1) :
    ∃ q ∈ s.qid.live, i.2.2.bind s.wpoly = some q ∧ Exact s (between (s.xy a) (s.xy b) u) q := by
  have hD := hT.drawn
  have hne : s.xy a ≠ s.xy b := fun k => hab (hD.planar.pts a ha b hb k)
  have hv0 : diff s a b ≠ (0, 0) := dir_ne hne
  obtain ⟨τ, t0, ht⟩ := corner_ray hg hD.links hD.nested.wires hD.planar hD.fan hC hv0 hG (hl.newDir hg hD ha hb hab hn)
  obtain ⟨y, hy⟩ := sees_ex hD.links hD.planar hC.live
  obtain ⟨w, q, k1, k2, k3, k4, k5⟩ := hD.nested.side hC.live
  refine ⟨q, k5, by rw [hC.wir, k1]; exact k4, ?_⟩
  have hE := hT.good w i.1 y q hy k1 k4
  have m0 : 0 < min τ (1 / 2) := lt_min t0 (by norm_num)
  have m1 : min τ (1 / 2) < 1 := (min_le_right _ _).trans_lt (by norm_num)
  refine (hE.congr (ht _ m0 (min_le_left _ _) y hy).symm).congr ?_
  exact cnt_path hD.links hD.nested.wires (hl.clear hne hn m0 m1 u0 u1)

theorem Tiled.free_ends (hg : ArgOk g) {s : St K} (hT : Tiled g s) {a b : Id} (ha : a ∈ s.pid.live) (hb : b ∈ s.pid.live)
    (ha0 : s.pseg a = none) (hb0 : s.pseg b = none) (hl : FreeLine s a b) : s.ppoly a = s.ppoly b := by
  have hD := hT.drawn
  have hF := hD.nested.free
  have hc : Clear s (s.xy a) (s.xy b) := by
    rintro e he r ⟨t, t0, t1, hr⟩ ⟨x, x0, x1, hx⟩
    obtain ⟨p, hp, hpx⟩ := hl.segs e he (fun v hv => hD.links.no_seg ha (by simp) ha0 (e, v) he hv.1) t x t0 t1 x0 x1 (hr.symm.trans hx)
    have hpx' : s.xy p = between (s.xy a) (s.xy b) x := hpx.trans (hr.symm.trans hx)
    obtain ⟨v, hv⟩ := hD.planar.on p hp e he t t0 t1 hpx
    rcases hl.pts p hp x x0 x1 hpx' with rfl | rfl
    · exact hD.links.no_seg hp (by simp) ha0 (e, v) he hv
    · exact hD.links.no_seg hp (by simp) hb0 (e, v) he hv
  obtain ⟨q, hq⟩ := Option.ne_none_iff_exists'.1 ((hF.seg a ha).1 ha0)
  obtain ⟨q', hq'⟩ := Option.ne_none_iff_exists'.1 ((hF.seg b hb).1 hb0)
  rw [hq, hq', Option.some.injEq]
  refine Exact.unique hD.nested.nest (hF.full trivial a ha q hq).1 (hF.full trivial b hb q' hq').1 (hT.reg a ha q hq) ?_
  exact (hT.reg b hb q' hq').congr (cnt_path hD.links hD.nested.wires hc).symm

/-- `new_segment` returns for a free line of a drawing that is not too short. -/
theorem newSegment_total (hg : ArgOk g) (ht : 0 ≤ g.tiny) {s : St K} (hT : Tiled g s) {a b : Id} (ha : a ∈ s.pid.live)
    (hb : b ∈ s.pid.live) (hl : FreeLine s a b)
    (hv : g.tiny < |(s.xy b).1 - (s.xy a).1| ∨ g.tiny < |(s.xy b).2 - (s.xy a).2|) :
    ∃ e s', newSegment g a b s = .ok (e, s') := by
  have hD := hT.drawn
  have hN := hD.nested
  have hL := hD.links
  have hab : a ≠ b := by
    rintro rfl
    simp only [sub_self, abs_zero, or_self] at hv
    exact absurd hv (not_lt.2 ht)
  have sq : ∀ x : K, g.tiny < |x| → g.tiny * g.tiny < x * x := fun x hx => by
    rw [← abs_mul_abs_self x]
    exact mul_self_lt_mul_self ht hx
  have hlen : g.tiny * g.tiny < ((s.xy b).1 - (s.xy a).1) * ((s.xy b).1 - (s.xy a).1) +
      ((s.xy b).2 - (s.xy a).2) * ((s.xy b).2 - (s.xy a).2) := by
    rcases hv with h | h
    · linarith [sq _ h, mul_self_nonneg ((s.xy b).2 - (s.xy a).2)]
    · linarith [sq _ h, mul_self_nonneg ((s.xy b).1 - (s.xy a).1)]
  refine Exists.elim (p := fun r : Id × St K => newSegment g a b s = .ok r) ?_ (fun r hr => ⟨r.1, r.2, hr⟩)
  unfold newSegment
  refine ex_bind (a := ()) (check_ok.2 hab) (ex_bind (a := ()) (check_ok.2 hlen) ?_)
  have h0 := hN.quiet
  cases t1 : s.table (a, b) with
  | some e => dsimp only; rw [t1]; exact ⟨_, rfl⟩
  | none =>
    cases t2 : s.table (b, a) with
    | some e => dsimp only; rw [t1]; dsimp only; rw [t2]; exact ⟨_, rfl⟩
    | none =>
      dsimp only
      rw [t1]
      dsimp only
      rw [t2]
      dsimp only
      have hn : ∀ i ∈ s.sid.live, ∀ v, ¬ (s.vtx (i, v) = a ∧ s.vtx (i, !v) = b) := by
        rintro i hi v ⟨h1, h2⟩
        cases v
        · have := (hN.inv.tab.exact_ a b i).2 ⟨hi, h1, h2⟩
          rw [t1] at this; cases this
        · have := (hN.inv.tab.exact_ b a i).2 ⟨hi, h2, h1⟩
          rw [t2] at this; cases this
      have hn' : ∀ i ∈ s.sid.live, ∀ v, ¬ (s.vtx (i, v) = b ∧ s.vtx (i, !v) = a) := fun i hi v hv =>
        hn i hi (!v) ⟨hv.2, by rw [Bool.not_not]; exact hv.1⟩
      split
      · next hf =>
        have hpp := hT.free_ends hg ha hb hf.1 hf.2 hl
        obtain ⟨q, hq⟩ := Option.ne_none_iff_exists'.1 ((hN.free.seg a ha).1 hf.1)
        obtain ⟨e, s', h1⟩ := newWire_total h0 (hN.free.full trivial a ha q hq).1 hab ha hb
        exact ex_bind (a := ()) (check_ok.2 hpp) (ex_bind (need_ok.2 hq) ⟨_, h1⟩)
      · next hf =>
        have hL0 := h0.inv.links
        obtain ⟨ra, a1, a2⟩ := insertVector_found (s := quiet s)
          (v := ((s.xy b).1 - (s.xy a).1, (s.xy b).2 - (s.xy a).2)) hg.toAngleOk hL0 ha hv
        obtain ⟨rb, b1, b2⟩ := insertVector_found (s := quiet s) (v := (-((s.xy b).1 - (s.xy a).1), -((s.xy b).2 - (s.xy a).2)))
          hg.toAngleOk hL0 hb (by simpa only [abs_neg] using hv)
        refine ex_bind a1 (ex_bind b1 ?_)
        split
        · next pa =>
          have pb : s.pseg b ≠ none := fun pb => hf ⟨pa, pb⟩
          rcases insertVector_sound hL0 hb b1 with ⟨k, _⟩ | ⟨i, rfl, hC, _⟩
          · exact absurd k pb
          obtain ⟨e, s', h1⟩ := wireAddDendrite_total h0 (root := true) hab ha hb hC
          exact ex_bind (need_ok.2 rfl) ⟨_, h1⟩
        · next pa =>
          rcases insertVector_sound hL0 ha a1 with ⟨k, _⟩ | ⟨i, rfl, hC, hG⟩
          · exact absurd k pa
          split
          · next pb =>
            obtain ⟨e, s', h1⟩ := wireAddDendrite_total h0 (root := false) hab ha hb hC
            exact ex_bind (need_ok.2 rfl) ⟨_, h1⟩
          · next pb =>
            rcases insertVector_sound hL0 hb b1 with ⟨k, _⟩ | ⟨j, rfl, hC', hG'⟩
            · exact absurd k pb
            refine ex_bind (need_ok.2 rfl) (ex_bind (need_ok.2 rfl) ?_)
            split
            · next hne =>
              obtain ⟨q, q1, q2, q3⟩ := corner_exact hg hT ha hb hab hl hn (i := i) ⟨hC.live, hC.at_, hC.nxt, hC.wir⟩ hG
                (u := 1 / 2) (by norm_num) (by norm_num)
              obtain ⟨q', q1', q2', q3'⟩ := corner_exact hg hT hb ha hab.symm hl.symm hn' (i := j) ⟨hC'.live, hC'.at_, hC'.nxt, hC'.wir⟩
                (by
                  have e1 : diff s b a = (-((s.xy b).1 - (s.xy a).1), -((s.xy b).2 - (s.xy a).2)) := by
                    unfold diff; ext <;> simp
                  rw [e1]
                  exact hG') (u := 1 / 2) (by norm_num) (by norm_num)
              rw [between_rev, show (1 : K) - 1 / 2 = 1 / 2 by norm_num] at q3'
              have hqq := Exact.unique hN.nest q1 q1' q3 q3'
              obtain ⟨e, s', h1⟩ := joinWires_total h0 hab ha hb hC hC' hne (by
                show i.2.2.bind s.wpoly = j.2.2.bind s.wpoly
                rw [q2, q2', hqq])
              exact ⟨_, h1⟩
            · next heq =>
              obtain ⟨e, s', h1⟩ := splitPoly_total (g := g) h0 hab ha hb hC hC' (not_not.1 heq)
              exact ⟨_, h1⟩

end
end Verif.Decomp
