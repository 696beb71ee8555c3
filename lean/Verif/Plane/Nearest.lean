import Verif.Plane.Tiling

/-! Points beside the segment or the point that is nearest to them. -/

namespace Verif.Decomp
open Verif.Plane

section
variable {K : Type} [Field K] [LinearOrder K] [IsStrictOrderedRing K]
variable {g : Geom K}

/-- No point of a segment is nearer to `x` than `y`. -/
def Nearest (s : St K) (x y : K × K) : Prop := ∀ e ∈ s.sid.live, ∀ u, 0 ≤ u → u ≤ 1 → dist2 x y ≤ dist2 x (segPt s e u)

theorem onSeg_segPt {s : St K} {e : Id} {r : K × K} (h : OnSeg (s.xy (s.vtx (e, false))) (s.xy (s.vtx (e, true))) r) :
    ∃ u, 0 ≤ u ∧ u ≤ 1 ∧ r = segPt s e u := h

/-- On the way from the nearest point to `x` there is no other point of a segment. -/
theorem nearest_path {s : St K} {x y : K × K} (h : Nearest s x y) (hpos : 0 < dist2 x y) {e : Id} (he : e ∈ s.sid.live) {u t : K}
    (u0 : 0 ≤ u) (u1 : u ≤ 1) (t0 : 0 ≤ t) (t1 : t ≤ 1) (hu : segPt s e u = parametric y (dir y x) t) : t = 0 := by
  have h1 := h e he u u0 u1
  rw [hu] at h1
  have h2 : dist2 x (parametric y (dir y x) t) = (1 - t) * (1 - t) * dist2 x y := by simp only [dist2, parametric, dir]; ring
  rw [h2] at h1
  by_contra hne
  have h3 : 0 < t := lt_of_le_of_ne t0 (Ne.symm hne)
  have h4 : (1 - t) * (1 - t) < 1 := by nlinarith
  have h5 := mul_lt_mul_of_pos_right h4 hpos
  linarith

/-- From a point whose nearest point is inside of a segment this segment is seen. -/
theorem nearest_sees {s : St K} (hL : Links s ∅ ∅) (hP : Planar s) {d : HE} (hd : d.1 ∈ s.sid.live) {t : K} (t0 : 0 < t) (t1 : t < 1)
    {x : K × K} (h : Nearest s x (segPt s d.1 t)) (hs : 0 < side (org s d) (dst s d) x) : Sees s d x := by
  have hne := ends_ne' hL hP hd
  have hdart : onDart s d (if d.2 then t else 1 - t) = segPt s d.1 t := by
    obtain ⟨e, v⟩ := d
    cases v
    · ext <;> simp [onDart, org, dst, segPt, between, parametric, dir, flip] <;> ring
    · ext <;> simp [onDart, org, dst, segPt, between, parametric, dir, flip]
  have hpos : 0 < dist2 x (segPt s d.1 t) := by
    rcases lt_or_eq_of_le (show 0 ≤ dist2 x (segPt s d.1 t) by simp only [dist2]; nlinarith [sq_nonneg (x.1 - (segPt s d.1 t).1), sq_nonneg (x.2 - (segPt s d.1 t).2)]) with k | k
    · exact k
    · exfalso
      have hx : x = segPt s d.1 t := by
        have e1 := sq_nonneg (x.1 - (segPt s d.1 t).1)
        have e2 := sq_nonneg (x.2 - (segPt s d.1 t).2)
        have e3 : (x.1 - (segPt s d.1 t).1) ^ 2 + (x.2 - (segPt s d.1 t).2) ^ 2 = 0 := by
          rw [k]; simp only [dist2]; ring
        have e4 : (x.1 - (segPt s d.1 t).1) ^ 2 = 0 := by linarith
        have e5 : (x.2 - (segPt s d.1 t).2) ^ 2 = 0 := by linarith
        exact Prod.ext (sub_eq_zero.1 (pow_eq_zero_iff (two_ne_zero)|>.1 e4)) (sub_eq_zero.1 (pow_eq_zero_iff (two_ne_zero)|>.1 e5))
      rw [hx, ← hdart] at hs
      have : side (org s d) (dst s d) (onDart s d (if d.2 then t else 1 - t)) = 0 := by
        simp only [side, onDart, parametric, dir]; ring
      linarith
  refine ⟨hd, hs, if d.2 then t else 1 - t, by split <;> linarith, by split <;> linarith, fun e he hed => ?_⟩
  rw [hdart]
  rintro r hr ⟨y, y0, y1, hy⟩
  obtain ⟨u, u0, u1, rfl⟩ := onSeg_segPt hr
  have hy0 := nearest_path h hpos he u0 u1 y0 y1 hy
  rw [hy0] at hy
  have hy' : segPt s e u = segPt s d.1 t := by rw [hy]; simp [parametric]
  obtain ⟨v, v', _, k⟩ := hP.meet d.1 hd e he (Ne.symm hed) t u t0.le t1.le u0 u1 hy'.symm
  have hne' : s.xy (s.vtx (d.1, false)) ≠ s.xy (s.vtx (d.1, true)) := by
    intro hh
    obtain ⟨i, w⟩ := d
    cases w
    · exact hne hh.symm
    · exact hne hh
  cases v
  · have := between_inj hne' ((between_zero _ _).trans k)
    linarith
  · have := between_inj hne' ((between_one _ _).trans k)
    linarith

/-- `Point.insert_vector` gives the corner of the vector. -/
theorem insert_gap (hg : AngleOk g) {s : St K} (hD : Drawn g s) {p : Id} (hp : p ∈ s.pid.live) {v : K × K} {i : Ins}
    (hs : insertVector g s p v = .ok (some i)) (hv : ∀ d : HE, d.1 ∈ s.sid.live → s.vtx d = p → dirAng g s d ≠ g.ang v) :
    i.1.1 ∈ s.sid.live ∧ s.vtx i.1 = p ∧ s.next i.1 = some i.2.1 ∧ s.wire i.1 = i.2.2 ∧
      InGap (AtPoint s i.1) (dirAng g s) i.1 (flip i.2.1) (g.ang v) := by
  have hF := hD.fan
  obtain ⟨hC, hG⟩ : Corner s p i ∧ Gap g s v i := by
    rcases insertVector_sound hD.links hp hs with ⟨_, h⟩ | ⟨j, h1, h2⟩
    · cases h
    · obtain rfl := Option.some.inj h1
      exact h2
  obtain ⟨lo, hlo⟩ := hg.window
  obtain ⟨k', k1, k2, k3, _⟩ := hD.links.next_ok hC.live (by simp)
  rw [hC.nxt] at k1
  obtain rfl := Option.some.inj k1
  have k2' : (flip i.2.1).1 ∈ s.sid.live := k2
  refine ⟨hC.live, hC.at_, hC.nxt, hC.wir.symm, ?_⟩
  refine inGap_of_turn (lo := lo) (T := g.twoPi) (hF.cw _ _ hC.live hC.nxt) (hlo _) (hlo _)
    (hv _ hC.live hC.at_).symm (hv _ k2' (k3.trans hC.at_)).symm ?_
  unfold Gap at hG
  rw [hF.turn_eq hg hC.live, hF.turn_eq hg k2'] at hG
  exact hG

/-- A direction `C` in the gap from `W` to `U` is to the left of `W` or to the right of `U`, or the gap is the whole turn and the
direction is opposite to the only one. -/
theorem gap_cases {h lo U W C : K} (hU : lo < U ∧ U ≤ lo + 2 * h) (hW : lo < W ∧ W ≤ lo + 2 * h) (hC : lo < C ∧ C ≤ lo + 2 * h)
    (hG : (W < C ∧ C < U) ∨ (U ≤ W ∧ (C < U ∨ W < C))) (h1 : ¬ LeftOf h W C) (h2 : ¬ LeftOf h C U) : W = U := by
  unfold LeftOf at *
  rw [not_or, not_and_or, not_lt, not_lt, not_lt] at h1 h2
  obtain ⟨h1 | h1, h3⟩ := h1 <;> obtain ⟨h2 | h2, h4⟩ := h2 <;> rcases hG with ⟨a, b⟩ | ⟨a, b | b⟩ <;>
    first
      | (exfalso; linarith)
      | exact le_antisymm (by linarith) (by linarith)

/-- Points near a corner in a direction that is in it are in the polygon of its wire. -/
theorem corner_dir (hg : ArgOk g) {s : St K} (hD : Drawn g s) (hGd : Good s) {d k : HE} (hd : d.1 ∈ s.sid.live) (hk : s.next d = some k)
    {c : K × K} (hc : c ≠ (0, 0)) (hv : ∀ m : HE, m.1 ∈ s.sid.live → s.vtx m = s.vtx d → dirAng g s m ≠ g.ang c)
    (hgap : InGap (AtPoint s d) (dirAng g s) d (flip k) (g.ang c)) {w q : Id} (hw : s.wire d = some w) (hq : s.wpoly w = some q) :
    ∃ τ, 0 < τ ∧ ∀ t, 0 < t → t ≤ τ → Exact s (parametric (s.xy (s.vtx d)) c t) q := by
  have hL := hD.links
  have hW := hD.nested.wires
  have hP := hD.planar
  have hF := hD.fan
  obtain ⟨k', e1, hkl, e2, _⟩ := hL.next_ok hd (by simp)
  rw [hk] at e1
  cases e1
  have hp : s.vtx d ∈ s.pid.live := hL.vlive d hd
  have hvk : s.vtx (flip k) = s.vtx d := e2
  have hok : org s k = s.xy (s.vtx d) := by unfold org; rw [hvk]
  have hkw : s.wire k = some w := (hW.next_wire hd hk).2.trans hw
  have hne : ∀ m : HE, m.1 ∈ s.sid.live → outDir s m ≠ (0, 0) := fun m hm => dir_ne (ends_ne' hL hP hm).symm
  have hang : ∀ m : HE, dirAng g s m = g.ang (outDir s m) := fun _ => rfl
  obtain ⟨lo, hwin⟩ := hg.window
  have hwin' : ∀ v, lo < g.ang v ∧ g.ang v ≤ lo + 2 * (g.twoPi / 2) := fun v => by
    have := hwin v
    rw [mul_div_cancel₀ _ two_ne_zero]
    exact this
  have turn : ∀ u v : K × K, u ≠ (0, 0) → v ≠ (0, 0) → (0 < crs u v ↔ LeftOf (g.twoPi / 2) (g.ang u) (g.ang v)) :=
    fun u v hu hv => hg.turn u v hu hv
  have hinj : ∀ m m' : HE, m.1 ∈ s.sid.live → m'.1 ∈ s.sid.live → s.vtx m = s.vtx m' →
      g.ang (outDir s m) = g.ang (outDir s m') → m = m' := fun m m' h1 h2 h3 h4 => hF.inj m m' h1 h2 h3 h4
  have hfl : (flip k).1 ∈ s.sid.live := hkl
  have hatd : AtPoint s d d := ⟨hd, rfl⟩
  have hatk : AtPoint s d (flip k) := ⟨hkl, hvk⟩
  have hG : (g.ang (outDir s (flip k)) < g.ang c ∧ g.ang c < g.ang (outDir s d)) ∨
      (g.ang (outDir s d) ≤ g.ang (outDir s (flip k)) ∧ (g.ang c < g.ang (outDir s d) ∨ g.ang (outDir s (flip k)) < g.ang c)) := by
    rcases hgap with ⟨a, b, _⟩ | ⟨a, _, b⟩
    · exact Or.inl ⟨a, b⟩
    · exact Or.inr ⟨a _ hatk, b⟩
  by_cases hA : LeftOf (g.twoPi / 2) (g.ang (outDir s (flip k))) (g.ang c)
  · obtain ⟨τ, h0, h1⟩ := corner_start hP hkl (hvk ▸ hp) (c := c) ((turn _ _ (hne _ hfl) hc).2 hA) (by
      intro m hm hmv hmk hh
      have hmv' : s.vtx m = s.vtx d := hmv.trans hvk
      refine cw_narrow (hwin' c) (hwin' (outDir s (flip k))) (hwin' (outDir s m)) hA ?_ ?_ (hv m hm hmv')
        (fun k' => hmk (by rw [hinj m (flip k) hm hfl hmv k']; rfl)) ?_
      · rw [← turn _ _ hc (hne m hm), crs_swap, neg_pos]
        exact not_lt.2 hh.2
      · rw [← turn _ _ (hne m hm) (hne _ hfl), crs_swap, neg_pos]
        exact not_lt.2 hh.1
      · rcases hgap with ⟨a, b, c'⟩ | ⟨a, b, c' | c'⟩
        · exact Or.inl ⟨a, fun z => c' m ⟨hm, hmv'⟩ ⟨z.1, z.2.trans b⟩⟩
        · exact Or.inr ⟨c'.le.trans (a m ⟨hm, hmv'⟩), b m ⟨hm, hmv'⟩⟩
        · exact Or.inl ⟨c', fun z => absurd (b m ⟨hm, hmv'⟩) (not_le.2 z.1)⟩)
    refine ⟨τ, h0, fun t t0 t1 => ?_⟩
    rw [← hok]
    exact hGd w k _ q (h1 t t0 t1) hkw hq
  by_cases hB : LeftOf (g.twoPi / 2) (g.ang c) (g.ang (outDir s d))
  · obtain ⟨τ, h0, h1⟩ := corner_end hP hd hp (c := c) ((turn _ _ hc (hne _ hd)).2 hB) (by
      intro m hm hmv hmk hh
      refine cw_narrow (hwin' (outDir s d)) (hwin' c) (hwin' (outDir s m)) hB ?_ ?_
        (fun k' => hmk (by rw [hinj m d hm hd hmv k'])) (hv m hm hmv) ?_
      · rw [← turn _ _ (hne d hd) (hne m hm), crs_swap, neg_pos]
        exact not_lt.2 hh.2
      · rw [← turn _ _ (hne m hm) hc, crs_swap, neg_pos]
        exact not_lt.2 hh.1
      · rcases hgap with ⟨a, b, c'⟩ | ⟨a, b, c' | c'⟩
        · exact Or.inl ⟨b, fun z => c' m ⟨hm, hmv⟩ ⟨a.trans z.1, z.2⟩⟩
        · exact Or.inl ⟨c', fun z => absurd (a m ⟨hm, hmv⟩) (not_le.2 z.2)⟩
        · exact Or.inr ⟨a m ⟨hm, hmv⟩, (b m ⟨hm, hmv⟩).trans c'.le⟩)
    exact ⟨τ, h0, fun t t0 t1 => hGd w d _ q (h1 t t0 t1) hw hq⟩
  -- the only segment of the point, seen from behind
  have hWU := gap_cases (hwin' (outDir s d)) (hwin' (outDir s (flip k))) (hwin' c) hG hA hB
  have hdk : flip k = d := hinj _ _ hkl hd hvk hWU
  have hall : ∀ m : HE, m.1 ∈ s.sid.live → s.vtx m = s.vtx d → m = d := by
    intro m hm hmv
    refine hinj m d hm hd hmv ?_
    rcases hgap with ⟨a, b, _⟩ | ⟨a, b, _⟩
    · exact absurd (a.trans b) (by rw [hang, hang, hWU]; exact lt_irrefl _)
    · exact le_antisymm ((b m ⟨hm, hmv⟩).trans (le_of_eq hWU)) (a m ⟨hm, hmv⟩)
  set u := outDir s d with hu
  have hu0 : u ≠ (0, 0) := hne d hd
  have hpos : 0 < u.1 * u.1 + u.2 * u.2 := dot_self_pos hu0
  rw [hWU, ← turn _ _ hu0 hc] at hA
  rw [← turn _ _ hc hu0, crs_swap, neg_pos] at hB
  have hcr : crs u c = 0 := le_antisymm (not_lt.1 hA) (not_lt.1 hB)
  have hdot : u.1 * c.1 + u.2 * c.2 < 0 := by
    by_contra hh
    have h0 := not_lt.1 hh
    have e1 : u.1 * c.2 - u.2 * c.1 = 0 := hcr
    have hposc : 0 < c.1 * c.1 + c.2 * c.2 := dot_self_pos hc
    rcases eq_or_lt_of_le h0 with h0 | h0
    · have : (u.1 * u.1 + u.2 * u.2) * (c.1 * c.1 + c.2 * c.2) = 0 := by
        linear_combination (u.1 * c.2 - u.2 * c.1) * e1 - (u.1 * c.1 + u.2 * c.2) * h0
      exact absurd this (mul_pos hpos hposc).ne'
    · refine hv d hd rfl ?_
      have ht : 0 < (u.1 * c.1 + u.2 * c.2) / (c.1 * c.1 + c.2 * c.2) := div_pos h0 hposc
      rw [hang, ← hu, ← hg.scale _ ht c]
      congr 1
      refine Prod.ext ?_ ?_
      · simp only
        rw [div_mul_eq_mul_div, eq_div_iff hposc.ne']
        linear_combination c.2 * e1
      · simp only
        rw [div_mul_eq_mul_div, eq_div_iff hposc.ne']
        linear_combination (-c.1) * e1
  have hkd : k = flip d := by rw [← hdk, flip_flip]
  have i1 : crs u (-u.2, u.1) = u.1 * u.1 + u.2 * u.2 := by simp only [crs]; ring
  obtain ⟨τ1, a1, b1⟩ := corner_start hP hkl (hvk ▸ hp) (c := (-u.2, u.1)) (by rw [hdk, i1]; exact hpos)
    (fun m hm hmv hne => absurd (by rw [hall m hm (hmv.trans hvk), hkd]; rfl) hne)
  obtain ⟨τ2, a2, b2⟩ := cone_clear hP hp (c1 := (-u.2, u.1)) (c2 := c) (by
      have : crs (-u.2, u.1) c = - (u.1 * c.1 + u.2 * c.2) := by simp only [crs]; ring
      rw [this]; linarith) (fun _ => False) (by
      intro m hm hmv _ hh
      rw [hall m hm hmv, ← hu, crs_swap u, i1] at hh
      linarith [hh.1])
  refine ⟨τ2, a2, fun t t0 t1 => ?_⟩
  have hE := hGd w k _ q (b1 (min τ1 τ2) (lt_min a1 a2) (min_le_left _ _)) hkw hq
  refine hE.congr (cnt_path hL hW fun e he => ?_)
  rw [hok]
  exact b2 _ (lt_min a1 a2) (min_le_right _ _) t t0 t1 e he (fun h => h)

/-- A point whose nearest point of the segments is the point `p` is in the polygon of the corner found by `insert_vector`. -/
theorem nearest_corner (hg : ArgOk g) {s : St K} (hD : Drawn g s) (hGd : Good s) {p : Id} (hp : p ∈ s.pid.live) {x : K × K}
    (h : Nearest s x (s.xy p)) (hpos : 0 < dist2 x (s.xy p)) {i : Ins}
    (hs : insertVector g s p (x.1 - (s.xy p).1, x.2 - (s.xy p).2) = .ok (some i)) {w q : Id} (hw : i.2.2 = some w)
    (hq : s.wpoly w = some q) : Exact s x q := by
  have hc : ((x.1 - (s.xy p).1, x.2 - (s.xy p).2) : K × K) ≠ (0, 0) := by
    intro hh
    simp only [Prod.mk.injEq] at hh
    have : dist2 x (s.xy p) = 0 := by simp only [dist2]; rw [hh.1, hh.2]; ring
    linarith
  have hdir : dir (s.xy p) x = (x.1 - (s.xy p).1, x.2 - (s.xy p).2) := rfl
  have hv : ∀ m : HE, m.1 ∈ s.sid.live → s.vtx m = p → dirAng g s m ≠ g.ang (x.1 - (s.xy p).1, x.2 - (s.xy p).2) := by
    intro m hm hmp hh
    obtain ⟨c, c0, hcc⟩ := ang_dir hg (u := outDir s m) (dir_ne (ends_ne' hD.links hD.planar hm).symm) hc hh
    obtain ⟨t, t0, t1, t2⟩ : ∃ t, 0 < t ∧ t < 1 ∧ t * c < 1 := by
      refine ⟨1 / (c + 1), by positivity, ?_, ?_⟩
      · rw [div_lt_one (by linarith)]; linarith
      · rw [div_mul_eq_mul_div, one_mul, div_lt_one (by linarith)]; linarith
    have hpt : segPt s m.1 (if m.2 then 1 - t else t) = parametric (s.xy p) (outDir s m) t := by
      obtain ⟨j, v⟩ := m
      subst hmp
      cases v
      · ext <;> simp [segPt, between, parametric, outDir, dir, dst, org, flip]
      · ext <;> simp [segPt, between, parametric, outDir, dir, dst, org, flip] <;> ring
    have key : segPt s m.1 (if m.2 then 1 - t else t) = parametric (s.xy p) (dir (s.xy p) x) (t * c) := by
      rw [hpt, hcc]
      ext <;> simp [parametric, dir] <;> ring
    have := nearest_path h hpos hm (by split <;> linarith) (by split <;> linarith) (by positivity) t2.le key
    have : 0 < t * c := by positivity
    linarith
  obtain ⟨hl, hvp, hn, hwi, hgap⟩ := insert_gap hg.toAngleOk hD hp hs hv
  obtain ⟨τ, τ0, hτ⟩ := corner_dir hg hD hGd hl hn hc (by rw [hvp]; exact hv) hgap (hwi.trans hw) hq
  rw [hvp] at hτ
  have hm0 : 0 < min τ 1 := lt_min τ0 one_pos
  refine (hτ (min τ 1) hm0 (min_le_left _ _)).congr (cnt_path hD.links hD.nested.wires fun e he => ?_)
  rintro r hr ⟨y, y0, y1, hy⟩
  obtain ⟨u, u0, u1, rfl⟩ := onSeg_segPt hr
  have hyy : segPt s e u = parametric (s.xy p) (dir (s.xy p) x) (min τ 1 + y * (1 - min τ 1)) := by
    rw [hy]
    ext <;> simp only [parametric, dir] <;> ring
  have h1 : min τ 1 ≤ 1 := min_le_right _ _
  have := nearest_path h hpos he u0 u1 (by nlinarith) (by nlinarith) hyy
  nlinarith

end
end Verif.Decomp
