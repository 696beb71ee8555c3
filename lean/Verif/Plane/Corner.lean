import Verif.Plane.Sees
import Verif.Decomp.Fan

/-! Points in the corner between a side and the next one. -/

namespace Verif.Decomp
open Verif.Plane

section
variable {K : Type} [Field K] [LinearOrder K]

/-- The angles tell on which side of a vector another one is, as those of `np.angle` do: `v` is to the left of `u` if the turn
from `u` to `v` is less than half. -/
structure ArgOk (g : Geom K) : Prop extends AngleOk g where
  turn : ∀ u v : K × K, u ≠ (0, 0) → v ≠ (0, 0) →
    (0 < crs u v ↔ (g.ang u < g.ang v ∧ g.ang v < g.ang u + g.twoPi / 2) ∨ g.ang v < g.ang u - g.twoPi / 2)

/-- The angle `b` is to the left of `a`, with half of the turn `h`. -/
def LeftOf (h a b : K) : Prop := (a < b ∧ b < a + h) ∨ b < a - h

variable [IsStrictOrderedRing K]

theorem cw_narrow {h lo U W M : K} (hU : lo < U ∧ U ≤ lo + 2 * h) (hW : lo < W ∧ W ≤ lo + 2 * h) (hM : lo < M ∧ M ≤ lo + 2 * h)
    (h1 : LeftOf h W U) (h2 : ¬ LeftOf h U M) (h3 : ¬ LeftOf h M W) (hMU : M ≠ U) (hMW : M ≠ W)
    (hc : (W < U ∧ ¬ (W < M ∧ M < U)) ∨ (U ≤ M ∧ M ≤ W)) : False := by
  unfold LeftOf at *
  rcases lt_or_gt_of_ne hMU with a | a <;> rcases lt_or_gt_of_ne hMW with b | b
  all_goals
    rw [not_or, not_and_or, not_lt, not_lt, not_lt] at h2 h3
    obtain ⟨h2 | h2, h4⟩ := h2 <;> obtain ⟨h3 | h3, h5⟩ := h3 <;> rcases h1 with ⟨h1, h6⟩ | h1 <;> rcases hc with ⟨c1, c2⟩ | ⟨c1, c2⟩
      <;> first | linarith | exact c2 ⟨by linarith, by linarith⟩

theorem cw_wide {h lo U W M : K} (hU : lo < U ∧ U ≤ lo + 2 * h) (hW : lo < W ∧ W ≤ lo + 2 * h) (hM : lo < M ∧ M ≤ lo + 2 * h)
    (h1 : ¬ LeftOf h W U) (h2 : W ≠ U) (hMU : M ≠ U) (hMW : M ≠ W)
    (hc : (W < U ∧ ¬ (W < M ∧ M < U)) ∨ (U ≤ M ∧ M ≤ W)) : LeftOf h U M ∧ LeftOf h M W := by
  unfold LeftOf at *
  rw [not_or, not_and_or, not_lt, not_lt, not_lt] at h1
  obtain ⟨h1, h3⟩ := h1
  rcases hc with ⟨c1, c2⟩ | ⟨c1, c2⟩
  · have h4 : W + h ≤ U := h1.resolve_left (not_le.2 c1)
    rcases lt_or_gt_of_ne hMU with a | a <;> rcases lt_or_gt_of_ne hMW with b | b
    · exact ⟨Or.inr (by linarith), Or.inl ⟨b, by linarith⟩⟩
    · exact absurd ⟨b, a⟩ c2
    · linarith
    · exact ⟨Or.inl ⟨a, by linarith⟩, Or.inr (by linarith)⟩
  · have a : U < M := lt_of_le_of_ne c1 hMU.symm
    have b : M < W := lt_of_le_of_ne c2 hMW
    exact ⟨Or.inl ⟨a, by linarith⟩, Or.inl ⟨b, by linarith⟩⟩

omit [LinearOrder K] [IsStrictOrderedRing K] in
theorem crs_swap (u v : K × K) : crs v u = - crs u v := by simp only [crs]; ring

/-- A segment from the tip of a cone that is not in it meets no path across it. -/
theorem cone_apart {c1 c2 m v : K × K} (h : 0 < crs c1 c2) (hm : ¬ (0 ≤ crs c1 m ∧ 0 ≤ crs m c2)) {t u : K} (ht : 0 < t)
    (hu : 0 < u) : Apart v (parametric v m 1) (parametric v c1 t) (parametric v c2 u) := by
  rintro r ⟨a, a0, a1, rfl⟩ ⟨y, y0, y1, hr⟩
  simp only [parametric, dir, Prod.mk.injEq] at hr
  obtain ⟨h1, h2⟩ := hr
  have k1 : a * m.1 = (1 - y) * t * c1.1 + y * u * c2.1 := by linear_combination h1
  have k2 : a * m.2 = (1 - y) * t * c1.2 + y * u * c2.2 := by linear_combination h2
  have e1 : a * crs c1 m = y * u * crs c1 c2 := by simp only [crs]; linear_combination c1.1 * k2 - c1.2 * k1
  have e2 : a * crs m c2 = (1 - y) * t * crs c1 c2 := by simp only [crs]; linear_combination c2.2 * k1 - c2.1 * k2
  have p1 : 0 ≤ y * u * crs c1 c2 := mul_nonneg (mul_nonneg y0 hu.le) h.le
  have p2 : 0 ≤ (1 - y) * t * crs c1 c2 := mul_nonneg (mul_nonneg (by linarith) ht.le) h.le
  rcases eq_or_lt_of_le a0 with rfl | a0
  · rw [zero_mul] at e1 e2
    have f1 : y = 0 := by
      rcases mul_eq_zero.1 e1.symm with k | k
      · exact (mul_eq_zero.1 k).resolve_right hu.ne'
      · exact absurd k h.ne'
    have f2 : 1 - y = 0 := by
      rcases mul_eq_zero.1 e2.symm with k | k
      · exact (mul_eq_zero.1 k).resolve_right ht.ne'
      · exact absurd k h.ne'
    linarith
  · refine hm ⟨?_, ?_⟩
    · by_contra hh
      have := mul_neg_of_pos_of_neg a0 (not_le.1 hh)
      linarith
    · by_contra hh
      have := mul_neg_of_pos_of_neg a0 (not_le.1 hh)
      linarith

/-- Direction of the end `m` from its point. -/
def outDir (s : St K) (m : HE) : K × K := dir (dst s m) (org s m)

/-- Paths across a cone at a point, near to it, meet no segment if no segment of the point is in the cone; some segments are left
out. -/
theorem cone_clear {s : St K} (hP : Planar s) {p : Id} (hp : p ∈ s.pid.live) {c1 c2 : K × K} (h : 0 < crs c1 c2) (X : Id → Prop)
    (hm : ∀ m : HE, m.1 ∈ s.sid.live → s.vtx m = p → ¬ X m.1 → ¬ (0 ≤ crs c1 (outDir s m) ∧ 0 ≤ crs (outDir s m) c2)) :
    ∃ τ, 0 < τ ∧ ∀ t, 0 < t → t ≤ τ → ∀ u, 0 < u → u ≤ τ → ∀ e ∈ s.sid.live, ¬ X e →
      SegApart s e (parametric (s.xy p) c1 t) (parametric (s.xy p) c2 u) := by
  classical
  obtain ⟨τ, h0, h1⟩ := apart_push (fun e => s.xy (s.vtx (e, false))) (fun e => s.xy (s.vtx (e, true))) (p := s.xy p)
    (q := s.xy p) c1 c2 (s.sid.live.filter fun e => decide (∀ v, s.vtx (e, v) ≠ p)) (by
      intro e he
      rw [List.mem_filter, decide_eq_true_iff] at he
      rintro r ⟨u, u0, u1, rfl⟩ ⟨y, _, _, hy⟩
      have : s.xy p = segPt s e u := by
        have e1 : parametric (s.xy p) (dir (s.xy p) (s.xy p)) y = s.xy p := by simp [parametric, dir]
        rw [e1] at hy
        exact hy.symm
      obtain ⟨v, hv⟩ := hP.on p hp e he.1 u u0 u1 this
      exact he.2 v hv)
  refine ⟨τ, h0, fun t t0 t1 u u0 u1 e he hX => ?_⟩
  by_cases hv : ∀ v, s.vtx (e, v) ≠ p
  · exact h1 t t0.le t1 u u0.le u1 e (by rw [List.mem_filter, decide_eq_true_iff]; exact ⟨he, hv⟩)
  · rw [not_forall] at hv
    obtain ⟨v, hv⟩ := hv
    rw [not_not] at hv
    have := cone_apart (v := s.xy p) h (hm (e, v) he hv hX) t0 u0
    have e1 : parametric (s.xy p) (outDir s (e, v)) 1 = org s (e, v) := by
      unfold outDir dst
      rw [hv]
      simp only [parametric, dir]
      ext <;> ring
    rw [e1, ← hv] at this
    rw [← hv]
    cases v
    · exact this
    · exact this.swapL

/-- Near the end of a side, in a free corner to the left of it. -/
theorem corner_end {s : St K} (hP : Planar s) {d : HE} (hd : d.1 ∈ s.sid.live) (hp : s.vtx d ∈ s.pid.live) {c : K × K}
    (h : 0 < crs c (outDir s d))
    (hm : ∀ m : HE, m.1 ∈ s.sid.live → s.vtx m = s.vtx d → m.1 ≠ d.1 →
      ¬ (0 ≤ crs c (outDir s m) ∧ 0 ≤ crs (outDir s m) (outDir s d))) :
    ∃ τ, 0 < τ ∧ ∀ t, 0 < t → t ≤ τ → Sees s d (parametric (dst s d) c t) := by
  obtain ⟨τ, h0, h1⟩ := cone_clear hP hp h (fun e => e = d.1) hm
  refine ⟨τ, h0, fun t t0 t1 => ⟨hd, ?_, 1 - min τ (1 / 2), ?_, ?_, fun e he hne => ?_⟩⟩
  · rw [side_add]
    have e1 : side (org s d) (dst s d) (dst s d) = 0 := by simp only [side]; ring
    have e2 : crs (dir (org s d) (dst s d)) c = crs c (outDir s d) := by simp only [crs, outDir, dir]; ring
    rw [e1, e2, zero_add]
    exact mul_pos t0 h
  · linarith [min_le_right τ (1 / 2)]
  · linarith [lt_min h0 (by norm_num : (0 : K) < 1 / 2)]
  · have := h1 t t0 t1 (min τ (1 / 2)) (lt_min h0 (by norm_num)) (min_le_left _ _) e he hne
    have e1 : parametric (s.xy (s.vtx d)) (outDir s d) (min τ (1 / 2)) = onDart s d (1 - min τ (1 / 2)) := by
      simp only [onDart, outDir, dst, parametric, dir]
      ext <;> ring
    rw [e1] at this
    exact this.swapR

/-- Near the start of a side, in a free corner to the left of it. -/
theorem corner_start {s : St K} (hP : Planar s) {k : HE} (hk : k.1 ∈ s.sid.live) (hp : s.vtx (flip k) ∈ s.pid.live) {c : K × K}
    (h : 0 < crs (outDir s (flip k)) c)
    (hm : ∀ m : HE, m.1 ∈ s.sid.live → s.vtx m = s.vtx (flip k) → m.1 ≠ k.1 →
      ¬ (0 ≤ crs (outDir s (flip k)) (outDir s m) ∧ 0 ≤ crs (outDir s m) c)) :
    ∃ τ, 0 < τ ∧ ∀ t, 0 < t → t ≤ τ → Sees s k (parametric (org s k) c t) := by
  obtain ⟨τ, h0, h1⟩ := cone_clear hP hp h (fun e => e = k.1) hm
  refine ⟨τ, h0, fun t t0 t1 => ⟨hk, ?_, min τ (1 / 2), lt_min h0 (by norm_num), ?_, fun e he hne => ?_⟩⟩
  · rw [side_add]
    have e1 : side (org s k) (dst s k) (org s k) = 0 := by simp only [side]; ring
    have e2 : crs (dir (org s k) (dst s k)) c = crs (outDir s (flip k)) c := by
      simp only [outDir, org, dst, flip_flip]
    rw [e1, e2, zero_add]
    exact mul_pos t0 h
  · linarith [min_le_right τ (1 / 2)]
  · have := h1 (min τ (1 / 2)) (lt_min h0 (by norm_num)) (min_le_left _ _) t t0 t1 e he hne
    have e1 : parametric (s.xy (s.vtx (flip k))) (outDir s (flip k)) (min τ (1 / 2)) = onDart s k (min τ (1 / 2)) := by
      simp only [onDart, outDir, org, dst, flip_flip]
    rw [e1] at this
    exact this

/-- What does not change along paths that meet no segment is the same for points that see a side and points that see the next one. -/
theorem corner_const {α : Type} {F : K × K → α} {g : Geom K} (hg : ArgOk g) {s : St K} (hC : ∀ x y, Clear s x y → F x = F y)
    (hL : Links s ∅ ∅) (hP : Planar s) (hF : Fan g s) {d k : HE} (hd : d.1 ∈ s.sid.live) (hk : s.next d = some k) {x y : K × K}
    (hx : Sees s d x) (hy : Sees s k y) : F x = F y := by
  obtain ⟨k', e1, hkl, e2, _⟩ := hL.next_ok hd (by simp)
  rw [hk] at e1
  cases e1
  have hp : s.vtx d ∈ s.pid.live := hL.vlive d hd
  have hvk : s.vtx (flip k) = s.vtx d := e2
  have hok : org s k = dst s d := by unfold org dst; rw [hvk]
  have hcw := hF.cw d k hd hk
  have hne : ∀ m : HE, m.1 ∈ s.sid.live → outDir s m ≠ (0, 0) := fun m hm => dir_ne (ends_ne' hL hP hm).symm
  have hang : ∀ m : HE, dirAng g s m = g.ang (outDir s m) := fun _ => rfl
  obtain ⟨lo, hwin⟩ := hg.window
  have hwin' : ∀ v, lo < g.ang v ∧ g.ang v ≤ lo + 2 * (g.twoPi / 2) := fun v => by
    have := hwin v
    rw [mul_div_cancel₀ _ two_ne_zero]
    exact this
  have hturn : ∀ m m' : HE, m.1 ∈ s.sid.live → m'.1 ∈ s.sid.live →
      (0 < crs (outDir s m) (outDir s m') ↔ LeftOf (g.twoPi / 2) (g.ang (outDir s m)) (g.ang (outDir s m'))) :=
    fun m m' hm hm' => hg.turn _ _ (hne m hm) (hne m' hm')
  have hinj : ∀ m m' : HE, m.1 ∈ s.sid.live → m'.1 ∈ s.sid.live → s.vtx m = s.vtx m' →
      g.ang (outDir s m) = g.ang (outDir s m') → m = m' := fun m m' h1 h2 h3 h4 => hF.inj m m' h1 h2 h3 h4
  have hcw' : ∀ m : HE, m.1 ∈ s.sid.live → s.vtx m = s.vtx d →
      (g.ang (outDir s (flip k)) < g.ang (outDir s d) ∧
        ¬ (g.ang (outDir s (flip k)) < g.ang (outDir s m) ∧ g.ang (outDir s m) < g.ang (outDir s d))) ∨
      (g.ang (outDir s d) ≤ g.ang (outDir s m) ∧ g.ang (outDir s m) ≤ g.ang (outDir s (flip k))) := by
    intro m hm hv
    rcases hcw with ⟨c1, c2⟩ | ⟨c1, c2⟩
    · exact Or.inl ⟨c1, c2 m ⟨hm, hv⟩⟩
    · exact Or.inr ⟨c1 m ⟨hm, hv⟩, c2 m ⟨hm, hv⟩⟩
  have hfl : (flip k).1 ∈ s.sid.live := hkl
  by_cases hWU : g.ang (outDir s (flip k)) = g.ang (outDir s d)
  · -- the end of a line
    have hdk : flip k = d := hinj _ _ hkl hd hvk hWU
    have hall : ∀ m : HE, m.1 ∈ s.sid.live → s.vtx m = s.vtx d → m = d := by
      intro m hm hv
      refine hinj m d hm hd hv ?_
      rcases hcw' m hm hv with ⟨c1, _⟩ | ⟨c1, c2⟩
      · exact absurd hWU (ne_of_lt c1)
      · exact le_antisymm (hWU ▸ c2) c1
    set u := outDir s d with hu
    have hpos : 0 < u.1 * u.1 + u.2 * u.2 := dot_self_pos (hne d hd)
    have i1 : crs (u.2 - u.1, -u.1 - u.2) u = u.1 * u.1 + u.2 * u.2 := by simp only [crs]; ring
    have i2 : crs u (-u.2 - u.1, u.1 - u.2) = u.1 * u.1 + u.2 * u.2 := by simp only [crs]; ring
    obtain ⟨τ1, a1, b1⟩ := corner_end hP hd hp (c := (u.2 - u.1, -u.1 - u.2)) (by rw [i1]; exact hpos)
      (fun m hm hv hne => absurd (congrArg Prod.fst (hall m hm hv)) hne)
    have hkd : k = flip d := by rw [← hdk, flip_flip]
    obtain ⟨τ2, a2, b2⟩ := corner_start hP hkl (hvk ▸ hp) (c := (-u.2 - u.1, u.1 - u.2)) (by rw [hdk, i2]; exact hpos)
      (fun m hm hv hne => absurd (by rw [hall m hm (hv.trans hvk), hkd]; rfl) hne)
    obtain ⟨τ3, a3, b3⟩ := cone_clear hP hp (c1 := (-u.2 - u.1, u.1 - u.2)) (c2 := (u.2 - u.1, -u.1 - u.2)) (by
        have : crs (-u.2 - u.1, u.1 - u.2) (u.2 - u.1, -u.1 - u.2) = 2 * (u.1 * u.1 + u.2 * u.2) := by simp only [crs]; ring
        rw [this]; linarith) (fun _ => False) (by
        intro m hm hv _ hh
        rw [hall m hm hv, ← hu, crs_swap u, i2] at hh
        linarith [hh.1])
    set τ := min τ1 (min τ2 τ3)
    have τ0 : 0 < τ := lt_min a1 (lt_min a2 a3)
    have t1 : τ ≤ τ1 := min_le_left _ _
    have t2 : τ ≤ τ2 := (min_le_right _ _).trans (min_le_left _ _)
    have t3 : τ ≤ τ3 := (min_le_right _ _).trans (min_le_right _ _)
    rw [sees_const hC hL hP hx (b1 τ τ0 t1), sees_const hC hL hP hy (b2 τ τ0 t2)]
    refine (hC _ _ fun e he => ?_).symm
    rw [hok]
    exact b3 τ τ0 t3 τ τ0 t3 e he (fun h => h)
  · -- a common point of the corner
    suffices h : ∃ c, (0 < crs c (outDir s d) ∧ 0 < crs (outDir s (flip k)) c) ∧
        ∀ m : HE, m.1 ∈ s.sid.live → s.vtx m = s.vtx d →
        (m ≠ d → ¬ (0 ≤ crs c (outDir s m) ∧ 0 ≤ crs (outDir s m) (outDir s d))) ∧
        (m ≠ flip k → ¬ (0 ≤ crs (outDir s (flip k)) (outDir s m) ∧ 0 ≤ crs (outDir s m) c)) by
      obtain ⟨c, ⟨h1, h2⟩, h3⟩ := h
      obtain ⟨τ1, a1, b1⟩ := corner_end hP hd hp h1 (fun m hm hv hne => (h3 m hm hv).1 fun hh => hne (by rw [hh]))
      obtain ⟨τ2, a2, b2⟩ := corner_start hP hkl (hvk ▸ hp) h2
        (fun m hm hv hne => (h3 m hm (hv.trans hvk)).2 fun hh => hne (by rw [hh]; rfl))
      set τ := min τ1 τ2
      have τ0 : 0 < τ := lt_min a1 a2
      rw [sees_const hC hL hP hx (b1 τ τ0 (min_le_left _ _)), sees_const hC hL hP hy (b2 τ τ0 (min_le_right _ _)), hok]
    have hdk : d ≠ flip k := fun hh => hWU (by rw [← hh])
    by_cases hn : 0 < crs (outDir s (flip k)) (outDir s d)
    · have i1 : ∀ m, crs ((outDir s d).1 + (outDir s (flip k)).1, (outDir s d).2 + (outDir s (flip k)).2) (outDir s m) =
          crs (outDir s d) (outDir s m) + crs (outDir s (flip k)) (outDir s m) := fun m => by simp only [crs]; ring
      have i2 : ∀ m, crs (outDir s m) ((outDir s d).1 + (outDir s (flip k)).1, (outDir s d).2 + (outDir s (flip k)).2) =
          crs (outDir s m) (outDir s d) + crs (outDir s m) (outDir s (flip k)) := fun m => by simp only [crs]; ring
      have z : ∀ v : K × K, crs v v = 0 := fun v => by simp only [crs]; ring
      have key : ∀ m : HE, m.1 ∈ s.sid.live → s.vtx m = s.vtx d → m ≠ d → m ≠ flip k → 0 ≤ crs (outDir s m) (outDir s d) →
          0 ≤ crs (outDir s (flip k)) (outDir s m) → False := by
        intro m hm hv n1 n2 h1 h2
        refine cw_narrow (hwin' (outDir s d)) (hwin' (outDir s (flip k))) (hwin' (outDir s m)) ((hturn _ _ hfl hd).1 hn) ?_ ?_
          (fun hh => n1 (hinj m d hm hd hv hh)) (fun hh => n2 (hinj m _ hm hfl (hv.trans hvk.symm) hh)) (hcw' m hm hv)
        · rw [← hturn _ _ hd hm, crs_swap, neg_pos]
          exact not_lt.2 h1
        · rw [← hturn _ _ hm hfl, crs_swap, neg_pos]
          exact not_lt.2 h2
      refine ⟨((outDir s d).1 + (outDir s (flip k)).1, (outDir s d).2 + (outDir s (flip k)).2), ⟨?_, ?_⟩,
        fun m hm hv => ⟨fun n1 hh => ?_, fun n2 hh => ?_⟩⟩
      · rw [i1, z]; linarith
      · rw [i2, z]; linarith
      · rw [i1, crs_swap (outDir s m)] at hh
        by_cases n2 : m = flip k
        · rw [n2, z] at hh
          linarith
        · exact key m hm hv n1 n2 hh.2 (by linarith)
      · rw [i2, crs_swap (outDir s (flip k)) (outDir s m)] at hh
        by_cases n1 : m = d
        · rw [n1, z] at hh
          linarith
        · exact key m hm hv n1 n2 (by linarith) hh.1
    · have key : ∀ m : HE, m.1 ∈ s.sid.live → s.vtx m = s.vtx d → m ≠ d → m ≠ flip k →
          0 < crs (outDir s d) (outDir s m) ∧ 0 < crs (outDir s m) (outDir s (flip k)) := by
        intro m hm hv n1 n2
        rw [hturn _ _ hd hm, hturn _ _ hm hfl]
        exact cw_wide (hwin' (outDir s d)) (hwin' (outDir s (flip k))) (hwin' (outDir s m)) (by rw [← hturn _ _ hfl hd]; exact hn) hWU
          (fun hh => n1 (hinj m d hm hd hv hh)) (fun hh => n2 (hinj m _ hm hfl (hv.trans hvk.symm) hh)) (hcw' m hm hv)
      suffices h : ∃ c, (0 < crs c (outDir s d) ∧ 0 < crs (outDir s (flip k)) c) ∧
          (¬ (0 ≤ crs c (outDir s (flip k)) ∧ 0 ≤ crs (outDir s (flip k)) (outDir s d))) ∧
          ¬ (0 ≤ crs (outDir s (flip k)) (outDir s d) ∧ 0 ≤ crs (outDir s d) c) by
        obtain ⟨c, h1, h2, h3⟩ := h
        refine ⟨c, h1, fun m hm hv => ⟨fun n1 hh => ?_, fun n2 hh => ?_⟩⟩
        · by_cases n2 : m = flip k
          · rw [n2] at hh; exact h2 hh
          · have := (key m hm hv n1 n2).1
            rw [crs_swap (outDir s d)] at hh
            linarith [hh.2]
        · by_cases n1 : m = d
          · rw [n1] at hh; exact h3 hh
          · have := (key m hm hv n1 n2).2
            rw [crs_swap (outDir s m)] at hh
            linarith [hh.1]
      set u := outDir s d with hu
      set w := outDir s (flip k) with hw
      rcases lt_or_eq_of_le (not_lt.1 hn) with hlt | heq
      · have j1 : crs (-u.1 - w.1, -u.2 - w.2) u = - crs w u := by simp only [crs]; ring
        have j2 : crs w (-u.1 - w.1, -u.2 - w.2) = - crs w u := by simp only [crs]; ring
        refine ⟨(-u.1 - w.1, -u.2 - w.2), ⟨by rw [j1]; linarith, by rw [j2]; linarith⟩, fun hh => ?_, fun hh => ?_⟩
        · linarith [hh.2]
        · linarith [hh.1]
      · have hpos : 0 < u.1 * u.1 + u.2 * u.2 := dot_self_pos (hne d hd)
        have hpos' : 0 < w.1 * w.1 + w.2 * w.2 := dot_self_pos (hne _ hfl)
        -- opposite directions
        have hdot : w.1 * u.1 + w.2 * u.2 < 0 := by
          by_contra hh
          have h0 := not_lt.1 hh
          rcases eq_or_lt_of_le h0 with h0 | h0
          · have : (w.1 * w.1 + w.2 * w.2) * (u.1 * u.1 + u.2 * u.2) = 0 := by
              have e1 : crs w u = w.1 * u.2 - w.2 * u.1 := rfl
              rw [e1] at heq
              linear_combination (w.1 * u.2 - w.2 * u.1) * heq - (w.1 * u.1 + w.2 * u.2) * h0
            exact absurd this (mul_pos hpos' hpos).ne'
          · apply hWU
            have ht : 0 < (w.1 * u.1 + w.2 * u.2) / (u.1 * u.1 + u.2 * u.2) := div_pos h0 hpos
            rw [← hg.scale _ ht u]
            congr 1
            have e1 : crs w u = w.1 * u.2 - w.2 * u.1 := rfl
            rw [e1] at heq
            refine Prod.ext ?_ ?_
            · simp only
              rw [div_mul_eq_mul_div, eq_div_iff hpos.ne']
              linear_combination u.2 * heq
            · simp only
              rw [div_mul_eq_mul_div, eq_div_iff hpos.ne']
              linear_combination (-u.1) * heq
        refine ⟨(u.2, -u.1), ⟨?_, ?_⟩, fun hh => ?_, fun hh => ?_⟩
        · simp only [crs]; linarith
        · simp only [crs]; linarith
        · have : crs (u.2, -u.1) w = w.1 * u.1 + w.2 * u.2 := by simp only [crs]; ring
          linarith [hh.1]
        · have : crs u (u.2, -u.1) = -(u.1 * u.1 + u.2 * u.2) := by simp only [crs]; ring
          linarith [hh.2]

/-- Points that see a side and points that see the next one are in the same wires. -/
theorem corner_same {g : Geom K} (hg : ArgOk g) {s : St K} (hL : Links s ∅ ∅) (hW : Wires s) (hP : Planar s) (hF : Fan g s)
    {d k : HE} (hd : d.1 ∈ s.sid.live) (hk : s.next d = some k) {x y : K × K} (hx : Sees s d x) (hy : Sees s k y) :
    cnt s x = cnt s y :=
  corner_const (F := cnt s) hg (fun _ _ hc => cnt_path hL hW hc) hL hP hF hd hk hx hy

end
end Verif.Decomp
