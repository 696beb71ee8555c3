import Verif.Decomp.Fan

/-! The clockwise order in all runs that keep the drawing proper. -/
namespace Verif.Decomp

variable {K : Type} [Field K] [LinearOrder K] [IsStrictOrderedRing K]

/-- `m` is strictly between `a` and `b` on a straight line. -/
def Between (a m b : K × K) : Prop :=
  ∃ t, 0 < t ∧ t < 1 ∧ m = (a.1 + t * (b.1 - a.1), a.2 + t * (b.2 - a.2))

theorem Between.symm {a m b : K × K} (h : Between a m b) : Between b m a := by
  obtain ⟨t, h1, h2, rfl⟩ := h
  refine ⟨1 - t, by linarith, by linarith, ?_⟩
  ext <;> dsimp only <;> ring

/-- The direction from an end to the middle is the direction to the other end. -/
theorem Between.left {s : St K} {a m b : Id} (h : Between (s.xy a) (s.xy m) (s.xy b)) :
    ∃ t, 0 < t ∧ diff s a m = (t * (diff s a b).1, t * (diff s a b).2) := by
  obtain ⟨t, h1, h2, h3⟩ := h
  refine ⟨t, h1, ?_⟩
  unfold diff
  rw [h3]
  ext <;> dsimp only <;> ring

theorem Between.right {s : St K} {a m b : Id} (h : Between (s.xy a) (s.xy m) (s.xy b)) :
    ∃ t, 0 < t ∧ diff s m b = (t * (diff s a b).1, t * (diff s a b).2) := by
  obtain ⟨t, h1, h2, h3⟩ := h
  refine ⟨1 - t, by linarith, ?_⟩
  unfold diff
  rw [h3]
  ext <;> dsimp only <;> ring

theorem scaled_ne {t : K} {v : K × K} (ht : 0 < t) (hv : v ≠ (0, 0)) : (t * v.1, t * v.2) ≠ (0, 0) := by
  intro h
  rw [Prod.mk.injEq, mul_eq_zero, mul_eq_zero] at h
  exact hv (Prod.ext (h.1.resolve_left ht.ne') (h.2.resolve_left ht.ne'))

theorem scaled_ne' {t : K} {v : K × K} (hv : (t * v.1, t * v.2) ≠ (0, 0)) : v ≠ (0, 0) := by
  rintro rfl
  exact hv (by simp)

/-- Two ends with different angles are neighbours of each other. -/
theorem CW.pair {at_ : HE → Prop} {α : HE → K} {x y : HE} (h : ∀ m, at_ m → m = x ∨ m = y) (hne : α x ≠ α y) :
    CW at_ α x y := by
  rcases lt_or_gt_of_ne hne with hlt | hlt
  · refine Or.inr ⟨fun m hm => ?_, fun m hm => ?_⟩
    · rcases h m hm with rfl | rfl
      exacts [le_rfl, hlt.le]
    · rcases h m hm with rfl | rfl
      exacts [hlt.le, le_rfl]
  · refine Or.inl ⟨hlt, fun m hm hh => ?_⟩
    rcases h m hm with rfl | rfl
    exacts [lt_irrefl _ hh.2, lt_irrefl _ hh.1]

theorem splitSegment_fan {g : Geom K} (hg : AngleOk g) {e n mid : Id} {s s' : St K} (hL : Links s ∅ ∅)
    (hS : SplitSeg s s' e n mid) (hm : ∀ d : HE, d.1 ∈ s.sid.live → s.vtx d ≠ mid)
    (hB : Between (s.xy (s.vtx (e, false))) (s.xy mid) (s.xy (s.vtx (e, true)))) (hF : Fan g s) : Fan g s' := by
  have hne : ∀ d : HE, d.1 ∈ s.sid.live → d.1 ≠ n := fun d hd hh => hS.fresh (hh ▸ hd)
  have hen : e ≠ n := hne (e, true) hS.was
  have hdf : ∀ p q, diff s' p q = diff s p q := fun p q => diff_congr (by rw [hS.xy]) (by rw [hS.xy])
  have ve0 : s'.vtx (e, false) = s.vtx (e, false) := hS.vo (e, false) (by simp) hen
  obtain ⟨t1, p1, q1⟩ := hB.left
  obtain ⟨t2, p2, q2⟩ := hB.right
  obtain ⟨t3, p3, q3⟩ := hB.symm.left
  obtain ⟨t4, p4, q4⟩ := hB.symm.right
  have hlg := hF.long e hS.was
  -- angles
  have a1 : dirAng g s' (e, false) = dirAng g s (e, false) := by
    unfold dirAng; simp only [Bool.not_false]
    rw [hdf, ve0, hS.ve, q1, hg.scale t1 p1]
  have a2 : dirAng g s' (n, true) = dirAng g s (e, true) := by
    unfold dirAng; simp only [Bool.not_true]
    rw [hdf, hS.vn1, hS.vn0, q3, hg.scale t3 p3]
  have a3 : dirAng g s' (e, true) ≠ dirAng g s' (n, false) := by
    unfold dirAng; simp only [Bool.not_true, Bool.not_false]
    rw [hdf, hdf, hS.ve, ve0, hS.vn0, hS.vn1, q4, hg.scale t4 p4, q2, hg.scale t2 p2, diff_neg s (s.vtx (e, false))]
    exact hg.opp _ hlg
  have ao : ∀ d : HE, d.1 ∈ s.sid.live → d.1 ≠ e → dirAng g s' d = dirAng g s d := by
    intro d hd hde
    unfold dirAng
    rw [hdf, hS.vo d (fun hh => hde (congrArg Prod.fst hh)) (hne d hd),
      hS.vo (d.1, !d.2) (fun hh => hde (congrArg Prod.fst hh)) (hne d hd)]
  -- ends away from the middle, with their ends before the split
  have hren : ∀ d : HE, d.1 ∈ s'.sid.live → s'.vtx d ≠ mid →
      ∃ d0 : HE, d0.1 ∈ s.sid.live ∧ s.vtx d0 = s'.vtx d ∧ dirAng g s d0 = dirAng g s' d ∧
        ((d0 = (e, true) ∧ d = (n, true)) ∨ (d0 ≠ (e, true) ∧ d = d0)) := by
    rintro ⟨d, v⟩ hd hv
    rcases (hS.live d).1 hd with h1 | h1
    · by_cases hde : d = e
      · subst hde
        cases v
        · exact ⟨(d, false), h1, ve0.symm, a1.symm, Or.inr ⟨by simp, rfl⟩⟩
        · exact absurd hS.ve hv
      · have : ((d, v) : HE) ≠ (e, true) := fun hh => hde (congrArg Prod.fst hh)
        exact ⟨(d, v), h1, (hS.vo _ this (hne (d, v) h1)).symm, (ao (d, v) h1 hde).symm, Or.inr ⟨this, rfl⟩⟩
    · subst h1
      cases v
      · exact absurd hS.vn0 hv
      · exact ⟨(e, true), hS.was, hS.vn1.symm, a2.symm, Or.inl ⟨rfl, rfl⟩⟩
  have hmid : ∀ d : HE, d.1 ∈ s'.sid.live → s'.vtx d = mid → d = (e, true) ∨ d = (n, false) := by
    rintro ⟨d, v⟩ hd hv
    by_contra hcon
    rw [not_or] at hcon
    rcases (hS.live d).1 hd with h1 | h1
    · rw [hS.vo _ hcon.1 (hne (d, v) h1)] at hv
      exact hm _ h1 hv
    · subst h1
      cases v
      · exact hcon.2 rfl
      · rw [hS.vn1] at hv
        exact hS.ne1 hv.symm
  refine ⟨fun j hj => ?_, fun j hj => ?_, fun d d' hd hd' hv ha => ?_, fun d k hd hk => ?_⟩
  · rw [hdf]
    by_cases hje : j = e
    · subst hje
      rw [ve0, hS.ve, q1]; exact scaled_ne p1 hlg
    · rcases (hS.live j).1 hj with h1 | rfl
      · rw [hS.vo _ (by simp) (hne (j, false) h1), hS.vo _ (fun hh => hje (congrArg Prod.fst hh)) (hne (j, true) h1)]
        exact hF.long j h1
      · rw [hS.vn0, hS.vn1, q2]; exact scaled_ne p2 hlg
  · rw [hdf, hS.vec]
    by_cases hje : j = e
    · subst hje
      refine ⟨1, one_pos, ?_⟩
      rw [upd, Function.update_self, ve0, hS.ve, one_mul, one_mul]
      rfl
    · rw [upd, Function.update_of_ne hje]
      rcases (hS.live j).1 hj with h1 | rfl
      · rw [upd, Function.update_of_ne (hne (j, false) h1), hS.vo _ (by simp) (hne (j, false) h1),
          hS.vo _ (fun hh => hje (congrArg Prod.fst hh)) (hne (j, true) h1)]
        exact hF.dir j h1
      · refine ⟨1, one_pos, ?_⟩
        rw [upd, Function.update_self, hS.vn0, hS.vn1, one_mul, one_mul]
        rfl
  · by_cases hdm : s'.vtx d = mid
    · rcases hmid d hd hdm with rfl | rfl <;> rcases hmid d' hd' (hv.symm.trans hdm) with rfl | rfl
      · rfl
      · exact absurd ha a3
      · exact absurd ha.symm a3
      · rfl
    · obtain ⟨x, x1, x2, x3, x4⟩ := hren d hd hdm
      obtain ⟨y, y1, y2, y3, y4⟩ := hren d' hd' (fun hh => hdm (hv.trans hh))
      have := hF.inj x y x1 y1 (by rw [x2, y2, hv]) (by rw [x3, y3, ha])
      subst this
      rcases x4 with ⟨x4, rfl⟩ | ⟨x4, rfl⟩ <;> rcases y4 with ⟨y4, rfl⟩ | ⟨y4, rfl⟩
      · rfl
      · exact absurd x4 y4
      · exact absurd y4 x4
      · rfl
  · by_cases hdm : s'.vtx d = mid
    · rcases hmid d hd hdm with rfl | rfl
      · rw [hS.nx1] at hk
        obtain rfl := Option.some.inj hk
        exact CW.pair (fun m hm => hmid m hm.1 (hm.2.trans hdm)) a3
      · rw [hS.nx0] at hk
        obtain rfl := Option.some.inj hk
        exact CW.pair (fun m hm => (hmid m hm.1 (hm.2.trans hdm)).symm) a3.symm
    · obtain ⟨x, x1, x2, x3, x4⟩ := hren d hd hdm
      obtain ⟨k0, k1, k2, k3, _⟩ := hL.next_ok x1 (by simp)
      have hk' : some k = if some k0 = some (e, false) then some (n, false) else some k0 := by
        rw [← hk, ← k1]
        rcases x4 with ⟨rfl, rfl⟩ | ⟨h1, rfl⟩
        · exact hS.nb
        · exact hS.no _ x1 h1
      have hc := hF.cw x k0 x1 k1
      have hkα : dirAng g s' (flip k) = dirAng g s (flip k0) := by
        split at hk'
        · next h =>
          obtain rfl := Option.some.inj h
          obtain rfl := Option.some.inj hk'
          exact a2
        · next h =>
          obtain rfl := Option.some.inj hk'
          obtain ⟨k1', v⟩ := k
          by_cases hke : k1' = e
          · subst hke
            cases v
            · exact absurd rfl h
            · exact a1
          · exact ao _ k2 hke
      refine CW.map hc x3.symm hkα (fun m hm => ?_)
      obtain ⟨m0, m1, m2, m3, _⟩ := hren m hm.1 (fun hh => hdm (hm.2.symm.trans hh))
      exact ⟨m0, ⟨m1, by rw [m2, x2, hm.2]⟩, m3⟩

theorem joinSegments_fan {g : Geom K} (hg : AngleOk g) {x y : HE} {s s' : St K} (hL : Links s ∅ ∅)
    (hJ : JoinSeg s s' x y) (hy : y.1 ∈ s.sid.live) (hr : ∀ d : HE, d.1 ∈ s.sid.live → s.vtx d = s.vtx x → d = x ∨ d = flip y)
    (hB : Between (s.xy (s.vtx (flip x))) (s.xy (s.vtx x)) (s.xy (s.vtx y))) (hF : Fan g s) : Fan g s' := by
  have hdf : ∀ p q, diff s' p q = diff s p q := fun p q => diff_congr (by rw [hJ.xy]) (by rw [hJ.xy])
  have hvx : s'.vtx x = s.vtx y := by rw [hJ.vtx, upd, Function.update_self]
  have hvo : ∀ d, d ≠ x → s'.vtx d = s.vtx d := fun d hd => by rw [hJ.vtx, upd, Function.update_of_ne hd]
  have hfx : flip x ≠ x := fun hh => hL.flip_ne hJ.was (congrArg s.vtx hh)
  obtain ⟨t1, p1, q1⟩ := hB.left
  obtain ⟨t2, p2, q2⟩ := hB.right
  obtain ⟨t3, p3, q3⟩ := hB.symm.left
  obtain ⟨t4, p4, q4⟩ := hB.symm.right
  have a1 : dirAng g s' (flip x) = dirAng g s (flip x) := by
    have e1 : ((flip x).1, !(flip x).2) = x := by simp [flip]
    unfold dirAng
    rw [hdf, e1, hvx, hvo _ hfx, q1, hg.scale t1 p1]
  have a2 : dirAng g s' x = dirAng g s y := by
    have e1 : (x.1, !x.2) = flip x := rfl
    have e2 : (y.1, !y.2) = flip y := rfl
    unfold dirAng
    rw [hdf, e1, e2, hvx, hvo _ hfx, hJ.mid, q3, hg.scale t3 p3]
  have ao : ∀ d : HE, d.1 ≠ x.1 → dirAng g s' d = dirAng g s d := by
    intro d hd
    unfold dirAng
    rw [hdf, hvo d (fun hh => hd (congrArg Prod.fst hh)),
      hvo (d.1, !d.2) (fun hh => hd (show (d.1, !d.2).1 = x.1 from congrArg Prod.fst hh))]
  have hlg : diff s (s.vtx (flip x)) (s.vtx y) ≠ (0, 0) := by
    apply scaled_ne' (t := t1)
    rw [← q1]
    have := hF.long x.1 hJ.was
    obtain ⟨x1, v⟩ := x
    cases v
    · dsimp only [flip] at *
      rw [diff_neg]
      intro h0
      rw [Prod.mk.injEq, neg_eq_zero, neg_eq_zero] at h0
      exact this (Prod.ext h0.1 h0.2)
    · exact this
  have hdx : ∀ d : HE, d.1 = x.1 → d = x ∨ d = flip x := fun d hd => eq_or_flip hd
  -- the ends before the call
  have hren : ∀ d : HE, d.1 ∈ s'.sid.live → ∃ d0 : HE, d0.1 ∈ s.sid.live ∧ s.vtx d0 = s'.vtx d ∧
      dirAng g s d0 = dirAng g s' d ∧ ((d0 = y ∧ d = x) ∨ (d0 = d ∧ d.1 ≠ y.1 ∧ d ≠ x)) := by
    intro d hd
    obtain ⟨d1, d2⟩ := (hJ.live d.1).1 hd
    by_cases hd1 : d = x
    · subst hd1
      exact ⟨y, hy, hvx.symm, a2.symm, Or.inl ⟨rfl, rfl⟩⟩
    · refine ⟨d, d2, (hvo d hd1).symm, ?_, Or.inr ⟨rfl, d1, hd1⟩⟩
      by_cases hd2 : d.1 = x.1
      · rw [(hdx d hd2).resolve_left hd1, a1]
      · rw [ao d hd2]
  refine ⟨fun j hj => ?_, fun j hj => ?_, fun d d' hd hd' hv ha => ?_, fun d k hd hk => ?_⟩
  · rw [hdf]
    by_cases hjx : j = x.1
    · subst hjx
      obtain ⟨x1, v⟩ := x
      dsimp only at *
      cases v
      · rw [hvx, hvo _ (by simp), diff_neg]
        intro h0
        rw [Prod.mk.injEq, neg_eq_zero, neg_eq_zero] at h0
        exact hlg (Prod.ext h0.1 h0.2)
      · rw [hvx, hvo _ (by simp)]
        exact hlg
    · rw [hvo _ (fun hh => hjx (congrArg Prod.fst hh)), hvo _ (fun hh => hjx (congrArg Prod.fst hh))]
      exact hF.long j ((hJ.live j).1 hj).2
  · rw [hdf, hJ.vec]
    by_cases hjx : j = x.1
    · subst hjx
      obtain ⟨t, ht, hv⟩ := hF.dir x.1 hJ.was
      refine ⟨t * t1, mul_pos ht p1, ?_⟩
      rw [hv]
      obtain ⟨x1, v⟩ := x
      dsimp only at *
      cases v
      · rw [hvx, hvo _ (by simp), diff_neg s (s.vtx (x1, true)), diff_neg s (s.vtx (x1, true))]
        have q1' : diff s (s.vtx (x1, true)) (s.vtx (x1, false)) = _ := q1
        rw [q1']
        simp only [flip, Bool.not_false, mul_neg, Prod.mk.injEq, neg_inj]
        constructor <;> ring
      · rw [hvx, hvo _ (by simp)]
        have q1' : diff s (s.vtx (x1, false)) (s.vtx (x1, true)) = _ := q1
        rw [q1']
        simp only [flip, Bool.not_true, Prod.mk.injEq]
        constructor <;> ring
    · rw [hvo _ (fun hh => hjx (congrArg Prod.fst hh)), hvo _ (fun hh => hjx (congrArg Prod.fst hh))]
      exact hF.dir j ((hJ.live j).1 hj).2
  · obtain ⟨u, u1, u2, u3, u4⟩ := hren d hd
    obtain ⟨w, w1, w2, w3, w4⟩ := hren d' hd'
    have := hF.inj u w u1 w1 (by rw [u2, w2, hv]) (by rw [u3, w3, ha])
    subst this
    rcases u4 with ⟨u4, rfl⟩ | ⟨rfl, u5, u6⟩ <;> rcases w4 with ⟨w4, rfl⟩ | ⟨rfl, w5, w6⟩
    · rfl
    · exact absurd (congrArg Prod.fst u4) w5
    · exact absurd (congrArg Prod.fst w4) u5
    · rfl
  · obtain ⟨u, u1, u2, u3, u4⟩ := hren d hd
    obtain ⟨k0, k1, k2, k3, _⟩ := hL.next_ok u1 (by simp)
    have hk' : some k = if some k0 = some (flip y) then some (flip x) else some k0 := by
      rw [← hk, ← k1]
      rcases u4 with ⟨rfl, rfl⟩ | ⟨rfl, u5, u6⟩
      · exact hJ.nb
      · exact hJ.no _ u5 u1 u6
    have hc := hF.cw u k0 u1 k1
    have humid : s.vtx u ≠ s.vtx x := by
      intro hh
      rcases u4 with ⟨rfl, rfl⟩ | ⟨rfl, u5, u6⟩
      · exact hL.flip_ne hy (hJ.mid.trans hh.symm)
      · rcases hr u u1 hh with h | h
        · exact u6 h
        · exact u5 (by rw [h]; rfl)
    have hkα : dirAng g s' (flip k) = dirAng g s (flip k0) := by
      split at hk'
      · next h =>
        obtain rfl := Option.some.inj h
        obtain rfl := Option.some.inj hk'
        have : flip (flip x) = x := by simp [flip]
        rw [this, a2]
        simp [flip]
      · next h =>
        obtain rfl := Option.some.inj hk'
        by_cases hkx : (flip k).1 = x.1
        · rcases hdx _ hkx with h1 | h1
          · rw [h1] at k3
            exact absurd k3.symm humid
          · rw [h1, a1]
        · exact ao _ hkx
    refine CW.map hc u3.symm hkα (fun m hm => ?_)
    obtain ⟨m0, m1, m2, m3, _⟩ := hren m hm.1
    exact ⟨m0, ⟨m1, by rw [m2, u2, hm.2]⟩, m3⟩

/-- Calls that keep the drawing proper: a new segment does not overlap an existing one at its ends, segments are split
at and joined over points between their ends, and only points without segments are moved. -/
def Proper (g : Geom K) (s : St K) : Op K → Prop
  | .newSegment a b => s.table (a, b) ≠ none ∨ s.table (b, a) ≠ none ∨ (NewDir g s a b ∧ NewDir g s b a)
  | .splitSegment e mid => Between (s.xy (s.vtx (e, false))) (s.xy mid) (s.xy (s.vtx (e, true)))
  | .joinSegments mid e0 e1 => ∀ v w, s.vtx (e0, v) = mid → s.vtx (e1, w) = mid →
      Between (s.xy (s.vtx (e0, !v))) (s.xy mid) (s.xy (s.vtx (e1, !w)))
  | .move p _ => p ∈ s.pid.live ∧ s.pseg p = none
  | _ => True

omit [LinearOrder K] [IsStrictOrderedRing K] in
theorem ring_two {s : St K} {x y : HE} (hL : Links s ∅ ∅) (hx : x.1 ∈ s.sid.live)
    (h1 : s.next x = some y) (h2 : s.next (flip y) = some (flip x)) {d : HE} (hd : d.1 ∈ s.sid.live)
    (hv : s.vtx d = s.vtx x) : d = x ∨ d = flip y := by
  obtain ⟨m, hr, _⟩ := hL.ring (s.vtx x) (hL.vlive x hx)
  obtain ⟨l', p1, p2, p3⟩ := hr.from ((hr.mem x).2 ⟨hx, rfl, by simp⟩)
  have hdm : d ∈ x :: l' := p2.mem_iff.2 ((hr.mem d).2 ⟨hd, hv, by simp⟩)
  obtain ⟨_, z, z1, z2⟩ := p1
  rw [rot_of_next h1] at z1
  obtain rfl := Option.some.inj z1
  cases l' with
  | nil => exact Or.inl (by simpa using hdm)
  | cons u l'' =>
    obtain ⟨rfl, w, w1, w2⟩ := z2
    rw [rot_of_next h2, flip_flip] at w1
    obtain rfl := Option.some.inj w1
    cases l'' with
    | nil => simpa using hdm
    | cons v l3 =>
      obtain ⟨rfl, _⟩ := w2
      simp at p3

theorem step_fan {g : Geom K} (hg : AngleOk g) {o : Op K} {s s' : St K} (hs : step g s o = .ok s') (hI : Inv s)
    (hV : Valid s o) (hP : Proper g s o) (hF : Fan g s) : Fan g s' := by
  cases o with
  | addPoint xy q =>
    simp only [step, Except.ok.injEq] at hs
    subst hs
    have hn := (Ids.append_ok hI.pids).1
    have hx : ∀ d : HE, d.1 ∈ s.sid.live → (addFreePoint xy q s).2.xy (s.vtx d) = s.xy (s.vtx d) := by
      intro d hd
      have : s.vtx d ≠ s.pid.append.1 := fun hh => hn (hh ▸ hI.links.vlive d hd)
      simp only [addFreePoint, upd, Function.update_of_ne this]
    have hdf : ∀ d : HE, d.1 ∈ s.sid.live →
        diff (addFreePoint xy q s).2 (s.vtx d) (s.vtx (d.1, !d.2)) = diff s (s.vtx d) (s.vtx (d.1, !d.2)) :=
      fun d hd => diff_congr (hx d hd) (hx (d.1, !d.2) hd)
    have hα : ∀ d : HE, d.1 ∈ s.sid.live → dirAng g (addFreePoint xy q s).2 d = dirAng g s d :=
      fun d hd => congrArg g.ang (hdf d hd)
    refine ⟨fun j hj => ?_, fun j hj => ?_, fun d d' hd hd' hv ha => ?_, fun d k hd hk => ?_⟩
    · exact (hdf (j, false) hj).symm ▸ hF.long j hj
    · exact (hdf (j, false) hj).symm ▸ hF.dir j hj
    · rw [hα d hd, hα d' hd'] at ha
      exact hF.inj d d' hd hd' hv ha
    · obtain ⟨k', y1, y2, y3, _⟩ := hI.links.next_ok (d := d) hd (by simp)
      have hk : s.next d = some k := hk
      rw [hk] at y1
      obtain rfl := Option.some.inj y1
      exact CW.map (hF.cw d k hd hk) (hα d hd) (hα _ y2) (fun m hm => ⟨m, hm, (hα m hm.1).symm⟩)
  | removePoint p =>
    simp only [step] at hs
    unfold removeFreePoint at hs
    simp only [bind_ok, Except.ok.injEq] at hs
    obtain ⟨_, _, q, _, _, _, l, _, m, hm, rfl⟩ := hs
    exact ⟨hF.long, hF.dir, hF.inj, hF.cw⟩
  | newSegment a b =>
    simp only [step, bind_ok, Except.ok.injEq] at hs
    obtain ⟨⟨e, s1⟩, h1, h2⟩ := hs
    dsimp only at h2
    subst h2
    have hNC := (newSegment_cases h1 hI.links hV.1 hV.2).2
    by_cases hf : e ∈ s.sid.live
    · cases hNC with
      | old _ hs' => dsimp only at hs'; subst hs'; exact ⟨hF.long, hF.dir, hF.inj, hF.cw⟩
      | wire t1 t2 pa pb q qa qb hs =>
        exact absurd hf (newWire_eff (T := False) (s := quiet s) hs (hI.links.frame rfl rfl rfl rfl rfl) hV.1 hV.2
          (hI.free.congr rfl rfl rfl rfl rfl) pa pb).1.fresh
      | dendrite t1 t2 i root hC pa pb hs =>
        exact absurd hf (addDendrite_eff (T := False) (s := quiet s) hs (hI.links.frame rfl rfl rfl rfl rfl) hV.1 hV.2
          (hI.free.congr rfl rfl rfl rfl rfl) hC pa).1.fresh
      | join t1 t2 ia ib hCa hCb pa pb _ hs =>
        exact absurd hf (joinWires_eff (T := False) (s := quiet s) hs (hI.links.frame rfl rfl rfl rfl rfl) hV.1 hV.2
          (hI.free.congr rfl rfl rfl rfl rfl) hCa hCb).1.fresh
      | split t1 t2 ia ib hCa hCb pa pb _ hs =>
        obtain ⟨_, _, _, _, _, _, _, _, hS, _⟩ := splitPoly_start (T := False) (s := quiet s) hs
          (hI.links.frame rfl rfl rfl rfl rfl) hV.1 hV.2 (hI.free.congr rfl rfl rfl rfl rfl) (by simp) hCa hCb
        exact absurd hf hS.add.fresh
    · have hnew : NewDir g s a b ∧ NewDir g s b a := by
        rcases hP with h | h | h
        · cases hNC with
          | old _ hs' =>
            rename_i ho
            rcases ho with ho | ho
            · exact absurd ((hI.tab.exact_ _ _ _).1 ho).1 hf
            · exact absurd ((hI.tab.exact_ _ _ _).1 ho).1 hf
          | wire t1 t2 => exact absurd t1 h
          | dendrite t1 t2 => exact absurd t1 h
          | join t1 t2 => exact absurd t1 h
          | split t1 t2 => exact absurd t1 h
        · cases hNC with
          | old _ hs' =>
            rename_i ho
            rcases ho with ho | ho
            · exact absurd ((hI.tab.exact_ _ _ _).1 ho).1 hf
            · exact absurd ((hI.tab.exact_ _ _ _).1 ho).1 hf
          | wire t1 t2 => exact absurd t2 h
          | dendrite t1 t2 => exact absurd t2 h
          | join t1 t2 => exact absurd t2 h
          | split t1 t2 => exact absurd t2 h
        · exact h
      exact newSegment_fan hg h1 hI hV.1 hV.2 hf hF hnew.1 hnew.2
  | deleteSegment e => exact deleteSegment_fan hs hI hV hF
  | splitSegment e mid =>
    simp only [step, bind_ok, Except.ok.injEq] at hs
    obtain ⟨⟨n, s1⟩, h1, h2⟩ := hs
    dsimp only at h2
    subst h2
    obtain ⟨_, _, hS⟩ := splitSegment_eff h1 hI.links hV.1 hV.2.1 hV.2.2 hI.free (by simp)
    exact splitSegment_fan hg hI.links hS (hI.links.no_seg hV.2.1 (by simp) hV.2.2) hP hF
  | joinSegments mid e0 e1 =>
    obtain ⟨x, y, hx, hy, hxm, hJS⟩ := joinSegments_run hs hI hV
    have hyl : y.1 ∈ s.sid.live := hy ▸ hV.2.1
    refine joinSegments_fan hg hI.links hJS hyl (fun d hd hv => ring_two hI.links hJS.was hJS.nx hJS.ny hd hv) ?_ hF
    have := hP x.2 (!y.2) (by rw [← hx]; exact hxm) (by rw [← hy, ← hxm, ← hJS.mid]; rfl)
    rw [Bool.not_not, ← hx, ← hy] at this
    rw [hxm]
    exact this
  | move p d =>
    obtain ⟨h1, h2, h3, h5, h4⟩ := movePoint_vec hs hI.links hP.1
    have hno := hI.links.no_seg hP.1 (by simp) hP.2
    have hx : ∀ d : HE, d.1 ∈ s.sid.live → s'.xy (s.vtx d) = s.xy (s.vtx d) := by
      intro d hd
      rw [h1, upd, Function.update_of_ne (hno d hd)]
    have hdf : ∀ d : HE, d.1 ∈ s.sid.live →
        diff s' (s.vtx d) (s.vtx (d.1, !d.2)) = diff s (s.vtx d) (s.vtx (d.1, !d.2)) :=
      fun d hd => diff_congr (hx d hd) (hx (d.1, !d.2) hd)
    have hα : ∀ d : HE, d.1 ∈ s.sid.live → dirAng g s' d = dirAng g s d := by
      intro d hd
      unfold dirAng
      rw [h2, hdf d hd]
    refine ⟨fun j hj => ?_, fun j hj => ?_, fun d d' hd hd' hv ha => ?_, fun d k hd hk => ?_⟩
    · rw [h3] at hj
      rw [h2]
      exact (hdf (j, false) hj).symm ▸ hF.long j hj
    · rw [h3] at hj
      rw [h2, h4 j hj, if_neg (by rintro (h | h); exacts [hno _ hj h, hno _ hj h])]
      exact (hdf (j, false) hj).symm ▸ hF.dir j hj
    · rw [h3] at hd hd'
      rw [h2] at hv
      rw [hα d hd, hα d' hd'] at ha
      exact hF.inj d d' hd hd' hv ha
    · rw [h3] at hd
      rw [h5] at hk
      obtain ⟨k', y1, y2, y3, _⟩ := hI.links.next_ok (d := d) hd (by simp)
      rw [hk] at y1
      obtain rfl := Option.some.inj y1
      refine CW.map (hF.cw d k hd hk) (hα d hd) (hα _ y2) (fun m hm => ?_)
      obtain ⟨m1, m2⟩ := hm
      rw [h3] at m1
      rw [h2] at m2
      exact ⟨m, ⟨m1, m2⟩, (hα m m1).symm⟩

theorem ReachBy.fan {g : Geom K} (hg : AngleOk g) {s : St K} (h : ReachBy g (Proper g) s) : Fan g s := by
  induction h with
  | init =>
    have hn : ∀ j : Id, j ∉ (Verif.Decomp.init : St K).sid.live := fun j h => by simp [Verif.Decomp.init] at h
    exact ⟨fun j hj => absurd hj (hn j), fun j hj => absurd hj (hn j), fun d d' hd => absurd hd (hn d.1),
      fun d k hd => absurd hd (hn d.1)⟩
  | step hr hV hP hs ih => exact step_fan hg hs hr.reach.inv hV hP ih

/-- In every run of proper calls, the other side of the side after `d` is the first end clockwise from `d` at its point,
and no two ends at a point have the same direction. Missing: calls that are not proper, e.g. moving a point with
segments, are outside. -/
theorem clockwise_partial {g : Geom K} (hg : AngleOk g) {s : St K} (h : ReachBy g (Proper g) s) :
    (∀ d k : HE, d.1 ∈ s.sid.live → s.next d = some k → Clockwise g s d (flip k)) ∧
      ∀ d d' : HE, d.1 ∈ s.sid.live → d'.1 ∈ s.sid.live → s.vtx d = s.vtx d' → dirAng g s d = dirAng g s d' → d = d' :=
  ⟨(h.fan hg).cw, (h.fan hg).inj⟩

/-- `Point.insert_vector` gives the corner that contains the vector, in every run of proper calls. -/
theorem insertVector_corner {g : Geom K} (hg : AngleOk g) {s : St K} (h : ReachBy g (Proper g) s) {p : Id}
    (hp : p ∈ s.pid.live) {v : K × K} {i : Ins} (hs : insertVector g s p v = .ok (some i))
    (hv : ∀ d : HE, d.1 ∈ s.sid.live → s.vtx d = p → dirAng g s d ≠ g.ang v) :
    i.1.1 ∈ s.sid.live ∧ s.vtx i.1 = p ∧ s.next i.1 = some i.2.1 ∧ s.wire i.1 = i.2.2 ∧
      InGap (AtPoint s i.1) (dirAng g s) i.1 (flip i.2.1) (g.ang v) := by
  have hI := h.reach.inv
  have hF := h.fan hg
  obtain ⟨hC, hG⟩ : Corner s p i ∧ Gap g s v i := by
    rcases insertVector_sound hI.links hp hs with ⟨_, h⟩ | ⟨j, h1, h2⟩
    · cases h
    · obtain rfl := Option.some.inj h1
      exact h2
  obtain ⟨lo, hlo⟩ := hg.window
  obtain ⟨k', k1, k2, k3, _⟩ := hI.links.next_ok hC.live (by simp)
  rw [hC.nxt] at k1
  obtain rfl := Option.some.inj k1
  have k2' : (flip i.2.1).1 ∈ s.sid.live := k2
  refine ⟨hC.live, hC.at_, hC.nxt, hC.wir.symm, ?_⟩
  refine inGap_of_turn (lo := lo) (T := g.twoPi) (hF.cw _ _ hC.live hC.nxt) (hlo _) (hlo _)
    (hv _ hC.live hC.at_).symm (hv _ k2' (k3.trans hC.at_)).symm ?_
  unfold Gap at hG
  rw [hF.turn_eq hg hC.live, hF.turn_eq hg k2'] at hG
  exact hG

omit [Field K] [IsStrictOrderedRing K] in
theorem insertGo_found [Field K] {g : Geom K} {s : St K} {a : K} : ∀ {hs : List HE} {last : K} {x : HE} (hne : hs ≠ []),
    last ≤ turn g s a (hs.getLast hne) → ∃ r, insertGo g s a last (some x) hs = .ok r := by
  intro hs
  induction hs with
  | nil => intro last x hne; exact absurd rfl hne
  | cons h hs ih =>
    intro last x hne hl
    simp only [insertGo]
    split
    · exact ⟨_, rfl⟩
    · next hlt =>
      cases hs with
      | nil => exact absurd hl hlt
      | cons h' hs =>
        refine ih (by simp) ?_
        rw [List.getLast_cons (by simp)] at hl
        exact (not_le.1 hlt).le.trans hl

/-- `Point.insert_vector` finds a corner at every point of every reached state, for every vector it accepts. -/
theorem insertVector_total {g : Geom K} (hg : AngleOk g) {s : St K} (h : Reach g s) {p : Id} (hp : p ∈ s.pid.live)
    {v : K × K} (hv : g.tiny < |v.1| ∨ g.tiny < |v.2|) : ∃ r, insertVector g s p v = .ok r ∧ (r = none ↔ s.pseg p = none) := by
  have hI := h.inv
  unfold insertVector
  simp only [check, hv, if_true, bind, Except.bind]
  cases hps : s.pseg p with
  | none => exact ⟨none, rfl, by simp⟩
  | some d =>
    obtain ⟨k1, k2⟩ := hI.links.pseg_vtx hp (by simp) hps
    obtain ⟨m, hr, _⟩ := hI.links.ring p hp
    obtain ⟨l', h1, _⟩ := around_ring hI.links.sids hr ((hr.mem d).2 ⟨k1, k2, by simp⟩)
    dsimp only
    rw [h1]
    dsimp only
    obtain ⟨lo, hlo⟩ := hg.window
    have ht : ¬ 2 * g.twoPi ≤ turn g s (g.ang v) d := by
      unfold turn
      have l1 := hlo v
      have l2 := hlo (if d.2 then (-(s.vec d.1).1, -(s.vec d.1).2) else s.vec d.1)
      dsimp only
      generalize g.ang (if d.2 then (-(s.vec d.1).1, -(s.vec d.1).2) else s.vec d.1) = x at l2 ⊢
      split <;> intro <;> linarith
    simp only [List.cons_append, insertGo, if_neg ht]
    obtain ⟨r, hr⟩ := insertGo_found (g := g) (s := s) (a := g.ang v) (hs := l' ++ [d]) (last := turn g s (g.ang v) d) (x := d)
      (by simp) (by simp)
    rw [hr]
    exact ⟨_, rfl, by simp⟩

end Verif.Decomp
