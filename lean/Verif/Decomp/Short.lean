import Verif.Decomp.Same

/-! The stored vector of a segment is a part of the segment, also after `join_segments`. -/

namespace Verif.Decomp

variable {K : Type} [Field K] [LinearOrder K] [IsStrictOrderedRing K]

/-- The vector goes from the first end towards the second and not beyond it. -/
def Short (s : St K) : Prop := ∀ e ∈ s.sid.live, ∃ t, 0 < t ∧ t ≤ 1 ∧
  s.vec e = (t * (diff s (s.vtx (e, false)) (s.vtx (e, true))).1, t * (diff s (s.vtx (e, false)) (s.vtx (e, true))).2)

omit [LinearOrder K] [IsStrictOrderedRing K] in
theorem diff_eq {s s' : St K} (h : s'.xy = s.xy) (a b : Id) : diff s' a b = diff s a b := diff_congr (by rw [h]) (by rw [h])

theorem AddSeg.short {s s' : St K} {e a b : Id} (h : AddSeg s s' e a b) (hS : Short s) : Short s' := by
  intro j hj
  rw [diff_eq h.xy, h.ends, h.ends, h.vec]
  by_cases hje : j = e
  · subst hje
    refine ⟨1, one_pos, le_rfl, ?_⟩
    simp [diff]
  · simp only [if_neg hje]
    exact hS j (((h.live j).1 hj).resolve_right hje)

theorem DelSeg.short {s s' : St K} {e : Id} (h : DelSeg s s' e) (hS : Short s) : Short s' := by
  intro j hj
  rw [diff_eq h.xy, h.vtx, h.vec]
  exact hS j ((h.live j).1 hj).2

theorem SplitSeg.short {s s' : St K} {e n mid : Id} (h : SplitSeg s s' e n mid) (hS : Short s) : Short s' := by
  have hen : e ≠ n := fun hh => h.fresh (hh ▸ h.was)
  intro j hj
  rw [diff_eq h.xy, h.vec]
  simp only [upd]
  by_cases hje : j = e
  · subst hje
    refine ⟨1, one_pos, le_rfl, ?_⟩
    rw [Function.update_self, h.ve, h.vo (j, false) (by simp) hen]
    simp [diff]
  · rw [Function.update_of_ne hje]
    by_cases hjn : j = n
    · subst hjn
      refine ⟨1, one_pos, le_rfl, ?_⟩
      rw [Function.update_self, h.vn0, h.vn1]
      simp [diff]
    · rw [Function.update_of_ne hjn, h.vo _ (by simp [hje]) hjn, h.vo _ (by simp [hje]) hjn]
      exact hS j (((h.live j).1 hj).resolve_right hjn)

theorem JoinSeg.short {s s' : St K} {x y : HE} (h : JoinSeg s s' x y)
    (hB : Between (s.xy (s.vtx (flip x))) (s.xy (s.vtx x)) (s.xy (s.vtx y))) (hS : Short s) : Short s' := by
  intro j hj
  obtain ⟨_, hj'⟩ := (h.live j).1 hj
  obtain ⟨t, t0, t1, ht⟩ := hS j hj'
  rw [diff_eq h.xy, h.vec, h.vtx]
  simp only [upd]
  obtain ⟨x1, x2⟩ := x
  by_cases hje : j = x1
  · subst hje
    obtain ⟨r, r0, r1, hr⟩ := hB
    have e1 := congrArg Prod.fst hr
    have e2 := congrArg Prod.snd hr
    have m1 : 0 < t * r := mul_pos t0 r0
    have m2 : t * r ≤ 1 := mul_le_one₀ t1 r0.le r1.le
    cases x2 with
    | true =>
      simp only [flip_mk, Bool.not_true] at e1 e2
      refine ⟨t * r, m1, m2, ?_⟩
      rw [Function.update_self, Function.update_of_ne (by simp), ht]
      simp only [diff] at *
      rw [e1, e2]
      ext <;> dsimp only <;> ring
    | false =>
      simp only [flip_mk, Bool.not_false] at e1 e2
      refine ⟨t * r, m1, m2, ?_⟩
      rw [Function.update_self, Function.update_of_ne (by simp), ht]
      simp only [diff] at *
      rw [e1, e2]
      ext <;> dsimp only <;> ring
  · rw [Function.update_of_ne (by simp [hje]), Function.update_of_ne (by simp [hje])]
    exact ⟨t, t0, t1, ht⟩

/-- Invariant, clockwise links, vectors not beyond the segments. -/
structure Fine (g : Geom K) (s : St K) : Prop where
  inv : Inv s
  fan : Fan g s
  short : Short s

theorem init_fine (g : Geom K) : Fine g (init : St K) := by
  have hn : ∀ j : Id, j ∉ (Verif.Decomp.init : St K).sid.live := fun j h => by simp [Verif.Decomp.init] at h
  exact ⟨init_inv, ⟨fun j hj => absurd hj (hn j), fun j hj => absurd hj (hn j), fun d d' hd => absurd hd (hn d.1),
    fun d k hd => absurd hd (hn d.1)⟩, fun j hj => absurd hj (hn j)⟩

theorem addFreePoint_fine {g : Geom K} (hg : AngleOk g) {s : St K} (h : Fine g s) (x : K × K) (q : Id) :
    Fine g (addFreePoint x q s).2 := by
  have hs : step g s (.addPoint x q) = .ok (addFreePoint x q s).2 := rfl
  refine ⟨step_inv hs h.inv trivial, step_fan hg hs h.inv trivial trivial h.fan, fun e he => ?_⟩
  have he : e ∈ s.sid.live := he
  have hn := (Ids.append_ok h.inv.pids).1
  have hx : ∀ v, (addFreePoint x q s).2.xy (s.vtx (e, v)) = s.xy (s.vtx (e, v)) := by
    intro v
    have := h.inv.links.vlive (e, v) he
    simp only [addFreePoint, upd]
    rw [Function.update_of_ne]
    rintro hh
    exact hn (hh ▸ this)
  have : diff (addFreePoint x q s).2 (s.vtx (e, false)) (s.vtx (e, true)) = diff s (s.vtx (e, false)) (s.vtx (e, true)) :=
    diff_congr (hx _) (hx _)
  show ∃ t, 0 < t ∧ t ≤ 1 ∧ s.vec e = (t * (diff (addFreePoint x q s).2 (s.vtx (e, false)) (s.vtx (e, true))).1,
    t * (diff (addFreePoint x q s).2 (s.vtx (e, false)) (s.vtx (e, true))).2)
  rw [this]
  exact h.short e he

theorem removeFreePoint_fine {g : Geom K} (hg : AngleOk g) {s s' : St K} {p : Id} (h : Fine g s)
    (hs : removeFreePoint p s = .ok s') : Fine g s' := by
  have hs' : step g s (.removePoint p) = .ok s' := hs
  refine ⟨step_inv hs' h.inv trivial, step_fan hg hs' h.inv trivial trivial h.fan, fun e he => ?_⟩
  unfold removeFreePoint at hs
  simp only [bind_ok, Except.ok.injEq] at hs
  obtain ⟨_, _, q, _, _, _, l, _, m, hm, rfl⟩ := hs
  exact h.short e he

theorem newSegment_fine {g : Geom K} (hg : AngleOk g) {s s' : St K} {a b e : Id} (h : Fine g s)
    (ha : a ∈ s.pid.live) (hb : b ∈ s.pid.live) (hA : Apart s a b) (n1 : NewDir g s a b) (n2 : NewDir g s b a)
    (hs : newSegment g a b s = .ok (e, s')) : Fine g s' ∧ AddSeg s s' e a b := by
  have hf := newSegment_fresh hs h.inv ha hb hA
  have hS := (newSegment_next hs h.inv ha hb hf).1
  exact ⟨⟨newSegment_inv hs h.inv ha hb, newSegment_fan hg hs h.inv ha hb hf h.fan n1 n2, hS.short h.short⟩, hS⟩

theorem deleteSegment_fine {g : Geom K} {s s' : St K} {e : Id} (h : Fine g s) (he : e ∈ s.sid.live)
    (hs : deleteSegment g e s = .ok s') : Fine g s' ∧ DelSeg s s' e := by
  have hD := (deleteSegment_next hs h.inv he).1
  exact ⟨⟨deleteSegment_inv hs h.inv he, deleteSegment_fan hs h.inv he h.fan, hD.short h.short⟩, hD⟩

theorem splitSegment_fine {g : Geom K} (hg : AngleOk g) {s s' : St K} {e n mid : Id} (h : Fine g s) (he : e ∈ s.sid.live)
    (hm : mid ∈ s.pid.live) (hb : Bare s mid)
    (hB : Between (s.xy (s.vtx (e, false))) (s.xy mid) (s.xy (s.vtx (e, true))))
    (hs : splitSegment e mid s = .ok (n, s')) : Fine g s' ∧ SplitSeg s s' e n mid := by
  have hfree := (h.inv.bare_iff hm).2 hb
  obtain ⟨_, _, hS⟩ := splitSegment_eff hs h.inv.links he hm hfree h.inv.free (by simp)
  exact ⟨⟨splitSegment_inv hs h.inv he hm hfree, splitSegment_fan hg h.inv.links hS hb hB h.fan, hS.short h.short⟩, hS⟩

theorem joinSegments_fine {g : Geom K} (hg : AngleOk g) {s s' : St K} {mid e0 e1 : Id} (h : Fine g s)
    (hJ : Joinable s mid e0 e1) (hP : Proper g s (.joinSegments mid e0 e1)) (hs : joinSegments mid e0 e1 s = .ok s') :
    Fine g s' ∧ ∃ x y : HE, x.1 = e0 ∧ y.1 = e1 ∧ s.vtx x = mid ∧ JoinSeg s s' x y := by
  obtain ⟨x, y, hx, hy, hxm, hJS⟩ := joinSegments_run hs h.inv hJ
  have hs' : step g s (.joinSegments mid e0 e1) = .ok s' := hs
  refine ⟨⟨step_inv hs' h.inv hJ, step_fan hg hs' h.inv hJ hP h.fan, ?_⟩, x, y, hx, hy, hxm, hJS⟩
  refine hJS.short ?_ h.short
  have := hP x.2 (!y.2) (by rw [← hx]; exact hxm) (by rw [← hy, ← hxm, ← hJS.mid]; rfl)
  rw [Bool.not_not, ← hx, ← hy] at this
  rw [hxm]
  exact this

omit [LinearOrder K] [IsStrictOrderedRing K] in
theorem SplitSeg.joinable {s s' : St K} {e n mid : Id} (hS : SplitSeg s s' e n mid) (hI : Inv s) : Joinable s' mid e n := by
  have hen : e ≠ n := fun hh => hS.fresh (hh ▸ hS.was)
  have hve0 : s'.vtx (e, false) = s.vtx (e, false) := hS.vo _ (by simp) hen
  refine ⟨(hS.live e).2 (Or.inl hS.was), (hS.live n).2 (Or.inr rfl), hen, ⟨true, hS.ve⟩, ⟨false, hS.vn0⟩, ?_⟩
  intro v w hv hw j hj u hju
  have hv' : v = false := by
    cases v
    · rfl
    · exact absurd hS.ve hv
  have hw' : w = true := by
    cases w
    · exact absurd hS.vn0 hw
    · rfl
  subst hv' hw'
  rw [hve0, hS.vn1] at hju
  have k1 : j ≠ n := by
    rintro rfl
    cases u
    · exact hS.ne0 (hS.vn0.symm.trans hju.1)
    · exact hS.ne1 (hS.vn0.symm.trans hju.2)
  have k2 : j ≠ e := by
    rintro rfl
    cases u
    · exact hS.ne1 (hS.ve.symm.trans hju.2)
    · exact hS.ne0 (hS.ve.symm.trans hju.1)
  have hjl := ((hS.live j).1 hj).resolve_right k1
  rw [hS.vo _ (fun hh => k2 (congrArg Prod.fst hh)) k1, hS.vo _ (fun hh => k2 (congrArg Prod.fst hh)) k1] at hju
  exact k2 (hI.tab.unique hjl hS.was (u := u) (v := false) hju.1 hju.2)

omit [IsStrictOrderedRing K] in
/-- The condition of `join_segments` after a split, in a state with the same points and segments. -/
theorem SplitSeg.proper {g : Geom K} {s s' t : St K} {e n mid : Id} (hS : SplitSeg s s' e n mid) (ht : Inv t) (h : Alike t s')
    (hm : mid ∈ s.pid.live) (hB : Between (s.xy (s.vtx (e, false))) (s.xy mid) (s.xy (s.vtx (e, true)))) :
    Proper g t (.joinSegments mid e n) := by
  have hen : e ≠ n := fun hh => hS.fresh (hh ▸ hS.was)
  have hel : e ∈ t.sid.live := (h.sids.mem e).2 ((hS.live e).2 (Or.inl hS.was))
  have hnl : n ∈ t.sid.live := (h.sids.mem n).2 ((hS.live n).2 (Or.inr rfl))
  have hml : mid ∈ t.pid.live := (h.pids.mem mid).2 (hS.pid ▸ hm)
  intro v w hv hw
  have hv' : v = true := by
    cases v with
    | true => rfl
    | false =>
      rw [h.vtx _ hel, hS.vo _ (by simp) hen] at hv
      exact absurd hv.symm hS.ne0
  have hw' : w = false := by
    cases w with
    | false => rfl
    | true =>
      rw [h.vtx _ hnl, hS.vn1] at hw
      exact absurd hw.symm hS.ne1
  subst hv' hw'
  simp only [Bool.not_true, Bool.not_false]
  rw [h.xy _ (ht.links.vlive (e, false) hel), h.xy _ (ht.links.vlive (n, true) hnl), h.xy mid hml, h.vtx _ hel, h.vtx _ hnl,
    hS.vo (e, false) (by simp) hen, hS.vn1, hS.xy]
  exact hB

end Verif.Decomp
