import Verif.Decomp.Props

/-! The vectors stored in segments. -/
namespace Verif.Decomp

variable {K : Type} [Field K] [LinearOrder K]

/-- States reached from the empty decomposition by valid calls that satisfy `P` and raise no exception. -/
inductive ReachBy (g : Geom K) (P : St K → Op K → Prop) : St K → Prop where
  | init : ReachBy g P init
  | step {s s' : St K} {o : Op K} (h : ReachBy g P s) (hV : Valid s o) (hP : P s o) (hs : step g s o = .ok s') :
      ReachBy g P s'

theorem ReachBy.reach {g : Geom K} {P : St K → Op K → Prop} {s : St K} (h : ReachBy g P s) : Reach g s := by
  induction h with
  | init => exact .init
  | step _ hV _ hs ih => exact .step ih hV hs

omit [LinearOrder K] in
theorem updateVectors_vec {l : List HE} : ∀ {s : St K} {j : Id}, (updateVectors l s).vec j =
    if ∃ d ∈ l, d.1 = j then diff s (s.vtx (j, false)) (s.vtx (j, true)) else s.vec j := by
  induction l with
  | nil => intro s j; simp [updateVectors]
  | cons x l ih =>
    intro s j
    rw [updateVectors, ih]
    dsimp only
    by_cases h : ∃ d ∈ l, d.1 = j
    · obtain ⟨d, h1, h2⟩ := h
      rw [if_pos ⟨d, h1, h2⟩, if_pos ⟨d, by simp [h1], h2⟩]
      rfl
    · rw [if_neg h]
      by_cases hx : x.1 = j
      · subst hx
        rw [if_pos ⟨x, by simp, rfl⟩, upd, Function.update_self]
        rfl
      · rw [if_neg, upd, Function.update_of_ne (Ne.symm hx)]
        rintro ⟨d, h1, h2⟩
        rcases List.mem_cons.1 h1 with rfl | h1
        · exact hx h2
        · exact h ⟨d, h1, h2⟩

omit [LinearOrder K] in
/-- Effect of `Point.move`: the coordinates of one point and the vectors of all segments there. -/
theorem movePoint_vec {p : Id} {d : K × K} {s s' : St K} (hs : movePoint p d s = .ok s') (hL : Links s ∅ ∅)
    (hp : p ∈ s.pid.live) :
    s'.xy = upd s.xy p ((s.xy p).1 + d.1, (s.xy p).2 + d.2) ∧ s'.vtx = s.vtx ∧ s'.sid = s.sid ∧ s'.next = s.next ∧
      ∀ j ∈ s.sid.live, s'.vec j = if s.vtx (j, false) = p ∨ s.vtx (j, true) = p
        then diff s' (s.vtx (j, false)) (s.vtx (j, true)) else s.vec j := by
  unfold movePoint at hs
  simp only [bind_ok, Except.ok.injEq] at hs
  obtain ⟨l, hl, rfl⟩ := hs
  obtain ⟨vc, hv⟩ := updateVectors_eq (l := l)
    (s := { s with xy := upd s.xy p ((s.xy p).1 + d.1, (s.xy p).2 + d.2) })
  have hvec := fun j => updateVectors_vec (l := l)
    (s := { s with xy := upd s.xy p ((s.xy p).1 + d.1, (s.xy p).2 + d.2) }) (j := j)
  rw [hv] at hvec ⊢
  dsimp only at hvec hl ⊢
  refine ⟨rfl, rfl, rfl, rfl, fun j hj => ?_⟩
  rw [hvec]
  have hiff : (∃ d ∈ l, d.1 = j) ↔ s.vtx (j, false) = p ∨ s.vtx (j, true) = p := by
    cases hps : s.pseg p with
    | none =>
      rw [hps] at hl
      obtain rfl := Except.ok.inj hl
      have := hL.no_seg hp (by simp) hps
      constructor
      · rintro ⟨_, h, _⟩; cases h
      · rintro (h | h)
        · exact absurd h (this (j, false) hj)
        · exact absurd h (this (j, true) hj)
    | some k =>
      rw [hps] at hl
      dsimp only at hl
      obtain ⟨k1, k2⟩ := hL.pseg_vtx hp (by simp) hps
      obtain ⟨m, hr, _⟩ := hL.ring p hp
      have hr' : IsRing { s with xy := upd s.xy p ((s.xy p).1 + d.1, (s.xy p).2 + d.2) } ∅ p m := ⟨hr.nd, hr.mem, hr.path⟩
      obtain ⟨l', h1, _, h3, _⟩ := around_ring (s := { s with xy := upd s.xy p ((s.xy p).1 + d.1, (s.xy p).2 + d.2) })
        hL.sids hr' ((hr.mem k).2 ⟨k1, k2, by simp⟩)
      rw [h1] at hl
      obtain rfl := Except.ok.inj hl
      constructor
      · rintro ⟨x, hx, rfl⟩
        have := ((hr.mem x).1 (h3.mem_iff.1 hx)).2.1
        obtain ⟨x1, x2⟩ := x
        cases x2
        · exact Or.inl this
        · exact Or.inr this
      · rintro (h | h)
        · exact ⟨(j, false), h3.mem_iff.2 ((hr.mem _).2 ⟨hj, h, by simp⟩), rfl⟩
        · exact ⟨(j, true), h3.mem_iff.2 ((hr.mem _).2 ⟨hj, h, by simp⟩), rfl⟩
  by_cases h : ∃ d ∈ l, d.1 = j
  · rw [if_pos h, if_pos (hiff.1 h)]
    rfl
  · rw [if_neg h, if_neg (fun hh => h (hiff.2 hh))]

/-- Every stored vector is the difference of the end points. -/
def VecOk (s : St K) : Prop := ∀ e ∈ s.sid.live, s.vec e = diff s (s.vtx (e, false)) (s.vtx (e, true))

omit [LinearOrder K] in
theorem diff_congr {s s' : St K} {a b : Id} (ha : s'.xy a = s.xy a) (hb : s'.xy b = s.xy b) : diff s' a b = diff s a b := by
  unfold diff; rw [ha, hb]

theorem step_vec {g : Geom K} {o : Op K} {s s' : St K} (hs : step g s o = .ok s') (hI : Inv s) (hV : Valid s o)
    (hm : ∀ p d, o = .move p d → p ∈ s.pid.live) (hj : ∀ mid e0 e1, o ≠ .joinSegments mid e0 e1) (h : VecOk s) :
    VecOk s' := by
  cases o with
  | addPoint xy q =>
    simp only [step, Except.ok.injEq] at hs
    subst hs
    intro e he
    have hn := (Ids.append_ok hI.pids).1
    have hx : ∀ v, (addFreePoint xy q s).2.xy (s.vtx (e, v)) = s.xy (s.vtx (e, v)) := by
      intro v
      have : s.vtx (e, v) ≠ s.pid.append.1 := fun hh => hn (hh ▸ hI.links.vlive (e, v) he)
      simp only [addFreePoint, upd, Function.update_of_ne this]
    exact (h e he).trans (diff_congr (hx false) (hx true)).symm
  | removePoint p =>
    simp only [step] at hs
    unfold removeFreePoint at hs
    simp only [bind_ok, Except.ok.injEq] at hs
    obtain ⟨_, _, q, _, _, _, l, _, m, hm, rfl⟩ := hs
    exact h
  | newSegment a b =>
    simp only [step, bind_ok, Except.ok.injEq] at hs
    obtain ⟨⟨e, s1⟩, h1, h2⟩ := hs
    dsimp only at h2
    subst h2
    by_cases hf : e ∈ s.sid.live
    · cases (newSegment_cases h1 hI.links hV.1 hV.2).2 with
      | old _ hs' => dsimp only at hs'; subst hs'; exact h
      | wire t1 t2 pa pb q qa qb hs =>
        exact absurd hf (newWire_eff (T := False) (s := quiet s) hs (hI.links.frame rfl rfl rfl rfl rfl) hV.1 hV.2
          (hI.free.congr rfl rfl rfl rfl rfl) pa pb).1.fresh
      | dendrite t1 t2 i root hC pa pb hs =>
        exact absurd hf (addDendrite_eff (T := False) (s := quiet s) hs (hI.links.frame rfl rfl rfl rfl rfl) hV.1 hV.2
          (hI.free.congr rfl rfl rfl rfl rfl) hC pa).1.fresh
      | join t1 t2 ia ib hCa hCb pa pb _ hs =>
        exact absurd hf (joinWires_eff (T := False) (s := quiet s) hs (hI.links.frame rfl rfl rfl rfl rfl) hV.1 hV.2
          (hI.free.congr rfl rfl rfl rfl rfl) hCa hCb).1.fresh
      | split t1 t2 ia ib hCa hCb pa pb _ hs =>
        obtain ⟨_, _, _, _, _, _, _, _, hS, _⟩ := splitPoly_start (T := False) (s := quiet s) hs
          (hI.links.frame rfl rfl rfl rfl rfl) hV.1 hV.2 (hI.free.congr rfl rfl rfl rfl rfl) (by simp) hCa hCb
        exact absurd hf hS.add.fresh
    · obtain ⟨hA, _⟩ := newSegment_next h1 hI hV.1 hV.2 hf
      intro j hj
      rw [hA.vec]
      by_cases hje : j = e
      · subst hje
        rw [if_pos rfl, hA.v0, hA.v1]
        exact (diff_congr (by rw [hA.xy]) (by rw [hA.xy])).symm
      · rw [if_neg hje, hA.vo _ hje, hA.vo _ hje, h j (((hA.live j).1 hj).resolve_right hje)]
        exact (diff_congr (by rw [hA.xy]) (by rw [hA.xy])).symm
  | deleteSegment e =>
    obtain ⟨hD, _⟩ := deleteSegment_next hs hI hV
    intro j hj
    rw [hD.vec, hD.vtx, h j ((hD.live j).1 hj).2]
    exact (diff_congr (by rw [hD.xy]) (by rw [hD.xy])).symm
  | splitSegment e mid =>
    simp only [step, bind_ok, Except.ok.injEq] at hs
    obtain ⟨⟨n, s1⟩, h1, h2⟩ := hs
    dsimp only at h2
    subst h2
    obtain ⟨_, _, hS⟩ := splitSegment_eff h1 hI.links hV.1 hV.2.1 hV.2.2 hI.free (by simp)
    have hen : e ≠ n := fun hh => hS.fresh (hh ▸ hV.1)
    intro j hj
    rw [hS.vec]
    by_cases hje : j = e
    · subst hje
      rw [upd, Function.update_self, hS.ve, hS.vo _ (by simp) hen]
      exact (diff_congr (by rw [hS.xy]) (by rw [hS.xy])).symm
    · rw [upd, Function.update_of_ne hje]
      by_cases hjn : j = n
      · subst hjn
        rw [upd, Function.update_self, hS.vn0, hS.vn1]
        exact (diff_congr (by rw [hS.xy]) (by rw [hS.xy])).symm
      · rw [upd, Function.update_of_ne hjn, hS.vo _ (fun hh => hje (congrArg Prod.fst hh)) hjn,
          hS.vo _ (fun hh => hje (congrArg Prod.fst hh)) hjn, h j (((hS.live j).1 hj).resolve_right hjn)]
        exact (diff_congr (by rw [hS.xy]) (by rw [hS.xy])).symm
  | joinSegments mid e0 e1 => exact absurd rfl (hj mid e0 e1)
  | move p d =>
    obtain ⟨h1, h2, h3, _, h4⟩ := movePoint_vec hs hI.links (hm p d rfl)
    intro j hj
    rw [h3] at hj
    rw [h4 j hj, h2]
    split
    · rfl
    · next hn =>
      have hn1 : s.vtx (j, false) ≠ p := fun hh => hn (Or.inl hh)
      have hn2 : s.vtx (j, true) ≠ p := fun hh => hn (Or.inr hh)
      rw [h j hj]
      refine (diff_congr ?_ ?_).symm
      · rw [h1, upd, Function.update_of_ne hn1]
      · rw [h1, upd, Function.update_of_ne hn2]

/-- In runs without `join_segments` every stored vector is the difference of the end points. Missing: `join_segments` does
not update the vector (`join_stale_vector`). -/
theorem vectors_exact_partial {g : Geom K} {s : St K}
    (h : ReachBy g (fun s o => (∀ p d, o = .move p d → p ∈ s.pid.live) ∧ ∀ mid e0 e1, o ≠ .joinSegments mid e0 e1) s) :
    ∀ e ∈ s.sid.live, s.vec e = ((s.xy (s.vtx (e, true))).1 - (s.xy (s.vtx (e, false))).1,
      (s.xy (s.vtx (e, true))).2 - (s.xy (s.vtx (e, false))).2) := by
  have : VecOk s := by
    induction h with
    | init => intro e he; simp [init] at he
    | step hr hV hP hs ih => exact step_vec hs hr.reach.inv hV hP.1 hP.2 ih
  exact this

/-- After every `join_segments` the joined segment has its old vector, which differs from the new one unless the point
left out and the far end have the same coordinates. -/
theorem join_stale_vector {g : Geom K} {s s' : St K} (h : Reach g s) (hv : VecOk s) {mid e0 e1 : Id} {u : Bool}
    (hJ : Joinable s mid e0 e1) (h1 : s.vtx (e1, u) = mid)
    (hne : s.xy mid ≠ s.xy (s.vtx (e1, !u))) (hs : joinSegments mid e0 e1 s = .ok s') :
    s'.vec e0 = s.vec e0 ∧ ¬ VecOk s' := by
  have hI := h.inv
  obtain ⟨x, y, hx, hy, hxm, hJS⟩ := joinSegments_run hs hI hJ
  have hyl : y.1 ∈ s.sid.live := hy ▸ hJ.2.1
  obtain ⟨x1, x2⟩ := x
  obtain ⟨y1, y2⟩ := y
  dsimp only at hx hy
  subst hx hy
  refine ⟨by rw [hJS.vec], fun hv' => ?_⟩
  have hyu : y2 = !u := by
    by_contra hn
    have : y2 = u := by cases u <;> cases y2 <;> simp_all
    subst this
    have := hJS.mid
    rw [hxm, ← h1] at this
    exact hI.links.flip_ne hyl this
  subst hyu
  have k1 := hv x1 hJ.1
  have k2 := hv' x1 ((hJS.live x1).2 ⟨hJS.ne, hJ.1⟩)
  rw [hJS.vec, hJS.vtx, k1] at k2
  unfold diff at k2
  rw [hJS.xy] at k2
  have k3 := congrArg Prod.fst k2
  have k4 := congrArg Prod.snd k2
  dsimp only at k3 k4
  have f1 : ((x1, false) : HE) ≠ (x1, true) := by simp
  cases x2
  · rw [upd, Function.update_self, Function.update_of_ne f1.symm, sub_right_inj, hxm] at k3
    rw [upd, Function.update_self, Function.update_of_ne f1.symm, sub_right_inj, hxm] at k4
    exact hne (Prod.ext k3 k4)
  · rw [upd, Function.update_self, Function.update_of_ne f1, sub_left_inj, hxm] at k3
    rw [upd, Function.update_self, Function.update_of_ne f1, sub_left_inj, hxm] at k4
    exact hne (Prod.ext k3 k4)

end Verif.Decomp
