import Verif.Decomp.Prim

/-! The links around points under the elementary changes. -/
namespace Verif.Decomp

variable {K : Type}

theorem IsRing.congr {s s' : St K} {X X' : Set HE} {q : Id} {l : List HE} (h : IsRing s X q l)
    (hm : ∀ d : HE, (d.1 ∈ s'.sid.live ∧ s'.vtx d = q ∧ d ∉ X') ↔ (d.1 ∈ s.sid.live ∧ s.vtx d = q ∧ d ∉ X))
    (hn : ∀ d ∈ l, s'.next d = s.next d) : IsRing s' X' q l := by
  refine ⟨h.nd, fun d => by rw [h.mem, hm], ?_⟩
  rcases h.path with rfl | ⟨a, ha⟩
  · exact Or.inl rfl
  · refine Or.inr ⟨a, path_congr (fun d hd => ?_) ha⟩
    simp [rot, hn d hd]

theorem PsegOk.congr {s s' : St K} {X X' : Set HE} {q : Id} {l : List HE} (h : PsegOk s X q l)
    (hp : s'.pseg q = s.pseg q)
    (hm : ∀ d : HE, d ∈ X → d.1 ∈ s.sid.live → s.vtx d = q → d ∈ X' ∧ d.1 ∈ s'.sid.live ∧ s'.vtx d = q) :
    PsegOk s' X' q l := by
  refine ⟨fun h0 => h.non (hp ▸ h0), fun d hd => ?_⟩
  rcases h.som d (hp ▸ hd) with h1 | ⟨h1, h2, h3, h4⟩
  · exact Or.inl h1
  · exact Or.inr ⟨h1, hm d h2 h3 h4⟩

theorem IsRing.unique {s : St K} {X : Set HE} {p : Id} {l : List HE} (h : IsRing s X p l) {d : HE} (hd : d ∈ l)
    (hr : s.next d = some (flip d)) : l = [d] := by
  obtain ⟨l', h1, h2, h3⟩ := h.from hd
  obtain ⟨_, y, hy, h4⟩ := h1
  rw [rot_of_next hr, flip_flip] at hy
  obtain rfl := Option.some.inj hy
  cases l' with
  | nil => simpa using h2.symm
  | cons z l' =>
    have := path_head h4
    subst this
    simp at h3

/-! ### Joining and removing at a point -/

/-- Stored segments of points after `joinSegment`. -/
def joinPs (s : St K) (d : HE) : Id → Option HE :=
  if s.pseg (s.vtx d) = none then upd s.pseg (s.vtx d) (some d) else s.pseg

theorem leavePoly_eq {p : Id} {s s' : St K} (h : leavePoly p s = .ok s') : ∃ fp, s' = { s with fpts := fp } := by
  unfold leavePoly at h
  cases hq : s.ppoly p with
  | none =>
    simp only [hq, Except.ok.injEq] at h
    subst h
    exact ⟨s.fpts, rfl⟩
  | some q =>
    simp only [hq, bind_ok, Except.ok.injEq] at h
    obtain ⟨l, _, rfl⟩ := h
    exact ⟨_, rfl⟩

theorem joinSegment_eq {d : HE} {s s' : St K} (h : joinSegment d s = .ok s') :
    ∃ pp fp, s' = { s with ppoly := pp, fpts := fp, pseg := joinPs s d } := by
  unfold joinSegment at h
  cases hp : s.pseg (s.vtx d) with
  | some x =>
    simp only [hp, Except.ok.injEq] at h
    subst h
    exact ⟨s.ppoly, s.fpts, by simp [joinPs, hp]⟩
  | none =>
    simp only [hp, bind_ok] at h
    obtain ⟨s1, h1, h2⟩ := h
    simp only [Except.ok.injEq] at h2
    subst h2
    obtain ⟨fp, rfl⟩ := leavePoly_eq h1
    refine ⟨upd s.ppoly (s.vtx d) none, fp, ?_⟩
    simp only [joinPs, hp, if_true]

theorem setPolygon_eq {p q : Id} {s s' : St K} (h : setPolygon p q s = .ok s') :
    ∃ pp fp, s' = { s with ppoly := pp, fpts := fp, pseg := upd s.pseg p none } := by
  unfold setPolygon at h
  simp only [bind_ok] at h
  obtain ⟨s1, h1, h2⟩ := h
  simp only [Except.ok.injEq] at h2
  subst h2
  obtain ⟨fp, rfl⟩ := leavePoly_eq h1
  exact ⟨_, _, rfl⟩

theorem rmSegment_eq {d : HE} {s s' : St K} (h : rmSegment d s = .ok s') :
    ∃ pp fp o, s' = { s with ppoly := pp, fpts := fp, pseg := upd s.pseg (s.vtx d) o } ∧ otherAt s d = .ok o := by
  unfold rmSegment at h
  simp only [bind_ok] at h
  obtain ⟨o, h1, h2⟩ := h
  cases ho : o with
  | some x =>
    simp only [ho, Except.ok.injEq] at h2
    subst h2
    exact ⟨s.ppoly, s.fpts, some x, rfl, ho ▸ h1⟩
  | none =>
    simp only [ho, bind_ok] at h2
    obtain ⟨_, _, q, _, h3⟩ := h2
    obtain ⟨pp, fp, rfl⟩ := setPolygon_eq h3
    exact ⟨pp, fp, none, rfl, ho ▸ h1⟩

/-- Removal of a linked end from its point: another end is stored, or the point has no other and becomes free. -/
theorem rmSegment_ring {d : HE} {s s' : St K} {X : Set HE} {Y : Set Id} {l : List HE} (hL : Links s X Y)
    (hr : IsRing s X (s.vtx d) l) (hps : PsegOk s X (s.vtx d) l) (hd : d ∈ l) (h : rmSegment d s = .ok s') :
    ∃ pp fp o, s' = { s with ppoly := pp, fpts := fp, pseg := upd s.pseg (s.vtx d) o } ∧
      ((∃ k ∈ l, k.1 ≠ d.1 ∧ o = some k) ∨ (l = [d] ∧ o = none)) := by
  obtain ⟨pp, fp, o, rfl, ho⟩ := rmSegment_eq h
  refine ⟨pp, fp, o, rfl, ?_⟩
  cases hp : s.pseg (s.vtx d) with
  | none =>
    have := hps.non hp
    simp [this] at hd
  | some st =>
    simp only [otherAt, hp] at ho
    have hst : st ∈ l := by
      rcases hps.som st hp with h1 | ⟨h1, _⟩
      · exact h1
      · simp [h1] at hd
    obtain ⟨l', h1, h2, h3⟩ := hr.from hst
    rw [firstOther_ok h1 (by simp) (by simpa using (List.nodup_cons.1 h3).1)
      (by rw [h2.length_eq]; exact hr.length hL.sids), Except.ok.injEq] at ho
    cases o with
    | some k =>
      refine Or.inl ⟨k, h2.subset (List.mem_of_find?_eq_some ho), ?_, rfl⟩
      simpa using List.find?_some ho
    | none =>
      refine Or.inr ⟨?_, rfl⟩
      rw [List.find?_eq_none] at ho
      have hall : ∀ x ∈ l, x = d := by
        intro x hx
        have h5 := ho x (h2.symm.subset hx)
        simp only [ne_eq, decide_not, Bool.not_eq_eq_eq_not, Bool.not_true, decide_eq_false_iff_not, not_not] at h5
        rcases eq_or_flip h5 with h6 | h6
        · exact h6
        · exfalso
          have h7 := ((hr.mem x).1 hx)
          rw [h6] at h7
          exact hL.flip_ne (d := d) ((hr.mem d).1 hd).1 h7.2.1
      have hn := hr.nd
      cases l with
      | nil => simp at hd
      | cons x l =>
        have hx := hall x (by simp)
        subst hx
        cases l with
        | nil => rfl
        | cons y l =>
          have hy := hall y (by simp)
          subst hy
          simp at hn

/-- `disconnect_vtx`: the end leaves the loop around its point, the other ends keep their order. -/
theorem disconnectVtx_links {d : HE} {s s' : St K} {X : Set HE} {Y : Set Id} (hL : Links s X Y)
    (hd : d.1 ∈ s.sid.live) (hX : d ∉ X) (hY : s.vtx d ∉ Y) (h : disconnectVtx d s = .ok s') :
    ∃ r pp fp o, s.next r = some (flip d) ∧ r.1 ∈ s.sid.live ∧ s.vtx r = s.vtx d ∧ r ∉ X ∧
      s' = { s with
        ppoly := pp
        fpts := fp
        pseg := upd s.pseg (s.vtx d) o
        next := upd (upd s.next r (s.next d)) d (some (flip d)) } ∧
      Links s' (insert d X) Y ∧ (∀ k, o = some k → k.1 ≠ d.1) ∧ (o = none ↔ s.next d = some (flip d)) := by
  obtain ⟨l, hr, hps⟩ := hL.ring _ (hL.vlive d hd)
  have hdl : d ∈ l := (hr.mem d).2 ⟨hd, rfl, hX⟩
  unfold disconnectVtx at h
  simp only [bind_ok] at h
  obtain ⟨s1, h1, r, h2, h3⟩ := h
  simp only [Except.ok.injEq] at h3
  obtain ⟨pp, fp, o, rfl, ho⟩ := rmSegment_ring hL hr (hps hY) hdl h1
  have hr' : IsRing { s with ppoly := pp, fpts := fp, pseg := upd s.pseg (s.vtx d) o } X (s.vtx d) l :=
    hr.congr (fun _ => Iff.rfl) (fun _ _ => rfl)
  obtain ⟨r', hr1, hr2, hr3⟩ := previous_ring (s := { s with ppoly := pp, fpts := fp, pseg := upd s.pseg (s.vtx d) o })
    hL.sids hr' hdl
  rw [h2, Except.ok.injEq] at hr2
  subst hr2
  have hrm := (hr.mem r).1 hr1
  refine ⟨r, pp, fp, o, hr3, hrm.1, hrm.2.1, hrm.2.2, h3.symm, ?_, ?_, ?_⟩
  · subst h3
    refine ⟨hL.sids, hL.vlive, hL.vne, fun p hp => ?_⟩
    by_cases hpd : p = s.vtx d
    · subst hpd
      -- the ring at the point loses d
      obtain ⟨l', hp1, hp2, hp3⟩ := hr.from hdl
      have hnd := List.nodup_cons.1 hp3
      refine ⟨l', ?_, fun _ => ?_⟩
      · refine ⟨hnd.2, fun k => ?_, ?_⟩
        · show k ∈ l' ↔ k.1 ∈ s.sid.live ∧ s.vtx k = s.vtx d ∧ k ∉ insert d X
          constructor
          · intro hk
            have h5 := (hr.mem k).1 (hp2.subset (by simp [hk]))
            refine ⟨h5.1, h5.2.1, ?_⟩
            rintro (rfl | h6)
            · exact hnd.1 hk
            · exact h5.2.2 h6
          · rintro ⟨h5, h6, h7⟩
            have h8 := hp2.symm.subset ((hr.mem k).2 ⟨h5, h6, fun h => h7 (Or.inr h)⟩)
            rcases List.mem_cons.1 h8 with rfl | h8
            · exact absurd (Or.inl rfl) h7
            · exact h8
        · cases hl' : l'.getLast? with
          | none => exact Or.inl (List.getLast?_eq_none_iff.1 hl')
          | some z =>
            right
            obtain ⟨_, y, hy, h4⟩ := hp1
            obtain ⟨m, rfl⟩ := List.getLast?_eq_some_iff.1 hl'
            have hz : rot s z = some d := path_last h4
            have hzr : z = r := by
              have h5 : rot s r = some d := by rw [rot_of_next (s := s) hr3, flip_flip]
              rcases hr.path with rfl | ⟨a, ha⟩
              · simp at hdl
              · exact path_inj ha hr.nd (hp2.subset (by simp)) hr1 hz h5
            subst hzr
            rw [path_append] at h4
            obtain ⟨c, h5, h6⟩ := h4
            obtain rfl := path_head h6
            refine ⟨y, ?_⟩
            have hcd : c ≠ d := by
              rintro rfl
              exact hnd.1 (by simp)
            refine path_snoc (path_congr (fun x hx => ?_) h5) ?_
            · have hxd : x ≠ d := by
                rintro rfl
                exact hnd.1 (by simp [hx])
              have hxr : x ≠ c := by
                rintro rfl
                have := hnd.2
                rw [List.nodup_append] at this
                exact this.2.2 x hx x (by simp) rfl
              simp only [rot, upd, Function.update_of_ne hxd, Function.update_of_ne hxr]
            · have : rot s d = some y := hy
              simp only [rot, upd, Function.update_of_ne hcd, Function.update_self]
              exact this
      · rcases ho with ⟨k, hk1, hk2, rfl⟩ | ⟨hl, rfl⟩
        · refine ⟨fun h0 => ?_, fun x hx => ?_⟩
          · simp [upd] at h0
          · simp only [upd, Function.update_self, Option.some.injEq] at hx
            subst hx
            left
            have h8 := hp2.symm.subset hk1
            rcases List.mem_cons.1 h8 with rfl | h8
            · exact absurd rfl hk2
            · exact h8
        · subst hl
          have : l' = [] := by
            have := hp2.length_eq
            simpa using this
          subst this
          refine ⟨fun _ => rfl, fun x hx => ?_⟩
          simp [upd] at hx
    · obtain ⟨m, hm1, hm2⟩ := hL.ring p hp
      refine ⟨m, hm1.congr (fun k => ?_) (fun k hk => ?_), fun hpY => (hm2 hpY).congr ?_ ?_⟩
      · show _ ∧ s.vtx k = p ∧ k ∉ insert d X ↔ _ ∧ s.vtx k = p ∧ k ∉ X
        constructor
        · rintro ⟨h5, h6, h7⟩
          exact ⟨h5, h6, fun h => h7 (Or.inr h)⟩
        · rintro ⟨h5, h6, h7⟩
          refine ⟨h5, h6, ?_⟩
          rintro (rfl | h8)
          · exact hpd h6.symm
          · exact h7 h8
      · have h5 := (hm1.mem k).1 hk
        have hkd : k ≠ d := by
          rintro rfl
          exact hpd h5.2.1.symm
        have hkr : k ≠ r := by
          rintro rfl
          exact hpd (h5.2.1.symm.trans hrm.2.1)
        simp only [upd, Function.update_of_ne hkd, Function.update_of_ne hkr]
      · simp only [upd, Function.update_of_ne hpd]
      · intro k hk h1 h2
        exact ⟨Or.inr hk, h1, h2⟩
  · rintro k rfl
    rcases ho with ⟨k', _, hk2, hk3⟩ | ⟨_, h5⟩
    · simp only [Option.some.injEq] at hk3
      subst hk3
      exact hk2
    · simp at h5
  · rcases ho with ⟨k, hk1, hk2, rfl⟩ | ⟨hl, rfl⟩
    · simp only [reduceCtorEq, false_iff]
      intro h5
      have := hr.unique hdl h5
      subst this
      simp only [List.mem_singleton] at hk1
      exact hk2 (by rw [hk1])
    · simp only [true_iff]
      subst hl
      rcases hr.path with h6 | ⟨a, ha⟩
      · simp at h6
      · obtain ⟨rfl, y, hy, rfl⟩ := ha
        exact next_of_rot hy

/-- `connect_vtx` at a point that has linked ends: the new end comes after `i.1` in the loop around the point. -/
theorem connectVtx_links {d : HE} {i : Ins} {s s' : St K} {X : Set HE} {Y : Set Id} (hL : Links s X Y)
    (hd : d.1 ∈ s.sid.live) (hX : d ∈ X) (hY : s.vtx d ∉ Y) (h1 : i.1.1 ∈ s.sid.live) (h2 : s.vtx i.1 = s.vtx d)
    (h3 : i.1 ∉ X) (h4 : s.next i.1 = some i.2.1) (h : connectVtx d i s = .ok s') :
    s' = { s with
        next := upd (upd s.next d (some i.2.1)) i.1 (some (flip d))
        wire := upd s.wire d i.2.2 } ∧ Links s' (X \ {d}) Y := by
  obtain ⟨l, hr, hps⟩ := hL.ring _ (hL.vlive d hd)
  have hil : i.1 ∈ l := (hr.mem _).2 ⟨h1, h2, h3⟩
  have hne : i.1 ≠ d := fun h => h3 (h ▸ hX)
  unfold connectVtx setNext at h
  simp only [bind_ok, check_ok, Except.ok.injEq] at h
  obtain ⟨s1, hj, s2, ⟨_, hc1, rfl⟩, s3, ⟨_, hc2, rfl⟩, rfl⟩ := h
  have hs1 : s1 = s := by
    unfold joinSegment at hj
    cases hp : s.pseg (s.vtx d) with
    | none =>
      have := (hps hY).non hp
      simp [this] at hil
    | some x =>
      simp only [hp, Except.ok.injEq] at hj
      exact hj.symm
  subst hs1
  refine ⟨rfl, hL.sids, hL.vlive, hL.vne, fun p hp => ?_⟩
  by_cases hpd : p = s1.vtx d
  · subst hpd
    obtain ⟨l', hp1, hp2, hp3⟩ := hr.from hil
    have hdl : d ∉ l := fun h => ((hr.mem d).1 h).2.2 hX
    have hdl' : d ∉ l' := fun h => hdl (hp2.subset (by simp [h]))
    have hil' := (List.nodup_cons.1 hp3).1
    refine ⟨i.1 :: d :: l', ?_, fun hpY => ?_⟩
    · refine ⟨?_, fun k => ?_, Or.inr ⟨i.1, rfl, d, ?_, rfl, flip i.2.1, ?_, ?_⟩⟩
      · simp only [List.nodup_cons, List.mem_cons, not_or]
        exact ⟨⟨hne, hil'⟩, hdl', (List.nodup_cons.1 hp3).2⟩
      · show k ∈ i.1 :: d :: l' ↔ k.1 ∈ s1.sid.live ∧ s1.vtx k = s1.vtx d ∧ k ∉ X \ {d}
        simp only [Set.mem_diff, Set.mem_singleton_iff, not_and, not_not, List.mem_cons]
        constructor
        · rintro (rfl | rfl | hk)
          · exact ⟨h1, h2, fun h => absurd h h3⟩
          · exact ⟨hd, rfl, fun _ => rfl⟩
          · have h5 := (hr.mem k).1 (hp2.subset (by simp [hk]))
            exact ⟨h5.1, h5.2.1, fun h => absurd h h5.2.2⟩
        · rintro ⟨h5, h6, h7⟩
          by_cases hkX : k ∈ X
          · exact Or.inr (Or.inl (h7 hkX))
          · have h8 := hp2.symm.subset ((hr.mem k).2 ⟨h5, h6, hkX⟩)
            rcases List.mem_cons.1 h8 with rfl | h8
            · exact Or.inl rfl
            · exact Or.inr (Or.inr h8)
      · simp [rot, upd]
      · simp [rot, upd, Function.update_of_ne hne.symm]
      · obtain ⟨_, y, hy, h5⟩ := hp1
        rw [rot_of_next h4] at hy
        obtain rfl := Option.some.inj hy
        refine path_congr (fun x hx => ?_) h5
        have hxd : x ≠ d := by rintro rfl; exact hdl' hx
        have hxi : x ≠ i.1 := by rintro rfl; exact hil' hx
        simp only [rot, upd, Function.update_of_ne hxd, Function.update_of_ne hxi]
    · refine ⟨fun h0 => ?_, fun x hx => Or.inl ?_⟩
      · have := (hps hpY).non h0
        simp [this] at hil
      · rcases (hps hpY).som x hx with h5 | ⟨h5, _⟩
        · have h8 := hp2.symm.subset h5
          simp only [List.mem_cons] at h8 ⊢
          tauto
        · simp [h5] at hil
  · obtain ⟨m, hm1, hm2⟩ := hL.ring p hp
    refine ⟨m, hm1.congr (fun k => ?_) (fun k hk => ?_), fun hpY => (hm2 hpY).congr rfl ?_⟩
    · show _ ∧ s1.vtx k = p ∧ k ∉ X \ {d} ↔ _ ∧ s1.vtx k = p ∧ k ∉ X
      simp only [Set.mem_diff, Set.mem_singleton_iff, not_and, not_not]
      constructor
      · rintro ⟨h5, h6, h7⟩
        refine ⟨h5, h6, fun h => ?_⟩
        have := h7 h
        subst this
        exact hpd h6.symm
      · rintro ⟨h5, h6, h7⟩
        exact ⟨h5, h6, fun h => absurd h h7⟩
    · have h5 := (hm1.mem k).1 hk
      have hkd : k ≠ d := by
        rintro rfl
        exact hpd h5.2.1.symm
      have hkr : k ≠ i.1 := by
        rintro rfl
        exact hpd (h5.2.1.symm.trans h2)
      simp only [upd, Function.update_of_ne hkd, Function.update_of_ne hkr]
    · intro k hk h5 h6
      refine ⟨⟨hk, ?_⟩, h5, h6⟩
      rintro rfl
      exact hpd h6.symm

/-- `connect_free_vtx`: a loop of one end around a point without linked ends. -/
theorem connectFree_links {d : HE} {w : Option Id} {s s' : St K} {X : Set HE} {Y : Set Id} (hL : Links s X Y)
    (hd : d.1 ∈ s.sid.live) (hX : d ∈ X) (hno : ∀ k : HE, k.1 ∈ s.sid.live → s.vtx k = s.vtx d → k ∈ X)
    (hp : s.pseg (s.vtx d) = none ∨ s.pseg (s.vtx d) = some d) (h : connectFree d w s = .ok s') :
    ∃ pp fp, s' = { s with
        ppoly := pp
        fpts := fp
        pseg := upd s.pseg (s.vtx d) (some d)
        next := upd s.next d (some (flip d))
        wire := upd s.wire d w } ∧ Links s' (X \ {d}) Y := by
  unfold connectFree setNext at h
  simp only [bind_ok, check_ok, Except.ok.injEq] at h
  obtain ⟨s1, hj, s2, ⟨_, hc1, rfl⟩, rfl⟩ := h
  obtain ⟨pp, fp, rfl⟩ := joinSegment_eq hj
  have hjp : joinPs s d = upd s.pseg (s.vtx d) (some d) := by
    unfold joinPs
    rcases hp with hp | hp
    · rw [if_pos hp]
    · rw [if_neg (by simp [hp])]
      funext x
      by_cases hx : x = s.vtx d
      · subst hx; simp [upd, hp]
      · simp [upd, Function.update_of_ne hx]
  rw [hjp]
  refine ⟨pp, fp, rfl, hL.sids, hL.vlive, hL.vne, fun p hp => ?_⟩
  by_cases hpd : p = s.vtx d
  · subst hpd
    refine ⟨[d], ⟨by simp, fun k => ?_, Or.inr ⟨d, rfl, d, ?_, rfl⟩⟩, fun _ => ⟨fun h0 => ?_, fun x hx => Or.inl ?_⟩⟩
    · show k ∈ [d] ↔ k.1 ∈ s.sid.live ∧ s.vtx k = s.vtx d ∧ k ∉ X \ {d}
      simp only [Set.mem_diff, Set.mem_singleton_iff, not_and, not_not, List.mem_singleton]
      constructor
      · rintro rfl
        exact ⟨hd, rfl, fun _ => rfl⟩
      · rintro ⟨h5, h6, h7⟩
        exact h7 (hno k h5 h6)
    · simp [rot, upd]
    · simp [upd] at h0
    · simpa [upd, eq_comm] using hx
  · obtain ⟨m, hm1, hm2⟩ := hL.ring p hp
    refine ⟨m, hm1.congr (fun k => ?_) (fun k hk => ?_), fun hpY => (hm2 hpY).congr ?_ ?_⟩
    · show _ ∧ s.vtx k = p ∧ k ∉ X \ {d} ↔ _ ∧ s.vtx k = p ∧ k ∉ X
      simp only [Set.mem_diff, Set.mem_singleton_iff, not_and, not_not]
      constructor
      · rintro ⟨h5, h6, h7⟩
        refine ⟨h5, h6, fun h => ?_⟩
        have := h7 h
        subst this
        exact hpd h6.symm
      · rintro ⟨h5, h6, h7⟩
        exact ⟨h5, h6, fun h => absurd h h7⟩
    · have h5 := (hm1.mem k).1 hk
      have hkd : k ≠ d := by
        rintro rfl
        exact hpd h5.2.1.symm
      simp only [upd, Function.update_of_ne hkd]
    · simp only [upd, Function.update_of_ne hpd]
    · intro k hk h5 h6
      refine ⟨⟨hk, ?_⟩, h5, h6⟩
      rintro rfl
      exact hpd h6.symm

/-- `connect_vtx` of an end to another end, both at a point without linked ends. -/
theorem connectTip_links {d t : HE} {w : Option Id} {s s' : St K} {X : Set HE} {Y : Set Id} (hL : Links s X Y)
    (hd : d.1 ∈ s.sid.live) (hX : d ∈ X) (ht : t.1 ∈ s.sid.live) (htX : t ∈ X) (hv : s.vtx t = s.vtx d) (htd : t ≠ d)
    (hno : ∀ k : HE, k.1 ∈ s.sid.live → s.vtx k = s.vtx d → k ∈ X) (hon : ∀ k : HE, k.1 ∈ s.sid.live →
      s.vtx k = s.vtx d → k = d ∨ k = t)
    (hp : s.pseg (s.vtx d) = some d) (h : connectVtx d (t, flip t, w) s = .ok s') :
    s' = { s with
        next := upd (upd s.next d (some (flip t))) t (some (flip d))
        wire := upd s.wire d w } ∧ Links s' (X \ {d, t}) Y := by
  unfold connectVtx setNext at h
  simp only [bind_ok, check_ok, Except.ok.injEq] at h
  obtain ⟨s1, hj, s2, ⟨_, hc1, rfl⟩, s3, ⟨_, hc2, rfl⟩, rfl⟩ := h
  have hs1 : s1 = s := by
    unfold joinSegment at hj
    simp only [hp, Except.ok.injEq] at hj
    exact hj.symm
  subst hs1
  refine ⟨rfl, hL.sids, hL.vlive, hL.vne, fun p hp' => ?_⟩
  by_cases hpd : p = s1.vtx d
  · subst hpd
    refine ⟨[d, t], ⟨by simp [htd.symm], fun k => ?_, Or.inr ⟨d, rfl, t, ?_, rfl, d, ?_, rfl⟩⟩,
      fun _ => ⟨fun h0 => ?_, fun x hx => Or.inl ?_⟩⟩
    · show k ∈ [d, t] ↔ k.1 ∈ s1.sid.live ∧ s1.vtx k = s1.vtx d ∧ k ∉ X \ {d, t}
      simp only [Set.mem_diff, Set.mem_insert_iff, Set.mem_singleton_iff, not_and, not_not, List.mem_cons,
        List.not_mem_nil, or_false]
      constructor
      · rintro (rfl | rfl)
        · exact ⟨hd, rfl, fun _ => Or.inl rfl⟩
        · exact ⟨ht, hv, fun _ => Or.inr rfl⟩
      · rintro ⟨h5, h6, h7⟩
        exact hon k h5 h6
    · simp [rot, upd, Function.update_of_ne htd.symm]
    · simp [rot, upd]
    · simp [hp] at h0
    · have : d = x := by simpa [hp] using hx
      simp [← this]
  · obtain ⟨m, hm1, hm2⟩ := hL.ring p hp'
    refine ⟨m, hm1.congr (fun k => ?_) (fun k hk => ?_), fun hpY => (hm2 hpY).congr rfl ?_⟩
    · show _ ∧ s1.vtx k = p ∧ k ∉ X \ {d, t} ↔ _ ∧ s1.vtx k = p ∧ k ∉ X
      simp only [Set.mem_diff, Set.mem_insert_iff, Set.mem_singleton_iff, not_and, not_not]
      constructor
      · rintro ⟨h5, h6, h7⟩
        refine ⟨h5, h6, fun h => ?_⟩
        rcases h7 h with rfl | rfl
        · exact hpd h6.symm
        · exact hpd (h6.symm.trans hv)
      · rintro ⟨h5, h6, h7⟩
        exact ⟨h5, h6, fun h => absurd h h7⟩
    · have h5 := (hm1.mem k).1 hk
      have hkd : k ≠ d := by
        rintro rfl
        exact hpd h5.2.1.symm
      have hkt : k ≠ t := by
        rintro rfl
        exact hpd (h5.2.1.symm.trans hv)
      simp only [upd, Function.update_of_ne hkd, Function.update_of_ne hkt]
    · intro k hk h1 h2
      refine ⟨⟨hk, ?_⟩, h1, h2⟩
      rintro (rfl | rfl)
      · exact hpd h2.symm
      · exact hpd (h2.symm.trans hv)

end Verif.Decomp
