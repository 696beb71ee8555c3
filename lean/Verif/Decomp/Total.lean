import Verif.Decomp.Nested

/-! Calls that raise nothing: the steps of the operations return a state if the links of the state are right. -/

namespace Verif.Decomp

variable {K : Type}

/-- A call returns if its first part returns and the rest does. -/
theorem ex_bind {α β : Type} {x : Except Err α} {f : α → Except Err β} {a : α} (h : x = .ok a) (h2 : ∃ b, f a = .ok b) :
    ∃ b, (x >>= f) = .ok b := h2.imp fun _ hb => bind_ok.2 ⟨a, h, hb⟩

theorem Ids.remove_total {m : Ids} {i : Id} (h : i ∈ m.live) : ∃ m', m.remove i = .ok m' := ⟨_, if_pos h⟩

/-! ### Steps -/

theorem leavePoly_total {p : Id} {s : St K} (hF : Free True s) (hp : p ∈ s.pid.live) : ∃ s', leavePoly p s = .ok s' := by
  unfold leavePoly
  cases hq : s.ppoly p with
  | none => exact ⟨_, rfl⟩
  | some q =>
    have := (hF.full trivial p hp q hq).2
    exact ⟨_, bind_ok.2 ⟨_, removeSet_ok.2 ⟨this, rfl⟩, rfl⟩⟩

theorem joinSegment_total {d : HE} {s : St K} (hF : Free True s) (hp : s.vtx d ∈ s.pid.live) :
    ∃ s', joinSegment d s = .ok s' := by
  unfold joinSegment
  dsimp only
  cases hq : s.pseg (s.vtx d) with
  | some x => exact ⟨_, rfl⟩
  | none =>
    obtain ⟨s1, h1⟩ := leavePoly_total hF hp
    exact ⟨_, bind_ok.2 ⟨_, h1, rfl⟩⟩

theorem setPolygon_total {p q : Id} {s : St K} (hF : Free True s) (hp : p ∈ s.pid.live) : ∃ s', setPolygon p q s = .ok s' := by
  obtain ⟨s1, h1⟩ := leavePoly_total hF hp
  exact ⟨_, bind_ok.2 ⟨_, h1, rfl⟩⟩

theorem setNext_total {d k : HE} {s : St K} (h : s.vtx (flip k) = s.vtx d) :
    setNext d k s = .ok { s with next := upd s.next d (some k) } :=
  bind_ok.2 ⟨(), check_ok.2 h, rfl⟩

theorem connectVtx_total {d : HE} {i : Ins} {s : St K} (hF : Free True s) (hp : s.vtx d ∈ s.pid.live)
    (h1 : s.vtx (flip i.2.1) = s.vtx d) (h2 : s.vtx i.1 = s.vtx d) : ∃ s', connectVtx d i s = .ok s' := by
  obtain ⟨s1, hj⟩ := joinSegment_total hF hp
  obtain ⟨pp, fp, rfl⟩ := joinSegment_eq hj
  refine ⟨_, bind_ok.2 ⟨_, hj, bind_ok.2 ⟨_, setNext_total h1, bind_ok.2 ⟨_, setNext_total ?_, rfl⟩⟩⟩⟩
  rw [flip_flip]
  exact h2.symm

theorem connectFree_total {d : HE} {w : Option Id} {s : St K} (hF : Free True s) (hp : s.vtx d ∈ s.pid.live) :
    ∃ s', connectFree d w s = .ok s' := by
  obtain ⟨s1, hj⟩ := joinSegment_total hF hp
  obtain ⟨pp, fp, rfl⟩ := joinSegment_eq hj
  refine ⟨_, bind_ok.2 ⟨_, hj, bind_ok.2 ⟨_, setNext_total ?_, rfl⟩⟩⟩
  rw [flip_flip]

theorem makeSegment_total [Field K] {a b : Id} {s : St K} (hF : Free True s) (hab : a ≠ b) (ha : a ∈ s.pid.live)
    (hb : b ∈ s.pid.live) : ∃ e s', makeSegment a b s = .ok (e, s') := by
  obtain ⟨s1, h1⟩ := joinSegment_total (d := (s.sid.append.1, false)) (s := { s with
    sid := s.sid.append.2
    vtx := upd (upd s.vtx (s.sid.append.1, false) a) (s.sid.append.1, true) b
    wire := upd (upd s.wire (s.sid.append.1, false) none) (s.sid.append.1, true) none
    next := upd (upd s.next (s.sid.append.1, false) none) (s.sid.append.1, true) none
    vec := upd s.vec s.sid.append.1 ((s.xy b).1 - (s.xy a).1, (s.xy b).2 - (s.xy a).2) })
    (hF.congr rfl rfl rfl rfl rfl) (by
      simp only [upd, Function.update_of_ne (show ((s.sid.append.1, false) : HE) ≠ (s.sid.append.1, true) by simp),
        Function.update_self]
      exact ha)
  have hF1 := joinSegment_free (T := True) (hF.congr (s' := { s with
    sid := s.sid.append.2
    vtx := upd (upd s.vtx (s.sid.append.1, false) a) (s.sid.append.1, true) b
    wire := upd (upd s.wire (s.sid.append.1, false) none) (s.sid.append.1, true) none
    next := upd (upd s.next (s.sid.append.1, false) none) (s.sid.append.1, true) none
    vec := upd s.vec s.sid.append.1 ((s.xy b).1 - (s.xy a).1, (s.xy b).2 - (s.xy a).2) }) rfl rfl rfl rfl rfl) h1
  obtain ⟨s2, h2⟩ := joinSegment_total (d := (s.sid.append.1, true)) hF1 (by
    obtain ⟨pp, fp, rfl⟩ := joinSegment_eq h1
    simp only [upd, Function.update_self]
    exact hb)
  exact ⟨_, _, bind_ok.2 ⟨(), check_ok.2 hab, bind_ok.2 ⟨_, h1, bind_ok.2 ⟨_, h2, rfl⟩⟩⟩⟩

/-- The search for another end at the point of a linked end. -/
theorem otherAt_total {d : HE} {s : St K} {X : Set HE} {Y : Set Id} (hL : Links s X Y) (hd : d.1 ∈ s.sid.live)
    (hX : d ∉ X) (hY : s.vtx d ∉ Y) : ∃ o, otherAt s d = .ok o ∧ (o = none → s.next d = some (flip d)) := by
  obtain ⟨l, hr, hps⟩ := hL.ring _ (hL.vlive d hd)
  have hdl : d ∈ l := (hr.mem d).2 ⟨hd, rfl, hX⟩
  unfold otherAt
  cases hp : s.pseg (s.vtx d) with
  | none =>
    have := (hps hY).non hp
    simp [this] at hdl
  | some st =>
    have hst : st ∈ l := by
      rcases (hps hY).som st hp with h1 | ⟨h1, _⟩
      · exact h1
      · simp [h1] at hdl
    obtain ⟨l', h1, h2, h3⟩ := hr.from hst
    refine ⟨_, firstOther_ok h1 (by simp) (by simpa using (List.nodup_cons.1 h3).1)
      (by rw [h2.length_eq]; exact hr.length hL.sids), fun ho => ?_⟩
    rw [List.find?_eq_none] at ho
    have hall : ∀ x ∈ l, x = d := by
      intro x hx
      have h5 := ho x (h2.symm.subset hx)
      simp only [ne_eq, decide_not, Bool.not_eq_eq_eq_not, Bool.not_true, decide_eq_false_iff_not, not_not] at h5
      rcases eq_or_flip h5 with h6 | h6
      · exact h6
      · exfalso
        have h7 := ((hr.mem x).1 hx)
        rw [h6] at h7
        exact hL.flip_ne (d := d) hd h7.2.1
    rcases hr.path with h6 | ⟨a, ha⟩
    · simp [h6] at hdl
    · obtain ⟨y, hy, hy'⟩ := path_succ ha hdl
      rw [hall y hy] at hy'
      exact next_of_rot hy'

/-- The segment has one polygon on both of its sides. -/
def OnePoly (s : St K) (e : Id) : Prop := isDendrite s e ∧ ∃ q, polyAt s (e, true) = .ok q

theorem OnePoly.congr {s s' : St K} {e : Id} (h : OnePoly s e) (h1 : s'.wire = s.wire) (h2 : s'.wpoly = s.wpoly) : OnePoly s' e := by
  obtain ⟨a, q, b⟩ := h
  refine ⟨?_, q, ?_⟩
  · unfold isDendrite; rw [h1]; exact a
  · unfold polyAt; rw [h1, h2]; exact b

theorem rmSegment_total {d : HE} {s : St K} (hF : Free True s) (hd : s.vtx d ∈ s.pid.live) {o : Option HE}
    (ho : otherAt s d = .ok o) (h1 : o = none → OnePoly s d.1) : ∃ s', rmSegment d s = .ok s' := by
  unfold rmSegment
  cases o with
  | some x => exact ⟨_, bind_ok.2 ⟨_, ho, rfl⟩⟩
  | none =>
    obtain ⟨h2, q, h3⟩ := h1 rfl
    obtain ⟨s', h4⟩ := setPolygon_total (q := q) hF hd
    exact ⟨s', bind_ok.2 ⟨_, ho, bind_ok.2 ⟨(), check_ok.2 h2, bind_ok.2 ⟨q, h3, h4⟩⟩⟩⟩

theorem disconnectVtx_total {d : HE} {s : St K} {X : Set HE} {Y : Set Id} (hL : Links s X Y) (hF : Free True s)
    (hd : d.1 ∈ s.sid.live) (hX : d ∉ X) (hY : s.vtx d ∉ Y) (h1 : s.next d = some (flip d) → OnePoly s d.1) :
    ∃ s', disconnectVtx d s = .ok s' := by
  obtain ⟨o, ho, ho'⟩ := otherAt_total hL hd hX hY
  obtain ⟨s1, hs1⟩ := rmSegment_total hF (hL.vlive d hd) ho (fun h => h1 (ho' h))
  obtain ⟨l, hr, hps⟩ := hL.ring _ (hL.vlive d hd)
  have hdl : d ∈ l := (hr.mem d).2 ⟨hd, rfl, hX⟩
  have hs1' := hs1
  obtain ⟨pp, fp, o', rfl, _⟩ := rmSegment_eq hs1
  obtain ⟨r, _, hr2, _⟩ := previous_ring (s := { s with ppoly := pp, fpts := fp, pseg := upd s.pseg (s.vtx d) o' })
    hL.sids (hr.congr (fun _ => Iff.rfl) (fun _ _ => rfl)) hdl
  exact ⟨_, bind_ok.2 ⟨_, hs1', bind_ok.2 ⟨r, hr2, rfl⟩⟩⟩

/-- `rm_segment` of an end that `EndOk` allows to destroy. -/
theorem rmSegment_end_total {d : HE} {s : St K} {X : Set HE} {Y : Set Id} (hL : Links s X Y) (hF : Free True s)
    (hd : d.1 ∈ s.sid.live) (he : EndOk s X Y d) (h1 : s.pseg (s.vtx d) = none ∨ d ∉ X → OnePoly s d.1) :
    ∃ s', rmSegment d s = .ok s' := by
  rcases he with ⟨h2, h3⟩ | ⟨h2, h3, h4⟩
  · cases hp : s.pseg (s.vtx d) with
    | none =>
      refine rmSegment_total (o := none) hF (hL.vlive d hd) ?_ (fun _ => h1 (Or.inl hp))
      unfold otherAt
      simp only [hp]
    | some k =>
      refine rmSegment_total (o := some k) hF (hL.vlive d hd) ?_ (fun h => by simp at h)
      unfold otherAt
      simp only [hp, fuel]
      unfold firstOther
      simp [h3 k hp]
  · obtain ⟨o, ho, _⟩ := otherAt_total hL hd h2 h4
    exact rmSegment_total hF (hL.vlive d hd) ho (fun _ => h1 (Or.inr h2))

theorem destroySegment_total {e : Id} {s : St K} {X : Set HE} {Y : Set Id} (hL : Links s X Y) (hF : Free True s)
    (he : e ∈ s.sid.live) (h0 : EndOk s X Y (e, false)) (h1 : EndOk s X Y (e, true)) (h2 : OnePoly s e)
    (hP : PolyLive s e) : ∃ s', destroySegment e s = .ok s' := by
  obtain ⟨s1, hs1⟩ := rmSegment_end_total hL hF he h0 (fun _ => h2)
  have hF1 := rmSegment_free hF (hL.vlive _ he) (fun _ => hP) hs1
  have hs1' := hs1
  obtain ⟨pp, fp, o, rfl, ho⟩ := rmSegment_eq hs1
  have hne := hL.vne e he
  have key : ∃ s', rmSegment (e, true) { s with ppoly := pp, fpts := fp, pseg := upd s.pseg (s.vtx (e, false)) o } = .ok s' := by
    have hps : upd s.pseg (s.vtx (e, false)) o (s.vtx (e, true)) = s.pseg (s.vtx (e, true)) := by
      simp only [upd, Function.update_of_ne hne.symm]
    obtain ⟨o2, ho2⟩ : ∃ o2, otherAt s (e, true) = .ok o2 := by
      rcases h1 with ⟨_, h4⟩ | ⟨h3, _, h5⟩
      · unfold otherAt
        cases hp : s.pseg (s.vtx (e, true)) with
        | none => exact ⟨none, rfl⟩
        | some k =>
          refine ⟨some k, ?_⟩
          simp only [fuel]
          unfold firstOther
          simp [h4 k hp]
      · obtain ⟨o2, h6, _⟩ := otherAt_total hL he h3 h5
        exact ⟨o2, h6⟩
    refine rmSegment_total (o := o2) hF1 (hL.vlive (e, true) he) ?_ (fun _ => h2.congr rfl rfl)
    unfold otherAt at ho2 ⊢
    simp only [hps]
    cases hp : s.pseg (s.vtx (e, true)) with
    | none => simpa [hp] using ho2
    | some k =>
      simp only [hp] at ho2
      have : ∀ n h, firstOther { s with ppoly := pp, fpts := fp, pseg := upd s.pseg (s.vtx (e, false)) o } k e n h =
          firstOther s k e n h := by
        intro n
        induction n with
        | zero => intro h; rfl
        | succ n ih => intro h; unfold firstOther; simp only [ih]
      exact (this _ _).trans ho2
  obtain ⟨s2, hs2⟩ := key
  have hs2' := hs2
  obtain ⟨pp2, fp2, o2, rfl, _⟩ := rmSegment_eq hs2
  obtain ⟨m, hm⟩ := Ids.remove_total he
  exact ex_bind hs1' (ex_bind hs2' (ex_bind hm ⟨_, rfl⟩))

end Verif.Decomp
