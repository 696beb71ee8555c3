import Verif.Decomp.FanRun

/-! Two decompositions with the same points, coordinates, segments, ends and the same ids to come: the calls do the same to both,
and the inverse calls lead back. -/

namespace Verif.Decomp

/-- The id that the map gives after `k` others (idmap.py:32-36). -/
def Ids.idAt (m : Ids) (k : Nat) : Id := (m.free[k]?).getD (m.nxt + (k - m.free.length))

/-- Same keys and same ids to come. -/
structure Ids.Alike (m m' : Ids) : Prop where
  mem : ∀ j, j ∈ m.live ↔ j ∈ m'.live
  ids : ∀ k, m.idAt k = m'.idAt k

theorem Ids.idAt_zero (m : Ids) : m.append.1 = m.idAt 0 := by
  unfold append idAt
  cases h : m.free with
  | nil => simp
  | cons i l => simp

theorem Ids.idAt_append (m : Ids) (k : Nat) : m.append.2.idAt k = m.idAt (k + 1) := by
  unfold append idAt
  cases h : m.free with
  | nil => simp [Nat.add_comm, Nat.add_left_comm]
  | cons i l => simp

theorem Ids.idAt_remove {m m' : Ids} {i : Id} (h : m.remove i = .ok m') : m'.idAt 0 = i ∧ ∀ k, m'.idAt (k + 1) = m.idAt k := by
  unfold remove at h
  split at h
  · simp only [Except.ok.injEq] at h
    subst h
    exact ⟨by simp [idAt], fun k => by simp [idAt]⟩
  · cases h

theorem Ids.mem_append {m : Ids} (h : m.Ok) (j : Id) : j ∈ m.append.2.live ↔ j ∈ m.live ∨ j = m.append.1 := by
  rw [(Ids.append_ok h).2.1]; simp

theorem Ids.Alike.refl (m : Ids) : m.Alike m := ⟨fun _ => Iff.rfl, fun _ => rfl⟩

theorem Ids.Alike.symm {m m' : Ids} (h : m.Alike m') : m'.Alike m := ⟨fun j => (h.mem j).symm, fun k => (h.ids k).symm⟩

theorem Ids.Alike.trans {m m' m'' : Ids} (h : m.Alike m') (h' : m'.Alike m'') : m.Alike m'' :=
  ⟨fun j => (h.mem j).trans (h'.mem j), fun k => (h.ids k).trans (h'.ids k)⟩

theorem Ids.Alike.append {m m' : Ids} (h : m.Alike m') (hm : m.Ok) (hm' : m'.Ok) :
    m.append.1 = m'.append.1 ∧ m.append.2.Alike m'.append.2 := by
  have h0 : m.append.1 = m'.append.1 := by rw [Ids.idAt_zero, Ids.idAt_zero, h.ids]
  refine ⟨h0, fun j => ?_, fun k => ?_⟩
  · rw [Ids.mem_append hm, Ids.mem_append hm', h.mem, h0]
  · rw [Ids.idAt_append, Ids.idAt_append, h.ids]

theorem Ids.Alike.remove {m m' n n' : Ids} {i : Id} (h : m.Alike m') (hm : m.Ok) (hm' : m'.Ok) (hn : m.remove i = .ok n)
    (hn' : m'.remove i = .ok n') : n.Alike n' := by
  refine ⟨fun j => ?_, fun k => ?_⟩
  · rw [(Ids.remove_ok hm hn).2.2.2, (Ids.remove_ok hm' hn').2.2.2, h.mem]
  · obtain ⟨a, b⟩ := Ids.idAt_remove hn
    obtain ⟨a', b'⟩ := Ids.idAt_remove hn'
    cases k with
    | zero => rw [a, a']
    | succ k => rw [b, b', h.ids]

/-- Removing what was appended. -/
theorem Ids.Alike.unappend {m n n' : Ids} (h : n.Alike m.append.2) (hm : m.Ok) (hn : n.Ok)
    (hr : n.remove m.append.1 = .ok n') : n'.Alike m := by
  refine ⟨fun j => ?_, fun k => ?_⟩
  · rw [(Ids.remove_ok hn hr).2.2.2, h.mem, Ids.mem_append hm]
    constructor
    · rintro ⟨h1, h2⟩; exact h2.resolve_right h1
    · intro h1
      exact ⟨fun h2 => (Ids.append_ok hm).1 (h2 ▸ h1), Or.inl h1⟩
  · obtain ⟨a, b⟩ := Ids.idAt_remove hr
    cases k with
    | zero => rw [a, Ids.idAt_zero]
    | succ k => rw [b, h.ids, Ids.idAt_append]

/-- Appending what was removed. -/
theorem Ids.Alike.unremove {m m1 n : Ids} {i : Id} (hr : m.remove i = .ok m1) (h : n.Alike m1) (hm : m.Ok) (hn : n.Ok) :
    n.append.1 = i ∧ n.append.2.Alike m := by
  obtain ⟨a, b⟩ := Ids.idAt_remove hr
  have h0 : n.append.1 = i := by rw [Ids.idAt_zero, h.ids, a]
  obtain ⟨r1, _, _, r2⟩ := Ids.remove_ok hm hr
  refine ⟨h0, fun j => ?_, fun k => ?_⟩
  · rw [Ids.mem_append hn, h.mem, r2, h0]
    constructor
    · rintro (h1 | rfl)
      exacts [h1.2, r1]
    · intro h1
      by_cases hj : j = i
      exacts [Or.inr hj, Or.inl ⟨hj, h1⟩]
  · rw [Ids.idAt_append, h.ids, b]

variable {K : Type}

/-- Same points with the same coordinates, same segments with the same ends, and the same ids of points and segments to come. -/
structure Alike (s t : St K) : Prop where
  pids : s.pid.Alike t.pid
  sids : s.sid.Alike t.sid
  xy : ∀ p ∈ s.pid.live, s.xy p = t.xy p
  vtx : ∀ d : HE, d.1 ∈ s.sid.live → s.vtx d = t.vtx d

theorem Alike.refl (s : St K) : Alike s s := ⟨.refl _, .refl _, fun _ _ => rfl, fun _ _ => rfl⟩

theorem Alike.symm {s t : St K} (h : Alike s t) : Alike t s :=
  ⟨h.pids.symm, h.sids.symm, fun p hp => (h.xy p ((h.pids.mem p).2 hp)).symm, fun d hd => (h.vtx d ((h.sids.mem _).2 hd)).symm⟩

theorem Alike.trans {s t r : St K} (h : Alike s t) (h' : Alike t r) : Alike s r :=
  ⟨h.pids.trans h'.pids, h.sids.trans h'.sids, fun p hp => (h.xy p hp).trans (h'.xy p ((h.pids.mem p).1 hp)),
    fun d hd => (h.vtx d hd).trans (h'.vtx d ((h.sids.mem _).1 hd))⟩

theorem Alike.equivalence : Equivalence (Alike : St K → St K → Prop) := ⟨Alike.refl, Alike.symm, Alike.trans⟩

/-! ### Points -/

theorem Alike.addPt {s t : St K} (h : Alike s t) (hs : s.pid.Ok) (ht : t.pid.Ok) (x : K × K) (q q' : Id) :
    (addFreePoint x q s).1 = (addFreePoint x q' t).1 ∧ Alike (addFreePoint x q s).2 (addFreePoint x q' t).2 := by
  obtain ⟨h1, h2⟩ := h.pids.append hs ht
  refine ⟨h1, h2, h.sids, fun p hp => ?_, h.vtx⟩
  have hp : p ∈ s.pid.append.2.live := hp
  simp only [addFreePoint, upd]
  by_cases hpe : p = s.pid.append.1
  · rw [hpe, Function.update_self, h1, Function.update_self]
  · rw [Function.update_of_ne hpe, Function.update_of_ne (h1 ▸ hpe)]
    exact h.xy p (((Ids.mem_append hs p).1 hp).resolve_right hpe)

theorem removeFreePoint_eff {p : Id} {s s' : St K} (h : removeFreePoint p s = .ok s') :
    s.pid.remove p = .ok s'.pid ∧ s'.sid = s.sid ∧ s'.xy = s.xy ∧ s'.vtx = s.vtx ∧ s.pseg p = none := by
  unfold removeFreePoint at h
  simp only [bind_ok, check_ok, Except.ok.injEq] at h
  obtain ⟨_, _, q, _, _, h1, l, _, m, hm, rfl⟩ := h
  exact ⟨hm, rfl, rfl, rfl, h1⟩

theorem Alike.rmPt {s t s' t' : St K} {p : Id} (h : Alike s t) (hs : s.pid.Ok) (ht : t.pid.Ok)
    (h1 : removeFreePoint p s = .ok s') (h2 : removeFreePoint p t = .ok t') : Alike s' t' := by
  obtain ⟨a1, a2, a3, a4, _⟩ := removeFreePoint_eff h1
  obtain ⟨b1, b2, b3, b4, _⟩ := removeFreePoint_eff h2
  refine ⟨h.pids.remove hs ht a1 b1, ?_, fun j hj => ?_, fun d hd => ?_⟩
  · rw [a2, b2]; exact h.sids
  · rw [a3, b3]; exact h.xy j (((Ids.remove_ok hs a1).2.2.2 j).1 hj).2
  · rw [a2] at hd; rw [a4, b4]; exact h.vtx d hd

/-- A point added and removed. -/
theorem Alike.add_rm {s t t' : St K} {x : K × K} {q : Id} (h : Alike t (addFreePoint x q s).2) (hs : s.pid.Ok) (ht : t.pid.Ok)
    (h1 : removeFreePoint (addFreePoint x q s).1 t = .ok t') : Alike t' s := by
  obtain ⟨a1, a2, a3, a4, _⟩ := removeFreePoint_eff h1
  have hp := h.pids.unappend hs ht a1
  refine ⟨hp, ?_, fun j hj => ?_, fun d hd => ?_⟩
  · rw [a2]; exact h.sids
  · have k := ((Ids.remove_ok ht a1).2.2.2 j).1 hj
    rw [a3, h.xy j k.2]
    simp only [addFreePoint, upd] at k ⊢
    rw [Function.update_of_ne k.1]
  · rw [a2] at hd; rw [a4]; exact h.vtx d hd

/-- A point removed and added with its coordinates. -/
theorem Alike.rm_add {s s' t : St K} {p q : Id} (h1 : removeFreePoint p s = .ok s') (h : Alike t s') (hs : s.pid.Ok)
    (ht : t.pid.Ok) : (addFreePoint (s.xy p) q t).1 = p ∧ Alike (addFreePoint (s.xy p) q t).2 s := by
  obtain ⟨a1, a2, a3, a4, _⟩ := removeFreePoint_eff h1
  obtain ⟨k1, k2⟩ := Ids.Alike.unremove a1 h.pids hs ht
  refine ⟨k1, k2, ?_, fun j hj => ?_, fun d hd => ?_⟩
  · rw [← a2]; exact h.sids
  · have hj : j ∈ t.pid.append.2.live := hj
    simp only [addFreePoint, upd]
    by_cases hje : j = t.pid.append.1
    · rw [hje, Function.update_self, k1]
    · rw [Function.update_of_ne hje, h.xy j (((Ids.mem_append ht j).1 hj).resolve_right hje), a3]
  · exact (h.vtx d hd).trans (by rw [a4])

/-! ### Segments -/

section
variable [Field K]

theorem AddSeg.id {s s' : St K} {e a b : Id} (h : AddSeg s s' e a b) (hs : s.sid.Ok) : e = s.sid.append.1 := by
  have := (h.live e).2 (Or.inr rfl)
  rw [h.sid, Ids.mem_append hs] at this
  exact this.resolve_left h.fresh

theorem AddSeg.ends {s s' : St K} {e a b : Id} (h : AddSeg s s' e a b) (d : HE) :
    s'.vtx d = if d.1 = e then (if d.2 then b else a) else s.vtx d := by
  obtain ⟨j, v⟩ := d
  by_cases hj : j = e
  · subst hj
    rw [if_pos rfl]
    cases v
    exacts [h.v0, h.v1]
  · rw [if_neg hj]; exact h.vo _ hj

theorem Alike.addSeg {s t s' t' : St K} {e e' a b : Id} (h : Alike s t) (hs : s.sid.Ok) (ht : t.sid.Ok) (h1 : AddSeg s s' e a b)
    (h2 : AddSeg t t' e' a b) : e = e' ∧ Alike s' t' := by
  obtain ⟨k1, k2⟩ := h.sids.append hs ht
  have he : e = e' := by rw [h1.id hs, h2.id ht, k1]
  subst he
  refine ⟨rfl, ?_, ?_, fun j hj => ?_, fun d hd => ?_⟩
  · rw [h1.pid, h2.pid]; exact h.pids
  · rw [h1.sid, h2.sid]; exact k2
  · rw [h1.pid] at hj; rw [h1.xy, h2.xy]; exact h.xy j hj
  · rw [h1.ends, h2.ends]
    split
    · rfl
    · next hde => exact h.vtx d (((h1.live _).1 hd).resolve_right hde)

omit [Field K] in
theorem Alike.delSeg {s t s' t' : St K} {e : Id} (h : Alike s t) (hs : s.sid.Ok) (ht : t.sid.Ok) (h1 : DelSeg s s' e)
    (h2 : DelSeg t t' e) : Alike s' t' := by
  refine ⟨?_, h.sids.remove hs ht h1.sid h2.sid, fun j hj => ?_, fun d hd => ?_⟩
  · rw [h1.pid, h2.pid]; exact h.pids
  · rw [h1.pid] at hj; rw [h1.xy, h2.xy]; exact h.xy j hj
  · rw [h1.vtx, h2.vtx]; exact h.vtx d ((h1.live _).1 hd).2

/-- A segment added and removed. -/
theorem Alike.add_del {s s' t t' : St K} {e a b : Id} (h1 : AddSeg s s' e a b) (h : Alike t s') (hs : s.sid.Ok) (ht : t.sid.Ok)
    (h2 : DelSeg t t' e) : Alike t' s := by
  have he := h1.id hs
  have h3 := h.sids
  rw [h1.sid] at h3
  have h4 := h2.sid
  rw [he] at h4
  refine ⟨?_, h3.unappend hs ht h4, fun j hj => ?_, fun d hd => ?_⟩
  · rw [h2.pid, ← h1.pid]; exact h.pids
  · rw [h2.pid] at hj; rw [h2.xy, ← h1.xy]; exact h.xy j hj
  · have k := (h2.live _).1 hd
    rw [h2.vtx, h.vtx d k.2, h1.vo d k.1]

/-- A segment removed and added with its ends. -/
theorem Alike.del_add {s s' t t' : St K} {e e' : Id} (h1 : DelSeg s s' e) (h : Alike t s') (hs : s.sid.Ok) (ht : t.sid.Ok)
    (h2 : AddSeg t t' e' (s.vtx (e, false)) (s.vtx (e, true))) : e' = e ∧ Alike t' s := by
  obtain ⟨k1, k2⟩ := Ids.Alike.unremove h1.sid h.sids hs ht
  have he := (h2.id ht).trans k1
  subst he
  refine ⟨rfl, ?_, ?_, fun j hj => ?_, fun d hd => ?_⟩
  · rw [h2.pid, ← h1.pid]; exact h.pids
  · rw [h2.sid]; exact k2
  · rw [h2.pid] at hj; rw [h2.xy, ← h1.xy]; exact h.xy j hj
  · rw [h2.ends]
    obtain ⟨j, v⟩ := d
    split
    · next hj =>
      dsimp only at hj
      subst hj
      cases v <;> rfl
    · next hde => exact (h.vtx _ (((h2.live _).1 hd).resolve_right hde)).trans (by rw [h1.vtx])

theorem SplitSeg.id {s s' : St K} {e n mid : Id} (h : SplitSeg s s' e n mid) (hs : s.sid.Ok) : n = s.sid.append.1 := by
  have := (h.live n).2 (Or.inr rfl)
  rw [h.sid, Ids.mem_append hs] at this
  exact this.resolve_left h.fresh

theorem SplitSeg.ends {s s' : St K} {e n mid : Id} (h : SplitSeg s s' e n mid) (d : HE) :
    s'.vtx d = if d = (e, true) then mid else if d.1 = n then (if d.2 then s.vtx (e, true) else mid) else s.vtx d := by
  obtain ⟨j, v⟩ := d
  split
  · next hd => rw [hd]; exact h.ve
  · next hd =>
    split
    · next hn =>
      dsimp only at hn
      subst hn
      cases v
      exacts [h.vn0, h.vn1]
    · next hn => exact h.vo _ hd hn

theorem Alike.splitSeg {s t s' t' : St K} {e n n' mid : Id} (h : Alike s t) (hs : s.sid.Ok) (ht : t.sid.Ok)
    (h1 : SplitSeg s s' e n mid) (h2 : SplitSeg t t' e n' mid) : n = n' ∧ Alike s' t' := by
  obtain ⟨k1, k2⟩ := h.sids.append hs ht
  have he : n = n' := by rw [h1.id hs, h2.id ht, k1]
  subst he
  refine ⟨rfl, ?_, ?_, fun j hj => ?_, fun d hd => ?_⟩
  · rw [h1.pid, h2.pid]; exact h.pids
  · rw [h1.sid, h2.sid]; exact k2
  · rw [h1.pid] at hj; rw [h1.xy, h2.xy]; exact h.xy j hj
  · rw [h1.ends, h2.ends, h.vtx (e, true) h1.was]
    split
    · rfl
    · split
      · rfl
      · next hde => exact h.vtx d (((h1.live _).1 hd).resolve_right hde)

/-- A segment split and joined again. -/
theorem Alike.split_join {s s' t t' : St K} {e n mid : Id} {x y : HE} (h1 : SplitSeg s s' e n mid) (h : Alike t s') (hs : s.sid.Ok)
    (ht : t.sid.Ok) (hx : x.1 = e) (hy : y.1 = n) (hxm : t.vtx x = mid) (h2 : JoinSeg t t' x y) : Alike t' s := by
  have hen : e ≠ n := fun hh => h1.fresh (hh ▸ h1.was)
  have hn := h1.id hs
  have h3 := h.sids
  rw [h1.sid] at h3
  have h4 := h2.del
  rw [hy, hn] at h4
  have hel : e ∈ t.sid.live := (h.sids.mem e).2 ((h1.live e).2 (Or.inl h1.was))
  have hnl : n ∈ t.sid.live := (h.sids.mem n).2 ((h1.live n).2 (Or.inr rfl))
  obtain ⟨x1, x2⟩ := x
  obtain ⟨y1, y2⟩ := y
  dsimp only at hx hy
  subst hx hy
  have hx2 : x2 = true := by
    cases x2 with
    | true => rfl
    | false =>
      rw [h.vtx _ hel, h1.vo _ (by simp) hen] at hxm
      exact absurd hxm.symm h1.ne0
  subst hx2
  have hy2 : y2 = true := by
    cases y2 with
    | true => rfl
    | false =>
      have := h2.mid
      rw [flip_mk, Bool.not_false, h.vtx _ hnl, h1.vn1, hxm] at this
      exact absurd this.symm h1.ne1
  subst hy2
  refine ⟨?_, h3.unappend hs ht h4, fun j hj => ?_, fun d hd => ?_⟩
  · rw [h2.pid, ← h1.pid]; exact h.pids
  · rw [h2.pid] at hj; rw [h2.xy, ← h1.xy]; exact h.xy j hj
  · have k := (h2.live _).1 hd
    rw [h2.vtx, upd]
    by_cases hde : d = (x1, true)
    · subst hde
      rw [Function.update_self, h.vtx _ hnl, h1.vn1]
    · rw [Function.update_of_ne hde, h.vtx d k.2, h1.vo d hde k.1]

/-! ### Conditions -/

/-- No segment connects the points. -/
def Apart (s : St K) (a b : Id) : Prop := ∀ d : HE, d.1 ∈ s.sid.live → ¬ (s.vtx d = a ∧ s.vtx (flip d) = b)

/-- No segment ends at the point. -/
def Bare (s : St K) (p : Id) : Prop := ∀ d : HE, d.1 ∈ s.sid.live → s.vtx d ≠ p

omit [Field K] in
theorem Alike.apart {s t : St K} (h : Alike s t) {a b : Id} (hs : Apart s a b) : Apart t a b := by
  intro d hd hh
  have hd' := (h.sids.mem _).2 hd
  refine hs d hd' ?_
  rw [h.vtx d hd', h.vtx (flip d) hd']
  exact hh

omit [Field K] in
theorem Alike.bare {s t : St K} (h : Alike s t) {p : Id} (hs : Bare s p) : Bare t p := by
  intro d hd
  have hd' := (h.sids.mem _).2 hd
  rw [← h.vtx d hd']
  exact hs d hd'

theorem Inv.bare_iff {s : St K} (h : Inv s) {p : Id} (hp : p ∈ s.pid.live) : s.pseg p = none ↔ Bare s p := by
  have := h.links.hasSeg hp
  constructor
  · intro h1
    exact h.links.no_seg hp (by simp) h1
  · intro h1
    by_contra h2
    obtain ⟨d, hd, hv⟩ := this.1 h2
    exact h1 d hd hv

omit [Field K] in
theorem Alike.joinable {s t : St K} (h : Alike s t) {mid e0 e1 : Id} (hs : Joinable s mid e0 e1) : Joinable t mid e0 e1 := by
  obtain ⟨h0, h1, hne, ⟨v, hv⟩, ⟨w, hw⟩, hn⟩ := hs
  refine ⟨(h.sids.mem _).1 h0, (h.sids.mem _).1 h1, hne, ⟨v, ?_⟩, ⟨w, ?_⟩, fun v w k1 k2 e he u k3 => ?_⟩
  · rw [← h.vtx (e0, v) h0]; exact hv
  · rw [← h.vtx (e1, w) h1]; exact hw
  · have he' := (h.sids.mem _).2 he
    rw [← h.vtx (e0, v) h0] at k1 k3
    rw [← h.vtx (e1, w) h1] at k2 k3
    rw [← h.vtx (e, u) he', ← h.vtx (e, !u) he'] at k3
    exact hn v w k1 k2 e he' u k3

theorem Alike.diff {s t : St K} (h : Alike s t) {a b : Id} (ha : a ∈ s.pid.live) (hb : b ∈ s.pid.live) :
    Decomp.diff s a b = Decomp.diff t a b := diff_congr (h.xy a ha) (h.xy b hb)

theorem Alike.dirAng {g : Geom K} {s t : St K} (h : Alike s t) (hI : Inv s) {d : HE} (hd : d.1 ∈ s.sid.live) :
    Decomp.dirAng g s d = Decomp.dirAng g t d := by
  unfold Decomp.dirAng
  rw [h.diff (hI.links.vlive d hd) (hI.links.vlive (d.1, !d.2) hd), h.vtx d hd, h.vtx (d.1, !d.2) hd]

theorem Alike.newDir {g : Geom K} {s t : St K} (h : Alike s t) (hI : Inv s) {a b : Id} (ha : a ∈ s.pid.live)
    (hb : b ∈ s.pid.live) (hs : NewDir g s a b) : NewDir g t a b := by
  intro d hd hv
  have hd' := (h.sids.mem _).2 hd
  rw [← h.dirAng hI hd', ← h.diff ha hb]
  exact hs d hd' ((h.vtx d hd').trans hv)

end

section
variable [Field K] [LinearOrder K]

theorem newSegment_fresh {g : Geom K} {a b e : Id} {s s' : St K} (hs : newSegment g a b s = .ok (e, s')) (hI : Inv s)
    (ha : a ∈ s.pid.live) (hb : b ∈ s.pid.live) (hA : Apart s a b) : e ∉ s.sid.live := by
  intro hf
  cases (newSegment_cases hs hI.links ha hb).2 with
  | old ho hs' =>
    rcases ho with h | h
    · obtain ⟨h1, h2, h3⟩ := (hI.tab.exact_ _ _ _).1 h
      exact hA (e, false) h1 ⟨h2, h3⟩
    · obtain ⟨h1, h2, h3⟩ := (hI.tab.exact_ _ _ _).1 h
      exact hA (e, true) h1 ⟨h3, h2⟩
  | wire t1 t2 pa pb q qa qb hs =>
    exact absurd hf (newWire_eff (T := False) (s := quiet s) hs (hI.links.frame rfl rfl rfl rfl rfl) ha hb
      (hI.free.congr rfl rfl rfl rfl rfl) pa pb).1.fresh
  | dendrite t1 t2 i root hC pa pb hs =>
    exact absurd hf (addDendrite_eff (T := False) (s := quiet s) hs (hI.links.frame rfl rfl rfl rfl rfl) ha hb
      (hI.free.congr rfl rfl rfl rfl rfl) hC pa).1.fresh
  | join t1 t2 ia ib hCa hCb pa pb _ hs =>
    exact absurd hf (joinWires_eff (T := False) (s := quiet s) hs (hI.links.frame rfl rfl rfl rfl rfl) ha hb
      (hI.free.congr rfl rfl rfl rfl rfl) hCa hCb).1.fresh
  | split t1 t2 ia ib hCa hCb pa pb _ hs =>
    obtain ⟨_, _, _, _, _, _, _, _, hS, _⟩ := splitPoly_start (T := False) (s := quiet s) hs
      (hI.links.frame rfl rfl rfl rfl rfl) ha hb (hI.free.congr rfl rfl rfl rfl rfl) (by simp) hCa hCb
    exact absurd hf hS.add.fresh

omit [Field K] in
theorem CW.unique {at_ : HE → Prop} {α : HE → K} {d k k' : HE} (hk : at_ k) (hk' : at_ k') (h : CW at_ α d k)
    (h' : CW at_ α d k') : α k = α k' := by
  rcases h with ⟨h1, h2⟩ | ⟨h1, h2⟩ <;> rcases h' with ⟨h3, h4⟩ | ⟨h3, h4⟩
  · rcases lt_trichotomy (α k) (α k') with hl | hl | hl
    · exact absurd ⟨hl, h3⟩ (h2 k' hk')
    · exact hl
    · exact absurd ⟨hl, h1⟩ (h4 k hk)
  · exact absurd h1 (not_lt.2 (h3 k hk))
  · exact absurd h3 (not_lt.2 (h1 k' hk'))
  · exact le_antisymm (h4 k hk) (h2 k' hk')

/-- The links are determined by points, coordinates, segments and ends. -/
theorem Alike.next {g : Geom K} {s t : St K} (h : Alike s t) (hs : Inv s) (ht : Inv t) (fs : Fan g s) (ft : Fan g t) {d : HE}
    (hd : d.1 ∈ s.sid.live) : s.next d = t.next d := by
  have hd' := (h.sids.mem _).1 hd
  obtain ⟨k, k1, k2, k3, _⟩ := hs.links.next_ok hd (by simp)
  obtain ⟨l, l1, l2, l3, _⟩ := ht.links.next_ok hd' (by simp)
  have l2' := (h.sids.mem _).2 l2
  have c1 := fs.cw d k hd k1
  have c2 := ft.cw d l hd' l1
  have e1 : s.vtx (flip k) = s.vtx d := k3
  have e2 : s.vtx (flip l) = s.vtx d := by
    rw [h.vtx (flip l) l2', h.vtx d hd]; exact l3
  have c3 : CW (AtPoint s d) (Decomp.dirAng g s) d (flip l) := by
    rcases c2 with ⟨g1, g2⟩ | ⟨g1, g2⟩
    · refine Or.inl ⟨?_, fun m hm hh => g2 m ⟨(h.sids.mem _).1 hm.1, ?_⟩ ⟨?_, ?_⟩⟩
      · rw [h.dirAng hs (d := flip l) l2', h.dirAng hs hd]; exact g1
      · rw [← h.vtx m hm.1, ← h.vtx d hd]; exact hm.2
      · rw [← h.dirAng hs (d := flip l) l2', ← h.dirAng hs hm.1]; exact hh.1
      · rw [← h.dirAng hs hd, ← h.dirAng hs hm.1]; exact hh.2
    · refine Or.inr ⟨fun m hm => ?_, fun m hm => ?_⟩
      · rw [h.dirAng hs hd, h.dirAng hs hm.1]
        exact g1 m ⟨(h.sids.mem _).1 hm.1, by rw [← h.vtx m hm.1, ← h.vtx d hd]; exact hm.2⟩
      · rw [h.dirAng hs (d := flip l) l2', h.dirAng hs hm.1]
        exact g2 m ⟨(h.sids.mem _).1 hm.1, by rw [← h.vtx m hm.1, ← h.vtx d hd]; exact hm.2⟩
  have ha := CW.unique (at_ := AtPoint s d) (k := flip k) (k' := flip l) ⟨k2, e1⟩ ⟨l2', e2⟩ c1 c3
  have := fs.inj (flip k) (flip l) k2 l2' (e1.trans e2.symm) ha
  rw [k1, l1, flip_inj this]

end

end Verif.Decomp
