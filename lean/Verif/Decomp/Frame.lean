import Verif.Decomp.Make

/-! What the parts of the operations leave unchanged. -/
namespace Verif.Decomp

variable {K : Type} {T : Prop}

theorem Links.frame {s s' : St K} {X : Set HE} {Y : Set Id} (h : Links s X Y) (h1 : s'.pid = s.pid)
    (h2 : s'.sid = s.sid) (h3 : s'.vtx = s.vtx) (h4 : s'.next = s.next) (h5 : s'.pseg = s.pseg) : Links s' X Y := by
  obtain ⟨a, b, c, d⟩ := h
  refine ⟨h2 ▸ a, fun x hx => ?_, fun x hx => ?_, fun p hp => ?_⟩
  · rw [h3, h1]; exact b x (h2 ▸ hx)
  · rw [h3]; exact c x (h2 ▸ hx)
  · obtain ⟨l, hr, hps⟩ := d p (h1 ▸ hp)
    refine ⟨l, hr.congr (fun y => by rw [h2, h3]) (fun y _ => by rw [h4]), fun hY => ?_⟩
    exact (hps hY).congr (by rw [h5]) (fun y h6 h7 h8 => ⟨h6, by rw [h2]; exact h7, by rw [h3]; exact h8⟩)

/-- Every linked side has a next side; it starts at the point where the side ends. -/
theorem Links.next_ok {s : St K} {X : Set HE} {Y : Set Id} (hL : Links s X Y) {d : HE} (hd : d.1 ∈ s.sid.live)
    (hX : d ∉ X) : ∃ k, s.next d = some k ∧ k.1 ∈ s.sid.live ∧ s.vtx (flip k) = s.vtx d ∧ flip k ∉ X := by
  obtain ⟨l, hr, _⟩ := hL.ring _ (hL.vlive d hd)
  have hdl := (hr.mem d).2 ⟨hd, rfl, hX⟩
  rcases hr.path with rfl | ⟨a, ha⟩
  · simp at hdl
  · obtain ⟨y, hy, hy'⟩ := path_succ ha hdl
    have := (hr.mem y).1 hy
    refine ⟨flip y, next_of_rot hy', this.1, ?_, ?_⟩
    · rw [flip_flip]; exact this.2.1
    · rw [flip_flip]; exact this.2.2

/-- Every side that starts at a linked end is the next side of one linked side only. -/
theorem Links.prev_ok {s : St K} {X : Set HE} {Y : Set Id} (hL : Links s X Y) {d : HE} (hd : d.1 ∈ s.sid.live)
    (hX : flip d ∉ X) : ∃ r, s.next r = some d ∧ r.1 ∈ s.sid.live ∧ r ∉ X := by
  obtain ⟨l, hr, _⟩ := hL.ring _ (hL.vlive (flip d) hd)
  have hdl := (hr.mem (flip d)).2 ⟨hd, rfl, hX⟩
  rcases hr.path with rfl | ⟨a, ha⟩
  · simp at hdl
  · obtain ⟨y, hy, hy'⟩ := path_pred ha hdl
    have := (hr.mem y).1 hy
    have h2 := next_of_rot hy'
    rw [flip_flip] at h2
    exact ⟨y, h2, this.1, this.2.2⟩

theorem Links.next_inj {s : St K} {X : Set HE} {Y : Set Id} (hL : Links s X Y) {d k : HE} (hd : d.1 ∈ s.sid.live)
    (hk : k.1 ∈ s.sid.live) (hX : d ∉ X) (hX' : k ∉ X) (h : s.next d = s.next k) : d = k := by
  obtain ⟨n, h1, _, h3, _⟩ := hL.next_ok hd hX
  obtain ⟨n', h1', _, h3', _⟩ := hL.next_ok hk hX'
  rw [h1, h1'] at h
  obtain rfl := Option.some.inj h
  obtain ⟨l, hr, _⟩ := hL.ring _ (hL.vlive d hd)
  have hdl := (hr.mem d).2 ⟨hd, rfl, hX⟩
  have hkl := (hr.mem k).2 ⟨hk, by rw [← h3', h3], hX'⟩
  rcases hr.path with rfl | ⟨a, ha⟩
  · simp at hdl
  · exact path_inj ha hr.nd hdl hkl (rot_of_next h1) (rot_of_next h1')

theorem relabel_eq {old new : Id} {l : List HE} : ∀ {s s' : St K}, l.Nodup → relabel old new l s = .ok s' →
    s' = { s with wire := fun d => if d ∈ l then some new else s.wire d } ∧ ∀ d ∈ l, s.wire d = some old := by
  induction l with
  | nil =>
    intro s s' _ h
    simp only [relabel, Except.ok.injEq] at h
    subst h
    simp
  | cons x l ih =>
    intro s s' hn h
    simp only [relabel, bind_ok, check_ok] at h
    obtain ⟨_, h1, h2⟩ := h
    rw [List.nodup_cons] at hn
    obtain ⟨h3, h4⟩ := ih hn.2 h2
    refine ⟨?_, fun d hd => ?_⟩
    · rw [h3]
      congr 1
      funext d
      by_cases hdx : d = x
      · subst hdx; simp [hn.1, upd]
      · simp [hdx, upd]
    · rcases List.mem_cons.1 hd with rfl | hd
      · exact h1
      · have := h4 d hd
        have hdx : d ≠ x := fun h => hn.1 (h ▸ hd)
        simpa [upd, Function.update_of_ne hdx] using this

theorem disconnectWire_eq {h : HE} {s s' : St K} (hh : disconnectWire h s = .ok s') :
    ∃ w, s.wire h = some w ∧ ((s' = s ∧ s.wseg w ≠ some h) ∨
      (s.wseg w = some h ∧ ∃ k, s' = { s with wseg := upd s.wseg w (some k) } ∧ s.wire k = some w ∧ k.1 ≠ h.1 ∧
        (s.next h = some k ∨ ∃ j, s.next h = some j ∧ j.1 = h.1 ∧ s.next j = some k))) := by
  unfold disconnectWire at hh
  simp only [bind_ok, need_ok] at hh
  obtain ⟨w, hw, hh⟩ := hh
  refine ⟨w, hw, ?_⟩
  by_cases h1 : s.wseg w = some h
  · rw [if_pos h1] at hh
    simp only [bind_ok, need_ok, check_ok, Except.ok.injEq] at hh
    obtain ⟨k, h2, k', h3, _, h4, _, h5, rfl⟩ := hh
    refine Or.inr ⟨h1, k', rfl, h4, h5, ?_⟩
    split at h3
    · next hk => exact Or.inr ⟨k, h2, hk, need_ok.1 h3⟩
    · simp only [Except.ok.injEq] at h3
      exact Or.inl (h3 ▸ h2)
  · rw [if_neg h1] at hh
    simp only [Except.ok.injEq] at hh
    exact Or.inl ⟨hh.symm, h1⟩

/-- After `disconnectWires` no wire of the segment has it as its stored segment. -/
theorem disconnectWires_eq {e : Id} {s s' : St K} (h : disconnectWires e s = .ok s') :
    ∃ ws, s' = { s with wseg := ws } ∧ ∀ w, (ws w = s.wseg w ∧ ∀ b, s.wire (e, b) = some w → ws w ≠ some (e, b)) ∨
      ∃ b k, s.wire (e, b) = some w ∧ ws w = some k ∧ s.wire k = some w ∧ k.1 ≠ e ∧
        (s.next (e, b) = some k ∨ ∃ j : HE, s.next (e, b) = some j ∧ j.1 = e ∧ s.next j = some k) := by
  unfold disconnectWires at h
  simp only [bind_ok] at h
  obtain ⟨s1, h1, h2⟩ := h
  obtain ⟨w1, hw1, h1⟩ := disconnectWire_eq h1
  obtain ⟨w2, hw2, h2'⟩ := disconnectWire_eq h2
  clear h2
  rename' h2' => h2
  rcases h1 with ⟨rfl, h1⟩ | ⟨h1, k1, rfl, h3, h4, h5⟩
  · rcases h2 with ⟨rfl, h2⟩ | ⟨h2, k2, rfl, h6, h7, h8⟩
    · refine ⟨s'.wseg, rfl, fun w => Or.inl ⟨rfl, fun b hb => ?_⟩⟩
      cases b
      · rw [hw2] at hb
        exact Option.some.inj hb ▸ h2
      · rw [hw1] at hb
        exact Option.some.inj hb ▸ h1
    · refine ⟨_, rfl, fun w => ?_⟩
      by_cases hw : w = w2
      · subst hw
        exact Or.inr ⟨false, k2, hw2, by simp [upd], h6, h7, h8⟩
      · refine Or.inl ⟨by simp [upd, Function.update_of_ne hw], fun b hb => ?_⟩
        simp only [upd, Function.update_of_ne hw]
        cases b
        · rw [hw2] at hb
          exact absurd (Option.some.inj hb).symm hw
        · rw [hw1] at hb
          exact Option.some.inj hb ▸ h1
  · simp only at hw2 h2
    rcases h2 with ⟨rfl, h2⟩ | ⟨h2, k2, rfl, h6, h7, h8⟩
    · refine ⟨_, rfl, fun w => ?_⟩
      by_cases hw : w = w1
      · subst hw
        exact Or.inr ⟨true, k1, hw1, by simp [upd], h3, h4, h5⟩
      · refine Or.inl ⟨by simp [upd, Function.update_of_ne hw], fun b hb => ?_⟩
        cases b
        · rw [hw2] at hb
          exact Option.some.inj hb ▸ h2
        · rw [hw1] at hb
          exact absurd (Option.some.inj hb).symm hw
    · refine ⟨_, rfl, fun w => ?_⟩
      by_cases hw : w = w2
      · subst hw
        exact Or.inr ⟨false, k2, hw2, by simp [upd], h6, h7, h8⟩
      · by_cases hw' : w = w1
        · subst hw'
          exact Or.inr ⟨true, k1, hw1, by simp [upd, Function.update_of_ne hw], h3, h4, h5⟩
        · refine Or.inl ⟨by simp [upd, Function.update_of_ne hw, Function.update_of_ne hw'], fun b hb => ?_⟩
          cases b
          · rw [hw2] at hb
            exact absurd (Option.some.inj hb).symm hw
          · rw [hw1] at hb
            exact absurd (Option.some.inj hb).symm hw'

/-! ### Parents -/

theorem leaveParent_eq {w : Id} {s s' : St K} (h : leaveParent w s = .ok s') :
    ∃ C, s' = { s with childs := C } := by
  unfold leaveParent at h
  cases hp : s.parent w with
  | none =>
    simp only [hp, Except.ok.injEq] at h
    exact ⟨s.childs, h ▸ rfl⟩
  | some q =>
    simp only [hp, bind_ok, Except.ok.injEq] at h
    obtain ⟨_, _, rfl⟩ := h
    exact ⟨_, rfl⟩

theorem setParent_eq {w : Id} {par : Option Id} {s s' : St K} (h : setParent w par s = .ok s') :
    ∃ C, s' = { s with parent := upd s.parent w par, childs := C } := by
  unfold setParent at h
  simp only [bind_ok] at h
  obtain ⟨s1, h1, h2⟩ := h
  obtain ⟨C, rfl⟩ := leaveParent_eq h1
  cases par with
  | none =>
    simp only [Except.ok.injEq] at h2
    exact ⟨C, h2 ▸ rfl⟩
  | some q =>
    simp only [Except.ok.injEq] at h2
    exact ⟨_, h2.symm⟩

theorem setParents_eq {par : Option Id} {l : List Id} : ∀ {s s' : St K}, setParents par l s = .ok s' →
    ∃ C, s' = { s with parent := fun c => if c ∈ l then par else s.parent c, childs := C } := by
  induction l with
  | nil =>
    intro s s' h
    simp only [setParents, Except.ok.injEq] at h
    exact ⟨s.childs, by subst h; simp⟩
  | cons c l ih =>
    intro s s' h
    simp only [setParents, bind_ok] at h
    obtain ⟨s1, h1, h2⟩ := h
    obtain ⟨C1, rfl⟩ := setParent_eq h1
    obtain ⟨C, h3⟩ := ih h2
    refine ⟨C, ?_⟩
    rw [h3]
    congr 1
    funext x
    by_cases hx : x = c
    · subst hx; simp [upd]
    · simp [hx, upd]

theorem joinChilds_eq {q q' : Id} {l : List Id} : ∀ {s s' : St K}, joinChilds q q' l s = .ok s' →
    ∃ C, s' = { s with
      parent := fun c => if c ∈ l then some (s.outer q) else s.parent c
      childs := C
      wpoly := fun c => if c ∈ l then some q else s.wpoly c } := by
  induction l with
  | nil =>
    intro s s' h
    simp only [joinChilds, Except.ok.injEq] at h
    exact ⟨s.childs, by subst h; simp⟩
  | cons c l ih =>
    intro s s' h
    simp only [joinChilds, bind_ok, check_ok] at h
    obtain ⟨_, _, s1, h1, h2⟩ := h
    obtain ⟨C1, rfl⟩ := setParent_eq h1
    obtain ⟨C, h3⟩ := ih h2
    refine ⟨C, ?_⟩
    rw [h3]
    congr 1
    · funext x
      by_cases hx : x = c
      · subst hx; simp [upd]
      · simp [hx, upd]
    · funext x
      by_cases hx : x = c
      · subst hx; simp [upd]
      · simp [hx, upd]

/-! ### Free points -/

theorem setPolygon_free_eq {p q : Id} {s s' : St K} (hF : s.pseg p = none) (h : setPolygon p q s = .ok s') :
    ∃ pp fp, s' = { s with ppoly := pp, fpts := fp } := by
  obtain ⟨pp, fp, rfl⟩ := setPolygon_eq h
  refine ⟨pp, fp, ?_⟩
  congr 1
  rw [← hF]
  exact Function.update_eq_self _ _

/-- Points in the list of a polygon have no segment. -/
theorem Free.pseg {s : St K} (hF : Free T s) {p q : Id} (h : p ∈ s.fpts q) : s.pseg p = none ∧ p ∈ s.pid.live := by
  obtain ⟨h1, h2⟩ := hF.mem q p h
  exact ⟨(hF.seg p h1).2 (by simp [h2]), h1⟩

theorem movePoints_eq {q : Id} {l : List Id} : ∀ {s s' : St K}, Free T s → (∀ p ∈ l, s.pseg p = none ∧ p ∈ s.pid.live) →
    (T → q ∈ s.qid.live) → movePoints q l s = .ok s' →
    ∃ fp, s' = { s with
      ppoly := fun p => if p ∈ l then some q else s.ppoly p
      fpts := fp } ∧ Free T s' := by
  induction l with
  | nil =>
    intro s s' hF _ _ h
    simp only [movePoints, Except.ok.injEq] at h
    subst h
    exact ⟨s.fpts, by simp, hF⟩
  | cons p l ih =>
    intro s s' hF hl hq h
    simp only [movePoints, bind_ok] at h
    obtain ⟨s1, h1, h2⟩ := h
    have hp := hl p (by simp)
    obtain ⟨hF1, hpp⟩ := setPolygon_free hF hp.2 hq h1
    obtain ⟨pp, fp, rfl⟩ := setPolygon_free_eq hp.1 h1
    obtain ⟨fp', h3, h4⟩ := ih hF1 (fun x hx => hl x (by simp [hx])) hq h2
    refine ⟨fp', ?_, h4⟩
    rw [h3]
    congr 1
    funext x
    simp only at hpp
    by_cases hx : x = p
    · subst hx; simp [hpp, upd]
    · simp [hx, hpp, upd]

variable [Field K] [LinearOrder K]

theorem splitPoints_eq {q' : Id} {l : List Id} : ∀ {s s' : St K}, Free T s →
    (∀ p ∈ l, s.pseg p = none ∧ p ∈ s.pid.live) → (T → q' ∈ s.qid.live) → splitPoints q' l s = .ok s' →
    ∃ pp fp, s' = { s with ppoly := pp, fpts := fp } ∧ Free T s' := by
  induction l with
  | nil =>
    intro s s' hF _ _ h
    simp only [splitPoints, Except.ok.injEq] at h
    subst h
    exact ⟨s.ppoly, s.fpts, rfl, hF⟩
  | cons p l ih =>
    intro s s' hF hl hq h
    simp only [splitPoints, bind_ok] at h
    obtain ⟨c, _, s1, h1, h2⟩ := h
    have hp := hl p (by simp)
    have : ∃ pp fp, s1 = { s with ppoly := pp, fpts := fp } ∧ Free T s1 := by
      split at h1
      · obtain ⟨hF1, _⟩ := setPolygon_free hF hp.2 hq h1
        obtain ⟨pp, fp, rfl⟩ := setPolygon_free_eq hp.1 h1
        exact ⟨pp, fp, rfl, hF1⟩
      · simp only [Except.ok.injEq] at h1
        exact ⟨s.ppoly, s.fpts, by rw [← h1], h1 ▸ hF⟩
    obtain ⟨pp, fp, rfl, hF1⟩ := this
    obtain ⟨pp', fp', h3, h4⟩ := ih hF1 (fun x hx => hl x (by simp [hx])) hq h2
    exact ⟨pp', fp', h3, h4⟩

theorem bubble_eq {g : Geom K} {iw : Id} {l : List HE} : ∀ {s s' : St K}, bubble g iw l s = .ok s' →
    ∃ C, s' = { s with
      parent := fun c => if ∃ h ∈ l, s.wire (flip h) = some c then some iw else s.parent c
      childs := C } := by
  induction l with
  | nil =>
    intro s s' h
    simp only [bubble, Except.ok.injEq] at h
    exact ⟨s.childs, by subst h; simp⟩
  | cons x l ih =>
    intro s s' h
    simp only [bubble, bind_ok, check_ok, need_ok] at h
    obtain ⟨sw, hsw, c, _, _, _, s1, h1, h2⟩ := h
    obtain ⟨C1, rfl⟩ := setParent_eq h1
    obtain ⟨C, h3⟩ := ih h2
    refine ⟨C, ?_⟩
    rw [h3]
    congr 1
    funext y
    simp only [List.mem_cons, exists_eq_or_imp, hsw, Option.some.injEq]
    by_cases hx : y = sw
    · subst hx; simp [upd]
    · by_cases hy : ∃ h ∈ l, s.wire (flip h) = some y
      · rw [if_pos hy, if_pos (Or.inr hy)]
      · rw [if_neg hy, if_neg (by rintro (h | h); exacts [hx h.symm, hy h])]
        simp [upd, hx]

theorem spread_eq {g : Geom K} {aw bw : Id} {l : List Id} : ∀ {s s' : St K}, spread g aw bw l s = .ok s' →
    ∃ P C, s' = { s with parent := P, childs := C } ∧
      ∀ c, (c ∈ l → P c = some aw ∨ P c = some bw) ∧ (c ∉ l → P c = s.parent c) := by
  induction l with
  | nil =>
    intro s s' h
    simp only [spread, Except.ok.injEq] at h
    exact ⟨s.parent, s.childs, by subst h; rfl, by simp⟩
  | cons x l ih =>
    intro s s' h
    simp only [spread, bind_ok] at h
    obtain ⟨c, _, s1, h1, h2⟩ := h
    obtain ⟨C1, rfl⟩ := setParent_eq h1
    obtain ⟨P, C, h3, h4⟩ := ih h2
    refine ⟨P, C, h3, fun y => ?_⟩
    obtain ⟨h5, h6⟩ := h4 y
    by_cases hy : y ∈ l
    · exact ⟨fun _ => h5 hy, fun h => absurd (by simp [hy]) h⟩
    · have h7 := h6 hy
      by_cases hx : y = x
      · subst hx
        simp only [upd, Function.update_self] at h7
        refine ⟨fun _ => ?_, fun h => absurd (by simp) h⟩
        rw [h7]
        split
        · exact Or.inl rfl
        · exact Or.inr rfl
      · simp only [upd, Function.update_of_ne hx] at h7
        exact ⟨fun h => absurd h (by simp [hx, hy]), fun _ => h7⟩

theorem splitHoles_eq {g : Geom K} {q' : Id} {l : List Id} : ∀ {s s' : St K}, splitHoles g q' l s = .ok s' →
    ∃ P C Q, s' = { s with parent := P, childs := C, wpoly := Q } ∧
      ∀ c, (P c = s.parent c ∧ Q c = s.wpoly c) ∨ (c ∈ l ∧ P c = some (s.outer q') ∧ Q c = some q') := by
  induction l with
  | nil =>
    intro s s' h
    simp only [splitHoles, Except.ok.injEq] at h
    exact ⟨s.parent, s.childs, s.wpoly, by subst h; rfl, by simp⟩
  | cons x l ih =>
    intro s s' h
    simp only [splitHoles, bind_ok] at h
    obtain ⟨c, _, s1, h1, h2⟩ := h
    have : ∃ P C Q, s1 = { s with parent := P, childs := C, wpoly := Q } ∧
      ∀ c, (P c = s.parent c ∧ Q c = s.wpoly c) ∨ (c = x ∧ P c = some (s.outer q') ∧ Q c = some q') := by
      split at h1
      · unfold giveHole at h1
        simp only [bind_ok, Except.ok.injEq] at h1
        obtain ⟨s2, h3, rfl⟩ := h1
        obtain ⟨C1, rfl⟩ := setParent_eq h3
        refine ⟨_, _, _, rfl, fun y => ?_⟩
        by_cases hy : y = x
        · subst hy; exact Or.inr ⟨rfl, by simp [upd], by simp [upd]⟩
        · exact Or.inl ⟨by simp [upd, hy], by simp [upd, hy]⟩
      · simp only [Except.ok.injEq] at h1
        exact ⟨s.parent, s.childs, s.wpoly, by rw [← h1], fun y => Or.inl ⟨rfl, rfl⟩⟩
    obtain ⟨P1, C1, Q1, rfl, h5⟩ := this
    obtain ⟨P, C, Q, h3, h4⟩ := ih h2
    refine ⟨P, C, Q, h3, fun y => ?_⟩
    rcases h4 y with ⟨h6, h7⟩ | ⟨h6, h7, h8⟩
    · rcases h5 y with ⟨h9, h10⟩ | ⟨h9, h10, h11⟩
      · exact Or.inl ⟨h6.trans h9, h7.trans h10⟩
      · exact Or.inr ⟨by simp [h9], h6.trans h10, h7.trans h11⟩
    · exact Or.inr ⟨by simp [h6], h7, h8⟩

/-! ### Wires with a parent keep having one -/

/-- No wire loses its parent. -/
def ParLe (s s' : St K) : Prop := ∀ w, s.parent w ≠ none → s'.parent w ≠ none

omit [Field K] [LinearOrder K] in
theorem setParent_le {w : Id} {par : Option Id} {s s' : St K} (h : setParent w par s = .ok s') (hp : par ≠ none) :
    ParLe s s' := by
  obtain ⟨C, rfl⟩ := setParent_eq h
  intro x hx
  simp only [upd, Function.update_apply]
  split
  · exact hp
  · exact hx

omit [Field K] [LinearOrder K] in
theorem setParents_le {par : Option Id} {l : List Id} {s s' : St K} (h : setParents par l s = .ok s') (hp : par ≠ none) :
    ParLe s s' := by
  obtain ⟨C, rfl⟩ := setParents_eq h
  intro x hx
  dsimp only
  split
  · exact hp
  · exact hx

theorem bubble_le {g : Geom K} {iw : Id} {l : List HE} {s s' : St K} (h : bubble g iw l s = .ok s') : ParLe s s' := by
  obtain ⟨C, rfl⟩ := bubble_eq h
  intro x hx
  dsimp only
  split
  · simp
  · exact hx

theorem spread_le {g : Geom K} {aw bw : Id} {l : List Id} {s s' : St K} (h : spread g aw bw l s = .ok s') :
    ParLe s s' := by
  obtain ⟨P, C, rfl, h1⟩ := spread_eq h
  intro x hx
  by_cases hl : x ∈ l
  · rcases (h1 x).1 hl with h2 | h2 <;> simp [h2]
  · simpa [(h1 x).2 hl] using hx

theorem splitHoles_le {g : Geom K} {q' : Id} {l : List Id} {s s' : St K} (h : splitHoles g q' l s = .ok s') :
    ParLe s s' := by
  obtain ⟨P, C, Q, rfl, h1⟩ := splitHoles_eq h
  intro x hx
  rcases h1 x with ⟨h2, _⟩ | ⟨_, h2, _⟩
  · simpa [h2] using hx
  · simp [h2]

theorem nest_le {g : Geom K} {q aw bw : Id} {s s' : St K} (h : nest g q aw bw s = .ok s') (hp : s.parent aw ≠ none) :
    ParLe s s' := by
  unfold nest at h
  split at h
  · unfold nestOuter at h
    simp only [bind_ok] at h
    obtain ⟨inA, _, s1, h1, s2, h2, s3, h3, l, hl, h4⟩ := h
    have k1 := setParent_le h1 hp
    have k2 := setParent_le h2 (by simp)
    have k3 := setParents_le h3 (by simp)
    exact fun x hx => bubble_le h4 x (k3 x (k2 x (k1 x hx)))
  · unfold nestHole at h
    simp only [bind_ok] at h
    obtain ⟨s1, h1, s2, h2, h3⟩ := h
    have k1 := setParent_le h1 hp
    have k2 := setParent_le h2 hp
    exact fun x hx => spread_le h3 x (k2 x (k1 x hx))

theorem cut_le {g : Geom K} {q q' ow lw : Id} {s s' : St K} (h : cut g q q' ow lw s = .ok s')
    (hp : s.parent ow ≠ none) : ParLe s s' := by
  unfold cut at h
  split at h
  · unfold cutOuter at h
    simp only [bind_ok, Except.ok.injEq] at h
    obtain ⟨s1, h1, rfl⟩ := h
    have k := setParent_le h1 hp
    exact fun x hx => k x hx
  · unfold cutHole at h
    simp only [bind_ok, check_ok, Except.ok.injEq] at h
    obtain ⟨_, _, inR, _, s1, h1, s2, h2, s3, h3, rfl⟩ := h
    have k1 := setParents_le h1 (by simp)
    have k2 := setParent_le h2 (k1 ow hp)
    have k3 := setParent_le h3 (by simp)
    exact fun x hx => k3 x (k2 x (k1 x hx))

end Verif.Decomp
