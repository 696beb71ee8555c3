import Verif.Decomp.Frame

/-! The lists of child wires. -/
namespace Verif.Decomp

variable {K : Type}

/-- The root wire has no parent, other wires have one; the list of childs of a wire holds wires with this parent. -/
structure Tree (s : St K) : Prop where
  wids : s.wid.Ok
  root : 0 ∈ s.wid.live
  top : s.parent 0 = none
  non : ∀ w ∈ s.wid.live, w ≠ 0 → s.parent w ≠ none
  nd : ∀ w ∈ s.wid.live, (s.childs w).Nodup
  mem : ∀ w ∈ s.wid.live, ∀ c ∈ s.childs w, c ∈ s.wid.live ∧ c ≠ 0 ∧ s.parent c = some w

theorem Tree.frame {s s' : St K} (h : Tree s) (h1 : s'.wid = s.wid) (h2 : s'.parent = s.parent)
    (h3 : s'.childs = s.childs) : Tree s' := by
  obtain ⟨a, b, c, d, e, f⟩ := h
  constructor
  · rw [h1]; exact a
  · rw [h1]; exact b
  · rw [h2]; exact c
  · rw [h1, h2]; exact d
  · rw [h1, h3]; exact e
  · rw [h1, h2, h3]; exact f

theorem newWireObj_tree {s : St K} (h : Tree s) : Tree (newWireObj s).2 := by
  obtain ⟨h1, h2, h3⟩ := Ids.append_ok h.wids
  have h0 : s.wid.append.1 ≠ 0 := fun h0 => h1 (h0 ▸ h.root)
  have hl : ∀ j, j ∈ s.wid.append.2.live ↔ j ∈ s.wid.live ∨ j = s.wid.append.1 := by
    intro j; rw [h2]; simp
  unfold newWireObj
  constructor
  · exact h3
  · exact (hl 0).2 (Or.inl h.root)
  · simp only [upd, Function.update_of_ne h0.symm]; exact h.top
  · intro w hw hw0
    by_cases hwn : w = s.wid.append.1
    · subst hwn; simp [upd]
    · simp only [upd, Function.update_of_ne hwn]
      exact h.non w (((hl w).1 hw).resolve_right hwn) hw0
  · intro w hw
    by_cases hwn : w = s.wid.append.1
    · subst hwn; simp [upd]
    · simp only [upd, Function.update_of_ne hwn]
      exact h.nd w (((hl w).1 hw).resolve_right hwn)
  · intro w hw c hc
    by_cases hwn : w = s.wid.append.1
    · subst hwn; simp [upd] at hc
    · simp only [upd, Function.update_of_ne hwn] at hc
      obtain ⟨h5, h6, h7⟩ := h.mem w (((hl w).1 hw).resolve_right hwn) c hc
      refine ⟨(hl c).2 (Or.inl h5), h6, ?_⟩
      have hcn : c ≠ s.wid.append.1 := fun h => h1 (h ▸ h5)
      simp only [upd, Function.update_of_ne hcn]
      exact h7

/-- The lists after `setParent`. -/
theorem setParent_childs {w x : Id} {s s' : St K} (h : Tree s) (hw : w ∈ s.wid.live) (hw0 : w ≠ 0)
    (hs : setParent w (some x) s = .ok s') :
    (∀ y ∈ s.wid.live, (s'.childs y).Nodup) ∧
      ∀ y ∈ s.wid.live, ∀ c, c ∈ s'.childs y ↔ (c = w ∧ y = x) ∨ (c ≠ w ∧ c ∈ s.childs y) := by
  unfold setParent leaveParent at hs
  cases hp : s.parent w with
  | none => exact absurd hp (h.non w hw hw0)
  | some q =>
    simp only [hp, bind_ok, check_ok, Except.ok.injEq] at hs
    obtain ⟨s1, ⟨_, h1, rfl⟩, rfl⟩ := hs
    have key : ∀ y ∈ s.wid.live, (upd s.childs q ((s.childs q).erase w) y).Nodup ∧
        ∀ c, c ∈ upd s.childs q ((s.childs q).erase w) y ↔ c ≠ w ∧ c ∈ s.childs y := by
      intro y hy
      by_cases hyq : y = q
      · subst hyq
        simp only [upd, Function.update_self]
        exact ⟨(h.nd y hy).erase _, fun c => (h.nd y hy).mem_erase_iff⟩
      · simp only [upd, Function.update_of_ne hyq]
        refine ⟨h.nd y hy, fun c => ⟨fun hc => ⟨?_, hc⟩, fun hc => hc.2⟩⟩
        rintro rfl
        have := (h.mem y hy c hc).2.2
        rw [hp] at this
        exact hyq (Option.some.inj this).symm
    refine ⟨fun y hy => ?_, fun y hy c => ?_⟩
    · by_cases hyx : y = x
      · subst hyx
        simp only [upd, Function.update_self]
        exact nodup_insertSet (key y hy).1
      · simp only [upd, Function.update_of_ne hyx]
        exact (key y hy).1
    · by_cases hyx : y = x
      · subst hyx
        have := (key y hy).2 c
        simp only [upd] at this
        simp only [upd, Function.update_self, mem_insertSet, this]
        tauto
      · have := (key y hy).2 c
        simp only [upd] at this
        simp only [upd, Function.update_of_ne hyx, this, hyx, and_false, false_or]

theorem setParent_tree {w x : Id} {s s' : St K} (h : Tree s) (hw : w ∈ s.wid.live) (hw0 : w ≠ 0)
    (hs : setParent w (some x) s = .ok s') : Tree s' := by
  obtain ⟨h1, h2⟩ := setParent_childs h hw hw0 hs
  obtain ⟨C, rfl⟩ := setParent_eq hs
  constructor
  · exact h.wids
  · exact h.root
  · simp only [upd, Function.update_of_ne hw0.symm]; exact h.top
  · intro y hy hy0
    by_cases hyw : y = w
    · subst hyw; simp [upd]
    · simp only [upd, Function.update_of_ne hyw]; exact h.non y hy hy0
  · exact h1
  · intro y hy c hc
    rcases (h2 y hy c).1 hc with ⟨rfl, rfl⟩ | ⟨h3, h4⟩
    · exact ⟨hw, hw0, by simp [upd]⟩
    · obtain ⟨h5, h6, h7⟩ := h.mem y hy c h4
      exact ⟨h5, h6, by simp only [upd, Function.update_of_ne h3]; exact h7⟩

theorem setParents_tree {x : Id} {l : List Id} : ∀ {s s' : St K}, Tree s → (∀ c ∈ l, c ∈ s.wid.live ∧ c ≠ 0) →
    setParents (some x) l s = .ok s' → Tree s' := by
  induction l with
  | nil =>
    intro s s' h _ hs
    simp only [setParents, Except.ok.injEq] at hs
    exact hs ▸ h
  | cons c l ih =>
    intro s s' h hl hs
    simp only [setParents, bind_ok] at hs
    obtain ⟨s1, h1, h2⟩ := hs
    have hc := hl c (by simp)
    have ht := setParent_tree h hc.1 hc.2 h1
    obtain ⟨C, rfl⟩ := setParent_eq h1
    exact ih ht (fun y hy => hl y (by simp [hy])) h2

theorem joinChilds_tree {q q' : Id} {l : List Id} : ∀ {s s' : St K}, joinChilds q q' l s = .ok s' → Tree s →
    (∀ c ∈ l, c ∈ s.wid.live ∧ c ≠ 0) → Tree s' ∧ ∀ c ∈ l, s.wpoly c = some q' ∨ s.wpoly c = some q := by
  induction l with
  | nil =>
    intro s s' hs h _
    simp only [joinChilds, Except.ok.injEq] at hs
    exact ⟨hs ▸ h, by simp⟩
  | cons c l ih =>
    intro s s' hs h hl
    simp only [joinChilds, bind_ok, check_ok] at hs
    obtain ⟨_, h0, s1, h1, h2⟩ := hs
    have hc := hl c (by simp)
    have ht := setParent_tree h hc.1 hc.2 h1
    obtain ⟨C, rfl⟩ := setParent_eq h1
    have := ih h2 (ht.frame rfl rfl rfl) (fun y hy => hl y (by simp [hy]))
    refine ⟨this.1, fun y hy => ?_⟩
    rcases List.mem_cons.1 hy with rfl | hy
    · exact Or.inl h0
    · have h3 := this.2 y hy
      by_cases hyc : y = c
      · subst hyc; exact Or.inl h0
      · simpa [upd, hyc] using h3

theorem splitPoints_tree [Field K] [LinearOrder K] {q' : Id} {l : List Id} : ∀ {s s' : St K}, Tree s →
    splitPoints q' l s = .ok s' → Tree s' := by
  induction l with
  | nil =>
    intro s s' h hs
    simp only [splitPoints, Except.ok.injEq] at hs
    exact hs ▸ h
  | cons p l ih =>
    intro s s' h hs
    simp only [splitPoints, bind_ok] at hs
    obtain ⟨c, _, s1, h1, h2⟩ := hs
    refine ih ?_ h2
    split at h1
    · obtain ⟨pp, fp, rfl⟩ := setPolygon_eq h1
      exact h.frame rfl rfl rfl
    · simp only [Except.ok.injEq] at h1
      exact h1 ▸ h

variable [Field K] [LinearOrder K]

theorem bubble_tree {g : Geom K} {iw : Id} {l : List HE} : ∀ {s s' : St K}, Tree s →
    (∀ h ∈ l, ∀ w, s.wire (flip h) = some w → w ∈ s.wid.live ∧ w ≠ 0) → bubble g iw l s = .ok s' → Tree s' := by
  induction l with
  | nil =>
    intro s s' h _ hs
    simp only [bubble, Except.ok.injEq] at hs
    exact hs ▸ h
  | cons c l ih =>
    intro s s' h hl hs
    simp only [bubble, bind_ok, check_ok, need_ok] at hs
    obtain ⟨sw, hsw, c, _, _, _, s1, h1, h2⟩ := hs
    have hc := hl _ (by simp) sw hsw
    have ht := setParent_tree h hc.1 hc.2 h1
    obtain ⟨C, rfl⟩ := setParent_eq h1
    exact ih ht (fun y hy => hl y (by simp [hy])) h2

theorem spread_tree {g : Geom K} {aw bw : Id} {l : List Id} : ∀ {s s' : St K}, Tree s →
    (∀ c ∈ l, c ∈ s.wid.live ∧ c ≠ 0) → spread g aw bw l s = .ok s' → Tree s' := by
  induction l with
  | nil =>
    intro s s' h _ hs
    simp only [spread, Except.ok.injEq] at hs
    exact hs ▸ h
  | cons c l ih =>
    intro s s' h hl hs
    simp only [spread, bind_ok] at hs
    obtain ⟨x, _, s1, h1, h2⟩ := hs
    have hc := hl c (by simp)
    have ht := setParent_tree h hc.1 hc.2 h1
    obtain ⟨C, rfl⟩ := setParent_eq h1
    exact ih ht (fun y hy => hl y (by simp [hy])) h2

theorem splitHoles_tree {g : Geom K} {q' : Id} {l : List Id} : ∀ {s s' : St K}, Tree s →
    (∀ c ∈ l, c ∈ s.wid.live ∧ c ≠ 0) → splitHoles g q' l s = .ok s' → Tree s' := by
  induction l with
  | nil =>
    intro s s' h _ hs
    simp only [splitHoles, Except.ok.injEq] at hs
    exact hs ▸ h
  | cons c l ih =>
    intro s s' h hl hs
    simp only [splitHoles, bind_ok] at hs
    obtain ⟨x, _, s1, h1, h2⟩ := hs
    have hc := hl c (by simp)
    have : Tree s1 ∧ s1.wid = s.wid := by
      split at h1
      · unfold giveHole at h1
        simp only [bind_ok, Except.ok.injEq] at h1
        obtain ⟨s2, h3, rfl⟩ := h1
        have ht := setParent_tree h hc.1 hc.2 h3
        obtain ⟨C1, rfl⟩ := setParent_eq h3
        exact ⟨ht.frame rfl rfl rfl, rfl⟩
      · simp only [Except.ok.injEq] at h1
        exact ⟨h1 ▸ h, h1 ▸ rfl⟩
    exact ih this.1 (fun y hy => by rw [this.2]; exact hl y (by simp [hy])) h2

end Verif.Decomp
