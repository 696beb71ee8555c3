import Verif.Decomp.Nest
import Verif.Decomp.Wires

/-! The parents of live wires are live, and childs are told apart by their parent. What the operations on links leave
alone. -/
namespace Verif.Decomp

variable {K : Type}

/-! ### Steps that leave the wires alone -/

/-- Wires, their parents and childs and the told change are the same. -/
structure Same (s s' : St K) : Prop where
  wid : s'.wid = s.wid
  par : s'.parent = s.parent
  chs : s'.childs = s.childs
  out : s'.outer = s.outer
  wpo : s'.wpoly = s.wpoly
  qid : s'.qid = s.qid
  chg : s'.change = s.change

theorem Same.rfl {s : St K} : Same s s := ⟨.refl _, .refl _, .refl _, .refl _, .refl _, .refl _, .refl _⟩

theorem Same.trans {s t u : St K} (h : Same s t) (k : Same t u) : Same s u :=
  ⟨k.wid.trans h.wid, k.par.trans h.par, k.chs.trans h.chs, k.out.trans h.out, k.wpo.trans h.wpo, k.qid.trans h.qid,
    k.chg.trans h.chg⟩

theorem setPolygon_same {p q : Id} {s s' : St K} (h : setPolygon p q s = .ok s') : Same s s' := by
  obtain ⟨pp, fp, rfl⟩ := setPolygon_eq h
  exact ⟨rfl, rfl, rfl, rfl, rfl, rfl, rfl⟩

theorem joinSegment_same {d : HE} {s s' : St K} (h : joinSegment d s = .ok s') : Same s s' := by
  obtain ⟨pp, fp, rfl⟩ := joinSegment_eq h
  exact ⟨rfl, rfl, rfl, rfl, rfl, rfl, rfl⟩

theorem rmSegment_same {d : HE} {s s' : St K} (h : rmSegment d s = .ok s') : Same s s' := by
  obtain ⟨pp, fp, o, rfl, _⟩ := rmSegment_eq h
  exact ⟨rfl, rfl, rfl, rfl, rfl, rfl, rfl⟩

theorem connectVtx_same {d : HE} {i : Ins} {s s' : St K} (h : connectVtx d i s = .ok s') : Same s s' := by
  unfold connectVtx setNext at h
  simp only [bind_ok, check_ok, Except.ok.injEq] at h
  obtain ⟨s1, h1, s2, ⟨_, _, rfl⟩, s3, ⟨_, _, rfl⟩, rfl⟩ := h
  exact (joinSegment_same h1).trans ⟨rfl, rfl, rfl, rfl, rfl, rfl, rfl⟩

theorem connectVtx_wire {d : HE} {i : Ins} {s s' : St K} (h : connectVtx d i s = .ok s') :
    s'.wire = upd s.wire d i.2.2 := by
  unfold connectVtx setNext at h
  simp only [bind_ok, check_ok, Except.ok.injEq] at h
  obtain ⟨s1, h1, s2, ⟨_, _, rfl⟩, s3, ⟨_, _, rfl⟩, rfl⟩ := h
  obtain ⟨pp, fp, rfl⟩ := joinSegment_eq h1
  rfl

theorem connectFree_same {d : HE} {w : Option Id} {s s' : St K} (h : connectFree d w s = .ok s') : Same s s' := by
  unfold connectFree setNext at h
  simp only [bind_ok, check_ok, Except.ok.injEq] at h
  obtain ⟨s1, h1, s2, ⟨_, _, rfl⟩, rfl⟩ := h
  exact (joinSegment_same h1).trans ⟨rfl, rfl, rfl, rfl, rfl, rfl, rfl⟩

theorem disconnectVtx_same {d : HE} {s s' : St K} (h : disconnectVtx d s = .ok s') : Same s s' := by
  unfold disconnectVtx at h
  simp only [bind_ok, Except.ok.injEq] at h
  obtain ⟨s1, h1, p, _, rfl⟩ := h
  exact (rmSegment_same h1).trans ⟨rfl, rfl, rfl, rfl, rfl, rfl, rfl⟩

theorem disconnectWires_same {e : Id} {s s' : St K} (h : disconnectWires e s = .ok s') : Same s s' := by
  obtain ⟨ws, rfl, _⟩ := disconnectWires_eq h
  exact ⟨rfl, rfl, rfl, rfl, rfl, rfl, rfl⟩

theorem relabel_same {x y : Id} {l : List HE} : ∀ {s s' : St K}, relabel x y l s = .ok s' → Same s s' := by
  induction l with
  | nil =>
    intro s s' h
    simp only [relabel, Except.ok.injEq] at h
    exact h ▸ Same.rfl
  | cons d l ih =>
    intro s s' h
    simp only [relabel, bind_ok] at h
    obtain ⟨_, _, h⟩ := h
    have k := ih h
    exact ⟨k.wid, k.par, k.chs, k.out, k.wpo, k.qid, k.chg⟩

theorem movePoints_same {q : Id} {l : List Id} : ∀ {s s' : St K}, movePoints q l s = .ok s' → Same s s' := by
  induction l with
  | nil =>
    intro s s' h
    simp only [movePoints, Except.ok.injEq] at h
    exact h ▸ Same.rfl
  | cons p l ih =>
    intro s s' h
    simp only [movePoints, bind_ok] at h
    obtain ⟨s1, h1, h⟩ := h
    exact (setPolygon_same h1).trans (ih h)

theorem makeSegment_same [Field K] {a b e : Id} {s s' : St K} (h : makeSegment a b s = .ok (e, s')) : Same s s' := by
  obtain ⟨_, _, pp, fp, rfl⟩ := makeSegment_eq h
  exact ⟨rfl, rfl, rfl, rfl, rfl, rfl, rfl⟩

theorem destroySegment_same {e : Id} {s s' : St K} (h : destroySegment e s = .ok s') : Same s s' := by
  unfold destroySegment at h
  simp only [bind_ok, Except.ok.injEq] at h
  obtain ⟨s1, h1, s2, h2, m, _, rfl⟩ := h
  exact ((rmSegment_same h1).trans (rmSegment_same h2)).trans ⟨rfl, rfl, rfl, rfl, rfl, rfl, rfl⟩

theorem splitPoints_same [Field K] [LinearOrder K] {q' : Id} {l : List Id} : ∀ {s s' : St K},
    splitPoints q' l s = .ok s' → Same s s' := by
  induction l with
  | nil =>
    intro s s' h
    simp only [splitPoints, Except.ok.injEq] at h
    exact h ▸ Same.rfl
  | cons p l ih =>
    intro s s' h
    simp only [splitPoints, bind_ok] at h
    obtain ⟨c, _, s1, h1, h⟩ := h
    split at h1
    · exact (setPolygon_same h1).trans (ih h)
    · simp only [Except.ok.injEq] at h1
      exact h1 ▸ ih h

/-! ### Parents are live -/

/-- Parents of live wires are live, and a wire is in the list of its parent; a new wire is its own parent without being its own child. -/
structure UpTree (s : St K) : Prop extends Tree s where
  up : ∀ w ∈ s.wid.live, ∀ q, s.parent w = some q → q ∈ s.wid.live ∧ (w ∈ s.childs q ∨ q = w)

theorem UpTree.frame {s s' : St K} (h : UpTree s) (h1 : s'.wid = s.wid) (h2 : s'.parent = s.parent)
    (h3 : s'.childs = s.childs) : UpTree s' :=
  { toTree := h.toTree.frame h1 h2 h3, up := by rw [h1, h2, h3]; exact h.up }

theorem UpTree.same {s s' : St K} (h : UpTree s) (k : Same s s') : UpTree s' := h.frame k.wid k.par k.chs

/-- Childs are the live wires with this parent. -/
theorem UpTree.child {s : St K} (h : UpTree s) {w c : Id} (hw : w ∈ s.wid.live) :
    c ∈ s.childs w → c ∈ s.wid.live ∧ s.parent c = some w := fun hc =>
  ⟨(h.mem w hw c hc).1, (h.mem w hw c hc).2.2⟩

theorem UpTree.childs_iff {s : St K} (h : UpTree s) {w c : Id} (hw : w ∈ s.wid.live) (hc : c ∈ s.wid.live) (hne : c ≠ w) :
    c ∈ s.childs w ↔ s.parent c = some w := by
  refine ⟨fun k => (h.child hw k).2, fun k => ?_⟩
  rcases (h.up c hc w k).2 with k | rfl
  · exact k
  · exact absurd rfl hne

theorem init_up [Zero K] : UpTree (init : St K) where
  toTree := init_forest.toTree
  up := init_forest.up

theorem newWireObj_up {s : St K} (h : UpTree s) : UpTree (newWireObj s).2 := by
  have hT := newWireObj_tree h.toTree
  obtain ⟨h1, h2, h3⟩ := Ids.append_ok h.wids
  have hl : ∀ j, j ∈ s.wid.append.2.live ↔ j ∈ s.wid.live ∨ j = s.wid.append.1 := by
    intro j; rw [h2]; simp
  refine { toTree := hT, up := ?_ }
  intro w hw q hq
  simp only [newWireObj, upd] at hw hq ⊢
  by_cases hwn : w = s.wid.append.1
  · subst hwn
    rw [Function.update_self] at hq
    obtain rfl := Option.some.inj hq
    exact ⟨(hl _).2 (Or.inr rfl), Or.inr rfl⟩
  · rw [Function.update_of_ne hwn] at hq
    obtain ⟨k1, k2⟩ := h.up w (((hl w).1 hw).resolve_right hwn) q hq
    refine ⟨(hl q).2 (Or.inl k1), ?_⟩
    have : q ≠ s.wid.append.1 := fun hh => h1 (hh ▸ k1)
    rw [Function.update_of_ne this]
    exact k2

theorem setParent_up {w x : Id} {s s' : St K} (h : UpTree s) (hw : w ∈ s.wid.live) (hw0 : w ≠ 0) (hx : x ∈ s.wid.live)
    (hs : setParent w (some x) s = .ok s') : UpTree s' := by
  have hT := setParent_tree h.toTree hw hw0 hs
  obtain ⟨_, h2⟩ := setParent_childs h.toTree hw hw0 hs
  refine { toTree := hT, up := ?_ }
  obtain ⟨C, rfl⟩ := setParent_eq hs
  intro y hy q hq
  by_cases hyw : y = w
  · subst hyw
    simp only [upd, Function.update_self, Option.some.injEq] at hq
    subst hq
    exact ⟨hx, Or.inl ((h2 _ hx y).2 (Or.inl ⟨rfl, rfl⟩))⟩
  · simp only [upd, Function.update_of_ne hyw] at hq
    obtain ⟨k1, k2⟩ := h.up y hy q hq
    refine ⟨k1, ?_⟩
    rcases k2 with k2 | k2
    · exact Or.inl ((h2 _ k1 y).2 (Or.inr ⟨hyw, k2⟩))
    · exact Or.inr k2

theorem setParents_up {x : Id} {l : List Id} : ∀ {s s' : St K}, UpTree s → (∀ c ∈ l, c ∈ s.wid.live ∧ c ≠ 0) →
    x ∈ s.wid.live → setParents (some x) l s = .ok s' → UpTree s' := by
  induction l with
  | nil =>
    intro s s' h _ _ hs
    simp only [setParents, Except.ok.injEq] at hs
    exact hs ▸ h
  | cons c l ih =>
    intro s s' h hl hx hs
    simp only [setParents, bind_ok] at hs
    obtain ⟨s1, h1, h2⟩ := hs
    have hc := hl c (by simp)
    have ht := setParent_up h hc.1 hc.2 hx h1
    obtain ⟨C, rfl⟩ := setParent_eq h1
    exact ih ht (fun y hy => hl y (by simp [hy])) hx h2

theorem joinChilds_up {q q' : Id} {l : List Id} : ∀ {s s' : St K}, joinChilds q q' l s = .ok s' → UpTree s →
    (∀ c ∈ l, c ∈ s.wid.live ∧ c ≠ 0) → s.outer q ∈ s.wid.live → UpTree s' := by
  induction l with
  | nil =>
    intro s s' hs h _ _
    simp only [joinChilds, Except.ok.injEq] at hs
    exact hs ▸ h
  | cons c l ih =>
    intro s s' hs h hl hx
    simp only [joinChilds, bind_ok, check_ok] at hs
    obtain ⟨_, h0, s1, h1, h2⟩ := hs
    have hc := hl c (by simp)
    have ht := setParent_up h hc.1 hc.2 hx h1
    obtain ⟨C, rfl⟩ := setParent_eq h1
    exact ih h2 (ht.frame rfl rfl rfl) (fun y hy => hl y (by simp [hy])) hx

/-- A wire that is no other wire's parent is taken out. -/
theorem UpTree.drop {s s' : St K} {w : Id} {m : Ids} (h : UpTree s) (hw0 : w ≠ 0) (hm : s.wid.remove w = .ok m)
    (hn : ∀ y ∈ s.wid.live, y ≠ w → s.parent y ≠ some w) (h1 : s'.wid = m) (h2 : s'.parent = s.parent)
    (h3 : ∀ y ∈ s.wid.live, y ≠ w → (s'.childs y).Nodup ∧ ∀ c, c ∈ s'.childs y ↔ c ∈ s.childs y ∧ c ≠ w) : UpTree s' := by
  obtain ⟨k1, k2, k3, k4⟩ := Ids.remove_ok h.wids hm
  refine { wids := ?_, root := ?_, top := ?_, non := ?_, nd := ?_, mem := ?_, up := ?_ }
  · rw [h1]; exact k3
  · rw [h1]; exact (k4 0).2 ⟨hw0.symm, h.root⟩
  · rw [h2]; exact h.top
  · intro y hy hy0
    rw [h1] at hy
    rw [h2]
    exact h.non y ((k4 y).1 hy).2 hy0
  · intro y hy
    rw [h1] at hy
    obtain ⟨g1, g2⟩ := (k4 y).1 hy
    exact (h3 y g2 g1).1
  · intro y hy c hc
    rw [h1] at hy
    obtain ⟨g1, g2⟩ := (k4 y).1 hy
    obtain ⟨g3, g4⟩ := ((h3 y g2 g1).2 c).1 hc
    obtain ⟨g5, g6, g7⟩ := h.mem y g2 c g3
    refine ⟨?_, g6, ?_⟩
    · rw [h1]; exact (k4 c).2 ⟨g4, g5⟩
    · rw [h2]; exact g7
  · intro y hy q hq
    rw [h1] at hy
    obtain ⟨g1, g2⟩ := (k4 y).1 hy
    rw [h2] at hq
    obtain ⟨g3, g4⟩ := h.up y g2 q hq
    have hqw : q ≠ w := fun hh => hn y g2 g1 (hh ▸ hq)
    refine ⟨?_, ?_⟩
    · rw [h1]; exact (k4 q).2 ⟨hqw, g3⟩
    · rcases g4 with g4 | g4
      · exact Or.inl (((h3 q g3 hqw).2 y).2 ⟨g4, g1⟩)
      · exact Or.inr g4

section
variable [Field K] [LinearOrder K]

theorem splitHoles_up {g : Geom K} {q' : Id} {l : List Id} : ∀ {s s' : St K}, UpTree s →
    (∀ c ∈ l, c ∈ s.wid.live ∧ c ≠ 0) → s.outer q' ∈ s.wid.live → splitHoles g q' l s = .ok s' → UpTree s' := by
  induction l with
  | nil =>
    intro s s' h _ _ hs
    simp only [splitHoles, Except.ok.injEq] at hs
    exact hs ▸ h
  | cons c l ih =>
    intro s s' h hl hx hs
    simp only [splitHoles, bind_ok] at hs
    obtain ⟨x, _, s1, h1, h2⟩ := hs
    have hc := hl c (by simp)
    have : UpTree s1 ∧ s1.wid = s.wid ∧ s1.outer = s.outer := by
      split at h1
      · unfold giveHole at h1
        simp only [bind_ok, Except.ok.injEq] at h1
        obtain ⟨s2, h3, rfl⟩ := h1
        have ht := setParent_up h hc.1 hc.2 hx h3
        obtain ⟨C1, rfl⟩ := setParent_eq h3
        exact ⟨ht.frame rfl rfl rfl, rfl, rfl⟩
      · simp only [Except.ok.injEq] at h1
        exact ⟨h1 ▸ h, h1 ▸ rfl, h1 ▸ rfl⟩
    obtain ⟨g1, g2, g3⟩ := this
    exact ih g1 (fun y hy => by rw [g2]; exact hl y (by simp [hy])) (by rw [g2, g3]; exact hx) h2

omit [LinearOrder K] in
theorem newWire_up {q a b e : Id} {s s' : St K} (hs : newWire q a b s = .ok (e, s')) (h : UpTree s)
    (hx : s.outer q ∈ s.wid.live) : UpTree s' ∧ s'.change = s.change := by
  unfold newWire at hs
  simp only [bind_ok, Except.ok.injEq, Prod.mk.injEq, Prod.exists] at hs
  obtain ⟨s1, h1, e1, s2, h2, s3, h3, s4, h4, rfl, rfl⟩ := hs
  obtain ⟨k1, k2, k3⟩ := Ids.append_ok h.wids
  have hl : ∀ j, j ∈ s.wid.append.2.live ↔ j ∈ s.wid.live ∨ j = s.wid.append.1 := by
    intro j; rw [k2]; simp
  have h0 : s.wid.append.1 ≠ 0 := fun h0 => k1 (h0 ▸ h.root)
  have hu := newWireObj_up h
  have hu1 := setParent_up (s := { (newWireObj s).2 with wpoly := upd (newWireObj s).2.wpoly (newWireObj s).1 (some q) })
    (hu.frame rfl rfl rfl) ((hl _).2 (Or.inr rfl)) h0 ((hl _).2 (Or.inl hx)) h1
  have hc1 : s1.change = s.change := by
    obtain ⟨C, rfl⟩ := setParent_eq h1
    rfl
  have key : Same s1 s4 := (makeSegment_same h2).trans ((connectFree_same h3).trans (connectFree_same h4))
  exact ⟨(hu1.same key).frame rfl rfl rfl, key.chg.trans hc1⟩

omit [LinearOrder K] in
theorem addDendrite_same {a b e : Id} {i : Ins} {root : Bool} {s s' : St K} (hs : wireAddDendrite a b i root s = .ok (e, s')) :
    Same s { s' with change := s.change } ∧ s'.change = .shape (s.ppoly (if root then a else b)) := by
  unfold wireAddDendrite at hs
  simp only [bind_ok, Except.ok.injEq, Prod.mk.injEq, Prod.exists] at hs
  obtain ⟨e1, s2, h2, s3, h3, s4, h4, rfl, rfl⟩ := hs
  have key : Same s s4 := (makeSegment_same h2).trans ((connectVtx_same h3).trans (connectFree_same h4))
  exact ⟨⟨key.wid, key.par, key.chs, key.out, key.wpo, key.qid, rfl⟩, rfl⟩

end

theorem rmDendrite_same {e : Id} {tip : Bool} {s s' : St K} (hs : wireRmDendrite e tip s = .ok s') :
    Same s { s' with change := s.change } ∧ ∃ w q, s.wire (e, false) = some w ∧ s.wpoly w = some q ∧
      s'.change = .shape (some q) := by
  unfold wireRmDendrite polyAt at hs
  simp only [bind_ok, Except.ok.injEq, check_ok, need_ok] at hs
  obtain ⟨_, _, q, ⟨w, hw, hq⟩, s1, h1, s2, h2, s3, h3, rfl⟩ := hs
  have key : Same s s3 := (disconnectWires_same h1).trans ((disconnectVtx_same h2).trans (destroySegment_same h3))
  exact ⟨⟨key.wid, key.par, key.chs, key.out, key.wpo, key.qid, rfl⟩, w, q, hw, hq, rfl⟩

theorem rmWire_up {e : Id} {s s' : St K} (hs : rmWire e s = .ok s') (h : UpTree s)
    (hx : ∀ w q, s.wpoly w = some q → w ∈ s.wid.live → s.outer q ∈ s.wid.live)
    (hn : ∀ w, s.wire (e, true) = some w → ∀ y ∈ s.wid.live, y ≠ w → s.parent y ≠ some w) :
    UpTree s' ∧ s'.change = s.change := by
  unfold rmWire at hs
  simp only [bind_ok, check_ok, need_ok, removeSet_ok] at hs
  obtain ⟨_, _, _, _, w, hw, q, hq, l, ⟨hl, rfl⟩, m, hm, hs⟩ := hs
  have hk := Ids.remove_ok h.wids hm
  have hox := hx w q hq hk.1
  obtain ⟨g5, g6, g7⟩ := h.mem _ hox w hl
  have key := destroySegment_same hs
  refine ⟨UpTree.same (s := { s with childs := upd s.childs (s.outer q) ((s.childs (s.outer q)).erase w), wid := m }) ?_ key,
    key.chg⟩
  refine h.drop g6 hm (hn w hw) rfl rfl fun y hy hyw => ?_
  by_cases hyo : y = s.outer q
  · subst hyo
    simp only [upd, Function.update_self]
    exact ⟨(h.nd _ hox).erase _, fun c => by rw [(h.nd _ hox).mem_erase_iff]; tauto⟩
  · simp only [upd, Function.update_of_ne hyo]
    refine ⟨h.nd y hy, fun c => ⟨fun hc => ⟨hc, ?_⟩, fun hc => hc.1⟩⟩
    rintro rfl
    have := (h.mem y hy c hc).2.2
    rw [g7] at this
    exact hyo (Option.some.inj this).symm

section
variable [Field K]

theorem joinWires_up {a b e : Id} {ia ib : Ins} {s s' : St K} (hs : joinWires a b ia ib s = .ok (e, s')) (h : UpTree s)
    (hx : ∀ aw bw q, ia.2.2 = some aw → ib.2.2 = some bw → s.wpoly aw = some q → s.wpoly bw = some q → aw ≠ bw →
      aw ∈ s.wid.live ∧ bw ∈ s.wid.live ∧ aw ≠ 0 ∧ bw ≠ 0 ∧ s.parent aw ≠ some aw ∧ s.parent bw ≠ some bw ∧
      (s.outer q = aw → s.parent aw ≠ some bw) ∧ (s.outer q = bw → s.parent bw ≠ some aw)) :
    UpTree s' ∧ ∃ w q, ia.2.2 = some w ∧ s.wpoly w = some q ∧ s'.change = .shape (some q) := by
  unfold joinWires at hs
  simp only [bind_ok, check_ok, need_ok, Except.ok.injEq, Prod.mk.injEq, Prod.exists] at hs
  obtain ⟨_, h0, aw, haw, bw, hbw, _, h1, q, hq, e', s1, h2, s2, h3, s3, h4, keep, hk, rm, hr, l, hl, s4, h5, s5, h6,
    rp, hrp, c, hc, m, hm, rfl, rfl⟩ := hs
  have hne : aw ≠ bw := fun hh => h0 (by rw [haw, hbw, hh])
  obtain ⟨x1, x2, x3, x4, x5, x6, x7, x8⟩ := hx aw bw q haw hbw hq (h1 ▸ hq) hne
  have k3 : Same { s with change := .shape (some q) } s3 :=
    (makeSegment_same h2).trans ((connectVtx_same h3).trans (connectVtx_same h4))
  have hW : s3.wire (e', false) = some aw ∧ s3.wire (e', true) = some bw := by
    rw [connectVtx_wire h4, connectVtx_wire h3, haw, hbw]
    simp [upd]
  have ho : s3.outer = s.outer := k3.out
  have hkr : (keep = aw ∧ rm = bw ∧ s.outer q = aw) ∨ (keep = bw ∧ rm = aw ∧ s.outer q ≠ aw) := by
    rw [ho] at hk hr
    by_cases hoq : s.outer q = aw
    · simp only [hoq, if_true, Bool.not_false, hW.1, hW.2, Option.some.injEq] at hk hr
      exact Or.inl ⟨hk.symm, hr.symm, hoq⟩
    · simp only [hoq, if_false, Bool.not_true, hW.1, hW.2, Option.some.injEq] at hk hr
      exact Or.inr ⟨hk.symm, hr.symm, hoq⟩
  have hu3 : UpTree s3 := h.frame k3.wid k3.par k3.chs
  have k4 := relabel_same h5
  have hp3 : s3.parent = s.parent := k3.par
  have hw3 : s3.wid = s.wid := k3.wid
  have hc3 : s3.childs = s.childs := k3.chs
  have hw4 : s4.wid = s.wid := k4.wid.trans hw3
  have hp4 : s4.parent = s.parent := k4.par.trans hp3
  have hc4 : s4.childs = s.childs := k4.chs.trans hc3
  have hkrl : keep ∈ s.wid.live ∧ rm ∈ s.wid.live ∧ keep ≠ 0 ∧ rm ≠ 0 ∧ keep ≠ rm ∧ s.parent rm ≠ some rm ∧
      ∀ x, (if s3.outer q = aw ∨ s3.outer q = bw then s3.parent keep else some keep) = some x → x ≠ rm := by
    rw [ho, hp3]
    rcases hkr with ⟨rfl, rfl, hoq⟩ | ⟨rfl, rfl, hoq⟩
    · refine ⟨x1, x2, x3, x4, hne, x6, fun x hx hh => ?_⟩
      subst hh
      rw [if_pos (Or.inl hoq)] at hx
      exact x7 hoq hx
    · refine ⟨x2, x1, x4, x3, hne.symm, x5, fun x hx hh => ?_⟩
      subst hh
      split at hx
      · next hh =>
        exact x8 (hh.resolve_left hoq) hx
      · exact hne.symm (Option.some.inj hx)
  obtain ⟨y1, y2, y3, y4, y5, y6, y7⟩ := hkrl
  obtain ⟨x, hxp, hxl⟩ : ∃ x, (if s3.outer q = aw ∨ s3.outer q = bw then s3.parent keep else some keep) = some x ∧
      x ∈ s.wid.live := by
    split
    · obtain ⟨x, hx⟩ := Option.ne_none_iff_exists'.1 (h.non keep y1 y3)
      rw [hp3]
      exact ⟨x, hx, (h.up keep y1 x hx).1⟩
    · exact ⟨keep, rfl, y1⟩
  have hxr := y7 x hxp
  rw [hxp] at h6
  have hch : ∀ c ∈ s.childs rm, c ∈ s.wid.live ∧ c ≠ 0 ∧ s.parent c = some rm := fun c hc => h.mem rm y2 c hc
  have hu5 : UpTree s5 := by
    refine setParents_up (s := { s4 with wire := upd s4.wire (e', false) (some keep) }) ?_ ?_ ?_ h6
    · exact UpTree.frame h hw4 hp4 hc4
    · simp only [hw4, hc4]
      exact fun c hc => ⟨(hch c hc).1, (hch c hc).2.1⟩
    · simp only [hw4]
      exact hxl
  have hchg : s4.change = .shape (some q) := k4.chg.trans k3.chg
  have p5 : ∀ c, s5.parent c = if c ∈ s.childs rm then some x else s.parent c := by
    obtain ⟨C, rfl⟩ := setParents_eq h6
    intro c
    show (if c ∈ s4.childs rm then some x else s4.parent c) = _
    rw [hc4, hp4]
  have w5 : s5.wid = s.wid := by
    obtain ⟨C, rfl⟩ := setParents_eq h6
    exact hw4
  have g5 : s5.change = .shape (some q) := by
    obtain ⟨C, rfl⟩ := setParents_eq h6
    exact hchg
  obtain ⟨hc1, rfl⟩ := removeSet_ok.1 hc
  have hrm : rm ∉ s.childs rm := fun hh => y6 (hch rm hh).2.2
  rw [p5, if_neg hrm] at hrp
  refine ⟨hu5.drop y4 hm ?_ rfl rfl ?_, aw, q, haw, hq, g5⟩
  · intro y hy hyr
    rw [w5] at hy
    rw [p5]
    split
    · simpa using hxr
    · next hh => exact fun hh2 => hh ((h.childs_iff y2 hy hyr).2 hh2)
  · intro y hy hyr
    have hndy := hu5.nd y hy
    by_cases hyo : y = rp
    · subst hyo
      simp only [upd, Function.update_self]
      exact ⟨hndy.erase _, fun c => by rw [hndy.mem_erase_iff]; tauto⟩
    · simp only [upd, Function.update_of_ne hyo]
      refine ⟨hndy, fun c => ⟨fun hc' => ⟨hc', ?_⟩, fun hc' => hc'.1⟩⟩
      intro hcr
      rw [hcr] at hc'
      have := (hu5.mem y hy rm hc').2.2
      rw [p5, if_neg hrm, hrp] at this
      exact hyo (Option.some.inj this).symm

variable [LinearOrder K]

omit [Field K] [LinearOrder K] in
theorem cutOuter_up {q q' ow lw : Id} {s s' : St K} (h : cutOuter q q' ow lw s = .ok s') (hT : UpTree s)
    (hl : lw ∈ s.wid.live) (hl0 : lw ≠ 0) (ho : ow ∈ s.wid.live) (ho0 : ow ≠ 0) : UpTree s' := by
  unfold cutOuter at h
  simp only [bind_ok, Except.ok.injEq] at h
  obtain ⟨s1, h1, rfl⟩ := h
  obtain ⟨x, hx⟩ := Option.ne_none_iff_exists'.1 (hT.non ow ho ho0)
  rw [hx] at h1
  exact (setParent_up hT hl hl0 (hT.up ow ho x hx).1 h1).frame rfl rfl rfl

theorem cutHole_up {g : Geom K} {q q' ow lw : Id} {s s' : St K} (h : cutHole g q q' ow lw s = .ok s') (hT : UpTree s)
    (hl : lw ∈ s.wid.live) (hl0 : lw ≠ 0) (ho : ow ∈ s.wid.live) (ho0 : ow ≠ 0) : UpTree s' := by
  unfold cutHole at h
  simp only [bind_ok, check_ok, Except.ok.injEq] at h
  obtain ⟨_, h1, inR, h2, s1, h3, s2, h4, s3, h5, rfl⟩ := h
  have hu : (if inR then ow else lw) ∈ s.wid.live ∧ (if inR then ow else lw) ≠ 0 := by
    cases inR
    · simpa using ⟨hl, hl0⟩
    · simpa using ⟨ho, ho0⟩
  have hi : (if inR then lw else ow) ∈ s.wid.live ∧ (if inR then lw else ow) ≠ 0 := by
    cases inR
    · simpa using ⟨ho, ho0⟩
    · simpa using ⟨hl, hl0⟩
  have hT1 := setParents_up hT (fun c hc => ⟨(hT.mem ow ho c hc).1, (hT.mem ow ho c hc).2.1⟩) hu.1 h3
  have hw1 : s1.wid = s.wid := by
    obtain ⟨C1, rfl⟩ := setParents_eq h3
    rfl
  obtain ⟨x, hx⟩ := Option.ne_none_iff_exists'.1 (hT1.non ow (hw1 ▸ ho) ho0)
  have hxl := (hT1.up ow (hw1 ▸ ho) x hx).1
  simp only [hx] at h4
  have hT2 := setParent_up (s := { s1 with
        wpoly := upd (upd s1.wpoly (if inR = true then ow else lw) (some q)) (if inR = true then lw else ow) (some q')
        outer := upd s1.outer q' (if inR = true then lw else ow) }) (hT1.frame rfl rfl rfl) (by rw [hw1]; exact hu.1) hu.2 hxl h4
  have hw2 : s2.wid = s.wid := by
    obtain ⟨C1, rfl⟩ := setParent_eq h4
    exact hw1
  exact (setParent_up hT2 (by rw [hw2]; exact hi.1) hi.2 (by rw [hw2]; exact hu.1) h5).frame rfl rfl rfl

theorem cut_up {g : Geom K} {q q' ow lw : Id} {s s' : St K} (h : cut g q q' ow lw s = .ok s') (hT : UpTree s)
    (hl : lw ∈ s.wid.live) (hl0 : lw ≠ 0) (ho : ow ∈ s.wid.live) (ho0 : ow ≠ 0) : UpTree s' := by
  unfold cut at h
  split at h
  · exact cutOuter_up h hT hl hl0 ho ho0
  · exact cutHole_up h hT hl hl0 ho ho0

end

theorem joinPoly_up [Field K] {e : Id} {s s' : St K} (hs : joinPoly e s = .ok s') (h : UpTree s)
    (hx : ∀ lw rw lq rq, s.wire (e, true) = some lw → s.wire (e, false) = some rw → s.wpoly lw = some lq →
      s.wpoly rw = some rq → s.outer lq ∈ s.wid.live ∧ s.outer rq ∈ s.wid.live ∧ s.outer lq ≠ s.outer rq ∧
      (s.outer lq = 0 → s.parent lw ≠ s.parent rw ∧ s.parent lw ≠ some rw) ∧
      (s.outer rq = 0 → s.parent lw = s.parent rw ∨ s.parent lw = some rw) ∧
      s.parent (s.outer lq) ≠ some (s.outer lq) ∧ s.parent (s.outer rq) ≠ some (s.outer rq)) : UpTree s' := by
  unfold joinPoly at hs
  simp only [bind_ok, need_ok, Except.ok.injEq] at hs
  obtain ⟨lw, hlw, rw, hrw, lq, hlq, rq, hrq, ⟨q, q', keep, ch⟩, hk, s1, h1, s2, h2, s3, h3, l, hl, s4, h4, s5, h5,
    s6, h6, s7, h7, s8, h8, m, hm, n, hn, rfl⟩ := hs
  obtain ⟨x1, x2, x3, x4, x5, x6, x7⟩ := hx lw rw lq rq hlw hrw hlq hrq
  have key : s.outer q ∈ s.wid.live ∧ s.outer q' ∈ s.wid.live ∧ s.outer q' ≠ 0 ∧ s.outer q ≠ s.outer q' ∧
      s.parent (s.outer q') ≠ some (s.outer q') := by
    unfold joinKind at hk
    split at hk
    · next k1 =>
      simp only [bind_ok, check_ok, Except.ok.injEq] at hk
      obtain ⟨_, _, _, _, k⟩ := hk
      cases k
      exact ⟨x2, x1, fun hh => (x4 hh).1 k1, x3.symm, x6⟩
    · next k1 =>
      split at hk
      · next k2 =>
        simp only [Except.ok.injEq] at hk
        cases hk
        exact ⟨x2, x1, fun hh => (x4 hh).2 k2, x3.symm, x6⟩
      · next k2 =>
        simp only [bind_ok, check_ok, Except.ok.injEq] at hk
        obtain ⟨_, _, k⟩ := hk
        cases k
        exact ⟨x1, x2, fun hh => (x5 hh).elim k1 k2, x3, x7⟩
  obtain ⟨y1, y2, y3, y4, y5⟩ := key
  dsimp only at h1 h2 h3 hl h4 hm hn
  have hch : ∀ c ∈ s.childs (s.outer q'), c ∈ s.wid.live ∧ c ≠ 0 ∧ s.parent c = some (s.outer q') :=
    fun c hc => h.mem _ y2 c hc
  have u1 := joinChilds_up h1 (h.frame rfl rfl rfl) (fun c hc => ⟨(hch c hc).1, (hch c hc).2.1⟩) y1
  have p1 : ∀ c, s1.parent c = if c ∈ s.childs (s.outer q') then some (s.outer q) else s.parent c := by
    obtain ⟨C, rfl⟩ := joinChilds_eq h1
    exact fun c => rfl
  have w1 : s1.wid = s.wid := by
    obtain ⟨C, rfl⟩ := joinChilds_eq h1
    rfl
  have k2 := movePoints_same h2
  have u2 := u1.same k2
  have w2 : s2.wid = s.wid := k2.wid.trans w1
  have p2 : s2.parent = s1.parent := k2.par
  have u3 := setParent_up u2 (by rw [w2]; exact y2) y3 (by rw [w2]; exact y2) h3
  have p3 : ∀ c, s3.parent c = if c = s.outer q' then some (s.outer q') else if c ∈ s.childs (s.outer q') then some (s.outer q)
      else s.parent c := by
    obtain ⟨C, rfl⟩ := setParent_eq h3
    intro c
    simp only [upd, Function.update_apply, p2, p1]
  have w3 : s3.wid = s.wid := by
    obtain ⟨C, rfl⟩ := setParent_eq h3
    exact w2
  have k8 : Same s3 s8 := (relabel_same h4).trans ((disconnectWires_same h5).trans ((disconnectVtx_same h6).trans
    ((disconnectVtx_same h7).trans (destroySegment_same h8))))
  have u8 := u3.same k8
  refine u8.drop y3 hm ?_ rfl rfl ?_
  · intro y hy hyr
    rw [k8.wid, w3] at hy
    rw [k8.par, p3, if_neg hyr]
    split
    · simpa using y4
    · next hh => exact fun hh2 => hh ((h.childs_iff y2 hy hyr).2 hh2)
  · intro y hy hyr
    refine ⟨u8.nd y hy, fun c => ⟨fun hc => ⟨hc, ?_⟩, fun hc => hc.1⟩⟩
    rintro rfl
    have := (u8.mem y hy _ hc).2.2
    rw [k8.par, p3, if_pos rfl] at this
    exact hyr (Option.some.inj this).symm

end Verif.Decomp
