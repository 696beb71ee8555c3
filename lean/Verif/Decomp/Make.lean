import Verif.Decomp.Links

/-! Segments made and destroyed; free points of polygons. -/
namespace Verif.Decomp

variable {K : Type}

/-! ### Making and destroying -/

/-- Stored segments of points after `makeSegment`. -/
def makePs (s : St K) (e a b : Id) : Id → Option HE := fun p =>
  if p = a ∧ s.pseg a = none then some (e, false)
  else if p = b ∧ s.pseg b = none then some (e, true)
  else s.pseg p

theorem joinPs_two {s : St K} {e a b : Id} (s1 s2 : St K) (hab : a ≠ b) (ha : s1.vtx (e, false) = a)
    (hb : s2.vtx (e, true) = b) (h1 : s1.pseg = s.pseg) (h2 : s2.pseg = joinPs s1 (e, false)) :
    joinPs s2 (e, true) = makePs s e a b := by
  funext p
  unfold joinPs at h2 ⊢
  unfold makePs
  rw [h2, hb, ha, h1]
  by_cases hpa : s.pseg a = none <;> by_cases hpb : s.pseg b = none <;> by_cases h4 : p = b <;>
    by_cases h5 : p = a <;> have hba := hab.symm <;> simp_all [upd, Function.update_apply]

/-- Value of the four attributes of a new segment. -/
theorem makeSegment_eq [Field K] {a b e : Id} {s s' : St K} (h : makeSegment a b s = .ok (e, s')) :
    a ≠ b ∧ e = s.sid.append.1 ∧ ∃ pp fp, s' = { s with
      ppoly := pp
      fpts := fp
      pseg := makePs s e a b
      sid := s.sid.append.2
      vtx := upd (upd s.vtx (e, false) a) (e, true) b
      wire := upd (upd s.wire (e, false) none) (e, true) none
      next := upd (upd s.next (e, false) none) (e, true) none
      vec := upd s.vec e ((s.xy b).1 - (s.xy a).1, (s.xy b).2 - (s.xy a).2)
      table := upd s.table (a, b) (some e) } := by
  unfold makeSegment at h
  simp only [bind_ok, check_ok, Except.ok.injEq, Prod.mk.injEq] at h
  obtain ⟨_, hab, s1, h1, s2, h2, rfl, rfl⟩ := h
  obtain ⟨pp1, fp1, rfl⟩ := joinSegment_eq h1
  obtain ⟨pp, fp, rfl⟩ := joinSegment_eq h2
  refine ⟨hab, rfl, pp, fp, ?_⟩
  congr 1
  refine joinPs_two (s := s) _ _ hab ?_ ?_ ?_ rfl
  · simp only [upd, Function.update_of_ne (show ((s.sid.append.1, false) : HE) ≠ (s.sid.append.1, true) by simp),
      Function.update_self]
  · simp only [upd, Function.update_self]
  · rfl

theorem makeSegment_links [Field K] {a b e : Id} {s s' : St K} {X : Set HE} {Y : Set Id} (hL : Links s X Y)
    (ha : a ∈ s.pid.live) (hb : b ∈ s.pid.live) (h : makeSegment a b s = .ok (e, s')) :
    Links s' (X ∪ {d | d.1 = e}) Y := by
  obtain ⟨hab, he, pp, fp, rfl⟩ := makeSegment_eq h
  obtain ⟨h1, h2, h3⟩ := Ids.append_ok hL.sids
  rw [← he] at h1 h2
  have hlive : ∀ j, j ∈ s.sid.append.2.live ↔ j ∈ s.sid.live ∨ j = e := by
    intro j
    rw [h2]
    simp
  have hvtx : ∀ d : HE, d.1 ≠ e → upd (upd s.vtx (e, false) a) (e, true) b d = s.vtx d := by
    intro d hd
    have h5 : d ≠ (e, true) := fun h => hd (by rw [h])
    have h6 : d ≠ (e, false) := fun h => hd (by rw [h])
    simp only [upd, Function.update_of_ne h5, Function.update_of_ne h6]
  have hnext : ∀ d : HE, d.1 ≠ e → upd (upd s.next (e, false) none) (e, true) none d = s.next d := by
    intro d hd
    have h5 : d ≠ (e, true) := fun h => hd (by rw [h])
    have h6 : d ≠ (e, false) := fun h => hd (by rw [h])
    simp only [upd, Function.update_of_ne h5, Function.update_of_ne h6]
  have hf : upd (upd s.vtx (e, false) a) (e, true) b (e, false) = a := by simp [upd]
  have ht : upd (upd s.vtx (e, false) a) (e, true) b (e, true) = b := by simp [upd]
  refine ⟨h3, ?_, ?_, ?_⟩
  · intro d hd
    rcases (hlive d.1).1 hd with hd | hd
    · show upd (upd s.vtx (e, false) a) (e, true) b d ∈ _
      rw [hvtx d (fun h => h1 (h ▸ hd))]
      exact hL.vlive d hd
    · obtain ⟨d1, d2⟩ := d
      simp only at hd
      subst hd
      cases d2
      · show upd (upd s.vtx (d1, false) a) (d1, true) b (d1, false) ∈ _
        rw [hf]; exact ha
      · show upd (upd s.vtx (d1, false) a) (d1, true) b (d1, true) ∈ _
        rw [ht]; exact hb
  · intro j hj
    rcases (hlive j).1 hj with hj | rfl
    · have hje : j ≠ e := fun h => h1 (h ▸ hj)
      show upd (upd s.vtx (e, false) a) (e, true) b (j, false) ≠ upd (upd s.vtx (e, false) a) (e, true) b (j, true)
      rw [hvtx (j, false) hje, hvtx (j, true) hje]
      exact hL.vne j hj
    · show upd (upd s.vtx (j, false) a) (j, true) b (j, false) ≠ upd (upd s.vtx (j, false) a) (j, true) b (j, true)
      rw [hf, ht]; exact hab
  · intro p hp
    obtain ⟨l, hr, hps⟩ := hL.ring p hp
    have hle : ∀ d ∈ l, d.1 ≠ e := fun d hd h => h1 (h ▸ ((hr.mem d).1 hd).1)
    refine ⟨l, hr.congr (fun d => ?_) (fun d hd => hnext d (hle d hd)), fun hpY => ?_⟩
    · show d.1 ∈ s.sid.append.2.live ∧ upd (upd s.vtx (e, false) a) (e, true) b d = p ∧ d ∉ X ∪ {d | d.1 = e} ↔ _
      simp only [Set.mem_union, Set.mem_setOf_eq, not_or, hlive]
      constructor
      · rintro ⟨h5, h6, h7, h8⟩
        rw [hvtx d h8] at h6
        exact ⟨h5.resolve_right h8, h6, h7⟩
      · rintro ⟨h5, h6, h7⟩
        have h8 : d.1 ≠ e := fun h => h1 (h ▸ h5)
        rw [hvtx d h8]
        exact ⟨Or.inl h5, h6, h7, h8⟩
    · have hP := hps hpY
      refine ⟨fun h0 => ?_, fun d hd => ?_⟩
      · simp only [makePs] at h0
        split at h0
        · simp at h0
        · split at h0
          · simp at h0
          · exact hP.non h0
      · simp only [makePs] at hd
        split at hd
        · next hc =>
          obtain ⟨rfl, hc⟩ := hc
          have : (e, false) = d := by simpa using hd
          subst this
          exact Or.inr ⟨hP.non hc, Or.inr rfl, (hlive e).2 (Or.inr rfl), hf⟩
        · split at hd
          · next hc =>
            obtain ⟨rfl, hc⟩ := hc
            have : (e, true) = d := by simpa using hd
            subst this
            exact Or.inr ⟨hP.non hc, Or.inr rfl, (hlive e).2 (Or.inr rfl), ht⟩
          · rcases hP.som d hd with h5 | ⟨h5, h6, h7, h8⟩
            · exact Or.inl h5
            · refine Or.inr ⟨h5, Or.inl h6, (hlive _).2 (Or.inl h7), ?_⟩
              rw [← h8]
              exact hvtx d (fun h => h1 (h ▸ h7))

/-- What is needed for an end of a segment to be destroyed: it is not linked and not the stored one, or it is the only
linked end at its point. -/
def EndOk (s : St K) (X : Set HE) (Y : Set Id) (d : HE) : Prop :=
  (d ∈ X ∧ ∀ k, s.pseg (s.vtx d) = some k → k.1 ≠ d.1) ∨
    (d ∉ X ∧ s.next d = some (flip d) ∧ s.vtx d ∉ Y)

theorem rmSegment_end {d : HE} {s s' : St K} {X : Set HE} {Y : Set Id} (hL : Links s X Y) (hd : d.1 ∈ s.sid.live)
    (he : EndOk s X Y d) (h : rmSegment d s = .ok s') :
    ∃ pp fp o, s' = { s with ppoly := pp, fpts := fp, pseg := upd s.pseg (s.vtx d) o } ∧
      (d ∈ X → o = s.pseg (s.vtx d)) ∧ (d ∉ X → o = none) := by
  rcases he with ⟨h1, h2⟩ | ⟨h1, h2, h3⟩
  · obtain ⟨pp, fp, o, rfl, ho⟩ := rmSegment_eq h
    refine ⟨pp, fp, o, rfl, fun _ => ?_, fun h => absurd h1 h⟩
    unfold otherAt at ho
    cases hp : s.pseg (s.vtx d) with
    | none => simpa [hp] using ho.symm
    | some k =>
      have := h2 k hp
      simp only [hp, fuel] at ho
      unfold firstOther at ho
      simpa [this] using ho.symm
  · obtain ⟨l, hr, hps⟩ := hL.ring _ (hL.vlive d hd)
    have hdl : d ∈ l := (hr.mem d).2 ⟨hd, rfl, h1⟩
    obtain ⟨pp, fp, o, rfl, ho⟩ := rmSegment_ring hL hr (hps h3) hdl h
    refine ⟨pp, fp, o, rfl, fun h => absurd h h1, fun _ => ?_⟩
    have hl := hr.unique hdl h2
    rcases ho with ⟨k, hk1, hk2, _⟩ | ⟨_, rfl⟩
    · subst hl
      simp only [List.mem_singleton] at hk1
      exact absurd (by rw [hk1]) hk2
    · rfl

theorem destroySegment_links {e : Id} {s s' : St K} {X : Set HE} {Y : Set Id} (hL : Links s X Y)
    (he : e ∈ s.sid.live) (h0 : EndOk s X Y (e, false)) (h1 : EndOk s X Y (e, true))
    (h : destroySegment e s = .ok s') :
    ∃ pp fp ps m, s' = { s with
        ppoly := pp
        fpts := fp
        pseg := ps
        sid := m
        table := upd (upd s.table (s.vtx (e, false), s.vtx (e, true)) none) (s.vtx (e, true), s.vtx (e, false)) none } ∧
      s.sid.remove e = .ok m ∧ Links s' X Y ∧
      (∀ v, (e, v) ∉ X → ps (s.vtx (e, v)) = none) ∧ (∀ p, (∀ v, s.vtx (e, v) = p → (e, v) ∈ X) → ps p = s.pseg p) := by
  have hne := hL.vne e he
  unfold destroySegment at h
  simp only [bind_ok] at h
  obtain ⟨s1, hr1, s2, hr2, m, hm, h⟩ := h
  simp only [Except.ok.injEq] at h
  obtain ⟨pp1, fp1, o1, rfl, ho1, ho1'⟩ := rmSegment_end hL he h0 hr1
  have hL1 : Links { s with ppoly := pp1, fpts := fp1, pseg := upd s.pseg (s.vtx (e, false)) o1 } X
      (insert (s.vtx (e, false)) Y) := by
    refine ⟨hL.sids, hL.vlive, hL.vne, fun p hp => ?_⟩
    obtain ⟨l, hr, hps⟩ := hL.ring p hp
    refine ⟨l, hr.congr (fun _ => Iff.rfl) (fun _ _ => rfl), fun hpY => ?_⟩
    simp only [Set.mem_insert_iff, not_or] at hpY
    refine (hps hpY.2).congr ?_ (fun d h1 h2 h3 => ⟨h1, h2, h3⟩)
    simp only [upd, Function.update_of_ne hpY.1]
  have h1' : EndOk { s with ppoly := pp1, fpts := fp1, pseg := upd s.pseg (s.vtx (e, false)) o1 } X
      (insert (s.vtx (e, false)) Y) (e, true) := by
    rcases h1 with ⟨h1, h2⟩ | ⟨h1, h2, h3⟩
    · refine Or.inl ⟨h1, fun k hk => h2 k ?_⟩
      simpa only [upd, Function.update_of_ne hne.symm] using hk
    · refine Or.inr ⟨h1, h2, ?_⟩
      rintro (h4 | h4)
      · exact hne h4.symm
      · exact h3 h4
  obtain ⟨pp, fp, o2, rfl, ho2, ho2'⟩ := rmSegment_end hL1 he h1' hr2
  simp only [upd, Function.update_of_ne hne.symm] at ho2 ho2'
  obtain ⟨_, hml, hmo, hmj⟩ := Ids.remove_ok hL.sids hm
  subst h
  have hps0 : ∀ p, p ≠ s.vtx (e, false) → p ≠ s.vtx (e, true) →
      upd (upd s.pseg (s.vtx (e, false)) o1) (s.vtx (e, true)) o2 p = s.pseg p := by
    intro p h5 h6
    simp only [upd, Function.update_of_ne h5, Function.update_of_ne h6]
  have hps1 : upd (upd s.pseg (s.vtx (e, false)) o1) (s.vtx (e, true)) o2 (s.vtx (e, false)) = o1 := by
    simp only [upd, Function.update_of_ne hne, Function.update_self]
  have hps2 : upd (upd s.pseg (s.vtx (e, false)) o1) (s.vtx (e, true)) o2 (s.vtx (e, true)) = o2 := by
    simp only [upd, Function.update_self]
  have hsame : ∀ p, (∀ v, s.vtx (e, v) = p → (e, v) ∈ X) →
      upd (upd s.pseg (s.vtx (e, false)) o1) (s.vtx (e, true)) o2 p = s.pseg p := by
    intro p hp
    by_cases h5 : p = s.vtx (e, false)
    · rw [h5, hps1]; exact ho1 (hp false h5.symm)
    · by_cases h6 : p = s.vtx (e, true)
      · rw [h6, hps2]; exact ho2 (hp true h6.symm)
      · exact hps0 p h5 h6
  refine ⟨pp, fp, _, m, rfl, hm, ?_, ?_, hsame⟩
  · refine ⟨hmo, fun d hd => hL.vlive d ((hmj _).1 hd).2, fun j hj => hL.vne j ((hmj _).1 hj).2, fun p hp => ?_⟩
    obtain ⟨l, hr, hps⟩ := hL.ring p hp
    by_cases hc : ∀ v, s.vtx (e, v) = p → (e, v) ∈ X
    · -- the point keeps its ring
      refine ⟨l, hr.congr (fun d => ?_) (fun _ _ => rfl), fun hpY => ?_⟩
      · show d.1 ∈ m.live ∧ s.vtx d = p ∧ d ∉ X ↔ _
        rw [hmj]
        constructor
        · rintro ⟨⟨h5, h6⟩, h7, h8⟩
          exact ⟨h6, h7, h8⟩
        · rintro ⟨h6, h7, h8⟩
          refine ⟨⟨fun h5 => ?_, h6⟩, h7, h8⟩
          obtain ⟨d1, d2⟩ := d
          simp only at h5
          subst h5
          exact h8 (hc d2 h7)
      · have hP := hps hpY
        refine ⟨fun h5 => hP.non ((hsame p hc).symm.trans h5), fun d hd => ?_⟩
        have hd' := (hsame p hc).symm.trans hd
        rcases hP.som d hd' with h5 | ⟨h5, h6, h7, h8⟩
        · exact Or.inl h5
        · refine Or.inr ⟨h5, h6, (hmj _).2 ⟨fun h9 => ?_, h7⟩, h8⟩
          obtain ⟨d1, d2⟩ := d
          simp only at h9
          subst h9
          cases d2
          · rcases h0 with ⟨_, h2⟩ | ⟨h2, _⟩
            · exact h2 _ (by rw [h8]; exact hd') rfl
            · exact h2 h6
          · rcases h1 with ⟨_, h2⟩ | ⟨h2, _⟩
            · exact h2 _ (by rw [h8]; exact hd') rfl
            · exact h2 h6
    · -- the point had only this end
      simp only [not_forall] at hc
      obtain ⟨v, hv, hvX⟩ := hc
      have hE : EndOk s X Y (e, v) := by cases v <;> assumption
      rcases hE with ⟨h5, _⟩ | ⟨_, h5, h6⟩
      · exact absurd h5 hvX
      · have hl := hr.unique ((hr.mem (e, v)).2 ⟨he, hv, hvX⟩) h5
        subst hl
        refine ⟨[], ⟨by simp, fun d => ?_, Or.inl rfl⟩, fun _ => ⟨fun _ => rfl, fun d hd => ?_⟩⟩
        · show d ∈ [] ↔ d.1 ∈ m.live ∧ s.vtx d = p ∧ d ∉ X
          simp only [List.not_mem_nil, false_iff, not_and]
          intro h7 h8 h9
          have h10 := (hr.mem d).2 ⟨((hmj _).1 h7).2, h8, h9⟩
          simp only [List.mem_singleton] at h10
          exact ((hmj _).1 h7).1 (by rw [h10])
        · exfalso
          simp only at hd
          cases v
          · rw [← hv, hps1, ho1' hvX] at hd
            simp at hd
          · rw [← hv, hps2, ho2' hvX] at hd
            simp at hd
  · intro v hv
    cases v
    · simp only
      rw [hps1]; exact ho1' hv
    · simp only
      rw [hps2]; exact ho2' hv

/-! ### Free points -/

/-- A point is free exactly if it has a polygon, and the polygons list free points of their own. If `T`: the polygon of a
free point exists and lists it. -/
structure Free (T : Prop) (s : St K) : Prop where
  nd : ∀ q, (s.fpts q).Nodup
  mem : ∀ q, ∀ p ∈ s.fpts q, p ∈ s.pid.live ∧ s.ppoly p = some q
  seg : ∀ p ∈ s.pid.live, s.pseg p = none ↔ s.ppoly p ≠ none
  full : T → ∀ p ∈ s.pid.live, ∀ q, s.ppoly p = some q → q ∈ s.qid.live ∧ p ∈ s.fpts q

variable {T : Prop}

theorem Free.congr {s s' : St K} (h : Free T s) (h1 : s'.pid = s.pid) (h2 : s'.qid = s.qid) (h3 : s'.ppoly = s.ppoly)
    (h4 : s'.fpts = s.fpts) (h5 : s'.pseg = s.pseg) : Free T s' := by
  obtain ⟨a, b, c, d⟩ := h
  constructor
  · rw [h4]; exact a
  · rw [h1, h3, h4]; exact b
  · rw [h1, h3, h5]; exact c
  · rw [h1, h2, h3, h4]; exact d

theorem mem_insertSet {i j : Id} {l : List Id} : j ∈ insertSet i l ↔ j = i ∨ j ∈ l := by
  unfold insertSet
  split
  · next h =>
    constructor
    · exact Or.inr
    · rintro (rfl | h') <;> assumption
  · simp only [List.mem_append, List.mem_singleton]
    tauto

theorem nodup_insertSet {i : Id} {l : List Id} (h : l.Nodup) : (insertSet i l).Nodup := by
  unfold insertSet
  split
  · exact h
  · next hi =>
    rw [List.nodup_append]
    refine ⟨h, by simp, ?_⟩
    rintro a ha b hb rfl
    simp only [List.mem_singleton] at hb
    exact hi (hb ▸ ha)

theorem leavePoly_free {p : Id} {s s' : St K} (hF : Free T s) (h : leavePoly p s = .ok s') :
    (∀ q, (s'.fpts q).Nodup) ∧ ∀ x q, x ∈ s'.fpts q ↔ x ≠ p ∧ x ∈ s.fpts q := by
  unfold leavePoly at h
  cases hq : s.ppoly p with
  | none =>
    simp only [hq, Except.ok.injEq] at h
    subst h
    refine ⟨hF.nd, fun x q => ?_⟩
    constructor
    · intro h1
      refine ⟨?_, h1⟩
      rintro rfl
      have := (hF.mem q x h1).2
      rw [hq] at this
      simp at this
    · rintro ⟨_, h⟩; exact h
  | some q0 =>
    simp only [hq, bind_ok, removeSet_ok, Except.ok.injEq] at h
    obtain ⟨l, ⟨_, rfl⟩, rfl⟩ := h
    refine ⟨fun q => ?_, fun x q => ?_⟩
    · by_cases h1 : q = q0
      · subst h1
        simp only [upd, Function.update_self]
        exact (hF.nd _).erase _
      · simp only [upd, Function.update_of_ne h1]
        exact hF.nd q
    · by_cases h1 : q = q0
      · subst h1
        simp only [upd, Function.update_self]
        rw [(hF.nd _).mem_erase_iff]
      · simp only [upd, Function.update_of_ne h1]
        constructor
        · intro h2
          refine ⟨?_, h2⟩
          rintro rfl
          have h3 := (hF.mem q x h2).2
          rw [hq] at h3
          exact h1 (Option.some.inj h3).symm
        · rintro ⟨_, h⟩; exact h

theorem joinSegment_free {d : HE} {s s' : St K} (hF : Free T s)
    (h : joinSegment d s = .ok s') : Free T s' := by
  unfold joinSegment at h
  cases hps : s.pseg (s.vtx d) with
  | some x =>
    simp only [hps, Except.ok.injEq] at h
    subst h
    exact hF
  | none =>
    simp only [hps, bind_ok] at h
    obtain ⟨s1, h1, h2⟩ := h
    simp only [Except.ok.injEq] at h2
    obtain ⟨h3, h4⟩ := leavePoly_free hF h1
    obtain ⟨fp, rfl⟩ := leavePoly_eq h1
    simp only at h4
    subst h2
    refine ⟨h3, fun q x hx => ?_, fun x hx => ?_, fun hT x hx q hq => ?_⟩
    · have h5 := (h4 x q).1 hx
      have := hF.mem q x h5.2
      simpa [upd, Function.update_of_ne h5.1] using this
    · by_cases hxp : x = s.vtx d
      · simp [hxp, upd]
      · simpa [hxp, upd] using hF.seg x hx
    · by_cases hxp : x = s.vtx d
      · simp [hxp, upd] at hq
      · have := hF.full hT x hx q (by simpa [hxp, upd] using hq)
        exact ⟨this.1, (h4 x q).2 ⟨hxp, this.2⟩⟩

theorem setPolygon_free {p q : Id} {s s' : St K} (hF : Free T s) (hp : p ∈ s.pid.live) (hq : T → q ∈ s.qid.live)
    (h : setPolygon p q s = .ok s') : Free T s' ∧ s'.ppoly = upd s.ppoly p (some q) := by
  unfold setPolygon at h
  simp only [bind_ok] at h
  obtain ⟨s1, h1, h2⟩ := h
  simp only [Except.ok.injEq] at h2
  obtain ⟨h3, h4⟩ := leavePoly_free hF h1
  obtain ⟨fp, rfl⟩ := leavePoly_eq h1
  simp only at h3 h4
  subst h2
  refine ⟨⟨fun x => ?_, fun y x hx => ?_, fun x hx => ?_, fun hT x hx y hy => ?_⟩, rfl⟩
  · by_cases hx : x = q
    · subst hx
      simpa [upd] using nodup_insertSet (h3 x)
    · simpa [upd, hx] using h3 x
  · have h5 := h4 x y
    by_cases hy : y = q
    · subst hy
      simp only [upd, Function.update_self, mem_insertSet, h5] at hx
      rcases hx with rfl | ⟨h6, h7⟩
      · simpa [upd] using hp
      · simpa [upd, Function.update_of_ne h6] using hF.mem y x h7
    · simp only [upd, Function.update_of_ne hy, h5] at hx
      simpa [upd, Function.update_of_ne hx.1] using hF.mem y x hx.2
  · by_cases hxp : x = p
    · simp [hxp, upd]
    · simpa [hxp, upd] using hF.seg x hx
  · by_cases hxp : x = p
    · subst hxp
      simp only [upd, Function.update_self, Option.some.injEq] at hy
      subst hy
      exact ⟨hq hT, by simp [upd, mem_insertSet]⟩
    · have := hF.full hT x hx y (by simpa [hxp, upd] using hy)
      refine ⟨this.1, ?_⟩
      by_cases hyq : y = q
      · subst hyq
        simp [upd, mem_insertSet, h4, hxp, this.2]
      · simp [upd, Function.update_of_ne hyq, h4, hxp, this.2]

/-- The polygon given to points freed by the removal of the segment exists. -/
def PolyLive (s : St K) (e : Id) : Prop := ∀ w q, s.wire (e, true) = some w → s.wpoly w = some q → q ∈ s.qid.live

theorem rmSegment_free {d : HE} {s s' : St K} (hF : Free T s) (hd : s.vtx d ∈ s.pid.live) (hw : T → PolyLive s d.1)
    (h : rmSegment d s = .ok s') : Free T s' := by
  unfold rmSegment at h
  simp only [bind_ok] at h
  obtain ⟨o, h1, h2⟩ := h
  cases ho : o with
  | some x =>
    simp only [ho, Except.ok.injEq] at h2
    subst h2
    refine ⟨hF.nd, hF.mem, fun p hp => ?_, hF.full⟩
    by_cases hpd : p = s.vtx d
    · subst hpd
      have h5 : s.pseg (s.vtx d) ≠ none := by
        intro h6
        simp only [otherAt, h6, Except.ok.injEq] at h1
        rw [ho] at h1
        simp at h1
      have h6 := hF.seg _ hp
      simp only [upd, Function.update_self, reduceCtorEq, false_iff, ne_eq, not_not]
      by_contra h7
      exact h5 (h6.2 h7)
    · simpa [hpd, upd] using hF.seg p hp
  | none =>
    simp only [ho, bind_ok, polyAt, need_ok] at h2
    obtain ⟨_, _, q, ⟨w, hw1, hw2⟩, h3⟩ := h2
    exact (setPolygon_free hF hd (fun hT => hw hT w q hw1 hw2) h3).1

theorem disconnectVtx_free {d : HE} {s s' : St K} (hF : Free T s) (hd : s.vtx d ∈ s.pid.live)
    (hw : T → PolyLive s d.1) (h : disconnectVtx d s = .ok s') : Free T s' := by
  unfold disconnectVtx at h
  simp only [bind_ok, Except.ok.injEq] at h
  obtain ⟨s1, h1, r, _, rfl⟩ := h
  exact (rmSegment_free hF hd hw h1).congr rfl rfl rfl rfl rfl

theorem connectVtx_free {d : HE} {i : Ins} {s s' : St K} (hF : Free T s)
    (h : connectVtx d i s = .ok s') : Free T s' := by
  unfold connectVtx setNext at h
  simp only [bind_ok, check_ok, Except.ok.injEq] at h
  obtain ⟨s1, hj, s2, ⟨_, hc1, rfl⟩, s3, ⟨_, hc2, rfl⟩, rfl⟩ := h
  exact (joinSegment_free hF hj).congr rfl rfl rfl rfl rfl

theorem connectFree_free {d : HE} {w : Option Id} {s s' : St K} (hF : Free T s)
    (h : connectFree d w s = .ok s') : Free T s' := by
  unfold connectFree setNext at h
  simp only [bind_ok, check_ok, Except.ok.injEq] at h
  obtain ⟨s1, hj, s2, ⟨_, hc1, rfl⟩, rfl⟩ := h
  exact (joinSegment_free hF hj).congr rfl rfl rfl rfl rfl

theorem makeSegment_free [Field K] {a b e : Id} {s s' : St K} (hF : Free T s)
    (h : makeSegment a b s = .ok (e, s')) : Free T s' := by
  unfold makeSegment at h
  simp only [bind_ok, check_ok, Except.ok.injEq, Prod.mk.injEq] at h
  obtain ⟨_, hab, s1, h1, s2, h2, rfl, rfl⟩ := h
  have hF1 : Free T s1 := by
    refine joinSegment_free ?_ h1
    exact hF.congr rfl rfl rfl rfl rfl
  exact (joinSegment_free hF1 h2).congr rfl rfl rfl rfl rfl

theorem destroySegment_free {e : Id} {s s' : St K} (hF : Free T s) (h0 : s.vtx (e, false) ∈ s.pid.live)
    (h1 : s.vtx (e, true) ∈ s.pid.live) (hw : T → PolyLive s e) (h : destroySegment e s = .ok s') : Free T s' := by
  unfold destroySegment at h
  simp only [bind_ok, Except.ok.injEq] at h
  obtain ⟨s1, hr1, s2, hr2, m, _, rfl⟩ := h
  have hF1 := rmSegment_free hF h0 hw hr1
  obtain ⟨pp1, fp1, o1, rfl, _⟩ := rmSegment_eq hr1
  have hF2 := rmSegment_free hF1 h1 hw hr2
  exact hF2.congr rfl rfl rfl rfl rfl

end Verif.Decomp
