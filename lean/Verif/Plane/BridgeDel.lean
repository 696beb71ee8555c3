import Verif.Plane.Tiled

/-! Removed segments whose deletion splits a wire in two. -/

namespace Verif.Decomp
open Verif.Plane

section
variable {K : Type} [Field K] [LinearOrder K] {g : Geom K}

/-- Only the ends of the segment can become free points. -/
theorem splitWire_moved {e : Id} {s s' : St K} (h : splitWire g e s = .ok s') {p r : Id} (hr : s'.ppoly p = some r) :
    s.ppoly p = some r ∨ ∃ v, s.vtx (e, v) = p := by
  unfold splitWire at h
  simp only [bind_ok, check_ok, need_ok] at h
  obtain ⟨_, h0, aw, haw, q, hq, bn, hbn, l, hl, s1, h1, s2, h2, s3, h3, s4, h4, s5, h5, h6⟩ := h
  obtain ⟨hln, _⟩ := wireSegments_sound hl
  obtain ⟨rfl, _⟩ := relabel_eq hln h1
  obtain ⟨ws, rfl, _⟩ := disconnectWires_eq h2
  obtain ⟨f3, v3, _⟩ := disconnectVtx_freed h3
  obtain ⟨f4, v4, _⟩ := disconnectVtx_freed h4
  obtain ⟨P, C, O, rfl, _⟩ := nest_eq h5
  rcases destroySegment_freed h6 p r hr with k | ⟨⟨v, k⟩, _⟩
  · rcases f4 p r k with k | ⟨⟨v, k⟩, _⟩
    · rcases f3 p r k with k | ⟨⟨v, k⟩, _⟩
      · exact Or.inl k
      · exact Or.inr ⟨v, k⟩
    · rw [v3] at k
      exact Or.inr ⟨v, k⟩
  · have k' : s4.vtx (e, v) = p := k
    rw [v4, v3] at k'
    exact Or.inr ⟨v, k'⟩

/-- The labels of the sides that remain. -/
theorem SplitWire.label {s s' : St K} {e aw bw q : Id} {l : List HE} {bn r0 r1 : HE} (hS : SplitWire s s' e aw bw q l bn r0 r1)
    (h : Nested s) {d : HE} (hd : d.1 ∈ s'.sid.live) : ∃ w, s'.wire d = some w ∧ s.wire d = some (if w = bw then aw else w) ∧
      s'.wpoly w = s.wpoly (if w = bw then aw else w) := by
  obtain ⟨k1, _, _⟩ := Ids.append_ok h.inv.wids
  rw [← hS.hbw] at k1
  have hd' := ((hS.del.live _).1 hd).2
  obtain ⟨w, w1, w2, _⟩ := h.wires.lab d hd'
  rw [hS.wir, hS.wpoly]
  by_cases hl : d ∈ l
  · rw [if_pos hl]
    refine ⟨bw, rfl, ?_, ?_⟩
    · rw [if_pos rfl]; exact hS.old d hl
    · rw [if_pos rfl, upd, Function.update_self, hS.hq]
  · rw [if_neg hl]
    have hne : w ≠ bw := fun hh => k1 (hh ▸ w2)
    exact ⟨w, w1, by rw [if_neg hne]; exact w1, by rw [if_neg hne, upd, Function.update_of_ne hne]⟩

/-- The chains of parents, with the parts of the wire as the finer drawing. -/
theorem SplitWire.merge {s s' : St K} {e aw bw q : Id} {l : List HE} {bn r0 r1 : HE} (hS : SplitWire s s' e aw bw q l bn r0 r1)
    (h : Nested s) (hN' : NestSt s') (hK : SplitKind s s' aw bw q) :
    ∃ u r rep, Merge (· ∈ s'.wid.live) s'.parent s.parent u r aw bw rep ∧ ((u = aw ∧ r = bw) ∨ (u = bw ∧ r = aw)) ∧
      u ∈ s'.wid.live ∧ r ∈ s'.wid.live ∧ ∀ q' ∈ s.qid.live, s.outer q' = rep (s'.outer q') := by
  obtain ⟨k1, k2, _⟩ := Ids.append_ok h.inv.wids
  rw [← hS.hbw] at k1 k2
  have hml : ∀ w, w ∈ s'.wid.live ↔ w ∈ s.wid.live ∨ w = bw := by intro w; rw [hS.wid, k2]; simp
  have he := hS.del.was
  obtain ⟨w, w1, haw, haw0⟩ := h.wires.lab (e, true) he
  rw [hS.hw] at w1
  cases w1
  have hbw0 : bw ≠ 0 := fun hh => k1 (hh ▸ h.nest.w0)
  have hab : aw ≠ bw := fun hh => k1 (hh ▸ haw)
  have hql : q ∈ s.qid.live := h.polyLive (d := (e, true)) he (hS.hw true) hS.hq
  have hold : ∀ c, c ∈ s'.wid.live → c ≠ bw → c ∈ s.wid.live := fun c hc hne => ((hml c).1 hc).resolve_right hne
  rcases hK with ⟨ho, hou, j1, j2, j3⟩ | ⟨ho, o, i, hoi, j1, j2, j3, j4, j5, hou⟩
  · have hpa : s'.parent aw = s.parent aw := j3 aw haw (h.nest.self haw)
    refine ⟨aw, bw, fun c => if c = bw then aw else c, ⟨hab, haw0, hbw0, Or.inl ⟨rfl, rfl⟩, if_neg hab, fun c _ hc => if_neg hc,
      Or.inl ⟨by rw [hpa, j1], if_pos rfl⟩, hpa.symm, fun c hc c1 c2 => ?_⟩, Or.inl ⟨rfl, rfl⟩, (hml _).2 (Or.inl haw),
      (hml _).2 (Or.inr rfl), fun q' hq' => ?_⟩
    · have hcl := hold c hc c2
      by_cases hp : s.parent c = some aw
      · rw [hp]
        rcases j2 c hcl hp with k | k <;> rw [k] <;> simp
      · rw [j3 c hcl hp]
        cases hpc : s.parent c with
        | none => rfl
        | some p =>
          have : p ≠ bw := fun hh => k1 (hh ▸ h.nest.par_ex hcl hpc)
          simp [this]
    · rw [hou]
      have : s.outer q' ≠ bw := fun hh => k1 (hh ▸ (h.nest.outs q' hq').1)
      simp [this]
  · obtain ⟨p0, hp0, hp0l⟩ := h.nest.up aw haw haw0
    have hoin : o ≠ i := by rcases hoi with ⟨rfl, rfl⟩ | ⟨rfl, rfl⟩; exacts [hab, Ne.symm hab]
    have ho0 : o ≠ 0 := by rcases hoi with ⟨rfl, _⟩ | ⟨rfl, _⟩ <;> assumption
    have hi0 : i ≠ 0 := by rcases hoi with ⟨_, rfl⟩ | ⟨_, rfl⟩ <;> assumption
    have hnot : ∀ c, c ∈ s.wid.live → c ≠ aw → c ≠ o ∧ c ≠ i := by
      intro c m1 m2
      have m3 : c ≠ bw := fun hh => k1 (hh ▸ m1)
      rcases hoi with ⟨rfl, rfl⟩ | ⟨rfl, rfl⟩
      · exact ⟨m2, m3⟩
      · exact ⟨m3, m2⟩
    have hol : o ∈ s'.wid.live := by
      rcases hoi with ⟨rfl, _⟩ | ⟨rfl, _⟩
      · exact (hml _).2 (Or.inl haw)
      · exact (hml _).2 (Or.inr rfl)
    have hil : i ∈ s'.wid.live := by
      rcases hoi with ⟨_, rfl⟩ | ⟨_, rfl⟩
      · exact (hml _).2 (Or.inr rfl)
      · exact (hml _).2 (Or.inl haw)
    have hpc : ∀ c, c ∈ s.wid.live → c ≠ aw → s.parent c = some p0 ∨ ¬ Share s' i c := by
      intro c hc hne
      by_cases hsh : Share s' i c
      swap
      · exact Or.inr hsh
      refine Or.inl ?_
      have hs := splitWire_share (fun d hd hh => by
        obtain ⟨w, w1, w2, _⟩ := h.wires.lab d hd
        rw [hh] at w1
        cases w1
        exact k1 w2) hS _ _ hsh
      have hcb : c ≠ bw := fun hh => k1 (hh ▸ hc)
      rw [if_neg hcb] at hs
      have hia : (if i = bw then aw else i) = aw := by rcases hoi with ⟨_, rfl⟩ | ⟨_, rfl⟩ <;> simp
      rw [hia] at hs
      rcases h.nest.adj _ _ hs with k | ⟨_, _, k3⟩ | ⟨_, _, k3⟩ | ⟨_, k2, _⟩
      · exact absurd k.symm hne
      · rw [← k3]; exact hp0
      · rw [k3] at hp0
        cases hp0
        exfalso
        have a1 := j3 p0 hc hne hsh
        have a3 : s'.parent o = some p0 := j1.trans k3
        refine (hN'.chain p0 ((hml p0).2 (Or.inl hc))).acyc hN'.p0 (?_ : Relation.TransGen _ p0 p0)
        exact .head a1 (.head j2 (.single a3))
      · exact absurd ⟨q, hql, ho⟩ k2
    refine ⟨o, i, fun c => if c = o then aw else if c = i then p0 else c, ⟨hoin, ho0, hi0, ?_, if_pos rfl,
      fun c c1 c2 => by simp [c1, c2], Or.inr ⟨j2, ?_⟩, j1.symm, fun c hc c1 c2 => ?_⟩, hoi, hol, hil, fun q' hq' => ?_⟩
    · rcases hoi with ⟨rfl, rfl⟩ | ⟨rfl, rfl⟩
      · exact Or.inl ⟨rfl, rfl⟩
      · exact Or.inr ⟨rfl, rfl⟩
    · rw [j1, hp0]
      simp [hoin.symm]
    · have hca : c ≠ aw ∧ c ≠ bw := by
        rcases hoi with ⟨rfl, rfl⟩ | ⟨rfl, rfl⟩
        · exact ⟨c1, c2⟩
        · exact ⟨c2, c1⟩
      have hcl := hold c hc hca.2
      by_cases hsh : Share s' i c
      · rw [j3 c hcl hca.1 hsh, (hpc c hcl hca.1).resolve_right (not_not.2 hsh)]
        simp [hoin.symm]
      · by_cases hp : s.parent c = some aw
        · rw [hp, j4 c hcl hca.1 hsh hp]
          simp
        · rw [j5 c hcl hca.1 hsh hp]
          cases hpc : s.parent c with
          | none => rfl
          | some p =>
            have : p ≠ aw := fun hh => hp (hh ▸ hpc)
            obtain ⟨m1, m2⟩ := hnot p (h.nest.par_ex hcl hpc) this
            simp [m1, m2]
    · rw [hou]
      by_cases hqq : q' = q
      · rw [hqq, ho]
        simp
      · have : s.outer q' ≠ aw := fun hh => hqq (h.nest.out_inj hq' hql (hh.trans ho.symm))
        obtain ⟨m1, m2⟩ := hnot _ (h.nest.outs q' hq').1 this
        simp [hqq, m1, m2]

variable [IsStrictOrderedRing K]

/-- A wire is split in two. -/
theorem SplitWire.good (hg : ArgOk g) {s s' : St K} {e aw bw q : Id} {l : List HE} {bn r0 r1 : HE}
    (hS : SplitWire s s' e aw bw q l bn r0 r1) (h : Drawn g s) (hG : Good s) (h' : Drawn g s') (hK : SplitKind s s' aw bw q) :
    Good s' ∧ ∀ x q, q ∈ s.qid.live → Off s' x → Exact s x q → Exact s' x q := by
  have hN := h.nested
  have hP := hS.del.plus
  obtain ⟨k1, k2, _⟩ := Ids.append_ok hN.inv.wids
  rw [← hS.hbw] at k1 k2
  have hml : ∀ w, w ∈ s'.wid.live ↔ w ∈ s.wid.live ∨ w = bw := by intro w; rw [hS.wid, k2]; simp
  obtain ⟨w, w1, haw, haw0⟩ := hN.wires.lab (e, true) hS.del.was
  rw [hS.hw] at w1
  cases w1
  have hab : aw ≠ bw := fun hh => k1 (hh ▸ haw)
  obtain ⟨u, r, rep, hM, hur, hul, hrl, hout⟩ := hS.merge hN h'.nested.nest hK
  have hc : ∀ x w, w ≠ bw → cnt s x w = if w = aw then cnt s' x u + cnt s' x r else cnt s' x w := by
    intro x w hw
    rw [hP.more hab (k := aw) (Or.inl rfl) (fun d hd => by
      obtain ⟨y, y1, y2, _⟩ := hS.label hN hd
      exact ⟨y, y1, by rw [fold_keep]; exact y2⟩) (by rw [hS.hw, hS.hw]) x w]
    by_cases hk : w = aw
    · rw [if_pos hk, if_pos hk]
      rcases hur with ⟨rfl, rfl⟩ | ⟨rfl, rfl⟩
      · rfl
      · rw [add_comm]
    · rw [if_neg hk, if_neg hk, if_neg]
      simp [hk, hw]
  have hE1 : ∀ x q', q' ∈ s.qid.live → Exact s' x q' → Exact s x q' := fun x q' hq' =>
    hM.exact h'.nested.nest hul hrl (fun w hw => ⟨(hml w).2 (Or.inl hw), fun hh => k1 (hh ▸ hw)⟩) (hc x) (hS.qid ▸ hq')
      (hout q' hq')
  have hlab : ∀ d : HE, d.1 ∈ s'.sid.live → ∀ x, Sees s d x → ∃ w q', s'.wire d = some w ∧ s'.wpoly w = some q' ∧ q' ∈ s.qid.live ∧
      Exact s x q' := by
    intro d hd x hx
    obtain ⟨w, w1, w2, w3⟩ := hS.label hN hd
    obtain ⟨w', q', e1, _, _, e2, e3⟩ := hN.side (d := d) hx.live
    rw [w2] at e1
    cases e1
    exact ⟨w, q', w1, w3.trans e2, e3, hG _ d x q' hx w2 e2⟩
  have hex : ∀ x, Off s' x → ∃ q' ∈ s.qid.live, Exact s' x q' := by
    refine ray_ind h'.links h'.planar (P := fun x => ∃ q' ∈ s.qid.live, Exact s' x q') ?_ ?_ ?_
    · intro x hx
      refine ⟨0, hN.nest.q0, fun w _ => ?_⟩
      rw [cnt_beyond hx, h'.nested.nest.o0, anc_none h'.nested.nest.p0]
      simp
    · rintro x y hcl ⟨q', hq', he⟩
      exact ⟨q', hq', he.congr (cnt_path h'.links h'.nested.wires hcl).symm⟩
    · rintro d x y hx hy ⟨q0, hq0, he⟩
      have hdf : (flip d).1 ∈ s'.sid.live := hx.live
      obtain ⟨y', hy'⟩ := sees_ex h.links h.planar (d := flip d) (hP.live _ hdf)
      have hy'' := hP.toSub.sees hdf hy'
      have he' : Exact s' y' q0 := he.congr (sees_same h'.links h'.nested.wires h'.planar hy hy'')
      obtain ⟨w1, q1, a1, a2, a3, a4⟩ := hlab _ hdf y' hy'
      obtain rfl := Exact.unique hN.nest hq0 a3 (hE1 y' q0 hq0 he') a4
      obtain ⟨w, q', b1, _, _, b2, b3⟩ := h'.nested.side (d := d) hx.live
      exact ⟨q', hS.qid ▸ b3, exact_cross h' hx hy b1 a1 b2 a2 he⟩
  have hE : ∀ x q, q ∈ s.qid.live → Off s' x → Exact s x q → Exact s' x q := by
    intro x q' hq' hx he
    obtain ⟨q0, hq0, he0⟩ := hex x hx
    obtain rfl := Exact.unique hN.nest hq' hq0 he (hE1 x q0 hq0 he0)
    exact he0
  refine ⟨fun w d x q' hx hw hq => ?_, hE⟩
  refine goodW_less hg hP.toSub h h' hx.live hw hq (fun y hy => ?_) d x q' hx hw hq
  obtain ⟨w1, q1, a1, a2, a3, a4⟩ := hlab d hx.live y hy
  rw [hw] at a1
  cases a1
  rw [hq] at a2
  cases a2
  exact hE y _ a3 (hP.toSub.sees hx.live hy).off a4

end
end Verif.Decomp
