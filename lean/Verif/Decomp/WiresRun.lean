import Verif.Decomp.Wires

/-! Wires of all runs with sound deletions and joins. -/
namespace Verif.Decomp

variable {K : Type} [Field K] [LinearOrder K]

theorem newSegment_wires {g : Geom K} {a b e : Id} {s s' : St K} (hs : newSegment g a b s = .ok (e, s')) (hI : Inv s)
    (hW : Wires s) (ha : a ∈ s.pid.live) (hb : b ∈ s.pid.live) : Wires s' := by
  obtain ⟨hab, hs⟩ := newSegment_cases hs hI.links ha hb
  have hI0 : Inv (quiet s) := hI.frame rfl rfl rfl rfl rfl rfl rfl rfl rfl rfl
  have hW0 : Wires (quiet s) := hW.frame rfl rfl rfl rfl rfl rfl
  cases hs with
  | old _ hs =>
    dsimp only at hs
    subst hs
    exact hW0
  | wire t1 t2 pa pb q qa qb hs =>
    obtain ⟨hA, _, _, _, h1, _, _, _, h2, h3, h4, h5⟩ := newWire_eff hs hI0.links ha hb hI0.free pa pb
    exact newWire_wires hW0 hI0.wids hA h1 h2 h3 h4 h5
  | dendrite t1 t2 i root hC pa pb hs =>
    obtain ⟨hA, _, _, _, h1, _, _, _, h2, h3, h4, h5, h6, h7, h8⟩ := addDendrite_eff hs hI0.links ha hb hI0.free hC pa
    exact addDendrite_wires hW0 hA hC h1 h2 h3 h4 h5 h6 h7 h8
  | join t1 t2 ia ib hCa hCb pa pb _ hs =>
    obtain ⟨hA, _, _, hS, aw, bw, q, keep, rm, l, rp, k1, k2, k3, _, _, k4, k5, _, k6, k7, k8, k9, _, _, _, k10, k11, _, _⟩ :=
      joinWires_eff hs hI0.links ha hb hI0.free hCa hCb
    refine joinWires_wires hW0 hI0.wids hA hS hCa hCb k1 k2 k3 ?_ k5 k6 k7 k8 k9 k10 k11 ?_
    · rcases k4 with ⟨z1, z2, _⟩ | ⟨z1, z2, _⟩
      · exact Or.inl ⟨z1, z2⟩
      · exact Or.inr ⟨z1, z2⟩
    · intro h
      split
      · exact h
      · simp
  | split t1 t2 ia ib hCa hCb pa pb _ hs =>
    obtain ⟨ow, lw, q, q', l, s1, s2, s3, hS, hF1, k1, k2, k3⟩ :=
      splitPoly_start hs hI0.links ha hb hI0.free (by simp) hCa hCb
    obtain ⟨hW1, hp⟩ := splitPoly_wires hW0 hI0.wids hS hCa hCb
    obtain ⟨_, hle, P, C, Q, O, pp, fp, c, rfl⟩ := splitPoly_rest hF1 (by simp) k1 k2 k3
    exact hW1.frame' rfl rfl rfl rfl rfl (hle hp)

theorem deleteSegment_wires {g : Geom K} {e : Id} {s s' : St K} (hs : deleteSegment g e s = .ok s') (hI : Inv s)
    (hW : Wires s) (he : e ∈ s.sid.live) (hok : DelOk s e) : Wires s' := by
  have hI0 : Inv (quiet s) := hI.frame rfl rfl rfl rfl rfl rfl rfl rfl rfl rfl
  have hW0 : Wires (quiet s) := hW.frame rfl rfl rfl rfl rfl rfl
  have he0 : e ∈ (quiet s).sid.live := he
  cases deleteSegment_cases hs with
  | wire hn hs =>
    obtain ⟨hD, _, _, h1, h2, h3, _, _, _, h4, h5, w, q, h6, _, h7, _⟩ :=
      rmWire_eff hs hI0.links he0 hI0.free (by simp)
    exact rmWire_wires hW0 hI0.wids hD h1 h2 h3 h4 h5 h6 h7
  | dendrite tip ht hr hs =>
    have ht : (quiet s).next (e, tip) = some (e, !tip) := ht
    have hr : (quiet s).next (e, !tip) ≠ some (e, tip) := hr
    obtain ⟨hD, _, _, _, h1, h2, _, _, _, h3, _, ⟨r, r1, r2, r3, r4, r5⟩, h4⟩ :=
      rmDendrite_eff hs hI0.links he0 hI0.free (by simp) ht hr
    exact rmDendrite_wires hW0 hD ht hr h1 h2 h3 r1 r2 r3 r4 r5 h4
  | split hn hd hs =>
    have hn : ∀ v, (quiet s).next (e, v) ≠ some (e, !v) := hn
    obtain ⟨_, aw, bw, q, l, bn, r0, r1, hS⟩ :=
      splitWire_eff hs hI0.links he0 hI0.free (by simp) (hn false) (hn true)
    exact splitWire_wires hW0 hI0.wids hS hn
  | join hn hd hs =>
    have hn : ∀ v, (quiet s).next (e, v) ≠ some (e, !v) := hn
    obtain ⟨_, lw, rw', lq, rq, q, q', keep, rm, l, r0, r1, hS⟩ :=
      joinPoly_eff hs hI0.links he0 hI0.free (by simp) (by simp) (by simp) (hn false) (hn true)
    refine joinPoly_wires hW0 hI0.wids hS hn ?_ hok
    rintro rfl
    exact hd (hS.hlw.trans hS.hrw.symm)

/-- The joined segments have the same direction: one ends and the other starts at the common point. -/
def Aligned (s : St K) (mid e0 e1 : Id) : Prop := ∀ v, s.vtx (e0, v) = mid → s.vtx (e1, v) ≠ mid

omit [LinearOrder K] in
theorem joinSegments_run {mid e0 e1 : Id} {s s' : St K} (hs : joinSegments mid e0 e1 s = .ok s') (hI : Inv s)
    (hJ : Joinable s mid e0 e1) : ∃ x y : HE, x.1 = e0 ∧ y.1 = e1 ∧ s.vtx x = mid ∧ JoinSeg s s' x y := by
  have hfar := hJ.far hI.tab
  obtain ⟨h0, h1, hne, ⟨v0, hv0⟩, ⟨v1, hv1⟩, hno⟩ := hJ
  obtain ⟨_, _, x, y, hx, hy, hxm, hS, _⟩ := joinSegments_eff hs hI.links h0 h1 hne
    (by cases v0; exacts [Or.inl hv0, Or.inr hv0]) (by cases v1; exacts [Or.inl hv1, Or.inr hv1]) hfar hI.free (by simp)
  exact ⟨x, y, hx, hy, hxm, hS⟩

/-- The arguments of a call are valid, a deletion does not join a wire with a hole of its own polygon, and joined segments
have the same direction. -/
def Sound (s : St K) (o : Op K) : Prop :=
  Valid s o ∧ (match o with
    | .deleteSegment e => DelOk s e
    | .joinSegments mid e0 e1 => Aligned s mid e0 e1
    | _ => True)

theorem step_wires {g : Geom K} {o : Op K} {s s' : St K} (hs : step g s o = .ok s') (hI : Inv s) (hW : Wires s)
    (hV : Sound s o) : Wires s' := by
  obtain ⟨hV, hS⟩ := hV
  cases o with
  | addPoint xy q =>
    simp only [step, Except.ok.injEq] at hs
    subst hs
    exact hW.frame rfl rfl rfl rfl rfl rfl
  | removePoint p =>
    simp only [step] at hs
    unfold removeFreePoint at hs
    simp only [bind_ok, Except.ok.injEq] at hs
    obtain ⟨_, _, q, _, _, _, l, _, m, hm, rfl⟩ := hs
    exact hW.frame rfl rfl rfl rfl rfl rfl
  | newSegment a b =>
    simp only [step, bind_ok, Except.ok.injEq] at hs
    obtain ⟨⟨e, s1⟩, h1, h2⟩ := hs
    exact h2 ▸ newSegment_wires h1 hI hW hV.1 hV.2
  | deleteSegment e => exact deleteSegment_wires hs hI hW hV hS
  | splitSegment e mid =>
    simp only [step, bind_ok, Except.ok.injEq] at hs
    obtain ⟨⟨n, s1⟩, h1, h2⟩ := hs
    obtain ⟨_, _, h3⟩ := splitSegment_eff h1 hI.links hV.1 hV.2.1 hV.2.2 hI.free (by simp)
    exact h2 ▸ splitSegment_wires hW h3
  | joinSegments mid e0 e1 =>
    obtain ⟨x, y, hx, hy, hxm, hJ⟩ := joinSegments_run hs hI hV
    have hyl : y.1 ∈ s.sid.live := hy ▸ hV.2.1
    refine joinSegments_wires hW hI.links hJ hyl ?_
    have hx' : x = (e0, x.2) := by rw [← hx]
    have h1 := hS x.2 (hx' ▸ hxm)
    by_contra hne
    have : flip y = (e1, x.2) := by
      obtain ⟨y1, v⟩ := y
      dsimp only at hy hne
      subst hy
      have : x.2 = !v := by revert hne; cases x.2 <;> cases v <;> simp
      rw [this]
      rfl
    exact h1 (by rw [← this, hJ.mid, hxm])
  | move p d =>
    obtain ⟨vc, rfl⟩ := movePoint_eq hs
    exact hW.frame rfl rfl rfl rfl rfl rfl

/-- States reached from the empty decomposition by sound calls that raise no exception. -/
inductive SoundReach (g : Geom K) : St K → Prop where
  | init : SoundReach g init
  | step {s s' : St K} {o : Op K} (h : SoundReach g s) (hV : Sound s o) (hs : step g s o = .ok s') : SoundReach g s'

theorem SoundReach.reach {g : Geom K} {s : St K} (h : SoundReach g s) : Reach g s := by
  induction h with
  | init => exact .init
  | step _ hV hs ih => exact .step ih hV.1 hs

theorem SoundReach.wires {g : Geom K} {s : St K} (h : SoundReach g s) : Wires s := by
  induction h with
  | init => exact init_wires
  | step h hV hs ih => exact step_wires hs h.reach.inv ih hV

end Verif.Decomp
