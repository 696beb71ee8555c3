import Verif.Merge.Model
import Verif.Front.Line
import Verif.Decomp.Change

/-! Lemmas about dictionaries and about what single operations do to segments and to polygons on their sides. -/

namespace Verif.Merge
open Verif.Decomp (St Id HE flip upd sidePoly)
open Verif.Front (Fr Cfg Err Range Good bindOk liftD_ok key_ok checkOk needOk)

section
variable {β : Type}

theorem get_set {d : Dict β} {i j : Id} {v : β} : get (set d i v) j = if j = i then some v else get d j := by
  induction d with
  | nil =>
    simp only [set, get]
    by_cases h : i = j
    · rw [if_pos h, if_pos h.symm]
    · rw [if_neg h, if_neg fun hh => h hh.symm]
  | cons x d ih =>
    simp only [set]
    by_cases h : x.1 = i
    · rw [if_pos h]
      simp only [get]
      by_cases hj : j = i
      · rw [if_pos hj.symm, if_pos hj]
      · rw [if_neg fun hh => hj hh.symm, if_neg hj, if_neg fun hh => hj (hh.symm.trans h)]
    · rw [if_neg h]
      simp only [get, ih]
      by_cases hj : x.1 = j
      · rw [if_pos hj, if_pos hj, if_neg fun hh => h (hj.trans hh)]
      · rw [if_neg hj, if_neg hj]

theorem get_setDefault {d : Dict β} {i j : Id} {v : β} :
    get (setDefault d i v) j = if j = i then some ((get d i).getD v) else get d j := by
  unfold setDefault
  cases h : get d i with
  | none => simp only [get_set]; rfl
  | some w =>
    by_cases hj : j = i
    · rw [if_pos hj, hj, h]; rfl
    · rw [if_neg hj]

theorem root_set {d : Dict Id} {i j v : Id} : root (set d i v) j = if j = i then v else root d j := by
  unfold root
  rw [get_set]
  split <;> rfl

theorem root_setDefault {d : Dict Id} {i j : Id} : root (setDefault d i i) j = root d j := by
  unfold root
  rw [get_setDefault]
  split
  · next h => rw [h]; rfl
  · rfl

theorem root_of_none {d : Dict Id} {i : Id} (h : get d i = none) : root d i = i := by
  unfold root; rw [h]; rfl

end

/-! ### The point in the middle of a split segment -/

section
variable {K : Type}

theorem joinPs_keep {s : St K} {h d : HE} {p : Id} (hp : s.pseg p = some d) : Verif.Decomp.joinPs s h p = some d := by
  unfold Verif.Decomp.joinPs
  cases hq : s.pseg (s.vtx h) with
  | some x => simpa using hp
  | none =>
    have hne : p ≠ s.vtx h := fun hh => by rw [hh, hq] at hp; cases hp
    simpa [upd, Function.update_of_ne hne] using hp

theorem connectVtx_pseg {h d : HE} {i : Verif.Decomp.Ins} {p : Id} {s s' : St K} (hs : Verif.Decomp.connectVtx h i s = .ok s')
    (hp : s.pseg p = some d) : s'.pseg p = some d := by
  unfold Verif.Decomp.connectVtx Verif.Decomp.setNext at hs
  simp only [Verif.Decomp.bind_ok, Verif.Decomp.check_ok, Except.ok.injEq] at hs
  obtain ⟨s1, h1, s2, ⟨_, _, h2⟩, s3, ⟨_, _, h3⟩, h4⟩ := hs
  obtain ⟨pp, fp, rfl⟩ := Verif.Decomp.joinSegment_eq h1
  rw [← h4, ← h3, ← h2]
  exact joinPs_keep hp

theorem connectFree_pseg {h d : HE} {w : Option Id} {p : Id} {s s' : St K} (hs : Verif.Decomp.connectFree h w s = .ok s')
    (hp : s.pseg p = some d) : s'.pseg p = some d := by
  unfold Verif.Decomp.connectFree Verif.Decomp.setNext at hs
  simp only [Verif.Decomp.bind_ok, Verif.Decomp.check_ok, Except.ok.injEq] at hs
  obtain ⟨s1, h1, s2, ⟨_, _, h2⟩, h4⟩ := hs
  obtain ⟨pp, fp, rfl⟩ := Verif.Decomp.joinSegment_eq h1
  rw [← h4, ← h2]
  exact joinPs_keep hp

variable [Field K]

theorem splitSegment_pseg {e mid n : Id} {s s' : St K} (h : Verif.Decomp.splitSegment e mid s = .ok (n, s'))
    (hL : Verif.Decomp.Links s ∅ ∅) (he : e ∈ s.sid.live) (hm : mid ∈ s.pid.live) (hfree : s.pseg mid = none) :
    s'.pseg mid = some (n, false) := by
  unfold Verif.Decomp.splitSegment at h
  simp only [Verif.Decomp.bind_ok] at h
  obtain ⟨bi, hbi, s1, h1, s2, h2, ⟨m, s3⟩, h3, s4, h4, s5, h5, h6⟩ := h
  simp only [Except.ok.injEq, Prod.mk.injEq] at h6
  obtain ⟨rfl, rfl⟩ := h6
  have hm1 : s.vtx (e, true) ≠ mid := hL.no_seg hm (by simp) hfree _ he
  obtain ⟨r, pp, fp, o, d1, d2, d3, d6, rfl, hL1, d4, d5⟩ := Verif.Decomp.disconnectVtx_links hL (d := (e, true)) he (by simp)
    (by simp) h1
  unfold Verif.Decomp.delKey at h2
  split at h2
  · cases h2
  simp only [Except.ok.injEq] at h2
  subst h2
  obtain ⟨_, hn, pp', fp', rfl⟩ := Verif.Decomp.makeSegment_eq h3
  have h0 : upd s.pseg (s.vtx (e, true)) o mid = none := by
    simp only [upd, Function.update_of_ne hm1.symm]
    exact hfree
  have h4' := connectVtx_pseg (d := (m, false)) (p := mid) h4 (by
    simp [Verif.Decomp.makePs, h0])
  cases bi with
  | none =>
    simp only [Verif.Decomp.connectEnd, Verif.Decomp.bind_ok] at h5
    obtain ⟨_, _, h5⟩ := h5
    exact connectFree_pseg h5 h4'
  | some i => exact connectVtx_pseg h5 h4'

end

/-! ### Single operations -/

section
variable {K : Type} [Field K] [LinearOrder K] [IsStrictOrderedRing K]

/-- What is kept by all operations of an intersection: the tables, the nesting, and that there are no attributes. -/
structure Ctx (c : Cfg K) (r : Range K) (f : Fr K) : Prop where
  good : Good c r f
  keep : Verif.Decomp.KeepReach c.geo f.dec
  bnd : f.bnd = fun _ => none

theorem Ctx.vec {c : Cfg K} {r : Range K} {f : Fr K} (h : Ctx c r f) {e : Id} (he : e ∈ f.dec.sid.live) :
    f.dec.vec e = Verif.Front.sub (f.dec.xy (f.dec.vtx (e, true))) (f.dec.xy (f.dec.vtx (e, false))) :=
  Verif.Decomp.vectors_exact_partial h.good.reach e he

theorem Ctx.tol {c : Cfg K} {r : Range K} {f : Fr K} (h : Ctx c r f) {t : K} (ht : r.m ≤ t ∧ t ≤ r.T) : Ctx c r { f with tol := t } := by
  obtain ⟨po, so, hM⟩ := h.good.mirror
  exact ⟨⟨h.good.reach, po, so, hM.pl, hM.sl, ht, hM.pdom, hM.sdom, hM.pin, hM.pbox, hM.sbox⟩, h.keep, h.bnd⟩

omit [Field K] [LinearOrder K] [IsStrictOrderedRing K] in
theorem polyAt_ok {s : St K} {d : HE} {q : Id} : Verif.Decomp.polyAt s d = .ok q ↔ sidePoly s d = some q := by
  unfold Verif.Decomp.polyAt sidePoly
  simp only [Verif.Decomp.bind_ok, Verif.Decomp.need_ok]
  constructor
  · rintro ⟨w, h1, h2⟩
    rw [h1]; exact h2
  · intro h
    cases h1 : s.wire d with
    | none => rw [h1] at h; cases h
    | some w => rw [h1] at h; exact ⟨w, rfl, h⟩

/-- The point of the segment `e` with the parameter `t`. -/
def on (s : St K) (e : Id) (t : K) : K × K :=
  Verif.Plane.parametric (s.xy (s.vtx (e, false))) (Verif.Front.sub (s.xy (s.vtx (e, true))) (s.xy (s.vtx (e, false)))) t

/-- A free point was added. -/
structure PointAdd (s s' : St K) (p : Id) : Prop where
  sid : s'.sid = s.sid
  vtx : s'.vtx = s.vtx
  side : ∀ d, sidePoly s' d = sidePoly s d
  qid : s'.qid = s.qid
  outer : s'.outer = s.outer
  fresh : p ∉ s.pid.live
  live : ∀ i, i ∈ s'.pid.live ↔ i ∈ s.pid.live ∨ i = p
  xy : ∀ i ∈ s.pid.live, s'.xy i = s.xy i
  free : s'.pseg p = none

/-- The segment `e` was split in the parameter `t`. -/
structure SplitAt (s s' : St K) (e n mid : Id) (t : K) : Prop where
  pos : 0 < t
  lt : t < 1
  was : e ∈ s.sid.live
  fresh : n ∉ s.sid.live
  live : ∀ j, j ∈ s'.sid.live ↔ j ∈ s.sid.live ∨ j = n
  pfresh : mid ∉ s.pid.live
  plive : ∀ i, i ∈ s'.pid.live ↔ i ∈ s.pid.live ∨ i = mid
  plen : s.pid.live.length < s'.pid.live.length
  xy : ∀ i ∈ s.pid.live, s'.xy i = s.xy i
  xym : s'.xy mid = on s e t
  ve0 : s'.vtx (e, false) = s.vtx (e, false)
  ve1 : s'.vtx (e, true) = mid
  vn0 : s'.vtx (n, false) = mid
  vn1 : s'.vtx (n, true) = s.vtx (e, true)
  vo : ∀ j ∈ s.sid.live, j ≠ e → ∀ v, s'.vtx (j, v) = s.vtx (j, v)
  vec : ∀ j ∈ s.sid.live, j ≠ e → s'.vec j = s.vec j
  side : ∀ v, sidePoly s' (n, v) = sidePoly s (e, v)
  sideo : ∀ d : HE, d.1 ∈ s.sid.live → sidePoly s' d = sidePoly s d
  qid : s'.qid = s.qid
  outer : s'.outer = s.outer
  pseg : s'.pseg mid = some (n, false)
  nx0 : s'.next (n, false) = some (e, false)
  nx1 : s'.next (e, true) = some (n, true)

theorem addFreePoint_add {xy : K × K} {q : Id} {s : St K} (hI : Verif.Decomp.Inv s) :
    PointAdd s (Verif.Decomp.addFreePoint xy q s).2 (Verif.Decomp.addFreePoint xy q s).1 := by
  obtain ⟨h1, h2, h3⟩ := Verif.Decomp.Ids.append_ok hI.pids
  refine ⟨rfl, rfl, fun _ => rfl, rfl, rfl, h1, fun i => ?_, fun i hi => ?_, ?_⟩
  · change i ∈ s.pid.append.2.live ↔ _ ∨ i = s.pid.append.1
    rw [h2]; simp
  · have : i ≠ s.pid.append.1 := fun hh => h1 (hh ▸ hi)
    simp [Verif.Decomp.addFreePoint, upd, Function.update_of_ne this]
  · simp [Verif.Decomp.addFreePoint, upd]

/-- `_add_point` of the frontend. -/
theorem addPt_ctx {c : Cfg K} {r : Range K} (hm : 0 < r.m) {f f' : Fr K} (h : Ctx c r f) {x : K × K} (hx : Verif.Front.Bounded r.C x)
    {q p : Id} (hs : Verif.Front.addPt x q f = .ok (p, f')) : Ctx c r f' ∧ PointAdd f.dec f'.dec p ∧ f'.tol = f.tol ∧ f'.dec.xy p = x := by
  have hG := Verif.Front.prims_good hm (.single (.addPt hx hs)) h.good
  have hI := h.keep.nested.inv
  simp only [Verif.Front.addPt, bindOk, key_ok] at hs
  obtain ⟨_, hq, b, _, hs⟩ := hs
  cases hs
  refine ⟨⟨hG, .step (o := .addPoint x q) h.keep ⟨trivial, hq⟩ rfl, h.bnd⟩, addFreePoint_add hI, rfl, ?_⟩
  simp [Verif.Decomp.addFreePoint, upd]

/-- `_point_on_segment`. -/
theorem pointOnSegment_ctx {c : Cfg K} {r : Range K} (hm : 0 < r.m) {f f' : Fr K} (h : Ctx c r f) {e : Id} (he : e ∈ f.dec.sid.live)
    {t : K} {m : Id × Id} (hs : Verif.Front.pointOnSegment e t f = .ok (m, f')) :
    Ctx c r f' ∧ f'.tol = f.tol ∧ m.1 ∈ f'.dec.pid.live ∧ ((f' = f ∧ m.2 = e ∧ ∃ v, m.1 = f.dec.vtx (e, v)) ∨ SplitAt f.dec f'.dec e m.2 m.1 t) := by
  have hI := h.keep.nested.inv
  by_cases h0 : Verif.Front.scaledLt t (Verif.Front.dot (f.dec.vec e) (f.dec.vec e)) f.tol
  · simp only [Verif.Front.pointOnSegment, if_pos h0, Except.ok.injEq, Prod.mk.injEq] at hs
    obtain ⟨rfl, rfl⟩ := hs
    exact ⟨h, rfl, hI.links.vlive (e, false) he, Or.inl ⟨rfl, rfl, false, rfl⟩⟩
  by_cases h1 : Verif.Front.scaledLt (1 - t) (Verif.Front.dot (f.dec.vec e) (f.dec.vec e)) f.tol
  · simp only [Verif.Front.pointOnSegment, if_neg h0, if_pos h1, Except.ok.injEq, Prod.mk.injEq] at hs
    obtain ⟨rfl, rfl⟩ := hs
    exact ⟨h, rfl, hI.links.vlive (e, true) he, Or.inl ⟨rfl, rfl, true, rfl⟩⟩
  obtain ⟨hG, htol, k1, k2, k3, k4, k5, k6, k7, k8, k9, k10, k11⟩ := Verif.Front.pointOnSegment_split hm h.good he hs h0 h1
  obtain ⟨po, so, hM⟩ := h.good.mirror
  have ht : 0 < f.tol := lt_of_lt_of_le hm hM.tol.1
  have t0 := (Verif.Front.not_scaledLt ht h0).1
  have t1 := (Verif.Front.not_scaledLt ht h1).1
  have hv := h.vec he
  simp only [Verif.Front.pointOnSegment, if_neg h0, if_neg h1, bindOk] at hs
  obtain ⟨⟨mid, f1⟩, ha, ⟨n, f2⟩, hs, hh⟩ := hs
  simp only [Except.ok.injEq, Prod.mk.injEq] at hh
  obtain ⟨rfl, rfl⟩ := hh
  simp only [Verif.Front.addPt, bindOk, key_ok] at ha
  obtain ⟨_, hq, b, _, ha⟩ := ha
  simp only [Except.ok.injEq, Prod.mk.injEq] at ha
  obtain ⟨rfl, rfl⟩ := ha
  have hA := addFreePoint_add (xy := Verif.Plane.parametric (f.dec.xy (f.dec.vtx (e, false))) (f.dec.vec e) t) (q := 0) hI
  have hK1 : Verif.Decomp.KeepReach c.geo (Verif.Decomp.addFreePoint (Verif.Plane.parametric (f.dec.xy (f.dec.vtx (e, false)))
      (f.dec.vec e) t) 0 f.dec).2 := .step (o := .addPoint _ 0) h.keep ⟨trivial, hq⟩ rfl
  simp only [Verif.Front.splitSegment, bindOk, liftD_ok, key_ok] at hs
  obtain ⟨_, he1, _, hmid, ⟨n', s'⟩, h2, x', _, hs⟩ := hs
  simp only [Except.ok.injEq, Prod.mk.injEq] at hs
  obtain ⟨rfl, rfl⟩ := hs
  have hN1 := hK1.nested
  have hK2 : Verif.Decomp.KeepReach c.geo s' := .step (o := .splitSegment e _) hK1 ⟨⟨he1, hmid, hA.free⟩, trivial⟩ (by
    simp only [Verif.Decomp.step, Verif.Decomp.bind_ok]
    exact ⟨_, h2, rfl⟩)
  obtain ⟨_, _, hS⟩ := Verif.Decomp.splitSegment_eff (T := False) h2 hN1.inv.links he1 hmid hA.free hN1.inv.free (by simp)
  have hps := splitSegment_pseg h2 hN1.inv.links he1 hmid hA.free
  refine ⟨⟨hG, hK2, ?_⟩, htol, ?_, Or.inr ?_⟩
  · dsimp only
    rw [h.bnd]
    funext x
    by_cases hx : x = n' <;> simp [Function.update_apply]
  · exact (k3 _).2 (Or.inl rfl)
  · refine ⟨t0, by linarith, he, k2, fun j => (k6 j).trans or_comm, k1, fun i => (k3 i).trans or_comm, ?_, k4, ?_, k8, k9, k10, k11,
      fun j hj hne => (k7 j hj hne).2, fun j hj hne => (k7 j hj hne).1, fun v => ?_, fun d hd => ?_, ?_, ?_, hps, hS.nx0, hS.nx1⟩
    · dsimp only
      rw [hS.pid]
      change _ < f.dec.pid.append.2.live.length
      rw [Verif.Decomp.Ids.append_length hI.pids]
      exact Nat.lt_succ_self _
    · rw [k5]
      unfold Verif.Front.at_ on
      rw [hv]
    · unfold sidePoly
      dsimp only
      rw [hS.wn, hS.wpoly]
      rfl
    · unfold sidePoly
      dsimp only
      rw [hS.wo d (ne_of_mem_of_not_mem hd k2), hS.wpoly]
      rfl
    · exact hS.qid
    · exact hS.outer

/-- `merge_points` without attributes changes nothing. -/
theorem mergePoints_same {c : Cfg K} {f f' : Fr K} (h : f.bnd = fun _ => none) {a b p : Id}
    (hs : Verif.Front.mergePoints c a b f = .ok (p, f')) : p = b ∧ f' = f := by
  unfold Verif.Front.mergePoints at hs
  simp only [bindOk] at hs
  obtain ⟨can, _, hs⟩ := hs
  split at hs
  · simp only [bindOk, needOk, h] at hs
    obtain ⟨d, _, b, hb, _⟩ := hs
    cases hb
  · simp only [Except.ok.injEq, Prod.mk.injEq] at hs
    exact ⟨hs.1.symm, hs.2.symm⟩

/-- `_add_segment`. -/
theorem addSegment_ctx {c : Cfg K} {r : Range K} (hm : 0 < r.m) {f f' : Fr K} (h : Ctx c r f) {a b e : Id}
    (hs : Verif.Front.addSegment c a b f = .ok (e, f')) (hno : Verif.Decomp.NoSwap f'.dec) :
    Ctx c r f' ∧ f'.tol = f.tol ∧ Verif.Decomp.TrueNew f.dec f'.dec e f'.dec.change ∧ f'.dec.xy = f.dec.xy ∧ f'.dec.pid = f.dec.pid ∧
      e ∈ f'.dec.sid.live ∧ (∀ j, j ∈ f'.dec.sid.live ↔ j ∈ f.dec.sid.live ∨ j = e) ∧
      (∀ j ∈ f.dec.sid.live, ∀ v, f'.dec.vtx (j, v) = f.dec.vtx (j, v)) ∧ a ≠ b ∧
      ∃ v, f'.dec.vtx (e, v) = a ∧ f'.dec.vtx (e, !v) = b := by
  have hG := Verif.Front.prims_good hm (.single (.addSegment hs)) h.good
  obtain ⟨j1, j2, j3, j4, j5, j6⟩ := Verif.Front.addSegment_joins h.good hs
  have hI := h.keep.nested.inv
  simp only [Verif.Front.addSegment, bindOk, liftD_ok, key_ok] at hs
  obtain ⟨_, ha, _, hb, ⟨e', s'⟩, h1, x, hx, hs⟩ := hs
  simp only [Except.ok.injEq, Prod.mk.injEq] at hs
  obtain ⟨rfl, rfl⟩ := hs
  dsimp only at hno ⊢
  refine ⟨⟨hG, .step (o := .newSegment a b) h.keep ⟨⟨ha, hb⟩, hno⟩ (by
      simp only [Verif.Decomp.step, Verif.Decomp.bind_ok]
      exact ⟨_, h1, rfl⟩), ?_⟩, rfl, Verif.Decomp.newSegment_true h1 h.keep.nested ha hb hno, j2, j3, j5, fun j => ?_,
      fun j hj => (j1 j hj).2, (Verif.Decomp.newSegment_cases h1 hI.links ha hb).1, j6⟩
  · dsimp only
    rw [h.bnd]
    split
    · rfl
    · funext y
      simp [Function.update_apply]
  · rcases Verif.Front.newSegment_objects h1 hI ha hb with ⟨_, hA⟩ | ⟨hf, rfl, _⟩
    · exact hA.live j
    · constructor
      · exact Or.inl
      · rintro (hj | rfl)
        · exact hj
        · exact hf

end
end Verif.Merge
