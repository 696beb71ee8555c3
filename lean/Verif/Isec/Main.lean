import Verif.Isec.Points
/-! Main curves of a surface (C106), what `IsecSurfSurf.get_intersections` reports (C107), and the entry points that never
return (C108). -/
namespace Verif.Isec
open Verif.Spline Finset

set_option linter.unusedSectionVars false
variable {K : Type} [Field K] [LinearOrder K] [IsStrictOrderedRing K]

theorem GoodSurf.fixValid {S : Surface K} (hS : GoodSurf S) (ax : Axis) : (fixBasis S ax).Valid := by
  cases ax
  · exact hS.hv
  · exact hS.hu

theorem GoodSurf.curvValid {S : Surface K} (hS : GoodSurf S) (ax : Axis) : (curvBasis S ax).Valid := by
  cases ax
  · exact hS.hu
  · exact hS.hv

theorem GoodSurf.fixDeg {S : Surface K} (hS : GoodSurf S) (ax : Axis) : (fixBasis S ax).degree = 2 := by
  cases ax
  · exact hS.dv
  · exact hS.du

theorem GoodSurf.curvDeg {S : Surface K} (hS : GoodSurf S) (ax : Axis) : (curvBasis S ax).degree = 2 := by
  cases ax
  · exact hS.du
  · exact hS.dv

theorem GoodSurf.curvInner {S : Surface K} (hS : GoodSurf S) (ax : Axis) : Inner (curvBasis S ax) := by
  cases ax
  · exact hS.iu
  · exact hS.iv

/-- The knot of main curve `iw` lies in the closed interval of the patch that is used for it. -/
theorem mainPatch_holds {B : Basis K} (hB : B.Valid) (hd : B.degree = 2) {iw : Nat} (h : iw ≤ B.nIntervals) :
    Holds B (mainPatch iw) (B.k (iw + 2)) := by
  have e1 := hB.size_eq
  have e2 := hB.nInt_eq
  have e3 := hB.nInt_pos
  rw [hd] at e1 e2
  unfold mainPatch
  refine ⟨by omega, k_mono _ hB.sorted (by omega) (by omega), k_mono _ hB.sorted (by omega) (by omega)⟩

/-- C106. The main curve with number `iw` exists and lies on the surface: its point at `t` is the point of the surface
whose fixed parameter is knot `iw + 2` and whose other parameter is `t`, on the whole domain. -/
theorem main_curve_on_surface {S : Surface K} (hS : GoodSurf S) (ax : Axis) {iw : Nat}
    (hiw : iw ≤ (fixBasis S ax).nIntervals) :
    ∃ c, mainCurve S ax iw = .ok c ∧ GoodCurve c ∧ c.basis = curvBasis S ax ∧
      ∀ t, (curvBasis S ax).Dom t → ∃ x, CurveAt c t x ∧
        SurfAt S (onAxis ax ((fixBasis S ax).k (iw + 2)) t).1 (onAxis ax ((fixBasis S ax).k (iw + 2)) t).2 x := by
  have hF := hS.fixValid ax
  have hFd := hS.fixDeg ax
  have hC := hS.curvValid ax
  have hCd := hS.curvDeg ax
  obtain ⟨hp0, hp1, hp2⟩ := mainPatch_holds hF hFd hiw
  set w := (fixBasis S ax).k (iw + 2) with hw
  set p := mainPatch iw with hp
  set pole := fun (i j d : Nat) => if ax then S.pole i j d else S.pole j i d with hpole
  set W : Nat → K := fun i => (fixBasis S ax).val (p + i) w with hW
  have hwid := width_of_dim hS.rat hS.dim
  set poles := (List.range (curvBasis S ax).size).map fun j => (List.range 3).map fun d =>
      inner ((List.range 3).map W) ((List.range 3).map fun i => pole (p + i) j d) with hpoles
  have e1 := hC.size_eq
  have e2 := hC.nInt_eq
  have e3 := hC.nInt_pos
  have hlen : poles.length = (curvBasis S ax).size := by simp [hpoles]
  have hrow : ∀ r ∈ poles, r.length = 3 := by
    intro r hr
    simp only [hpoles, List.mem_map] at hr
    obtain ⟨j, _, rfl⟩ := hr
    simp
  have hhead : (poles.headD []).length = 3 := by
    cases hq : poles with
    | nil => rw [hq] at hlen; simp at hlen; omega
    | cons a l => exact hrow a (by rw [hq]; simp)
  have hinit : Curve.init (curvBasis S ax) poles false = .ok ⟨curvBasis S ax, poles, false⟩ := by
    unfold Curve.init
    rw [if_neg (by simp [hlen]), if_neg, if_neg]
    · rintro ⟨r, hr, hne⟩
      exact hne (by rw [hrow r hr, hhead])
    · intro h
      rw [h] at hlen
      simp at hlen
      omega
  have hrun : mainCurve S ax iw = .ok ⟨curvBasis S ax, poles, false⟩ := by
    unfold mainCurve
    simp only
    rw [hF.evalVec hp0]
    simp only [liftE, bind, Except.bind]
    rw [if_neg (by simp [hFd]), hwid, hFd]
    exact congrArg liftE hinit
  have hgood : GoodCurve (⟨curvBasis S ax, poles, false⟩ : Curve K) :=
    ⟨hC, hCd, hS.curvInner ax, rfl, by unfold Curve.dim; simpa using hhead⟩
  refine ⟨_, hrun, hgood, rfl, ?_⟩
  intro t ht
  obtain ⟨r, _, hr, r1, r2, _, _⟩ := find_interval_correct _ hC t ht
  simp only [Basis.intervalBounds] at r1 r2
  refine ⟨_, curveAt_local hgood.hb rfl hgood.dim (by rw [hgood.deg]; omega) hgood.inner hr r1 r2, ?_⟩
  have hpv : ∀ j d, j < (curvBasis S ax).size → d < 3 → (⟨curvBasis S ax, poles, false⟩ : Curve K).pole j d =
      ∑ i ∈ range 3, W i * pole (p + i) j d := by
    intro j d hj hd
    unfold Curve.pole
    simp only [hpoles]
    rw [List.getD_eq_getElem?_getD, List.getD_eq_getElem?_getD, List.getElem?_map, List.getElem?_range hj]
    simp only [Option.map_some, Option.getD_some]
    rw [List.getElem?_map, List.getElem?_range hd]
    simp only [Option.map_some, Option.getD_some]
    exact inner_range _ _ _
  have hval : (vec fun d => ∑ j ∈ range ((curvBasis S ax).degree + 1), (curvBasis S ax).val (r + j) t *
      (⟨curvBasis S ax, poles, false⟩ : Curve K).pole (r + j) d) =
      (vec fun d => ∑ j ∈ range ((curvBasis S ax).degree + 1), (curvBasis S ax).val (r + j) t *
        ∑ i ∈ range 3, W i * pole (p + i) (r + j) d : V3 K) := by
    funext d
    unfold vec
    apply sum_congr rfl
    intro j hj
    have := mem_range.1 hj
    rw [hpv (r + j) d (by omega) d.2]
  simp only at hval ⊢
  rw [hval]
  cases ax with
  | true =>
    simp only [onAxis, if_true]
    have := surfAt_local hS.hu hS.hv hS.rat hS.dim (by rw [hS.du]; omega) (by rw [hS.dv]; omega) hS.iu hS.iv
      (iu := p) (iv := r) hp0 hr (u := w) (v := t) (by rw [hS.du]; exact hp1) (by rw [hS.du]; exact hp2) r1 r2
    rw [show S.ub.degree + 1 = 3 by rw [hS.du]] at this
    exact this
  | false =>
    simp only [onAxis, Bool.false_eq_true, if_false]
    have := surfAt_local hS.hu hS.hv hS.rat hS.dim (by rw [hS.du]; omega) (by rw [hS.dv]; omega) hS.iu hS.iv
      (iu := r) (iv := p) hr hp0 (u := t) (v := w) r1 r2 (by rw [hS.dv]; exact hp1) (by rw [hS.dv]; exact hp2)
    convert this using 2
    funext d
    rw [show S.vb.degree + 1 = 3 by rw [hS.dv]]
    simp only [mul_sum]
    rw [sum_comm]
    refine sum_congr rfl fun i _ => sum_congr rfl fun j _ => ?_
    simp only [hpole, hW, fixBasis, curvBasis]
    simp only [Bool.false_eq_true, if_false]
    ring

/-- C106. `_main_curves` returns one curve for every knot of the fixed direction, with that knot and a patch that holds
it. -/
theorem main_curves_complete {S : Surface K} (hS : GoodSurf S) (ax : Axis) :
    ∃ l, mainCurves S ax = .ok l ∧ l.length = (fixBasis S ax).nIntervals + 1 ∧
      ∀ (i : Nat) (x : Curve K × K × Nat), l[i]? = some x → mainCurve S ax i = .ok x.1 ∧
        x.2.1 = (fixBasis S ax).k (i + 2) ∧ Holds (fixBasis S ax) x.2.2 x.2.1 := by
  have hc : ∀ iw, ∃ c, iw ≤ (fixBasis S ax).nIntervals → mainCurve S ax iw = .ok c := by
    intro iw
    by_cases h : iw ≤ (fixBasis S ax).nIntervals
    · obtain ⟨c, hc, _⟩ := main_curve_on_surface hS ax h
      exact ⟨c, fun _ => hc⟩
    · exact ⟨⟨S.ub, [], false⟩, fun h' => absurd h' h⟩
  choose C hC using hc
  have hm : ∀ l : List Nat, (∀ i ∈ l, i ≤ (fixBasis S ax).nIntervals) →
      l.mapM (fun iw => do
        let c ← mainCurve S ax iw
        .ok (c, (fixBasis S ax).k (iw + 2), mainPatch iw)) =
      (.ok (l.map fun iw => (C iw, (fixBasis S ax).k (iw + 2), mainPatch iw)) : Except Err _) := by
    intro l
    induction l with
    | nil => intro _; rfl
    | cons a l ih =>
      intro h
      rw [List.mapM_cons, ih (fun i hi => h i (by simp [hi])), hC a (h a (by simp))]
      rfl
  refine ⟨_, hm _ (fun i hi => by have := List.mem_range.1 hi; omega), by simp, ?_⟩
  intro i x hx
  simp only [List.getElem?_map, Option.map_eq_some_iff] at hx
  obtain ⟨j, hj, rfl⟩ := hx
  obtain ⟨hj1, hj2⟩ := List.getElem?_eq_some_iff.1 hj
  simp at hj1 hj2
  subst hj2
  exact ⟨hC i (by omega), rfl, mainPatch_holds (hS.fixValid ax) (hS.fixDeg ax) (by omega)⟩

/-! ### C107 -/

/-- A reported point is an intersection up to `tol`. There are a point of the first surface and a point of the second one
at a distance of at most `tol`; `xyz` is their midpoint; and unless their distance is exactly `tol` they are the points at
the two reported parameter pairs. All parameters lie in the reported patches. -/
def Genuine (S1 S2 : Surface K) (tol : K) (p : IsecPoint K) : Prop :=
  ∃ (ia ja ib jb : Nat) (qa qb : K × K) (x1 x2 : V3 K),
    p.a.iuv.head? = some ((ia : Int), (ja : Int)) ∧ p.b.iuv.head? = some ((ib : Int), (jb : Int)) ∧
    (Holds S1.ub ia p.a.uv.1 ∧ Holds S1.vb ja p.a.uv.2) ∧ (Holds S2.ub ib p.b.uv.1 ∧ Holds S2.vb jb p.b.uv.2) ∧
    (Holds S1.ub ia qa.1 ∧ Holds S1.vb ja qa.2) ∧ (Holds S2.ub ib qb.1 ∧ Holds S2.vb jb qb.2) ∧
    SurfAt S1 qa.1 qa.2 x1 ∧ SurfAt S2 qb.1 qb.2 x2 ∧ 0 ≤ tol ∧ sq (fun i => x2 i - x1 i) ≤ tol ^ 2 ∧
    (∀ i, p.xyz i = (x2 i + x1 i) / 2) ∧
    (0 < tol → sq (fun i => x2 i - x1 i) < tol ^ 2 → qa = p.a.uv ∧ qb = p.b.uv)

theorem foldlM_inv {α β : Type} (P : β → Prop) (f : β → α → Except Err β) : ∀ (l : List α) (s s' : β),
    (∀ a ∈ l, ∀ s s', P s → f s a = .ok s' → P s') → P s → l.foldlM f s = .ok s' → P s'
  | [], s, s', _, hs, h => by
    cases h
    exact hs
  | a :: l, s, s', h, hs, hr => by
    rw [List.foldlM_cons] at hr
    cases ha : f s a with
    | error e => rw [ha] at hr; cases hr
    | ok t =>
      rw [ha] at hr
      exact foldlM_inv P f l t s' (fun b hb => h b (by simp [hb])) (h a (by simp) _ _ hs ha) hr

theorem foldlM_total {α β : Type} (P : β → Prop) (f : β → α → Except Err β) : ∀ (l : List α) (s : β),
    (∀ a ∈ l, ∀ s, P s → ∃ s', f s a = .ok s' ∧ P s') → P s → ∃ s', l.foldlM f s = .ok s' ∧ P s'
  | [], s, _, hs => ⟨s, rfl, hs⟩
  | a :: l, s, h, hs => by
    obtain ⟨t, ht, hp⟩ := h a (by simp) s hs
    rw [List.foldlM_cons, ht]
    exact foldlM_total P f l t (fun b hb => h b (by simp [hb])) hp

/-- position of a patch id that is in range -/
theorem id2pos_lt (S : Surface K) {id : Nat} (h : id < S.ub.nIntervals * S.vb.nIntervals) :
    (S.id2pos id).1 < S.ub.nIntervals ∧ (S.id2pos id).2 < S.vb.nIntervals := by
  unfold Surface.id2pos
  simp only
  have hpos : 0 < S.vb.nIntervals := by
    rcases Nat.eq_zero_or_pos S.vb.nIntervals with h0 | h0
    · rw [h0] at h; simp at h
    · exact h0
  refine ⟨(Nat.div_lt_iff_lt_mul hpos).2 h, ?_⟩
  have := Nat.mod_lt id hpos
  rw [Nat.mod_eq_sub] at this
  rwa [Nat.mul_comm]

/-- one turn of the inner loop adds only genuine points -/
theorem patchTurn_genuine (solve : Solver K) {S1 S2 : Surface K} (h1 : GoodSurf S1) (h2 : GoodSurf S2) (maxIt : Nat) (tol : K)
    (ax : Axis) {cid it : Nat} {c : Curve K} {w : K} {patch : Nat} (hcid : cid ≤ (fixBasis S1 ax).nIntervals)
    (hc : mainCurve S1 ax cid = .ok c) (hw : w = (fixBasis S1 ax).k (cid + 2)) (hpatch : Holds (fixBasis S1 ax) patch w)
    (hit : it < (curvBasis S1 ax).nIntervals) {ipatch : Nat} (hip : ipatch < S2.ub.nIntervals * S2.vb.nIntervals)
    (st st' : List (IsecPoint K) × List (Nat × Nat)) (hst : ∀ p ∈ st.1, Genuine S1 S2 tol p)
    (h : patchTurn solve S1 S2 maxIt tol ax cid c w patch it st ipatch = .ok st') :
    ∀ p ∈ st'.1, Genuine S1 S2 tol p := by
  obtain ⟨c', hc', hgc, hcb, hon⟩ := main_curve_on_surface h1 ax hcid
  rw [hc] at hc'
  cases hc'
  obtain ⟨l1, l2⟩ := id2pos_lt S2 hip
  unfold patchTurn at h
  simp only at h
  cases hg : getIntersection solve S2 c (S2.id2pos ipatch).1 (S2.id2pos ipatch).2 it maxIt tol with
  | error e => rw [hg] at h; simp [bind, Except.bind] at h
  | ok f =>
    rw [hg] at h
    simp only [bind, Except.bind] at h
    split at h
    · rename_i hconv
      obtain ⟨hcell, p, x1, x2, hp, s1, s2, hxyz, hcv, huq⟩ := get_intersection_honest solve h2 hgc l1 l2
        (by rw [hcb]; exact hit) maxIt tol f hg
      have hcv := hcv.1 hconv
      obtain ⟨⟨cu1, cu2⟩, ⟨cv1, cv2⟩, ⟨ct1, ct2⟩⟩ := hcell
      obtain ⟨⟨pu1, pu2⟩, ⟨pv1, pv2⟩, ⟨pt1, pt2⟩⟩ := hp
      rw [hcb] at ct1 ct2 pt1 pt2
      -- position of the first point
      have ha : (onAxis ax patch it).1 < S1.ub.nIntervals ∧ (onAxis ax patch it).2 < S1.vb.nIntervals ∧
          ∀ t, (curvBasis S1 ax).k (it + 2) ≤ t → t ≤ (curvBasis S1 ax).k (it + 3) →
          Holds S1.ub (onAxis ax patch it).1 (onAxis ax w t).1 ∧ Holds S1.vb (onAxis ax patch it).2 (onAxis ax w t).2 := by
        cases ax
        · simp only [onAxis, Bool.false_eq_true, if_false]
          exact ⟨hit, hpatch.1, fun t a b => ⟨⟨hit, a, b⟩, hpatch⟩⟩
        · simp only [onAxis, if_true]
          exact ⟨hpatch.1, hit, fun t a b => ⟨hpatch, ⟨hit, a, b⟩⟩⟩
      obtain ⟨ha1, ha2, ha3⟩ := ha
      have ea := SurfPoint.init_eq h1.hu h1.hv h1.du h1.dv ha1 ha2 (onAxis ax w (f.uvt 2)).1 (onAxis ax w (f.uvt 2)).2
      rw [show ((onAxis ax w (f.uvt 2)).1, (onAxis ax w (f.uvt 2)).2) = onAxis ax w (f.uvt 2) from rfl] at ea
      rw [ea] at h
      simp only at h
      rw [SurfPoint.init_eq h2.hu h2.hv h2.du h2.dv l1 l2 (f.uvt 0) (f.uvt 1)] at h
      simp only at h
      cases h
      intro q hq
      simp only [List.mem_append, List.mem_singleton] at hq
      rcases hq with hq | rfl
      · exact hst q hq
      · have hdom : (curvBasis S1 ax).Dom (p 2) :=
          dom_of_interval (h1.curvValid ax) hit (by rw [h1.curvDeg ax]; exact pt1) (by rw [h1.curvDeg ax]; exact pt2)
        obtain ⟨x, hx1, hx2⟩ := hon (p 2) hdom
        have hxe : x2 = x := by
          have := (s2 0 0).symm.trans (hx1 0 0)
          simp only [Except.ok.injEq, List.cons.injEq, Option.some.injEq, and_true] at this
          funext i
          fin_cases i
          · exact this.1
          · exact this.2.1
          · exact this.2.2
        subst hxe
        refine ⟨(onAxis ax patch it).1, (onAxis ax patch it).2, (S2.id2pos ipatch).1, (S2.id2pos ipatch).2,
          onAxis ax w (p 2), (p 0, p 1), x2, x1, ?_, ?_, ha3 _ ct1 ct2, ⟨⟨l1, cu1, cu2⟩, ⟨l2, cv1, cv2⟩⟩, ha3 _ pt1 pt2,
          ⟨⟨l1, pu1, pu2⟩, ⟨l2, pv1, pv2⟩⟩, ?_, s1, hcv.1, hcv.2, hxyz, ?_⟩
        · simp [extendPatches]
        · simp [extendPatches]
        · rw [hw]; exact hx2
        · intro ht hl
          have := huq ht hl
          rw [this]
          exact ⟨rfl, rfl⟩
    · cases h
      exact hst

/-- C107. Every point that `get_intersections(surf1, surf2)` reports is an intersection of the two surfaces up to
`abs_tol`, whatever the linear solver returns and whichever patches the box tree proposes. -/
theorem intersections_genuine (solve : Solver K) (find : List K × List K → List Nat) {S1 S2 : Surface K} (h1 : GoodSurf S1)
    (h2 : GoodSurf S2) (hfind : ∀ b, ∀ i ∈ find b, i < S2.ub.nIntervals * S2.vb.nIntervals) (maxIt : Nat) (tol : K)
    (l : List (IsecPoint K)) (h : getIntersections solve find S1 S2 maxIt tol = .ok l) :
    ∀ p ∈ l, Genuine S1 S2 tol p := by
  unfold getIntersections at h
  cases hb : liftE S2.boxes with
  | error e => rw [hb] at h; simp [bind, Except.bind] at h
  | ok b =>
    rw [hb] at h
    simp only [bind, Except.bind] at h
    split at h
    · simp at h
    · rename_i st hst
      cases h
      refine foldlM_inv (fun s : List (IsecPoint K) × List (Nat × Nat) => ∀ p ∈ s.1, Genuine S1 S2 tol p) _ _ _ _ ?_
        (by simp) hst
      intro ax _ s s' hs hrun
      unfold axisTurn at hrun
      obtain ⟨cs, hcs, hlen, hcsp⟩ := main_curves_complete h1 ax
      rw [hcs] at hrun
      simp only [bind, Except.bind] at hrun
      refine foldlM_inv (fun s : List (IsecPoint K) × List (Nat × Nat) => ∀ p ∈ s.1, Genuine S1 S2 tol p) _ _ _ _ ?_ hs hrun
      rintro ⟨x, cid⟩ hx s s' hs hrun
      have hx' := List.mk_mem_zipIdx_iff_getElem?.1 hx
      obtain ⟨hcid, hw, hp⟩ := hcsp cid x hx'
      have hcidle : cid ≤ (fixBasis S1 ax).nIntervals := by
        have := (List.getElem?_eq_some_iff.1 hx').1
        omega
      obtain ⟨c', hc', _, hcb, _⟩ := main_curve_on_surface h1 ax hcidle
      rw [hcid] at hc'
      cases hc'
      refine foldlM_inv (fun s : List (IsecPoint K) × List (Nat × Nat) => ∀ p ∈ s.1, Genuine S1 S2 tol p) _ _ _ _ ?_ hs hrun
      intro it hit s s' hs hrun
      have hit := List.mem_range.1 hit
      simp only at hit
      rw [hcb] at hit
      unfold intervalTurn at hrun
      split at hrun
      · cases hrun
        exact hs
      · refine foldlM_inv (fun s : List (IsecPoint K) × List (Nat × Nat) => ∀ p ∈ s.1, Genuine S1 S2 tol p) _ _ _ _ ?_ hs
          hrun
        intro ip hip s s' hs hrun
        exact patchTurn_genuine solve h1 h2 maxIt tol ax hcidle hcid hw hp hit (hfind _ ip hip) s s' hs hrun

/-- C107. With a solver that does not fail and at least one turn the search itself never raises. -/
theorem intersections_total (solve : Solver K) (hsolve : ∀ J d, ∃ s, solve J d = .ok s)
    (find : List K × List K → List Nat) {S1 S2 : Surface K} (h1 : GoodSurf S1) (h2 : GoodSurf S2)
    (hfind : ∀ b, ∀ i ∈ find b, i < S2.ub.nIntervals * S2.vb.nIntervals) (hbox : ∃ b, S2.boxes = .ok b) (maxIt : Nat)
    (hm : 0 < maxIt) (tol : K) : ∃ l, getIntersections solve find S1 S2 maxIt tol = .ok l := by
  obtain ⟨b, hb⟩ := hbox
  unfold getIntersections
  rw [hb]
  simp only [liftE, bind, Except.bind]
  suffices h : ∃ st, [true, false].foldlM (axisTurn solve find S1 S2 maxIt tol) ([], []) = .ok st ∧ True by
    obtain ⟨st, hst, _⟩ := h
    rw [hst]
    exact ⟨_, rfl⟩
  refine foldlM_total (fun _ => True) _ _ _ ?_ trivial
  intro ax _ s _
  unfold axisTurn
  obtain ⟨cs, hcs, hlen, hcsp⟩ := main_curves_complete h1 ax
  rw [hcs]
  simp only [bind, Except.bind]
  refine foldlM_total (fun _ => True) _ _ _ ?_ trivial
  rintro ⟨x, cid⟩ hx s _
  have hx' := List.mk_mem_zipIdx_iff_getElem?.1 hx
  obtain ⟨hcid, hw, hp⟩ := hcsp cid x hx'
  have hcidle : cid ≤ (fixBasis S1 ax).nIntervals := by
    have := (List.getElem?_eq_some_iff.1 hx').1
    omega
  obtain ⟨c', hc', hgc, hcb, _⟩ := main_curve_on_surface h1 ax hcidle
  rw [hcid] at hc'
  cases hc'
  refine foldlM_total (fun _ => True) _ _ _ ?_ trivial
  intro it hit s _
  have hit := List.mem_range.1 hit
  simp only at hit
  unfold intervalTurn
  split
  · exact ⟨_, rfl, trivial⟩
  · refine foldlM_total (fun _ => True) _ _ _ ?_ trivial
    intro ip hip s _
    obtain ⟨l1, l2⟩ := id2pos_lt S2 (hfind _ ip hip)
    obtain ⟨f, hf⟩ := get_intersection_total solve hsolve h2 hgc l1 l2 hit maxIt hm tol
    unfold patchTurn
    simp only
    rw [hf]
    simp only [bind, Except.bind]
    split
    · have ha : (onAxis ax x.2.2 it).1 < S1.ub.nIntervals ∧ (onAxis ax x.2.2 it).2 < S1.vb.nIntervals := by
        rw [hcb] at hit
        cases ax
        · exact ⟨hit, hp.1⟩
        · exact ⟨hp.1, hit⟩
      have ea := SurfPoint.init_eq h1.hu h1.hv h1.du h1.dv ha.1 ha.2 (onAxis ax x.2.1 (f.uvt 2)).1
        (onAxis ax x.2.1 (f.uvt 2)).2
      rw [show ((onAxis ax x.2.1 (f.uvt 2)).1, (onAxis ax x.2.1 (f.uvt 2)).2) = onAxis ax x.2.1 (f.uvt 2) from rfl] at ea
      rw [ea]
      simp only
      rw [SurfPoint.init_eq h2.hu h2.hv h2.du h2.dv l1 l2 (f.uvt 0) (f.uvt 1)]
      exact ⟨_, rfl, trivial⟩
    · exact ⟨_, rfl, trivial⟩

/-! ### C108 -/

/-- C108 is refuted: `IsecSurfSurf.get_intersection()` never returns, for any surfaces and any behaviour of the libraries. -/
theorem surf_surf_never_returns (solve : Solver K) (find1 find2 : List K × List K → List Nat) (S1 S2 : Surface K)
    (maxIt : Nat) (tol : K) : ∃ e, surfSurfIntersection solve find1 find2 S1 S2 maxIt tol = .error e := by
  cases h : surfSurfIntersection solve find1 find2 S1 S2 maxIt tol with
  | error e => exact ⟨e, rfl⟩
  | ok r =>
    exfalso
    unfold surfSurfIntersection at h
    cases h1 : getIntersections solve find2 S1 S2 maxIt tol with
    | error e => rw [h1] at h; cases h
    | ok p1 =>
      cases h2 : getIntersections solve find1 S2 S1 maxIt tol with
      | error e => rw [h1, h2] at h; cases h
      | ok p2 =>
        rw [h1, h2] at h
        simp only [bind, Except.bind, connectPoints, freePointCall] at h
        cases a1 : makePatchPointList S1 p1 false with
        | error e => rw [a1] at h; cases h
        | ok _ =>
          cases a2 : makePatchPointList S2 p2 false with
          | error e => rw [a1, a2] at h; cases h
          | ok _ =>
            cases a3 : makePatchPointList S1 p2 true with
            | error e => rw [a1, a2, a3] at h; cases h
            | ok _ =>
              cases a4 : makePatchPointList S2 p1 true with
              | error e => rw [a1, a2, a3, a4] at h; cases h
              | ok _ => rw [a1, a2, a3, a4] at h; cases h

/-- C108 is refuted: `IsecCurveSurf.get_intersections` returns only if the tree proposes no patch at all, and then the list
is empty. -/
theorem curve_surf_only_empty (find : List K × List K → List Nat) (C : Curve K) :
    (∀ l, curveSurfIntersections find C = .ok l → l = []) ∧
    ((∃ b ∈ C.boxes, find b ≠ []) → curveSurfIntersections find C = .error .attributeError) := by
  have key : ∀ (bs : List (List K × List K)) (acc : List Unit),
      bs.foldlM (fun (acc : List Unit) box => match find box with
        | [] => (.ok acc : Except Err (List Unit))
        | _ :: _ => .error .attributeError) acc =
      if ∃ b ∈ bs, find b ≠ [] then .error .attributeError else .ok acc := by
    intro bs
    induction bs with
    | nil => intro acc; simp; rfl
    | cons b bs ih =>
      intro acc
      rw [List.foldlM_cons]
      cases hb : find b with
      | nil =>
        simp only [bind, Except.bind]
        rw [ih]
        congr 1
        simp [hb]
      | cons a as =>
        simp only [bind, Except.bind]
        rw [if_pos ⟨b, by simp, by simp [hb]⟩]
  have hrun : curveSurfIntersections find C =
      if ∃ b ∈ C.boxes, find b ≠ [] then .error .attributeError else .ok [] := by
    rw [← key C.boxes []]
    unfold curveSurfIntersections
    congr 1
  rw [hrun]
  constructor
  · intro l h
    split at h
    · simp at h
    · cases h; rfl
  · intro h
    simp only [if_pos h]

end Verif.Isec
