import Verif.Isec.Demo
/-! What `IsecSurfSurf.get_intersections` does not miss, and what it does (C111). -/
namespace Verif.Isec
open Verif.Spline Finset

set_option linter.unusedSectionVars false

section
variable {K : Type} [Field K] [LinearOrder K] [IsStrictOrderedRing K]

/-- Every element of the list is visited, in a state that satisfies the invariant. -/
theorem foldlM_visit {α β : Type} (P : β → Prop) (R : β → β → Prop) (hrefl : ∀ s, R s s)
    (htrans : ∀ a b c, R a b → R b c → R a c) (f : β → α → Except Err β) : ∀ (l : List α) (s s' : β),
    (∀ a ∈ l, ∀ s s', P s → f s a = .ok s' → P s' ∧ R s s') → P s → l.foldlM f s = .ok s' →
    (P s' ∧ R s s') ∧ ∀ a ∈ l, ∃ s1 s2, P s1 ∧ f s1 a = .ok s2 ∧ P s2 ∧ R s2 s'
  | [], s, s', _, hs, h => by
    cases h
    exact ⟨⟨hs, hrefl _⟩, by simp⟩
  | a :: l, s, s', h, hs, hr => by
    rw [List.foldlM_cons] at hr
    cases ha : f s a with
    | error e => rw [ha] at hr; cases hr
    | ok t =>
      rw [ha] at hr
      obtain ⟨p1, r1⟩ := h a (by simp) _ _ hs ha
      obtain ⟨⟨p2, r2⟩, h2⟩ := foldlM_visit P R hrefl htrans f l t s' (fun b hb => h b (by simp [hb])) p1 hr
      refine ⟨⟨p2, htrans _ _ _ r1 r2⟩, ?_⟩
      intro b hb
      rcases List.mem_cons.1 hb with rfl | hb
      · exact ⟨s, t, hs, ha, p1, r2⟩
      · exact h2 b hb

/-- every set entry of `crossing` is the place of a reported point -/
def CrossOk (S1 : Surface K) (st : List (IsecPoint K) × List (Nat × Nat)) : Prop :=
  ∀ c ∈ st.2, ∃ p ∈ st.1, p.a.uv = (S1.ub.k (c.1 + 2), S1.vb.k (c.2 + 2))

/-- no point is lost -/
def Grows (s s' : List (IsecPoint K) × List (Nat × Nat)) : Prop := ∀ p ∈ s.1, p ∈ s'.1

theorem iface_cases (t : K × K) (x : K) : (ifaceFlag t x = -1 ∧ x = t.1) ∨ (ifaceFlag t x = 1 ∧ x = t.2) ∨ ifaceFlag t x = 0 := by
  unfold ifaceFlag
  simp only [abs_eq_zero, sub_eq_zero]
  split
  · rename_i h; exact Or.inl ⟨rfl, h.symm⟩
  · split
    · rename_i h; exact Or.inr (Or.inl ⟨rfl, h.symm⟩)
    · exact Or.inr (Or.inr rfl)

theorem patchTurn_step (solve : Solver K) {S1 S2 : Surface K} (h1 : GoodSurf S1) (h2 : GoodSurf S2) (maxIt : Nat) (tol : K)
    (ax : Axis) {cid it : Nat} {c : Curve K} {w : K} {patch : Nat} (hw : w = (fixBasis S1 ax).k (cid + 2))
    (hpatch : Holds (fixBasis S1 ax) patch w)
    (hit : it < (curvBasis S1 ax).nIntervals) {ipatch : Nat} (hip : ipatch < S2.ub.nIntervals * S2.vb.nIntervals)
    (st st' : List (IsecPoint K) × List (Nat × Nat)) (hst : CrossOk S1 st)
    (h : patchTurn solve S1 S2 maxIt tol ax cid c w patch it st ipatch = .ok st') :
    (CrossOk S1 st' ∧ Grows st st') ∧ ∀ f, getIntersection solve S2 c (S2.id2pos ipatch).1 (S2.id2pos ipatch).2 it maxIt tol =
      .ok f → f.conv = true → ∃ p ∈ st'.1, p.a.uv = onAxis ax w (f.uvt 2) ∧ p.b.uv = (f.uvt 0, f.uvt 1) ∧ p.xyz = f.xyz ∧
        p.connected = false := by
  obtain ⟨l1, l2⟩ := id2pos_lt S2 hip
  unfold patchTurn at h
  simp only at h
  cases hg : getIntersection solve S2 c (S2.id2pos ipatch).1 (S2.id2pos ipatch).2 it maxIt tol with
  | error e => rw [hg] at h; simp [bind, Except.bind] at h
  | ok f =>
    rw [hg] at h
    simp only [bind, Except.bind] at h
    split at h
    · have ha : (onAxis ax patch it).1 < S1.ub.nIntervals ∧ (onAxis ax patch it).2 < S1.vb.nIntervals := by
        cases ax
        · exact ⟨hit, hpatch.1⟩
        · exact ⟨hpatch.1, hit⟩
      have ea := SurfPoint.init_eq h1.hu h1.hv h1.du h1.dv ha.1 ha.2 (onAxis ax w (f.uvt 2)).1 (onAxis ax w (f.uvt 2)).2
      rw [show ((onAxis ax w (f.uvt 2)).1, (onAxis ax w (f.uvt 2)).2) = onAxis ax w (f.uvt 2) from rfl] at ea
      rw [ea] at h
      simp only at h
      rw [SurfPoint.init_eq h2.hu h2.hv h2.du h2.dv l1 l2 (f.uvt 0) (f.uvt 1)] at h
      simp only at h
      cases h
      refine ⟨⟨?_, fun p hp => by simp [hp]⟩, ?_⟩
      · intro e he
        simp only at he
        have old : ∀ q, e ∈ st.2 → ∃ p ∈ st.1 ++ [q], p.a.uv = (S1.ub.k (e.1 + 2), S1.vb.k (e.2 + 2)) := fun q h => by
          obtain ⟨p, hp, hq⟩ := hst e h
          exact ⟨p, List.mem_append_left _ hp, hq⟩
        split at he
        · rename_i hdir
          rcases List.mem_cons.1 he with rfl | he
          · refine ⟨_, List.mem_append_right _ (List.mem_singleton.2 rfl), ?_⟩
            simp only
            cases ax
            · simp only [onAxis, offAxis, Bool.false_eq_true, if_false] at hdir ⊢
              rcases iface_cases (S1.ub.k (it + 2), S1.ub.k (it + 3)) (f.uvt 2) with ⟨e1, e2⟩ | ⟨e1, e2⟩ | e1
              · rw [e1, hw, e2]; simp [fixBasis]
              · rw [e1, hw, e2]; simp [fixBasis, Nat.add_right_comm]
              · exact absurd e1 hdir
            · simp only [onAxis, offAxis, if_true] at hdir ⊢
              rcases iface_cases (S1.vb.k (it + 2), S1.vb.k (it + 3)) (f.uvt 2) with ⟨e1, e2⟩ | ⟨e1, e2⟩ | e1
              · rw [e1, hw, e2]; simp [fixBasis]
              · rw [e1, hw, e2]; simp [fixBasis, Nat.add_right_comm]
              · exact absurd e1 hdir
          · exact old _ he
        · exact old _ he
      · intro f' hf' _
        cases hf'
        exact ⟨_, List.mem_append_right _ (List.mem_singleton.2 rfl), rfl, rfl, rfl, rfl⟩
    · rename_i hcv
      cases h
      refine ⟨⟨hst, fun p hp => hp⟩, ?_⟩
      intro f' hf' hc
      cases hf'
      exact absurd hc hcv

/-- C111. Every crossing that the Newton search finds between a main curve and a proposed patch is reported, unless the
interval of the curve ends in a knot crossing at which a point is reported. -/
theorem intersections_complete (solve : Solver K) (find : List K × List K → List Nat) {S1 S2 : Surface K} (h1 : GoodSurf S1)
    (h2 : GoodSurf S2) (hfind : ∀ b, ∀ i ∈ find b, i < S2.ub.nIntervals * S2.vb.nIntervals) (maxIt : Nat) (tol : K)
    (l : List (IsecPoint K)) (h : getIntersections solve find S1 S2 maxIt tol = .ok l) (ax : Axis) {cid it ipatch : Nat}
    {c : Curve K} (hcid : cid ≤ (fixBasis S1 ax).nIntervals) (hc : mainCurve S1 ax cid = .ok c)
    (hit : it < (curvBasis S1 ax).nIntervals) (hip : ipatch ∈ find (c.box it)) (f : Found K)
    (hf : getIntersection solve S2 c (S2.id2pos ipatch).1 (S2.id2pos ipatch).2 it maxIt tol = .ok f) (hconv : f.conv = true) :
    (∃ p ∈ l, p.a.uv = onAxis ax ((fixBasis S1 ax).k (cid + 2)) (f.uvt 2) ∧ p.b.uv = (f.uvt 0, f.uvt 1) ∧ p.xyz = f.xyz ∧
      p.connected = false) ∨
    ∃ p ∈ l, p.a.uv = onAxis ax ((fixBasis S1 ax).k (cid + 2)) ((curvBasis S1 ax).k (it + 2)) ∨
      p.a.uv = onAxis ax ((fixBasis S1 ax).k (cid + 2)) ((curvBasis S1 ax).k (it + 3)) := by
  have R1 : ∀ s : List (IsecPoint K) × List (Nat × Nat), Grows s s := fun _ _ h => h
  have R2 : ∀ a b c : List (IsecPoint K) × List (Nat × Nat), Grows a b → Grows b c → Grows a c := fun _ _ _ h h' p hp => h' p (h p hp)
  -- the four loops
  have L1 : ∀ (ax : Axis) (cid : Nat) (c : Curve K) (w : K) (patch it : Nat), w = (fixBasis S1 ax).k (cid + 2) →
      Holds (fixBasis S1 ax) patch w → it < (curvBasis S1 ax).nIntervals → ∀ s s', CrossOk S1 s →
      intervalTurn solve find S1 S2 maxIt tol ax cid c w patch s it = .ok s' → (CrossOk S1 s' ∧ Grows s s') ∧
        (alreadyFound s.2 it cid ax = true ∨ ∀ ip ∈ find (c.box it), ∃ s1 s2, CrossOk S1 s1 ∧
          patchTurn solve S1 S2 maxIt tol ax cid c w patch it s1 ip = .ok s2 ∧ CrossOk S1 s2 ∧ Grows s2 s') := by
    intro ax cid c w patch it hw hp hit s s' hs hrun
    unfold intervalTurn at hrun
    split at hrun
    · rename_i ha
      cases hrun
      exact ⟨⟨hs, R1 _⟩, Or.inl ha⟩
    · have := foldlM_visit (CrossOk S1) Grows R1 R2 _ _ _ _ (fun ip hip s s' hs hr =>
        (patchTurn_step solve h1 h2 maxIt tol ax hw hp hit (hfind _ ip hip) s s' hs hr).1) hs hrun
      exact ⟨this.1, Or.inr this.2⟩
  have L2 : ∀ (ax : Axis) (cid : Nat) (c : Curve K) (w : K) (patch : Nat), w = (fixBasis S1 ax).k (cid + 2) →
      Holds (fixBasis S1 ax) patch w → c.basis = curvBasis S1 ax → ∀ s s', CrossOk S1 s →
      (List.range c.basis.nIntervals).foldlM (intervalTurn solve find S1 S2 maxIt tol ax cid c w patch) s = .ok s' →
      (CrossOk S1 s' ∧ Grows s s') ∧ ∀ it < (curvBasis S1 ax).nIntervals, ∃ s1 s2, CrossOk S1 s1 ∧
        intervalTurn solve find S1 S2 maxIt tol ax cid c w patch s1 it = .ok s2 ∧ CrossOk S1 s2 ∧ Grows s2 s' := by
    intro ax cid c w patch hw hp hb s s' hs hrun
    have := foldlM_visit (CrossOk S1) Grows R1 R2 _ _ _ _ (fun it hit s s' hs hr =>
      (L1 ax cid c w patch it hw hp (by rw [← hb]; exact List.mem_range.1 hit) s s' hs hr).1) hs hrun
    exact ⟨this.1, fun it hit => this.2 it (by rw [hb]; exact List.mem_range.2 hit)⟩
  have L3 : ∀ (ax : Axis) s s', CrossOk S1 s → axisTurn solve find S1 S2 maxIt tol s ax = .ok s' →
      (CrossOk S1 s' ∧ Grows s s') ∧ ∀ cid ≤ (fixBasis S1 ax).nIntervals, ∃ c w patch s1 s2, mainCurve S1 ax cid = .ok c ∧
        w = (fixBasis S1 ax).k (cid + 2) ∧ Holds (fixBasis S1 ax) patch w ∧ c.basis = curvBasis S1 ax ∧ CrossOk S1 s1 ∧
        (List.range c.basis.nIntervals).foldlM (intervalTurn solve find S1 S2 maxIt tol ax cid c w patch) s1 = .ok s2 ∧
        CrossOk S1 s2 ∧ Grows s2 s' := by
    intro ax s s' hs hrun
    unfold axisTurn at hrun
    obtain ⟨cs, hcs, hlen, hcsp⟩ := main_curves_complete h1 ax
    rw [hcs] at hrun
    simp only [bind, Except.bind] at hrun
    have facts : ∀ x : (Curve K × K × Nat) × Nat, x ∈ cs.zipIdx → mainCurve S1 ax x.2 = .ok x.1.1 ∧
        x.1.2.1 = (fixBasis S1 ax).k (x.2 + 2) ∧ Holds (fixBasis S1 ax) x.1.2.2 x.1.2.1 ∧ x.1.1.basis = curvBasis S1 ax := by
      rintro ⟨x, i⟩ hx
      have hx' := List.mk_mem_zipIdx_iff_getElem?.1 hx
      obtain ⟨hcid, hw, hp⟩ := hcsp i x hx'
      have hle : i ≤ (fixBasis S1 ax).nIntervals := by
        have := (List.getElem?_eq_some_iff.1 hx').1
        omega
      obtain ⟨c', hc', _, hcb, _⟩ := main_curve_on_surface h1 ax hle
      rw [hcid] at hc'
      cases hc'
      exact ⟨hcid, hw, hp, hcb⟩
    have := foldlM_visit (CrossOk S1) Grows R1 R2 _ _ _ _ (fun x hx s s' hs hr =>
      (L2 ax x.2 x.1.1 x.1.2.1 x.1.2.2 (facts x hx).2.1 (facts x hx).2.2.1 (facts x hx).2.2.2 s s' hs hr).1) hs hrun
    refine ⟨this.1, ?_⟩
    intro cid hcid
    have hlt : cid < cs.length := by omega
    have hmem : (cs[cid], cid) ∈ cs.zipIdx := List.mk_mem_zipIdx_iff_getElem?.2 (List.getElem?_eq_getElem hlt)
    obtain ⟨s1, s2, a1, a2, a3, a4⟩ := this.2 _ hmem
    obtain ⟨b1, b2, b3, b4⟩ := facts _ hmem
    exact ⟨_, _, _, s1, s2, b1, b2, b3, b4, a1, a2, a3, a4⟩
  unfold getIntersections at h
  cases hb : liftE S2.boxes with
  | error e => rw [hb] at h; simp [bind, Except.bind] at h
  | ok b =>
    rw [hb] at h
    simp only [bind, Except.bind] at h
    split at h
    · simp at h
    · rename_i st hst
      cases h
      have := foldlM_visit (CrossOk S1) Grows R1 R2 _ _ _ _ (fun ax _ s s' hs hr => (L3 ax s s' hs hr).1)
        (show CrossOk S1 ([], []) from by simp [CrossOk]) hst
      obtain ⟨s1, s2, p1, r1, p2, g2⟩ := this.2 ax (by cases ax <;> simp)
      obtain ⟨c', w, patch, s3, s4, hc', hw, hp, hcb, p3, r3, p4, g4⟩ := (L3 ax s1 s2 p1 r1).2 cid hcid
      rw [hc] at hc'
      cases hc'
      obtain ⟨s5, s6, p5, r5, p6, g6⟩ := (L2 ax cid c w patch hw hp hcb s3 s4 p3 r3).2 it hit
      obtain ⟨⟨_, g5⟩, h5⟩ := L1 ax cid c w patch it hw hp hit s5 s6 p5 r5
      rcases h5 with h5 | h5
      · right
        have key : ∀ e ∈ s5.2, ∃ p ∈ st.1, p.a.uv = (S1.ub.k (e.1 + 2), S1.vb.k (e.2 + 2)) := by
          intro e he
          obtain ⟨p, hp, hq⟩ := p5 e he
          exact ⟨p, g2 _ (g4 _ (g6 _ (g5 _ hp))), hq⟩
        simp only [alreadyFound, decide_eq_true_eq] at h5
        rcases h5 with h5 | h5
        · obtain ⟨p, hp, hq⟩ := key _ h5
          refine ⟨p, hp, Or.inl ?_⟩
          rw [hq]
          cases ax <;> rfl
        · obtain ⟨p, hp, hq⟩ := key _ h5
          refine ⟨p, hp, Or.inr ?_⟩
          rw [hq]
          cases ax <;> simp [onAxis, fixBasis, curvBasis, Nat.add_right_comm]
      · left
        obtain ⟨s7, s8, p7, r7, p8, g8⟩ := h5 ipatch hip
        obtain ⟨_, hstep⟩ := patchTurn_step solve h1 h2 maxIt tol ax hw hp hit (hfind _ ipatch hip) s7 s8 p7 r7
        obtain ⟨p, hp, hq⟩ := hstep f hf hconv
        rw [hw] at hq
        exact ⟨p, g2 _ (g4 _ (g6 _ (g8 _ hp))), hq⟩

end

/-! ### What is missed -/

/-- the plane `z = v` -/
def riseF : Fin 3 → ℚ × ℚ × ℚ := ![(0, 1, 0), (0, 0, 1), (0, 0, 1)]

/-- a bent surface of two patches over the unit square; its height depends on `u` only and is zero at `u = 0` and once
more in the second patch -/
def bent : Surface ℚ := ⟨two, bez, [(0, 0), (1 / 4, -1), (3 / 4, 0), (1, 1)].map fun (x : ℚ × ℚ) =>
  [0, 1 / 2, 1].map fun (y : ℚ) => [x.1, y, x.2], false⟩

theorem two_inner : Inner two := by
  intro i h0 h1
  have e : two.size = 4 := rfl
  have : i = 1 ∨ i = 2 ∨ i = 3 := by omega
  rcases this with rfl | rfl | rfl <;> decide +kernel

theorem bent_good : GoodSurf bent := ⟨two_unit.valid, bez_valid, rfl, rfl, two_inner, bez_inner, rfl, rfl⟩

/-- C111 cannot be strengthened: a crossing that the Newton search does find, with a patch that the tree proposes, is not
reported, because the same interval of the main curve has another crossing at its end. -/
theorem crossing_skipped : ∃ (S1 S2 : Surface ℚ) (c : Curve ℚ) (f : Found ℚ) (l : List (IsecPoint ℚ)), GoodSurf S1 ∧ GoodSurf S2 ∧
    getIntersections solve3 (boxFind S2) S1 S2 10 (1 / 1000) = .ok l ∧
    mainCurve S1 false 0 = .ok c ∧ 1 ∈ boxFind S2 (c.box 0) ∧
    getIntersection solve3 S2 c (S2.id2pos 1).1 (S2.id2pos 1).2 0 10 (1 / 1000) = .ok f ∧ f.conv = true ∧
    ∀ p ∈ l, (1 / 2) ^ 2 < sq (fun i => p.xyz i - f.xyz i) := by
  have hrun : (match mainCurve (affSurf riseF) false 0, getIntersections solve3 (boxFind bent) (affSurf riseF) bent 10 (1 / 1000) with
      | .ok c, .ok l => match getIntersection solve3 bent c (bent.id2pos 1).1 (bent.id2pos 1).2 0 10 (1 / 1000) with
        | .ok f => decide (1 ∈ boxFind bent (c.box 0) ∧ f.conv = true) &&
            l.all fun p => decide ((1 / 2) ^ 2 < sq (fun i => p.xyz i - f.xyz i))
        | .error _ => false
      | _, _ => false) = true := by decide +kernel
  cases hc : mainCurve (affSurf riseF) false 0 with
  | error e => rw [hc] at hrun; simp at hrun
  | ok c =>
    cases hl : getIntersections solve3 (boxFind bent) (affSurf riseF) bent 10 (1 / 1000) with
    | error e => rw [hc, hl] at hrun; simp at hrun
    | ok l =>
      rw [hc, hl] at hrun
      simp only at hrun
      cases hf : getIntersection solve3 bent c (bent.id2pos 1).1 (bent.id2pos 1).2 0 10 (1 / 1000) with
      | error e => rw [hf] at hrun; simp at hrun
      | ok f =>
        rw [hf] at hrun
        simp only [Bool.and_eq_true, decide_eq_true_eq, List.all_eq_true] at hrun
        exact ⟨_, _, c, f, l, affSurf_good _, bent_good, hl, hc, hrun.1.1, hf, hrun.1.2, hrun.2⟩

end Verif.Isec
