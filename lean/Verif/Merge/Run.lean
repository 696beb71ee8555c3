import Verif.Merge.Mark

/-! The maps after all points and segments of the other decomposition were added. -/

namespace Verif.Merge
open Verif.Decomp (St Id HE flip upd sidePoly)
open Verif.Front (Fr Cfg Err Range Good Crosses bindOk liftD_ok key_ok checkOk needOk)

section
variable {K : Type} [Field K] [LinearOrder K] [IsStrictOrderedRing K]

/-- What the maps say: those to the intersected decomposition `s0` and those to the other `so`. -/
structure All (s0 so s : St K) (m : Maps) (ps : List (Id × Id × Id)) : Prop where
  lift : ∃ iv, Lift s0 s m.self1 m.self2 m.other1 iv
  mark : Mark so s m.other1 m.other2 ps

/-! ### Division of segments by a line -/

/-- The segments were divided as the list says. -/
inductive Runs : St K → List (Verif.Front.Div K) → St K → Prop
  | nil {s : St K} : Runs s [] s
  | same {s s' : St K} {d : Verif.Front.Div K} {ds : List (Verif.Front.Div K)} : d.old ∈ s.sid.live → d.new = d.old →
      d.mid ∈ s.pid.live → Runs s ds s' → Runs s (d :: ds) s'
  | split {s s1 s' : St K} {d : Verif.Front.Div K} {ds : List (Verif.Front.Div K)} {t : K} : Verif.Decomp.Inv s →
      SplitAt s s1 d.old d.new d.mid t → Runs s1 ds s' → Runs s (d :: ds) s'

/-- State of the loop over the candidates. -/
structure Loop (c : Cfg K) (r : Range K) (f0 : Fr K) (a b : Id) (done todo : List Id) (l : List (Verif.Front.Div K)) (f : Fr K) :
    Prop where
  ctx : Ctx c r f
  tol : f.tol = f0.tol
  pts : ∀ i ∈ f0.dec.pid.live, i ∈ f.dec.pid.live ∧ f.dec.xy i = f0.dec.xy i
  todo : ∀ e ∈ todo, e ∈ f0.dec.sid.live ∧ e ∈ f.dec.sid.live ∧ f.dec.vec e = f0.dec.vec e ∧ ∀ v, f.dec.vtx (e, v) = f0.dec.vtx (e, v)
  items : ∀ d ∈ l, ∃ e ∈ done, ∃ t, Crosses c f0 a b e t ∧ d.t = t.2

theorem segIsecs_runs {c : Cfg K} {r : Range K} (hm : 0 < r.m) {f0 : Fr K} (h0 : Ctx c r f0) {a b : Id}
    (ha : a ∈ f0.dec.pid.live) (hb : b ∈ f0.dec.pid.live)
    (hd : ∀ e e' t t', Crosses c f0 a b e t → Crosses c f0 a b e' t' → t.2 = t'.2 → e = e') :
    ∀ {todo done : List Id} {l l' : List (Verif.Front.Div K)} {f f' : Fr K}, (done ++ todo).Nodup → Loop c r f0 a b done todo l f →
      Verif.Front.segIsecs c a b todo l f = .ok (l', f') → ∃ l1, l' = l ++ l1 ∧ Runs f.dec l1 f'.dec ∧ Ctx c r f' ∧ f'.tol = f0.tol ∧
        ∀ i ∈ f0.dec.pid.live, i ∈ f'.dec.pid.live ∧ f'.dec.xy i = f0.dec.xy i
  | [], done, l, l', f, f', _, hL, h => by
    cases h
    exact ⟨[], by simp, .nil, hL.ctx, hL.tol, hL.pts⟩
  | e :: es, done, l, l', f, f', hnd, hL, h => by
    rw [Verif.Front.segIsecs] at h
    simp only [bindOk, key_ok] at h
    obtain ⟨_, he, h⟩ := h
    obtain ⟨he0, _, hvec, hvtx⟩ := hL.todo e (by simp)
    have hI0 := h0.keep.nested.inv
    have hsame : ∀ t, Verif.Plane.intersection c.eps (f.dec.xy (f.dec.vtx (e, false))) (f.dec.vec e) (f.dec.xy a) (f.dec.xy b) = some t →
        Crosses c f0 a b e t := by
      intro t
      unfold Crosses
      rw [hvec, hvtx false, (hL.pts a ha).2, (hL.pts b hb).2, (hL.pts _ (hI0.links.vlive (e, false) he0)).2]
      exact fun h => ⟨he0, h⟩
    have hnd' : (done ++ [e] ++ es).Nodup := by simpa using hnd
    have hes : e ∉ es := by
      have := (List.nodup_append.1 hnd).2.1
      exact (List.nodup_cons.1 this).1
    have hed : e ∉ done := by
      intro hh
      have := (List.nodup_append.1 hnd).2.2 e hh e (by simp)
      exact this rfl
    cases hi : Verif.Plane.intersection c.eps (f.dec.xy (f.dec.vtx (e, false))) (f.dec.vec e) (f.dec.xy a) (f.dec.xy b) with
    | none =>
      rw [hi] at h
      refine segIsecs_runs hm h0 ha hb hd hnd' ⟨hL.ctx, hL.tol, hL.pts, fun e' he' => hL.todo e' (by simp [he']), fun d hd => ?_⟩ h
      obtain ⟨e', he', hrest⟩ := hL.items d hd
      exact ⟨e', by simp [he'], hrest⟩
    | some t =>
      rw [hi] at h
      simp only [bindOk] at h
      obtain ⟨⟨m, f1⟩, hp, h⟩ := h
      dsimp only at h
      have hcr := hsame t hi
      have hfresh : ∀ x ∈ l, x.t ≠ t.2 := by
        intro x hx hh
        obtain ⟨e', he', t', hcr', hxt⟩ := hL.items x hx
        exact hed (hd e e' t t' hcr hcr' (hh.symm.trans hxt) ▸ he')
      rw [Verif.Front.setDiv_mem hfresh] at h
      have hitems : ∀ d ∈ l ++ [⟨t.2, m.1, e, m.2⟩], ∃ e' ∈ done ++ [e], ∃ t, Crosses c f0 a b e' t ∧ d.t = t.2 := by
        intro d hd
        rcases List.mem_append.1 hd with hd | hd
        · obtain ⟨e', he', hrest⟩ := hL.items d hd
          exact ⟨e', by simp [he'], hrest⟩
        · rw [List.mem_singleton] at hd
          subst hd
          exact ⟨e, by simp, t, hcr, rfl⟩
      obtain ⟨hC1, htol, hml, hcase⟩ := pointOnSegment_ctx hm hL.ctx he hp
      rcases hcase with ⟨rfl, hmn, _⟩ | hS
      · obtain ⟨l1, k1, k2, k3⟩ := segIsecs_runs hm h0 ha hb hd hnd'
          ⟨hL.ctx, hL.tol, hL.pts, fun e' he' => hL.todo e' (by simp [he']), hitems⟩ h
        refine ⟨⟨t.2, m.1, e, m.2⟩ :: l1, by simp [k1], .same he hmn hml k2, k3⟩
      · have htodo : ∀ e' ∈ es, e' ∈ f0.dec.sid.live ∧ e' ∈ f1.dec.sid.live ∧ f1.dec.vec e' = f0.dec.vec e' ∧
            ∀ v, f1.dec.vtx (e', v) = f0.dec.vtx (e', v) := by
          intro e' he'
          obtain ⟨b1, b2, b3, b4⟩ := hL.todo e' (by simp [he'])
          have hne : e' ≠ e := fun hh => hes (hh ▸ he')
          exact ⟨b1, (hS.live e').2 (Or.inl b2), (hS.vec e' b2 hne).trans b3, fun v => (hS.vo e' b2 hne v).trans (b4 v)⟩
        obtain ⟨l1, k1, k2, k3⟩ := segIsecs_runs hm h0 ha hb hd hnd'
          ⟨hC1, htol.trans hL.tol, fun i hi => ⟨(hS.plive i).2 (Or.inl (hL.pts i hi).1), (hS.xy i (hL.pts i hi).1).trans (hL.pts i hi).2⟩,
            htodo, hitems⟩ h
        exact ⟨⟨t.2, m.1, e, m.2⟩ :: l1, by simp [k1], .split (t := t.1) hL.ctx.keep.nested.inv hS k2, k3⟩

theorem lineIsecs_runs {c : Cfg K} {r : Range K} (hr : r.Ok) (heps : 0 ≤ c.eps) {f f' : Fr K} (h : Ctx c r f) {a b : Id}
    (ha : a ∈ f.dec.pid.live) (hb : b ∈ f.dec.pid.live)
    (hd : ∀ e e' t t', Crosses c f a b e t → Crosses c f a b e' t' → t.2 = t'.2 → e = e') {l : List (Verif.Front.Div K)}
    (hs : Verif.Front.lineIsecs c a b f = .ok (l, f')) : Runs f.dec l f'.dec ∧ Ctx c r f' ∧ f'.tol = f.tol ∧
      ∀ i ∈ f.dec.pid.live, i ∈ f'.dec.pid.live ∧ f'.dec.xy i = f.dec.xy i := by
  unfold Verif.Front.lineIsecs at hs
  simp only [bindOk] at hs
  obtain ⟨x, hx, hs⟩ := hs
  obtain ⟨c1, c2, _⟩ := Verif.Front.line_candidates (c := c) hr heps h.good ha hb hx
  obtain ⟨l1, k1, k2⟩ := segIsecs_runs hr.m h ha hb hd (done := []) (by simpa using c1)
    ⟨h, rfl, fun i hi => ⟨hi, rfl⟩, fun e he => ⟨c2 e he, c2 e he, rfl, fun v => rfl⟩, by simp⟩ hs
  rw [List.nil_append] at k1
  exact k1 ▸ k2

/-- The entries of `divMaps`. -/
def divSelf : List (Verif.Front.Div K) → Dict Id → Dict Id
  | [], d => d
  | x :: xs, d => divSelf xs (set d x.new (root d x.old))

theorem divMaps_eq : ∀ {l : List (Verif.Front.Div K)} {m m' : Maps}, divMaps l m = .ok m' →
    m' = { m with self1 := divSelf l m.self1 } ∧ ∀ d ∈ l, get m.other1 d.old = none
  | [], m, m', h => by cases h; exact ⟨rfl, by simp⟩
  | x :: xs, m, m', h => by
    rw [divMaps] at h
    simp only [bindOk, checkOk] at h
    obtain ⟨_, h1, h⟩ := h
    obtain ⟨k1, k2⟩ := divMaps_eq h
    refine ⟨k1, fun d hd => ?_⟩
    rcases List.mem_cons.1 hd with rfl | hd
    · exact h1
    · exact k2 d hd

theorem Runs.all {s0 so : St K} {ps : List (Id × Id × Id)} {d2 d3 : Dict Id} {d4 : Dict (Option Id)} {s s' : St K}
    {l : List (Verif.Front.Div K)} (h : Runs s l s') : ∀ {d1 : Dict Id}, (∀ d ∈ l, get d3 d.old = none) →
      (∃ iv, Lift s0 s d1 d2 d3 iv) → Mark so s d3 d4 ps → (∃ iv, Lift s0 s' (divSelf l d1) d2 d3 iv) ∧ Mark so s' d3 d4 ps := by
  induction h with
  | nil => exact fun _ h1 h2 => ⟨h1, h2⟩
  | @same s s' d ds hl hn _ _ ih =>
    rintro d1 hall ⟨iv, hL⟩ hM
    refine ih (fun x hx => hall x (by simp [hx])) ⟨iv, ?_⟩ hM
    rw [hn]
    refine hL.same1 (fun e => ?_) fun e x hx => ?_
    · rw [root_set]
      split
      · next hh => rw [hh]
      · rfl
    · rw [get_set] at hx
      split at hx
      · next hh =>
        cases hx
        refine ⟨hh ▸ hl, ?_⟩
        by_contra hc
        exact hL.out d.old hl hc (hall d (by simp))
      · exact ⟨hL.key1 e x hx, hL.val1 e x hx⟩
  | @split s s1 s' d ds t hI hS _ ih =>
    rintro d1 hall ⟨iv, hL⟩ hM
    have hn := hall d (by simp)
    exact ih (fun x hx => hall x (by simp [hx])) (hL.split hI hS hn) (hM.split hS hn)

/-! ### Pieces of segments -/

theorem piece_all {c : Cfg K} {r : Range K} (hm : 0 < r.m) {s0 so : St K} {f f' : Fr K} {m m' : Maps} {g g' : Log K} (h : Ctx c r f)
    (hA : All s0 so f.dec m g.pieces) {o qr ql a b : Id} (ho : o ∈ so.sid.live) (hr : sidePoly so (o, false) = some qr)
    (hl : sidePoly so (o, true) = some ql) (hs : piece c o qr ql a b m g f = .ok (m', g', f'))
    (hno : ∀ s ∈ g'.states, Verif.Decomp.NoSwap s) :
    Ctx c r f' ∧ f'.tol = f.tol ∧ All s0 so f'.dec m' g'.pieces ∧ m'.other0 = m.other0 ∧ f'.dec.pid = f.dec.pid ∧ f'.dec.xy = f.dec.xy := by
  unfold piece at hs
  simp only [bindOk, liftD_ok, polyAt_ok] at hs
  obtain ⟨⟨e, f1⟩, h1, m1, h2, x, h3, y, h4, hs⟩ := hs
  simp only [Except.ok.injEq, Prod.mk.injEq] at hs
  obtain ⟨rfl, rfl, rfl⟩ := hs
  have hno' := hno f1.dec (by simp)
  obtain ⟨k1, k2, k3, k4, k5, k6, k7, k8, k9, v, k10, _⟩ := addSegment_ctx hm h h1 hno'
  obtain ⟨⟨iv, hL⟩, hM⟩ := hA
  have hM' := hM.piece k1.keep.nested ho hr hl k3 k7 k8 ⟨v, k10⟩ h2 h3 h4
  have hL' := hL.piece h.keep.nested k3 k4 k5 k7 k8 (o := o) h2 rfl
  obtain ⟨q1, q2, q3, _⟩ := changeMaps_other k3 h2
  refine ⟨k1, k2, ⟨⟨iv, ?_⟩, ?_⟩, q2, k5, k4⟩
  · dsimp only
    rw [q1, q3]
    exact hL'
  · exact hM'

theorem piece_log {c : Cfg K} {o qr ql a b : Id} {f f' : Fr K} {m m' : Maps} {g g' : Log K}
    (hs : piece c o qr ql a b m g f = .ok (m', g', f')) : g'.lines = g.lines ∧ (∀ s ∈ g.states, s ∈ g'.states) := by
  unfold piece at hs
  simp only [bindOk, liftD_ok, polyAt_ok] at hs
  obtain ⟨⟨e, f1⟩, h1, m1, h2, x, h3, y, h4, hs⟩ := hs
  simp only [Except.ok.injEq, Prod.mk.injEq] at hs
  obtain ⟨rfl, rfl, rfl⟩ := hs
  exact ⟨rfl, fun s hs => by simp [hs]⟩

theorem pieces_log {c : Cfg K} {o qr ql b : Id} : ∀ {l : List (Verif.Front.Div K)} {start : Id} {f f' : Fr K} {m m' : Maps} {g g' : Log K},
    pieces c o qr ql b start l m g f = .ok (m', g', f') → g'.lines = g.lines ∧ (∀ s ∈ g.states, s ∈ g'.states)
  | [], start, f, f', m, m', g, g', hs => by
    rw [pieces] at hs
    split at hs
    · exact piece_log hs
    · cases hs; exact ⟨rfl, fun _ h => h⟩
  | d :: ds, start, f, f', m, m', g, g', hs => by
    rw [pieces] at hs
    split at hs
    · exact pieces_log hs
    · split at hs
      · simp only [bindOk] at hs
        obtain ⟨⟨p, f1⟩, _, hs⟩ := hs
        exact pieces_log hs
      · simp only [bindOk] at hs
        obtain ⟨⟨m1, g1, f1⟩, h1, hs⟩ := hs
        obtain ⟨a1, a2⟩ := piece_log h1
        obtain ⟨b1, b2⟩ := pieces_log hs
        exact ⟨b1.trans a1, fun s h => b2 s (a2 s h)⟩

theorem pieces_all {c : Cfg K} {r : Range K} (hm : 0 < r.m) {s0 so : St K} {o qr ql b : Id} (ho : o ∈ so.sid.live)
    (hr : sidePoly so (o, false) = some qr) (hl : sidePoly so (o, true) = some ql) :
    ∀ {l : List (Verif.Front.Div K)} {start : Id} {f f' : Fr K} {m m' : Maps} {g g' : Log K}, Ctx c r f → All s0 so f.dec m g.pieces →
      pieces c o qr ql b start l m g f = .ok (m', g', f') → (∀ s ∈ g'.states, Verif.Decomp.NoSwap s) →
      Ctx c r f' ∧ f'.tol = f.tol ∧ All s0 so f'.dec m' g'.pieces ∧ m'.other0 = m.other0 ∧ f'.dec.pid = f.dec.pid ∧ f'.dec.xy = f.dec.xy
  | [], start, f, f', m, m', g, g', hC, hA, hs, hno => by
    rw [pieces] at hs
    split at hs
    · exact piece_all hm hC hA ho hr hl hs hno
    · cases hs
      exact ⟨hC, rfl, hA, rfl, rfl, rfl⟩
  | d :: ds, start, f, f', m, m', g, g', hC, hA, hs, hno => by
    rw [pieces] at hs
    split at hs
    · exact pieces_all hm ho hr hl hC hA hs hno
    · split at hs
      · simp only [bindOk] at hs
        obtain ⟨⟨p, f1⟩, h1, hs⟩ := hs
        obtain ⟨_, rfl⟩ := mergePoints_same hC.bnd h1
        exact pieces_all hm ho hr hl hC hA hs hno
      · simp only [bindOk] at hs
        obtain ⟨⟨m1, g1, f1⟩, h1, hs⟩ := hs
        obtain ⟨_, a2⟩ := pieces_log hs
        obtain ⟨k1, k2, k3, k4, k5, k6⟩ := piece_all hm hC hA ho hr hl h1 fun s h => hno s (a2 s h)
        obtain ⟨j1, j2, j3, j4, j5, j6⟩ := pieces_all hm ho hr hl k1 k3 hs hno
        exact ⟨j1, j2.trans k2, j3, j4.trans k4, j5.trans k5, j6.trans k6⟩

theorem addSegs_log {c : Cfg K} {so : St K} {opm : Dict Id} : ∀ {es : List Id} {f f' : Fr K} {m m' : Maps} {g g' : Log K},
    addSegs c so opm es m g f = .ok (m', g', f') → (∀ x ∈ g.lines, x ∈ g'.lines) ∧ (∀ s ∈ g.states, s ∈ g'.states)
  | [], f, f', m, m', g, g', hs => by cases hs; exact ⟨fun _ h => h, fun _ h => h⟩
  | e :: es, f, f', m, m', g, g', hs => by
    rw [addSegs] at hs
    simp only [bindOk, needOk, key_ok] at hs
    obtain ⟨a, _, _, _, b, _, _, _, hs⟩ := hs
    split at hs
    · exact addSegs_log hs
    · simp only [bindOk] at hs
      obtain ⟨qr, _, ql, _, ⟨l, f1⟩, _, m1, _, ⟨m2, g2, f2⟩, h1, hs⟩ := hs
      obtain ⟨a1, a2⟩ := pieces_log h1
      obtain ⟨b1, b2⟩ := addSegs_log hs
      dsimp only at a1
      exact ⟨fun x hx => b1 x (by rw [a1]; simp [hx]), fun s h => b2 s (a2 s h)⟩

/-- Conditions on the states that an intersection goes through: no wires are parents of one another, and a new line crosses no two
segments in the same place. -/
structure Plain (c : Cfg K) (g : Log K) : Prop where
  noSwap : ∀ s ∈ g.states, Verif.Decomp.NoSwap s
  apart : ∀ x ∈ g.lines, ∀ e e' t t', Crosses c x.1 x.2.1 x.2.2 e t → Crosses c x.1 x.2.1 x.2.2 e' t' → t.2 = t'.2 → e = e'

theorem addSegs_all {c : Cfg K} {r : Range K} (hr : r.Ok) (heps : 0 ≤ c.eps) {s0 so : St K} {opm : Dict Id} :
    ∀ {es : List Id} {f f' : Fr K} {m m' : Maps} {g g' : Log K}, (∀ e ∈ es, e ∈ so.sid.live) → Ctx c r f →
      All s0 so f.dec m g.pieces → addSegs c so opm es m g f = .ok (m', g', f') → Plain c g' →
      Ctx c r f' ∧ f'.tol = f.tol ∧ All s0 so f'.dec m' g'.pieces ∧ m'.other0 = m.other0 ∧
        ∀ i ∈ f.dec.pid.live, i ∈ f'.dec.pid.live ∧ f'.dec.xy i = f.dec.xy i
  | [], f, f', m, m', g, g', _, hC, hA, hs, _ => by
    cases hs
    exact ⟨hC, rfl, hA, rfl, fun i hi => ⟨hi, rfl⟩⟩
  | e :: es, f, f', m, m', g, g', hes, hC, hA, hs, hP => by
    rw [addSegs] at hs
    simp only [bindOk, needOk, key_ok] at hs
    obtain ⟨a, _, _, ha, b, _, _, hb, hs⟩ := hs
    have hes' : ∀ e ∈ es, e ∈ so.sid.live := fun x hx => hes x (by simp [hx])
    split at hs
    · exact addSegs_all hr heps hes' hC hA hs hP
    · simp only [bindOk, liftD_ok, polyAt_ok] at hs
      obtain ⟨qr, hqr, ql, hql, ⟨l, f1⟩, h1, m1, h2, ⟨m2, g2, f2⟩, h3, hs⟩ := hs
      obtain ⟨a1, a2⟩ := pieces_log h3
      obtain ⟨b1, b2⟩ := addSegs_log hs
      dsimp only at a1
      obtain ⟨k1, k2, k3, k4⟩ := lineIsecs_runs hr heps hC ha hb (hP.apart (f, a, b) (b1 _ (by rw [a1]; simp))) h1
      obtain ⟨rfl, hold⟩ := divMaps_eq h2
      obtain ⟨d1, d2⟩ := k1.all hold hA.lift hA.mark
      obtain ⟨j1, j2, j3, j4, j5, j6⟩ := pieces_all hr.m (hes e (by simp)) hqr hql k2
        (m := { m with self1 := divSelf l m.self1 }) (g := { g with lines := g.lines ++ [(f, a, b)] }) ⟨d1, d2⟩ h3
        fun s h => hP.noSwap s (b2 s h)
      obtain ⟨i1, i2, i3, i4, i5⟩ := addSegs_all hr heps hes' j1 j3 hs hP
      refine ⟨i1, i2.trans (j2.trans k3), i3, i4.trans j4, fun i hi => ?_⟩
      obtain ⟨u1, u2⟩ := k4 i hi
      have u3 : i ∈ f2.dec.pid.live := by rw [j5]; exact u1
      obtain ⟨u4, u5⟩ := i5 i u3
      exact ⟨u4, by rw [u5, j6]; exact u2⟩

/-! ### Points -/

theorem addPoint_ctx {c : Cfg K} {r : Range K} (hr : r.Ok) {f f' : Fr K} (h : Ctx c r f) {x : K × K} (hx : Verif.Front.Bounded r.C x)
    {p : Id} (hs : Verif.Front.addPoint c x f = .ok (p, f')) :
    Ctx c r f' ∧ f'.tol = f.tol ∧ p ∈ f'.dec.pid.live ∧
      (f' = f ∨ PointAdd f.dec f'.dec p ∨ ∃ e n t, SplitAt f.dec f'.dec e n p t) := by
  unfold Verif.Front.addPoint at hs
  simp only [bindOk] at hs
  obtain ⟨z, hz, hs⟩ := hs
  have hsp := Verif.Front.snapPoint_spec hr h.good hx hz
  cases z with
  | point q =>
    cases hs
    exact ⟨h, rfl, hsp.1, Or.inl rfl⟩
  | segment e t =>
    simp only [bindOk] at hs
    obtain ⟨⟨m, f1⟩, h1, hs⟩ := hs
    cases hs
    obtain ⟨k1, k2, k3, k4⟩ := pointOnSegment_ctx hr.m h hsp.2.1 h1
    refine ⟨k1, k2, k3, ?_⟩
    rcases k4 with ⟨k4, _⟩ | k4
    · exact Or.inl k4
    · exact Or.inr (Or.inr ⟨e, m.2, t, k4⟩)
  | polygon q =>
    obtain ⟨k1, k2, k3, _⟩ := addPt_ctx hr.m h hx hs
    exact ⟨k1, k3, (k2.live p).2 (Or.inr rfl), Or.inr (Or.inl k2)⟩

theorem splitMap_all {s0 so : St K} {f f' : Fr K} {m m' : Maps} (hI : Verif.Decomp.Inv f.dec) {p : Id} (h1 : m.other1 = []) (h2 : m.other2 = [])
    (hA : All s0 so f.dec m []) (hc : f' = f ∨ PointAdd f.dec f'.dec p ∨ ∃ e n t, SplitAt f.dec f'.dec e n p t)
    (hs : splitMap f.dec.pid.live.length p f' m = .ok m') :
    All s0 so f'.dec m' [] ∧ m'.other0 = m.other0 ∧ m'.other1 = [] ∧ m'.other2 = [] := by
  unfold splitMap at hs
  rcases hc with rfl | hP | ⟨e, n, t, hS⟩
  · have : m' = m := by
      split at hs
      · cases hs; rfl
      · rw [if_neg (lt_irrefl _)] at hs
        cases hs; rfl
    subst this
    exact ⟨hA, rfl, h1, h2⟩
  · rw [hP.free] at hs
    cases hs
    obtain ⟨iv, hL⟩ := hA.lift
    exact ⟨⟨⟨iv, hL.point hI hP⟩, hA.mark.point hP⟩, rfl, h1, h2⟩
  · rw [hS.pseg] at hs
    dsimp only at hs
    rw [if_pos hS.plen] at hs
    simp only [bindOk, needOk, checkOk, hS.nx0, Option.some.injEq] at hs
    obtain ⟨k, rfl, k', _, _, _, hs⟩ := hs
    cases hs
    obtain ⟨iv, hL⟩ := hA.lift
    have hn : get m.other1 e = none := by rw [h1]; rfl
    refine ⟨⟨?_, hA.mark.split hS hn⟩, rfl, h1, h2⟩
    dsimp only
    have hL' : Lift s0 f.dec (setDefault m.self1 e e) m.self2 m.other1 iv := by
      refine hL.same1 (fun x => root_setDefault) fun x y hx => ?_
      rw [get_setDefault] at hx
      split at hx
      · next hh =>
        cases hx
        refine ⟨hh ▸ hS.was, ?_⟩
        by_contra hc
        exact hL.out e hS.was hc hn
      · exact ⟨hL.key1 x y hx, hL.val1 x y hx⟩
    exact hL'.split hI hS hn

/-- The maps of points: the results of `add_point`. -/
structure Pts (so s : St K) (ps : List Id) (d opm : Dict Id) : Prop where
  dom : ∀ p, get opm p ≠ none ↔ p ∈ ps
  live : ∀ p q, get opm p = some q → q ∈ s.pid.live ∧ get d q ≠ none
  back : ∀ q p, get d q = some p → get opm p = some q

theorem addPoints_all {c : Cfg K} {r : Range K} (hr : r.Ok) {s0 so : St K} (hso : ∀ p ∈ so.pid.live, Verif.Front.Bounded r.C (so.xy p)) :
    ∀ {ps done : List Id} {f f' : Fr K} {m m' : Maps} {opm opm' : Dict Id}, (∀ p ∈ ps, p ∈ so.pid.live) → (done ++ ps).Nodup → Ctx c r f →
      m.other1 = [] → m.other2 = [] → All s0 so f.dec m [] → Pts so f.dec done m.other0 opm →
      addPoints c so ps m opm f = .ok (m', opm', f') → Ctx c r f' ∧ f'.tol = f.tol ∧ m'.other1 = [] ∧ m'.other2 = [] ∧
        All s0 so f'.dec m' [] ∧ Pts so f'.dec (done ++ ps) m'.other0 opm'
  | [], done, f, f', m, m', opm, opm', _, _, hC, h1, h2, hA, hP, hs => by
    cases hs
    rw [List.append_nil]
    exact ⟨hC, rfl, h1, h2, hA, hP⟩
  | p :: ps, done, f, f', m, m', opm, opm', hps, hnd, hC, h1, h2, hA, hP, hs => by
    rw [addPoints] at hs
    simp only [bindOk] at hs
    obtain ⟨⟨q, f1⟩, k1, m1, k2, hs⟩ := hs
    obtain ⟨j1, j2, j3, j4⟩ := addPoint_ctx hr hC (hso p (hps p (by simp))) k1
    obtain ⟨i1, i2, i3, i4⟩ := splitMap_all hC.keep.nested.inv h1 h2 hA j4 k2
    have heq : done ++ p :: ps = done ++ [p] ++ ps := by simp
    have hpd : p ∉ done := by
      intro hh
      exact (List.nodup_append.1 hnd).2.2 p hh p (by simp) rfl
    have hnone : get opm p = none := by
      by_contra hh
      exact hpd ((hP.dom p).1 hh)
    have hpl : ∀ i ∈ f.dec.pid.live, i ∈ f1.dec.pid.live := by
      intro i hi
      rcases j4 with rfl | hQ | ⟨e, n, t, hS⟩
      · exact hi
      · exact (hQ.live i).2 (Or.inl hi)
      · exact (hS.plive i).2 (Or.inl hi)
    have hP' : Pts so f1.dec (done ++ [p]) (set m1.other0 q p) (set opm p q) := by
      rw [i2]
      refine ⟨fun x => ?_, fun x y hx => ?_, fun y x hy => ?_⟩
      · rw [get_set]
        split
        · next hh => simp [hh]
        · next hh => rw [hP.dom]; simp [hh]
      · rw [get_set] at hx
        split at hx
        · cases hx
          exact ⟨j3, by rw [get_set, if_pos rfl]; simp⟩
        · obtain ⟨b1, b2⟩ := hP.live x y hx
          refine ⟨hpl y b1, ?_⟩
          rw [get_set]
          split
          · simp
          · exact b2
      · rw [get_set] at hy ⊢
        split at hy
        · next hh => cases hy; rw [if_pos rfl, hh]
        · have := hP.back y x hy
          rw [if_neg fun hh => by rw [hh, hnone] at this; cases this]
          exact this
    obtain ⟨l1, l2, l3⟩ := addPoints_all hr hso (done := done ++ [p]) (fun x hx => hps x (by simp [hx])) (by simpa using hnd) j1
      (m := { m1 with other0 := set m1.other0 q p }) i3 i4 ⟨i1.lift, i1.mark⟩ hP' hs
    rw [heq]
    exact ⟨l1, l2.trans j2, l3⟩

end
end Verif.Merge
