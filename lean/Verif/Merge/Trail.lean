import Verif.Merge.Run

/-! The segments that a segment of the other decomposition becomes: a way from the image of its first point to the image of its
second point. -/

namespace Verif.Merge
open Verif.Decomp (St Id HE flip upd sidePoly)
open Verif.Front (Fr Cfg Err Range Good Crosses bindOk liftD_ok key_ok checkOk needOk)

section
variable {K : Type} [Field K] [LinearOrder K] [IsStrictOrderedRing K]

/-- The segments of the list are a way from the first point to the last, up to gaps that are shorter than the tolerance. -/
inductive Trail (s : St K) (tol : K) : Id → List Id → Id → Prop
  | done {a : Id} : Trail s tol a [] a
  | gap {a b z : Id} {l : List Id} : a ∈ s.pid.live → b ∈ s.pid.live → Verif.Plane.dist2 (s.xy a) (s.xy b) < tol * tol → Trail s tol b l z →
      Trail s tol a l z
  | seg {a b z e : Id} {v : Bool} {l : List Id} : e ∈ s.sid.live → s.vtx (e, v) = a → s.vtx (e, !v) = b → Trail s tol b l z →
      Trail s tol a (e :: l) z

/-- The trail is kept when its segments and points are. -/
theorem Trail.mono {s s' : St K} {tol : K} {a z : Id} {l : List Id} (h : Trail s tol a l z)
    (h1 : ∀ i ∈ s.pid.live, i ∈ s'.pid.live ∧ s'.xy i = s.xy i) (h2 : ∀ e ∈ l, e ∈ s'.sid.live ∧ ∀ v, s'.vtx (e, v) = s.vtx (e, v)) :
    Trail s' tol a l z := by
  induction h with
  | done => exact .done
  | gap ha hb hd _ ih =>
    refine .gap (h1 _ ha).1 (h1 _ hb).1 ?_ (ih h2)
    rw [(h1 _ ha).2, (h1 _ hb).2]
    exact hd
  | seg he ha hb _ ih =>
    obtain ⟨k1, k2⟩ := h2 _ List.mem_cons_self
    exact .seg k1 ((k2 _).trans ha) ((k2 _).trans hb) (ih fun e he => h2 e (by simp [he]))

omit [IsStrictOrderedRing K] in
theorem Runs.mids {s s' : St K} {l : List (Verif.Front.Div K)} (h : Runs s l s') :
    (∀ i ∈ s.pid.live, i ∈ s'.pid.live) ∧ (∀ e ∈ s.sid.live, e ∈ s'.sid.live) ∧ (∀ d ∈ l, d.mid ∈ s'.pid.live) ∧
      ∀ e ∈ s.sid.live, (∀ d ∈ l, d.old ≠ e) → ∀ v, s'.vtx (e, v) = s.vtx (e, v) := by
  induction h with
  | nil => exact ⟨fun _ h => h, fun _ h => h, by simp, fun _ _ _ _ => rfl⟩
  | @same s s' d ds _ _ hm _ ih =>
    obtain ⟨i1, i2, i3, i4⟩ := ih
    refine ⟨i1, i2, fun x hx => ?_, fun e he hd => i4 e he fun x hx => hd x (by simp [hx])⟩
    rcases List.mem_cons.1 hx with rfl | hx
    · exact i1 _ hm
    · exact i3 x hx
  | @split s s1 s' d ds t _ hS _ ih =>
    obtain ⟨i1, i2, i3, i4⟩ := ih
    refine ⟨fun i hi => i1 i ((hS.plive i).2 (Or.inl hi)), fun e he => i2 e ((hS.live e).2 (Or.inl he)), fun x hx => ?_, fun e he hd v => ?_⟩
    · rcases List.mem_cons.1 hx with rfl | hx
      · exact i1 _ ((hS.plive _).2 (Or.inr rfl))
      · exact i3 x hx
    · rw [i4 e ((hS.live e).2 (Or.inl he)) (fun x hx => hd x (by simp [hx])) v]
      exact hS.vo e he (fun hh => hd d (by simp) hh.symm) v

/-- The segments of the pieces of a segment `o`. -/
def segsOf (o : Id) (ps : List (Id × Id × Id)) : List Id := (ps.filter fun x => x.1 = o).map fun x => x.2.2

theorem segsOf_append (o : Id) (ps qs : List (Id × Id × Id)) : segsOf o (ps ++ qs) = segsOf o ps ++ segsOf o qs := by
  simp [segsOf]

theorem piece_trail {c : Cfg K} {r : Range K} (hm : 0 < r.m) {f f' : Fr K} {m m' : Maps} {g g' : Log K} (h : Ctx c r f) {o qr ql a b : Id}
    (hs : piece c o qr ql a b m g f = .ok (m', g', f')) (hno : ∀ s ∈ g'.states, Verif.Decomp.NoSwap s) :
    ∃ e v, g'.pieces = g.pieces ++ [(o, a, e)] ∧ e ∈ f'.dec.sid.live ∧ f'.dec.vtx (e, v) = a ∧ f'.dec.vtx (e, !v) = b ∧
      ∀ j ∈ f.dec.sid.live, j ∈ f'.dec.sid.live ∧ ∀ v, f'.dec.vtx (j, v) = f.dec.vtx (j, v) := by
  unfold piece at hs
  simp only [bindOk, liftD_ok, polyAt_ok] at hs
  obtain ⟨⟨e, f1⟩, h1, m1, h2, x, h3, y, h4, hs⟩ := hs
  simp only [Except.ok.injEq, Prod.mk.injEq] at hs
  obtain ⟨rfl, rfl, rfl⟩ := hs
  obtain ⟨_, _, _, _, _, k6, k7, k8, _, v, k10, k11⟩ := addSegment_ctx hm h h1 (hno f1.dec (by simp))
  exact ⟨e, v, rfl, k6, k10, k11, fun j hj => ⟨(k7 j).2 (Or.inl hj), k8 j hj⟩⟩

theorem pieces_trail {c : Cfg K} {r : Range K} (hm : 0 < r.m) {s0 so : St K} {o qr ql b : Id} (ho : o ∈ so.sid.live)
    (hr : sidePoly so (o, false) = some qr) (hl : sidePoly so (o, true) = some ql) :
    ∀ {l : List (Verif.Front.Div K)} {start : Id} {f f' : Fr K} {m m' : Maps} {g g' : Log K}, Ctx c r f → All s0 so f.dec m g.pieces →
      start ∈ f.dec.pid.live → (∀ d ∈ l, d.mid ∈ f.dec.pid.live) →
      pieces c o qr ql b start l m g f = .ok (m', g', f') → (∀ s ∈ g'.states, Verif.Decomp.NoSwap s) →
      ∃ ps, g'.pieces = g.pieces ++ ps ∧ (∀ x ∈ ps, x.1 = o) ∧ Trail f'.dec f.tol start (ps.map fun x => x.2.2) b ∧
        ∀ j ∈ f.dec.sid.live, j ∈ f'.dec.sid.live ∧ ∀ v, f'.dec.vtx (j, v) = f.dec.vtx (j, v)
  | [], start, f, f', m, m', g, g', hC, hA, hst, hmid, hs, hno => by
    rw [pieces] at hs
    split at hs
    · obtain ⟨e, v, k1, k2, k3, k4, k5⟩ := piece_trail hm hC hs hno
      exact ⟨_, k1, by simp, .seg k2 k3 k4 .done, k5⟩
    · next hb =>
      cases hs
      exact ⟨[], by simp, by simp, not_not.1 hb ▸ .done, fun j hj => ⟨hj, fun _ => rfl⟩⟩
  | d :: ds, start, f, f', m, m', g, g', hC, hA, hst, hmid, hs, hno => by
    have hds : ∀ x ∈ ds, x.mid ∈ f.dec.pid.live := fun x hx => hmid x (by simp [hx])
    rw [pieces] at hs
    split at hs
    · exact pieces_trail hm ho hr hl hC hA hst hds hs hno
    · split at hs
      · next hlt =>
        simp only [bindOk] at hs
        obtain ⟨⟨p, f1⟩, h1, hs⟩ := hs
        obtain ⟨rfl, rfl⟩ := mergePoints_same hC.bnd h1
        obtain ⟨ps, k1, k2, k3, k4⟩ := pieces_trail hm ho hr hl hC hA (hmid d (by simp)) hds hs hno
        obtain ⟨_, _, _, _, u5, u6⟩ := pieces_all hm ho hr hl hC hA hs hno
        refine ⟨ps, k1, k2, .gap (by rw [u5]; exact hst) (by rw [u5]; exact hmid d (by simp)) ?_ k3, k4⟩
        rw [u6]
        exact hlt.2
      · simp only [bindOk] at hs
        obtain ⟨⟨m1, g1, f1⟩, h1, hs⟩ := hs
        obtain ⟨_, a2⟩ := pieces_log hs
        obtain ⟨k1, k2, k3, k4, k5, k6⟩ := piece_all hm hC hA ho hr hl h1 fun s h => hno s (a2 s h)
        obtain ⟨e, v, e1, e2, e3, e4, e5⟩ := piece_trail hm hC h1 fun s h => hno s (a2 s h)
        obtain ⟨ps, j1, j2, j3, j4⟩ := pieces_trail hm ho hr hl k1 k3 (by rw [k5]; exact hmid d (by simp))
          (fun x hx => by rw [k5]; exact hds x hx) hs hno
        obtain ⟨w1, w2⟩ := j4 e e2
        refine ⟨(o, start, e) :: ps, by rw [j1, e1]; simp, ?_, .seg w1 ((w2 v).trans e3) ((w2 _).trans e4) (k2 ▸ j3), fun j hj => ?_⟩
        · intro x hx
          rcases List.mem_cons.1 hx with rfl | hx
          · rfl
          · exact j2 x hx
        · exact ⟨(j4 j (e5 j hj).1).1, fun v => ((j4 j (e5 j hj).1).2 v).trans ((e5 j hj).2 v)⟩

/-- The segments of the other decomposition that were added are ways between the images of their points. -/
theorem addSegs_trail {c : Cfg K} {r : Range K} (hr : r.Ok) (heps : 0 ≤ c.eps) {s0 so : St K} {opm : Dict Id} :
    ∀ {es : List Id} {f f' : Fr K} {m m' : Maps} {g g' : Log K}, (∀ e ∈ es, e ∈ so.sid.live) → es.Nodup → Ctx c r f →
      All s0 so f.dec m g.pieces → addSegs c so opm es m g f = .ok (m', g', f') → Plain c g' →
      (∀ j ∈ f.dec.sid.live, get m.other1 j ≠ none → j ∈ f'.dec.sid.live ∧ ∀ v, f'.dec.vtx (j, v) = f.dec.vtx (j, v)) ∧
      (∃ ps, g'.pieces = g.pieces ++ ps ∧ (∀ x ∈ ps, x.1 ∈ es) ∧ ∀ o ∈ es, ∃ a b, get opm (so.vtx (o, false)) = some a ∧
        get opm (so.vtx (o, true)) = some b ∧ Trail f'.dec f.tol a (segsOf o ps) b)
  | [], f, f', m, m', g, g', _, _, hC, hA, hs, _ => by
    cases hs
    exact ⟨fun j hj _ => ⟨hj, fun _ => rfl⟩, [], by simp, by simp, by simp⟩
  | e :: es, f, f', m, m', g, g', hes, hnd, hC, hA, hs, hP => by
    rw [addSegs] at hs
    simp only [bindOk, needOk, key_ok] at hs
    obtain ⟨a, hga, _, ha, b, hgb, _, hb, hs⟩ := hs
    have hes' : ∀ e ∈ es, e ∈ so.sid.live := fun x hx => hes x (by simp [hx])
    obtain ⟨hne, hnd'⟩ := List.nodup_cons.1 hnd
    have hout : ∀ (ps : List (Id × Id × Id)), (∀ x ∈ ps, x.1 ∈ es) → segsOf e ps = [] := by
      intro ps hps
      simp only [segsOf, List.map_eq_nil_iff, List.filter_eq_nil_iff, decide_eq_true_eq]
      exact fun x hx hh => hne (hh ▸ hps x hx)
    split at hs
    · next hab =>
      obtain ⟨k1, ps, k2, k3, k4⟩ := addSegs_trail hr heps hes' hnd' hC hA hs hP
      refine ⟨k1, ps, k2, fun x hx => by simp [k3 x hx], fun o ho => ?_⟩
      rcases List.mem_cons.1 ho with rfl | ho
      · refine ⟨a, b, hga, hgb, ?_⟩
        rw [hout ps k3, hab]
        exact .done
      · exact k4 o ho
    · simp only [bindOk, liftD_ok, polyAt_ok] at hs
      obtain ⟨qr, hqr, ql, hql, ⟨l, f1⟩, h1, m1, h2, ⟨m2, g2, f2⟩, h3, hs⟩ := hs
      obtain ⟨a1, a2⟩ := pieces_log h3
      obtain ⟨b1, b2⟩ := addSegs_log hs
      dsimp only at a1
      obtain ⟨k1, k2, k3, k4⟩ := lineIsecs_runs hr heps hC ha hb (hP.apart (f, a, b) (b1 _ (by rw [a1]; simp))) h1
      obtain ⟨rfl, hold⟩ := divMaps_eq h2
      obtain ⟨d1, d2⟩ := k1.all hold hA.lift hA.mark
      obtain ⟨n1, n2, n3, n4⟩ := k1.mids
      obtain ⟨j1, j2, j3, j4, j5, j6⟩ := pieces_all hr.m (hes e (by simp)) hqr hql k2
        (m := { m with self1 := divSelf l m.self1 }) (g := { g with lines := g.lines ++ [(f, a, b)] }) ⟨d1, d2⟩ h3
        fun s h => hP.noSwap s (b2 s h)
      obtain ⟨ps, p1, p2, p3, p4⟩ := pieces_trail hr.m (hes e (by simp)) hqr hql k2
        (m := { m with self1 := divSelf l m.self1 }) (g := { g with lines := g.lines ++ [(f, a, b)] }) ⟨d1, d2⟩ (n1 a ha)
        (fun d hd => n3 d ((List.perm_insertionSort _ _).mem_iff.1 hd)) h3 fun s h => hP.noSwap s (b2 s h)
      dsimp only at p1
      obtain ⟨q1, ps', q2, q3, q4⟩ := addSegs_trail hr heps hes' hnd' j1 j3 hs hP
      obtain ⟨_, _, _, _, i5⟩ := addSegs_all hr heps hes' j1 j3 hs hP
      have hps : ∀ x ∈ ps, get m2.other1 x.2.2 ≠ none := by
        intro x hx
        exact (j3.mark.pc x.1 x.2.1 x.2.2 (by rw [p1]; simp [hx])).1
      have hsegs : segsOf e ps = ps.map fun x => x.2.2 := by
        unfold segsOf
        rw [List.filter_eq_self.2]
        intro x hx
        simp [p2 x hx]
      have hkept : ∀ j, get m.other1 j ≠ none → get m2.other1 j ≠ none := by
        intro j hj
        obtain ⟨y, hy⟩ := Option.ne_none_iff_exists'.1 hj
        obtain ⟨z, hz⟩ := hA.mark.own j y hy
        exact (j3.mark.pc y z j (by rw [p1]; simp [hz])).1
      refine ⟨fun j hj hjm => ?_, ps ++ ps', by rw [q2, p1]; simp, ?_, fun o ho => ?_⟩
      · have hv1 := n4 j hj fun d hd hh => hjm (hh ▸ hold d hd)
        obtain ⟨w1, w2⟩ := p4 j (n2 j hj)
        obtain ⟨w3, w4⟩ := q1 j w1 (hkept j hjm)
        exact ⟨w3, fun v => (w4 v).trans ((w2 v).trans (hv1 v))⟩
      · intro x hx
        rcases List.mem_append.1 hx with hx | hx
        · rw [p2 x hx]; simp
        · simp [q3 x hx]
      · rcases List.mem_cons.1 ho with rfl | ho
        · refine ⟨a, b, hga, hgb, ?_⟩
          rw [segsOf_append, hout ps' q3, List.append_nil, hsegs, ← k3]
          refine p3.mono i5 fun y hy => ?_
          obtain ⟨x, hx, rfl⟩ := List.mem_map.1 hy
          have hl := j3.mark.key1 _ (hps x hx)
          exact q1 _ hl (hps x hx)
        · obtain ⟨a', b', u1, u2, u3⟩ := q4 o ho
          refine ⟨a', b', u1, u2, ?_⟩
          have : segsOf o ps = [] := by
            simp only [segsOf, List.map_eq_nil_iff, List.filter_eq_nil_iff, decide_eq_true_eq]
            exact fun x hx hh => hne ((p2 x hx).symm.trans hh ▸ ho)
          rw [segsOf_append, this, List.nil_append, ← k3, ← j2]
          exact u3

end
end Verif.Merge
