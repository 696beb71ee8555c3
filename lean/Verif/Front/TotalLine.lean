import Verif.Front.Total

/-! Lines added by the frontend raise nothing but the limit of recursion. -/

namespace Verif.Front
open Verif.Decomp (St Id HE Geom segPt between Planar Tiled ArgOk FreeLine)
open Verif.Plane (parametric projectPoint intersection dist2)

variable {K : Type} [Field K] [LinearOrder K] [IsStrictOrderedRing K]

/-! ### The crossings -/

theorem pointOnSegment_keeps {c : Cfg K} {r : Range K} (hm : 0 < r.m) {f f' : Fr K} (hG : Good c r f) {e : Id}
    (he : e ∈ f.dec.sid.live) {t : K} {m : Id × Id} (h : pointOnSegment e t f = .ok (m, f')) :
    ∀ i ∈ f.dec.sid.live, i ∈ f'.dec.sid.live := by
  by_cases h0 : scaledLt t (dot (f.dec.vec e) (f.dec.vec e)) f.tol
  · unfold pointOnSegment at h
    dsimp only at h
    rw [if_pos h0] at h
    cases h
    exact fun i hi => hi
  by_cases h1 : scaledLt (1 - t) (dot (f.dec.vec e) (f.dec.vec e)) f.tol
  · unfold pointOnSegment at h
    dsimp only at h
    rw [if_neg h0, if_pos h1] at h
    cases h
    exact fun i hi => hi
  obtain ⟨_, _, _, _, _, _, _, g8, _⟩ := pointOnSegment_split hm hG he h h0 h1
  exact fun i hi => (g8 i).2 (Or.inr hi)

theorem segIsecs_total {c : Cfg K} (hg : ArgOk c.geo) {r : Range K} (hm : 0 < r.m) {a b : Id} : ∀ {es : List Id} {l : List (Div K)}
    {f : Fr K}, Good c r f → Tiled c.geo f.dec → (∀ e ∈ es, e ∈ f.dec.sid.live) → ∃ x, segIsecs c a b es l f = .ok x
  | [], l, f, _, _, _ => ⟨_, rfl⟩
  | e :: es, l, f, hG, hT, hl => by
    have he := hl e (by simp)
    rw [segIsecs]
    refine exBind (a := ()) (key_ok.2 he) ?_
    split
    · exact segIsecs_total hg hm hG hT fun e' he' => hl e' (by simp [he'])
    · next t ht =>
      obtain ⟨⟨m, f1⟩, h1⟩ := pointOnSegment_total hT he t.1
      refine exBind h1 ?_
      exact segIsecs_total hg hm (prims_good hm (pointOnSegment_prims (c := c) h1) hG) (pointOnSegment_tiled hg hm hG he h1 hT)
        fun e' he' => pointOnSegment_keeps hm hG he h1 e' (hl e' (by simp [he']))

theorem lineIsecs_total {c : Cfg K} (hg : ArgOk c.geo) {r : Range K} (hr : r.Ok) (heps : 0 ≤ c.eps) {a b : Id} {f : Fr K}
    (hG : Good c r f) (hT : Tiled c.geo f.dec) (ha : a ∈ f.dec.pid.live) (hb : b ∈ f.dec.pid.live) : ∃ x, lineIsecs c a b f = .ok x := by
  obtain ⟨x, hx⟩ := boxOf_total f (f.dec.xy a) [f.dec.xy b]
  unfold lineIsecs
  exact exBind hx (segIsecs_total hg hr.m hG hT (line_candidates hr heps hG ha hb hx).2.1)

omit [IsStrictOrderedRing K] in
theorem segIsecs_none {c : Cfg K} {a b : Id} {l : List (Div K)} {f : Fr K} : ∀ {es : List Id}, (∀ e ∈ es, e ∈ f.dec.sid.live) →
    (∀ e ∈ es, ∀ t, ¬ Crosses c f a b e t) → segIsecs c a b es l f = .ok (l, f)
  | [], _, _ => rfl
  | e :: es, hl, hno => by
    have he := hl e (by simp)
    have hi : intersection c.eps (f.dec.xy (f.dec.vtx (e, false))) (f.dec.vec e) (f.dec.xy a) (f.dec.xy b) = none := by
      by_contra hh
      obtain ⟨t, ht⟩ := Option.ne_none_iff_exists'.1 hh
      exact hno e (by simp) t ⟨he, ht⟩
    rw [segIsecs]
    refine bindOk.2 ⟨(), key_ok.2 he, ?_⟩
    rw [hi]
    exact segIsecs_none (fun e' he' => hl e' (by simp [he'])) fun e' he' => hno e' (by simp [he'])

/-! ### The new segments -/

/-- The drawing is wide after each new segment of the line. -/
def WideSegs (c : Cfg K) (b : Id) : Id → List (Div K) → Fr K → Prop
  | a, [], f => ∀ e f', addSegment c a b f = .ok (e, f') → Wide c f'.dec
  | a, d :: ds, f => ∀ e f', addSegment c a d.mid f = .ok (e, f') → Wide c f'.dec ∧ WideSegs c b d.mid ds f'

/-- A piece of the line from the parameter `τ` to the parameter `σ` is free. -/
theorem piece_free {s : St K} (hP : Planar s) {p q : Id} (hp : p ∈ s.pid.live) {X Y : K × K} {τ σ : K} (hτσ : τ < σ)
    (hxp : s.xy p = between X Y τ) (hxq : s.xy q = between X Y σ)
    (hpts : ∀ i ∈ s.pid.live, ∀ t, τ < t → t ≤ σ → s.xy i = between X Y t → i = q)
    (hmeets : ∀ e ∈ s.sid.live, ∀ u t, 0 ≤ u → u ≤ 1 → τ ≤ t → t ≤ σ → segPt s e u = between X Y t →
      ∃ i ∈ s.pid.live, s.xy i = between X Y t) : FreeLine s p q := by
  have hpart : ∀ u, between (s.xy p) (s.xy q) u = between X Y (τ + u * (σ - τ)) := by
    intro u
    rw [hxp, hxq, Verif.Decomp.between_part]
  have hrange : ∀ u, 0 ≤ u → u ≤ 1 → τ ≤ τ + u * (σ - τ) ∧ τ + u * (σ - τ) ≤ σ := by
    intro u u0 u1
    have k1 := mul_nonneg u0 (sub_nonneg.2 hτσ.le)
    have k2 := mul_nonneg (sub_nonneg.2 u1) (sub_nonneg.2 hτσ.le)
    exact ⟨by linarith, by linarith⟩
  constructor
  · intro i hi u u0 u1 hh
    rw [hpart] at hh
    obtain ⟨k1, k2⟩ := hrange u u0 u1
    rcases k1.eq_or_lt with k | k
    · left
      rw [← k, ← hxp] at hh
      exact hP.pts i hi p hp hh
    · exact Or.inr (hpts i hi _ k k2 hh)
  · intro i hi _ u u' u0 u1 u0' u1' hh
    rw [hpart] at hh
    obtain ⟨k1, k2⟩ := hrange u' u0' u1'
    obtain ⟨j, hj, hx⟩ := hmeets i hi u _ u0 u1 k1 k2 hh
    exact ⟨j, hj, by rw [hh]; exact hx⟩

/-- The points of the division can be joined in turn. -/
theorem newSegs_total {c : Cfg K} (hg : ArgOk c.geo) (hge : 0 < c.geo.eps) (h0 : 0 ≤ c.geo.tiny) {r : Range K} (hm : 0 < r.m)
    (htiny : 2 * (c.geo.tiny * c.geo.tiny) < r.m * r.m) {b : Id} {X Y : K × K} (hXY : X ≠ Y) : ∀ {ds : List (Div K)} {a : Id}
    {g : Fr K} {τ : K}, Good c r g → Tiled c.geo g.dec → WideSegs c b a ds g → Apart g a (ds.map Div.mid) →
    (ds.map Div.mid ++ [b]).getLast? ≠ (a :: ds.map Div.mid).getLast? →
    (∀ p, (a :: ds.map Div.mid).getLast? = some p → Long c.geo (g.dec.xy p) (g.dec.xy b)) →
    a ∈ g.dec.pid.live → b ∈ g.dec.pid.live → τ < 1 → g.dec.xy a = between X Y τ → g.dec.xy b = Y →
    (∀ d ∈ ds, g.dec.xy d.mid = between X Y d.t ∧ d.mid ∈ g.dec.pid.live ∧ τ < d.t ∧ d.t < 1) → ds.Pairwise (fun x y => x.t < y.t) →
    (∀ i ∈ g.dec.pid.live, ∀ t, τ < t → t ≤ 1 → g.dec.xy i = between X Y t → i = b ∨ ∃ d ∈ ds, d.mid = i) →
    (∀ e ∈ g.dec.sid.live, ∀ u t, 0 ≤ u → u ≤ 1 → τ ≤ t → t ≤ 1 → segPt g.dec e u = between X Y t →
      ∃ i ∈ g.dec.pid.live, g.dec.xy i = between X Y t) → ∃ x, newSegs c b a ds g = .ok x
  | [], a, g, τ, hG, hT, hW, _, hlast, hend, hal, hbl, hτ, ha, hb, hds, hord, hpts, hmeets => by
    simp only [List.map_nil, List.nil_append, List.getLast?_singleton, ne_eq, Option.some.injEq] at hlast
    rw [newSegs, if_pos (fun hh => hlast hh.symm)]
    have hfree : FreeLine g.dec a b := by
      refine piece_free hT.drawn.planar hal hτ ha (by rw [hb, Verif.Decomp.between_one]) ?_ hmeets
      intro i hi t t0 t1 hx
      rcases hpts i hi t t0 t1 hx with h | ⟨d, hd, _⟩
      · exact h
      · cases hd
    obtain ⟨y, hy⟩ := addSegment_total hg h0 hT hal hbl hfree (hend a rfl)
    exact exBind hy ⟨_, rfl⟩
  | d :: ds, a, g, τ, hG, hT, hW, hap, hlast, hend, hal, hbl, hτ, ha, hb, hds, hord, hpts, hmeets => by
    obtain ⟨h1, h2, h3⟩ := hap
    obtain ⟨hd1, hd2, hd3, hd4⟩ := hds d (by simp)
    obtain ⟨ho1, ho2⟩ := List.pairwise_cons.1 hord
    obtain ⟨po, so, hM⟩ := hG.mirror
    have htol : 0 < g.tol := lt_of_lt_of_le hm hM.tol.1
    have hinj : ∀ {s s' : K}, between X Y s = between X Y s' → s = s' := fun hh => Verif.Decomp.between_inj hXY hh
    have hpts' : ∀ i ∈ g.dec.pid.live, ∀ t, τ < t → t ≤ d.t → g.dec.xy i = between X Y t → i = d.mid := by
      intro i hi t t0 t1 hx
      rcases hpts i hi t t0 (by linarith) hx with rfl | ⟨d', hd', rfl⟩
      · have := hinj ((Verif.Decomp.between_one X Y).trans (hb.symm.trans hx))
        linarith
      · rcases List.mem_cons.1 hd' with rfl | hd'
        · rfl
        · have h5 := (hds d' (by simp [hd'])).1
          rw [hx] at h5
          have := hinj h5
          have := ho1 d' hd'
          linarith
    have hmeets' : ∀ e ∈ g.dec.sid.live, ∀ u t, 0 ≤ u → u ≤ 1 → τ ≤ t → t ≤ d.t → segPt g.dec e u = between X Y t →
        ∃ i ∈ g.dec.pid.live, g.dec.xy i = between X Y t := fun e he u t u0 u1 t0 t1 => hmeets e he u t u0 u1 t0 (by linarith)
    have hlong : Long c.geo (g.dec.xy a) (g.dec.xy d.mid) := by
      refine long_of_far htiny ?_
      by_contra hh
      exact h2 ⟨htol, lt_of_lt_of_le (not_le.1 hh) (mul_self_le_mul_self hm.le hM.tol.1)⟩
    obtain ⟨⟨e, g1⟩, hadd⟩ := addSegment_total hg h0 hT hal hd2 (piece_free hT.drawn.planar hal hd3 ha hd1 hpts' hmeets') hlong
    obtain ⟨k1, k2, k3, k4, k5⟩ := addSegment_planar hG hadd hT.drawn.planar hXY hd3 ha hd1 hpts' hmeets'
    have hG1 := prims_good hm (.single (.addSegment hadd)) hG
    obtain ⟨hw1, hw2⟩ := hW e g1 hadd
    have hT1 := addSegment_tiled hg hge hm hG hadd k1 hw1 hT
    rw [newSegs, if_neg h1, if_neg h2]
    refine exBind hadd ?_
    dsimp only
    refine Exists.elim (newSegs_total hg hge h0 hm htiny hXY (ds := ds) (a := d.mid) (g := g1) (τ := d.t) hG1 hT1 hw2 (h3.congr k2 k4)
      (by simpa [List.getLast?_append, List.getLast?_cons] using hlast) ?_ (by rw [k3]; exact hd2) (by rw [k3]; exact hbl) hd4
      (by rw [k2]; exact hd1) (by rw [k2]; exact hb) ?_ ho2 ?_ ?_) (fun x hx => exBind hx ⟨_, rfl⟩)
    · intro p hp
      rw [k2]
      exact hend p (by rw [← hp]; simp [List.getLast?_cons])
    · intro d' hd'
      obtain ⟨j1, j2, j3, j4⟩ := hds d' (by simp [hd'])
      exact ⟨by rw [k2]; exact j1, by rw [k3]; exact j2, ho1 d' hd', j4⟩
    · intro i hi t t0 t1 hx
      rw [k3] at hi
      rw [k2] at hx
      rcases hpts i hi t (by linarith) t1 hx with h | ⟨d', hd', rfl⟩
      · exact Or.inl h
      · rcases List.mem_cons.1 hd' with rfl | hd'
        · rw [hx] at hd1
          have := hinj hd1
          linarith
        · exact Or.inr ⟨d', hd', rfl⟩
    · intro e' he' u t u0 u1 t0 t1 hx
      rw [k2, k3]
      rcases k5 e' he' u t u0 u1 t0 hx with rfl | ⟨he', hx'⟩
      · exact ⟨d.mid, hd2, hd1⟩
      · exact hmeets e' he' u t u0 u1 (by linarith) t1 hx'

/-- An open line without crossings is free. -/
theorem Open.freeLine {c : Cfg K} {r : Range K} {f : Fr K} (hG : Good c r f) (hm : 0 < r.m)
    (hC : c.eps * c.eps * (8 * (r.C * r.C)) < r.m * r.m) {a b : Id} (ha : a ∈ f.dec.pid.live) (hb : b ∈ f.dec.pid.live) (hab : a ≠ b)
    (hO : Open c f a b) (hP : Planar f.dec) (hno : ∀ e t, ¬ Crosses c f a b e t) : FreeLine f.dec a b := by
  constructor
  · intro p hp u u0 u1 hx
    by_contra hh
    rw [not_or] at hh
    exact hO.free p hp hh.1 hh.2 u u0 u1 hx
  · intro i hi hj u u' u0 u1 u0' u1' hh
    rcases hO.meets hG hm hC ha hb hab hP hi u0 u1 u0' u1' hh hj with ⟨v, hv⟩ | hcr
    · exact ⟨_, hG.reach.reach.inv.links.vlive (i, v) hi, hv.trans hh.symm⟩
    · exact absurd hcr (hno i _)

/-- The ends of a crossed line are not joined. -/
theorem not_joined {c : Cfg K} {r : Range K} {f : Fr K} (heps : 0 ≤ c.eps) (hG : Good c r f) (hP : Planar f.dec) {a b e0 : Id}
    (he0 : e0 ∈ f.dec.sid.live) {v : Bool} (hva : f.dec.vtx (e0, v) = a) (hvb : f.dec.vtx (e0, !v) = b) (e : Id) (t : K × K) :
    ¬ Crosses c f a b e t := by
  intro hcr
  have hI := hG.reach.reach.inv
  have hV := Verif.Decomp.vectors_exact_partial hG.reach
  have hline : ∀ t, lineAt f a b t = segPt f.dec e0 (if v then 1 - t else t) := by
    intro t
    rw [lineAt_between, segPt, ← hva, ← hvb]
    cases v
    · rfl
    · simp only [if_true, Bool.not_true, between, Prod.mk.injEq]
      constructor <;> ring
  have hpar : Verif.Plane.Parallel (f.dec.vec e0) (sub (f.dec.xy b) (f.dec.xy a)) := by
    rw [hV e0 he0, ← hva, ← hvb]
    unfold Verif.Plane.Parallel
    cases v <;> simp only [sub, Bool.not_true, Bool.not_false] <;> ring
  obtain ⟨he, hnp, hat, ⟨w1, w2⟩, w3, w4⟩ := crosses_iff.1 hcr
  have hne : e ≠ e0 := fun hh => hnp (hh ▸ hpar)
  rw [at_seg hG he, hline] at hat
  obtain ⟨w, w', _, hx⟩ := hP.meet e he e0 he0 hne _ _ (by linarith) (by linarith)
    (by cases v <;> simp <;> linarith) (by cases v <;> simp <;> linarith) hat
  rw [← Verif.Decomp.segPt_end] at hx
  have := Verif.Decomp.between_inj (hP.ends_ne hI.links he) hx
  cases w <;> simp at this <;> linarith

/-- A crossing of an open line is far from its second end. -/
theorem Open.stop {c : Cfg K} {r : Range K} {f : Fr K} (hG : Good c r f) (heps : 0 ≤ c.eps) {a b : Id} (hO : Open c f a b) {e : Id}
    {t : K × K} (hcr : Crosses c f a b e t) : f.tol * f.tol ≤ dist2 (f.dec.xy b) (lineAt f a b t.2) := by
  obtain ⟨he, hnp, hat, ⟨w1, w2⟩, w3, w4⟩ := crosses_iff.1 hcr
  have hnv : ∀ v, f.dec.vtx (e, v) ≠ b := by
    intro v hv
    have h1 : at_ f e (if v then 1 else 0) = lineAt f a b 1 := by
      rw [at_seg hG he, Verif.Decomp.segPt_end, hv]
      exact (Verif.Decomp.between_one _ _).symm
    have := (parametric_parallel hat h1 hnp).2
    linarith
  have := hO.away e he b (Or.inr rfl) hnv t.1 (by linarith) (by linarith)
  rwa [← at_seg hG he, hat] at this

/-- A line that is not snapped to a point between raises nothing. -/
theorem leaf_total {c : Cfg K} (hg : ArgOk c.geo) (hge : 0 < c.geo.eps) (h0 : 0 ≤ c.geo.tiny) {r : Range K} (hr : r.Ok)
    (htiny : 2 * (c.geo.tiny * c.geo.tiny) < r.m * r.m) (heps : 0 ≤ c.eps)
    (hC : c.eps * c.eps * (8 * (r.C * r.C)) < r.m * r.m) {f : Fr K} (hG : Good c r f) {a b : Id} (ha : a ∈ f.dec.pid.live)
    (hb : b ∈ f.dec.pid.live) (hab : a ≠ b) (hO : Open c f a b) (hT : Tiled c.geo f.dec) (hlong : Long c.geo (f.dec.xy a) (f.dec.xy b))
    (hW : ∀ ds f1, lineIsecs c a b f = .ok (ds, f1) → WideSegs c b a (ds.insertionSort fun x y => x.t ≤ y.t) f1) :
    ∃ ds f1, lineIsecs c a b f = .ok (ds, f1) ∧ ∃ x, lineSegs c a b ds f1 = .ok x := by
  have hI := hG.reach.reach.inv
  have hP := hT.drawn.planar
  obtain ⟨po, so, hM⟩ := hG.mirror
  have hmm : r.m * r.m ≤ f.tol * f.tol := mul_self_le_mul_self hr.m.le hM.tol.1
  by_cases hno : ∀ e t, ¬ Crosses c f a b e t
  · obtain ⟨x, hx⟩ := boxOf_total f (f.dec.xy a) [f.dec.xy b]
    refine ⟨[], f, bindOk.2 ⟨x, hx, segIsecs_none (line_candidates hr heps hG ha hb hx).2.1 fun e _ => hno e⟩, ?_⟩
    unfold lineSegs
    rw [List.insertionSort_nil, newSegs, if_pos hab]
    obtain ⟨y, hy⟩ := addSegment_total hg h0 hT ha hb (hO.freeLine hG hr.m hC ha hb hab hP hno) hlong
    exact exBind hy ⟨_, rfl⟩
  push Not at hno
  obtain ⟨ec, tc, hcross⟩ := hno
  obtain ⟨⟨ds, f1⟩, hl⟩ := lineIsecs_total hg hr heps hG hT ha hb
  refine ⟨ds, f1, hl, ?_⟩
  have hW := hW ds f1 hl
  have hxab : f.dec.xy a ≠ f.dec.xy b := fun hh => hab (hP.pts a ha b hb hh)
  have hinj : ∀ {s s' : K}, lineAt f a b s = lineAt f a b s' → s = s' := fun hh => Verif.Decomp.between_inj hxab hh
  obtain ⟨done, hL, c3⟩ := lineIsecs_loop hr heps hG ha hb hO.toClear hl
  obtain ⟨hsort, hperm, hkeys, hitems, hap, hlast⟩ := loop_sorted ha hb hab hO.toClear hL
  have hT1 : Tiled c.geo f1.dec := by
    simp only [lineIsecs, bindOk] at hl
    obtain ⟨x, _, hl⟩ := hl
    exact segIsecs_tiled hg hr.m hG hl hT
  unfold lineSegs
  generalize ds.insertionSort (fun x y : Div K => x.t ≤ y.t) = sd at hW hsort hperm hkeys hitems hap hlast
  have hmeet : ∀ e ∈ f1.dec.sid.live, ∀ u t, 0 ≤ u → u ≤ 1 → 0 ≤ t → t ≤ 1 → segPt f1.dec e u = lineAt f a b t →
      ∃ i ∈ f1.dec.pid.live, f1.dec.xy i = lineAt f a b t := by
    intro e he u t u0 u1 t0 t1 hh
    obtain ⟨e', he', hpart⟩ := hL.parts e he
    obtain ⟨u', v0, v1, hu⟩ := hpart u u0 u1
    rcases hO.meets hG hr.m hC ha hb hab hP he' v0 v1 t0 t1 (hu.symm.trans hh)
      (fun v hv => not_joined heps hG hP he' hv.1 hv.2 ec tc hcross) with ⟨v, hv⟩ | hcr
    · obtain ⟨k1, k2⟩ := hL.pts _ (hI.links.vlive (e', v) he')
      exact ⟨_, k1, k2.trans hv⟩
    · obtain ⟨_, p, n, _, _, k3, _, k5, _⟩ := hL.cut e' (c3 e' _ hcr) _ hcr
      exact ⟨p, k3, k5⟩
  refine newSegs_total hg hge h0 hr.m htiny hxab (τ := 0) hL.good hT1 hW hap hlast ?_ (hL.pts a ha).1 (hL.pts b hb).1 zero_lt_one ?_
    (hL.pts b hb).2 ?_ ?_ ?_ ?_
  · intro p hp
    rcases List.mem_cons.1 (List.mem_of_getLast? hp) with rfl | hp
    · rw [(hL.pts p ha).2, (hL.pts b hb).2]
      exact hlong
    · obtain ⟨d, hd, rfl⟩ := List.mem_map.1 hp
      obtain ⟨e, t, hcr, k1, k2, k3, k4⟩ := hitems d hd
      refine long_of_far htiny (hmm.trans ?_)
      rw [k2, (hL.pts b hb).2]
      refine (hO.stop hG heps hcr).trans (le_of_eq ?_)
      unfold dist2
      ring
  · rw [(hL.pts a ha).2, Verif.Decomp.between_zero]
  · intro d hd
    obtain ⟨e, t, hcr, k1, k2, k3, k4⟩ := hitems d hd
    obtain ⟨_, _, _, _, w3, w4⟩ := crosses_iff.1 hcr
    exact ⟨by rw [k1]; exact k2, k4, by rw [k1]; linarith, by rw [k1]; linarith⟩
  · exact (hsort.and hkeys).imp fun hh => lt_of_le_of_ne hh.1 hh.2.1
  · intro i hi t t0 t1 hx
    rcases hL.news i hi with hi0 | ⟨d, hd, rfl⟩
    · rw [(hL.pts i hi0).2] at hx
      left
      by_contra hib
      by_cases hia : i = a
      · subst hia
        have := hinj (s := 0) (s' := t) ((Verif.Decomp.between_zero _ _).trans hx)
        linarith
      · exact hO.free i hi0 hia hib t t0.le t1 hx
    · exact Or.inr ⟨d, hperm.symm.subset hd, rfl⟩
  · intro e he u t u0 u1 t0 t1 hh
    exact hmeet e he u t u0 u1 t0 t1 hh

/-! ### Lines -/

omit [IsStrictOrderedRing K] in
theorem candidatePts_total {c : Cfg K} {om : List Id} {f : Fr K} {es : List Id} (h : ∀ e ∈ es, e ∈ f.dec.sid.live) :
    ∃ cs, candidatePts c om f es = .ok cs := by
  have hmap : ∀ es : List Id, (∀ e ∈ es, e ∈ f.dec.sid.live) → ∃ l, (es.mapM fun e => do
      key f.dec.sid e
      (.ok [f.dec.vtx (e, false), f.dec.vtx (e, true)] : Except Err (List Id))) = .ok l := by
    intro es
    induction es with
    | nil => exact fun _ => ⟨[], rfl⟩
    | cons e es ih =>
      intro hl
      obtain ⟨l', hl'⟩ := ih fun e' h' => hl e' (by simp [h'])
      rw [List.mapM_cons]
      exact exBind (bindOk.2 ⟨(), key_ok.2 (hl e (by simp)), rfl⟩) (exBind hl' ⟨_, rfl⟩)
  obtain ⟨l, hl⟩ := hmap es h
  unfold candidatePts
  exact exBind hl ⟨_, rfl⟩

theorem snapTo_total {f : Fr K} {a b : Id} (hne : f.dec.xy a ≠ f.dec.xy b) : ∀ (l : List Id), ∃ o, snapTo f a b l = .ok o
  | [] => ⟨_, rfl⟩
  | p :: ps => by
    have hv : (sub (f.dec.xy b) (f.dec.xy a)).1 * (sub (f.dec.xy b) (f.dec.xy a)).1 +
        (sub (f.dec.xy b) (f.dec.xy a)).2 * (sub (f.dec.xy b) (f.dec.xy a)).2 ≠ 0 := by
      intro hh
      have e1 := mul_self_nonneg (sub (f.dec.xy b) (f.dec.xy a)).1
      have e2 := mul_self_nonneg (sub (f.dec.xy b) (f.dec.xy a)).2
      have k1 := mul_self_eq_zero.1 (le_antisymm (by linarith) e1)
      have k2 := mul_self_eq_zero.1 (le_antisymm (by linarith) e2)
      exact hne (Prod.ext (sub_eq_zero.1 k1).symm (sub_eq_zero.1 k2).symm)
    obtain ⟨t, ht⟩ : ∃ t, projectPoint (sub (f.dec.xy b) (f.dec.xy a)) (f.dec.xy a) (f.dec.xy p) = .ok t := by
      simp only [projectPoint, if_neg hv]
      exact ⟨_, rfl⟩
    rw [snapTo]
    refine exBind (liftD_ok.2 ht) ?_
    split
    · exact ⟨_, rfl⟩
    · exact snapTo_total hne ps

/-- The parts into which `add_line_for_points` divides a line are long, and the drawing is wide after each new segment of them. -/
def Room (c : Cfg K) : Nat → Id → Id → List Id → Fr K → Prop
  | 0, _, _, _, _ => True
  | n + 1, a, b, om, f => a = b ∨ ∀ x cs, boxOf f [f.dec.xy a, f.dec.xy b] = .ok x → candidatePts c om f (f.sl.intersect x) = .ok cs →
      (∀ p, snapTo f a b cs = .ok (some p) → Room c n a p (p :: om) f ∧
        ∀ l f', addLinePts c n a p (p :: om) f = .ok (l, f') → Room c n p b (p :: om) f') ∧
      (snapTo f a b cs = .ok none → Long c.geo (f.dec.xy a) (f.dec.xy b) ∧
        ∀ ds f1, lineIsecs c a b f = .ok (ds, f1) → WideSegs c b a (ds.insertionSort fun x y => x.t ≤ y.t) f1)

/-- `add_line_for_points` returns or reaches the limit of recursion. -/
theorem addLinePts_total {c : Cfg K} (hg : ArgOk c.geo) (hge : 0 < c.geo.eps) (h0 : 0 ≤ c.geo.tiny) {r : Range K} (hr : r.Ok)
    (htiny : 2 * (c.geo.tiny * c.geo.tiny) < r.m * r.m) (heps : 0 ≤ c.eps)
    (hC : c.eps * c.eps * (8 * (r.C * r.C)) < r.m * r.m) (hord : ∀ l p, p ∈ c.order l → p ∈ l) : ∀ {n : Nat} {f : Fr K} {a b : Id}
    {om : List Id}, Good c r f → a ∈ f.dec.pid.live → b ∈ f.dec.pid.live → Plain c n a b om f → Fair c n a b om f → Room c n a b om f →
    Tiled c.geo f.dec → addLinePts c n a b om f = .error .recursion ∨ ∃ x, addLinePts c n a b om f = .ok x
  | 0, f, a, b, om, _, _, _, _, _, _, _ => Or.inl rfl
  | n + 1, f, a, b, om, hG, ha, hb, hpl, hfa, hro, hT => by
    rw [addLinePts]
    split
    · exact Or.inr ⟨_, rfl⟩
    next hab =>
    have hxab : f.dec.xy a ≠ f.dec.xy b := fun hh => hab (hT.drawn.planar.pts a ha b hb hh)
    obtain ⟨x, hx⟩ := boxOf_total f (f.dec.xy a) [f.dec.xy b]
    obtain ⟨cs, hcs⟩ := candidatePts_total (c := c) (om := om) (line_candidates (c := c) hr heps hG ha hb hx).2.1
    obtain ⟨s, hs⟩ := snapTo_total hxab cs
    obtain ⟨k1, k2⟩ := hpl x cs hx hcs
    obtain ⟨m1, m2⟩ := hfa x cs hx hcs
    obtain ⟨z1, z2⟩ := (hro.resolve_left hab) x cs hx hcs
    rw [hx]
    simp only [bind, Except.bind, hcs, hs]
    cases s with
    | some p =>
      obtain ⟨j1, j2⟩ := k1 p hs
      obtain ⟨n1, n2⟩ := m1 p hs
      obtain ⟨y1, y2⟩ := z1 p hs
      have hp : p ∈ f.dec.pid.live := by
        obtain ⟨_, e, he, v, hv⟩ := candidatePts_mem hord hcs (snapTo_some hs).1
        rw [← hv]
        exact hG.reach.reach.inv.links.vlive (e, v) he
      dsimp only
      rcases addLinePts_total hg hge h0 hr htiny heps hC hord hG ha hp j1 n1 y1 hT with hrec | ⟨⟨l0, f1⟩, h0'⟩
      · rw [hrec]
        exact Or.inl rfl
      rw [h0']
      dsimp only
      have q2 := (addLinePts_planar hr heps hC hord hG ha hp j1 hT.drawn.planar h0').2
      have q1 := addLinePts_tiled hg hge hr heps hC hord hG ha hp j1 n1 hT h0'
      have hG1 := prims_good hr.m (addLinePts_prims h0') hG
      rcases addLinePts_total hg hge h0 hr htiny heps hC hord hG1 (q2 p hp) (q2 b hb) (j2 l0 f1 h0') (n2 l0 f1 h0') (y2 l0 f1 h0') q1 with
        hrec | ⟨⟨l1, f2⟩, h1⟩
      · rw [hrec]
        exact Or.inl rfl
      · rw [h1]
        exact Or.inr ⟨_, rfl⟩
    | none =>
      right
      obtain ⟨ds, f1, h1, y, h2⟩ := leaf_total hg hge h0 hr htiny heps hC hG ha hb hab (k2 hs) hT (z2 hs).1 (z2 hs).2
      dsimp only
      rw [h1]
      exact ⟨y, h2⟩

/-- Nothing between snaps an open line. -/
theorem Open.unsnapped {c : Cfg K} (hord : ∀ l p, p ∈ c.order l → p ∈ l) {f : Fr K} {a b : Id} (hO : Open c f a b) {om es cs : List Id}
    (ha : a ∈ om) (hb : b ∈ om) (hcs : candidatePts c om f es = .ok cs) {p : Id} : snapTo f a b cs ≠ .ok (some p) := by
  intro hp
  obtain ⟨hp, t, h0, h1, hn⟩ := snapTo_some hp
  obtain ⟨hom, e, he, v, hv⟩ := candidatePts_mem hord hcs hp
  have := hO.ends e he v (by rw [hv]; rintro rfl; exact hom ha) (by rw [hv]; rintro rfl; exact hom hb) t h0 h1
  rw [hv] at this
  exact absurd hn (not_lt.2 this)

theorem Open.room {c : Cfg K} (hord : ∀ l p, p ∈ c.order l → p ∈ l) {f : Fr K} {a b : Id} (hO : Open c f a b) {om : List Id}
    (ha : a ∈ om) (hb : b ∈ om) (hl : Long c.geo (f.dec.xy a) (f.dec.xy b))
    (hW : ∀ ds f1, lineIsecs c a b f = .ok (ds, f1) → WideSegs c b a (ds.insertionSort fun x y => x.t ≤ y.t) f1) :
    ∀ n, Room c n a b om f
  | 0 => trivial
  | _ + 1 => Or.inr fun _ _ _ hcs => ⟨fun _ hp => absurd hp (hO.unsnapped hord ha hb hcs), fun _ => ⟨hl, hW⟩⟩

/-- An open line raises nothing. -/
theorem addLinePts_open {c : Cfg K} (hg : ArgOk c.geo) (hge : 0 < c.geo.eps) (h0 : 0 ≤ c.geo.tiny) {r : Range K} (hr : r.Ok)
    (htiny : 2 * (c.geo.tiny * c.geo.tiny) < r.m * r.m) (heps : 0 ≤ c.eps)
    (hC : c.eps * c.eps * (8 * (r.C * r.C)) < r.m * r.m) (hord : ∀ l p, p ∈ c.order l → p ∈ l) {f : Fr K} (hG : Good c r f)
    {a b : Id} (ha : a ∈ f.dec.pid.live) (hb : b ∈ f.dec.pid.live) (hO : Open c f a b) (hT : Tiled c.geo f.dec) {om : List Id}
    (hao : a ∈ om) (hbo : b ∈ om) (hlong : Long c.geo (f.dec.xy a) (f.dec.xy b))
    (hW : ∀ ds f1, lineIsecs c a b f = .ok (ds, f1) → WideSegs c b a (ds.insertionSort fun x y => x.t ≤ y.t) f1) (n : Nat) :
    ∃ x, addLinePts c (n + 1) a b om f = .ok x := by
  rw [addLinePts]
  split
  · exact ⟨_, rfl⟩
  next hab =>
  have hxab : f.dec.xy a ≠ f.dec.xy b := fun hh => hab (hT.drawn.planar.pts a ha b hb hh)
  obtain ⟨x, hx⟩ := boxOf_total f (f.dec.xy a) [f.dec.xy b]
  obtain ⟨cs, hcs⟩ := candidatePts_total (c := c) (om := om) (line_candidates (c := c) hr heps hG ha hb hx).2.1
  obtain ⟨s, hs⟩ := snapTo_total hxab cs
  rw [hx]
  simp only [bind, Except.bind, hcs, hs]
  cases s with
  | some p => exact absurd hs (hO.unsnapped hord hao hbo hcs)
  | none =>
    obtain ⟨ds, f1, h1, y, h2⟩ := leaf_total hg hge h0 hr htiny heps hC hG ha hb hab hO hT hlong hW
    dsimp only
    rw [h1]
    exact ⟨y, h2⟩

/-! ### All calls -/

/-- Calls with arguments for which nothing is raised: ids are those of objects of the drawing, points can be added, segments are
long. -/
def Valid (c : Cfg K) (f : Fr K) : Call K → Prop
  | .addPoint x => Addable f x
  | .addLine x y => Addable f x ∧ ∀ a f1, addPoint c x f = .ok (a, f1) → Addable f1 y ∧
      ∀ b f2, addPoint c y f1 = .ok (b, f2) → Room c c.depth a b [a, b] f2
  | .addLineForPoints a b om => Room c c.depth a b om f
  | .newSegment a b => a ∈ f.dec.pid.live ∧ b ∈ f.dec.pid.live ∧ Long c.geo (f.dec.xy a) (f.dec.xy b)
  | .deleteSegment e => e ∈ f.dec.sid.live
  | .deletePoint p => p ∈ f.dec.pid.live
  | .setAttr e _ => e ∈ f.dec.sid.live
  | _ => True

/-- Each call is such one in the state after the calls before. -/
def AllValid (c : Cfg K) : List (Call K) → Fr K → Prop
  | [], _ => True
  | o :: os, f => Valid c f o ∧ ∀ f', call c f o = .ok f' → AllValid c os f'

/-- One neat and valid call returns or reaches the limit of recursion. -/
theorem call_returns {c : Cfg K} (hg : ArgOk c.geo) (hnrm : NrmOk c) (hge : 0 < c.geo.eps) (h0 : 0 ≤ c.geo.tiny) {r : Range K} (hr : r.Ok)
    (htiny : 2 * (c.geo.tiny * c.geo.tiny) < r.m * r.m) (heps : 0 ≤ c.eps)
    (hC : c.eps * c.eps * (8 * (r.C * r.C)) < r.m * r.m) (hord : ∀ l p, p ∈ c.order l → p ∈ l) {f : Fr K} {o : Call K}
    (hG : Good c r f) (hF : Fits r o) (hY : Tidy c f o) (hN : Neat c f o) (hV : Valid c f o) (hT : Tiled c.geo f.dec) :
    call c f o = .error .recursion ∨ ∃ f', call c f o = .ok f' := by
  cases o with
  | addPoint x =>
    obtain ⟨p, hp⟩ := addPoint_total hg hnrm hr htiny hG hT hF hV
    exact Or.inr (exBind hp ⟨_, rfl⟩)
  | addLine x y =>
    obtain ⟨⟨a, f1⟩, h1⟩ := addPoint_total hg hnrm hr htiny hG hT hF.1 hV.1
    have hT1 := addPoint_tiled hg hr hG hF.1 h1 hT
    have hG1 := prims_good hr.m (addPoint_prims hF.1 h1) hG
    obtain ⟨⟨b, f2⟩, h2⟩ := addPoint_total hg hnrm hr htiny hG1 hT1 hF.2 (hV.2 a f1 h1).1
    have hT2 := addPoint_tiled hg hr hG1 hF.2 h2 hT1
    have hG2 := prims_good hr.m (addPoint_prims hF.2 h2) hG1
    have hlive : ∀ {g g' : Fr K} {x : K × K} {p : Id}, Good c r g → Bounded r.C x → addPoint c x g = .ok (p, g') →
        p ∈ g'.dec.pid.live ∧ ∀ q ∈ g.dec.pid.live, q ∈ g'.dec.pid.live := by
      intro g g' x p hg hx hp
      rcases addPoint_cases hr hg hx hp with ⟨rfl, hp⟩ | ⟨_, _, _, hl, _⟩
      · exact ⟨hp, fun q hq => hq⟩
      · exact ⟨(hl p).2 (Or.inl rfl), fun q hq => (hl q).2 (Or.inr hq)⟩
    simp only [call, addLine]
    rw [h1]
    simp only [bind, Except.bind]
    rw [h2]
    dsimp only
    by_cases hab : a = b
    · rw [if_pos hab]
      exact Or.inr ⟨_, rfl⟩
    · rw [if_neg hab]
      rcases addLinePts_total hg hge h0 hr htiny heps hC hord hG2 ((hlive hG1 hF.2 h2).2 a (hlive hG hF.1 h1).1) (hlive hG1 hF.2 h2).1
        (hY a f1 b f2 h1 h2) (hN a f1 b f2 h1 h2) ((hV.2 a f1 h1).2 b f2 h2) hT2 with h3 | ⟨z, h3⟩
      · rw [h3]
        exact Or.inl rfl
      · rw [h3]
        exact Or.inr ⟨_, rfl⟩
  | addLineForPoints a b om =>
    simp only [call]
    rcases addLinePts_total hg hge h0 hr htiny heps hC hord hG hY.1 hY.2.1 hY.2.2 hN hV hT with h3 | ⟨z, h3⟩
    · rw [h3]
      exact Or.inl rfl
    · rw [h3]
      exact Or.inr ⟨_, rfl⟩
  | newSegment a b =>
    obtain ⟨z, hz⟩ := addSegment_total hg h0 hT hV.1 hV.2.1
      (hY.2.1.freeLine hG hr.m hC hV.1 hV.2.1 hY.1 hT.drawn.planar hY.2.2) hV.2.2
    exact Or.inr (exBind hz ⟨_, rfl⟩)
  | deleteSegment e => exact Or.inr (rmSegment_total hG hT hV hN)
  | deletePoint p => exact Or.inr (deletePoint_total hg hge hr.m hG hT hV hN)
  | mergePoints a b => exact hY.elim
  | movePoints ps d => exact hY.elim
  | setTolerance t => exact Or.inr ⟨_, rfl⟩
  | setAttr e b => exact Or.inr (exBind (a := ()) (key_ok.2 hV) ⟨_, rfl⟩)

theorem calls_return' {c : Cfg K} (hg : ArgOk c.geo) (hnrm : NrmOk c) (hge : 0 < c.geo.eps) (h0 : 0 ≤ c.geo.tiny) {r : Range K} (hr : r.Ok)
    (htiny : 2 * (c.geo.tiny * c.geo.tiny) < r.m * r.m) (heps : 0 ≤ c.eps)
    (hC : c.eps * c.eps * (8 * (r.C * r.C)) < r.m * r.m) (hord : ∀ l p, p ∈ c.order l → p ∈ l) : ∀ {os : List (Call K)} {f : Fr K},
    Good c r f → (∀ o ∈ os, Fits r o) → AllNeat c os f → AllValid c os f → Tiled c.geo f.dec →
    calls c os f = .error .recursion ∨ ∃ f', calls c os f = .ok f'
  | [], f, _, _, _, _, _ => Or.inr ⟨f, rfl⟩
  | o :: os, f, hG, hF, hA, hV, hT => by
    rw [calls]
    rcases call_returns hg hnrm hge h0 hr htiny heps hC hord hG (hF o (by simp)) hA.1.1 hA.1.2 hV.1 hT with h1 | ⟨f1, h1⟩
    · rw [h1]
      exact Or.inl rfl
    · rw [h1]
      have hG1 : Good c r f1 := calls_good hr.m (os := [o]) hG (fun o' ho' => hF o' (by simp at ho'; simp [ho']))
        (by simp only [calls, bindOk]; exact ⟨f1, h1, rfl⟩)
      exact calls_return' hg hnrm hge h0 hr htiny heps hC hord hG1 (fun o' ho' => hF o' (by simp [ho'])) (hA.2 f1 h1) (hV.2 f1 h1)
        (call_tiled hg hge hr heps hC hord hG (hF o (by simp)) hA.1.1 hA.1.2 hT h1)

/-- **C166.** Any neat and valid calls of the frontend raise nothing, but the limit of recursion can be reached by a line that is
snapped to points. -/
theorem calls_return {c : Cfg K} (hg : ArgOk c.geo) (hnrm : NrmOk c) (hge : 0 < c.geo.eps) (h0 : 0 ≤ c.geo.tiny) {r : Range K} (hr : r.Ok)
    (htiny : 2 * (c.geo.tiny * c.geo.tiny) < r.m * r.m) (heps : 0 ≤ c.eps)
    (hC : c.eps * c.eps * (8 * (r.C * r.C)) < r.m * r.m) (hord : ∀ l p, p ∈ c.order l → p ∈ l) {tol : K} (ht : r.m ≤ tol ∧ tol ≤ r.T)
    {os : List (Call K)} (ho : ∀ o ∈ os, Fits r o) (hN : AllNeat c os (init r.inf r.rt2 tol)) (hV : AllValid c os (init r.inf r.rt2 tol)) :
    calls c os (init r.inf r.rt2 tol) = .error .recursion ∨ ∃ f, calls c os (init r.inf r.rt2 tol) = .ok f :=
  calls_return' hg hnrm hge h0 hr htiny heps hC hord (init_good ht) ho hN hV Verif.Decomp.init_tiled

end Verif.Front
