import Verif.Merge.Compose

/-! Properties of the intersection of decompositions (merge.py). The states `f` are those that the intersection itself makes from an
empty decomposition, see `start_ctx` and `intersect_list`. -/

namespace Verif.Merge
open Verif.Decomp (St Id HE flip upd sidePoly)
open Verif.Front (Fr Cfg Err Range Good Crosses bindOk liftD_ok key_ok checkOk needOk)

section
variable {K : Type} [Field K] [LinearOrder K] [IsStrictOrderedRing K]

/-- The empty decomposition. -/
theorem start_ctx {c : Cfg K} {r : Range K} {tol : K} (ht : r.m ≤ tol ∧ tol ≤ r.T) : Ctx c r (Verif.Front.init r.inf r.rt2 tol) :=
  ⟨Verif.Front.init_good ht, .init, rfl⟩

omit [IsStrictOrderedRing K] in
theorem Ctx.side {c : Cfg K} {r : Range K} {f : Fr K} (h : Ctx c r f) {d : HE} (hd : d.1 ∈ f.dec.sid.live) :
    ∃ q ∈ f.dec.qid.live, sidePoly f.dec d = some q := by
  obtain ⟨w, q, h1, _, _, h2, h3⟩ := h.keep.nested.side hd
  exact ⟨q, h3, by unfold sidePoly; rw [h1]; exact h2⟩

/-- A run of `intersect_single` that returned: `f` is the decomposition, `so` the other one, `tol` the tolerance of the intersection,
`f'` the result. The log is assumed to show no swapped wires and no line that crosses two segments in one place. -/
structure Run1 (c : Cfg K) (r : Range K) (tol : K) (so : St K) (f : Fr K) (m : Maps) (g : Log K) (f' : Fr K) : Prop where
  nums : Nums c r tol
  given : Given r so
  ctx : Ctx c r f
  ran : intersectSingle c tol so f = .ok (m, g, f')
  plain : Plain c g

theorem Run1.merged {c : Cfg K} {r : Range K} {tol : K} {so : St K} {f f' : Fr K} {m : Maps} {g : Log K} (h : Run1 c r tol so f m g f') :
    Ctx c r f' ∧ f'.tol = f.tol ∧ ∃ d, Merged tol f.dec so f' m g d := intersectSingle_merged h.nums h.given h.ctx h.ran h.plain

/-- **C125.** Each segment of the decomposition keeps its id and is divided into parts: the segments `e` of the result with the same value
`maps_self[1].get(e, e)`. With suitable parameters the parts go in the direction of the segment, do not overlap and cover it. Other
segments of the result are segments of the other decomposition. Points keep their ids and places. -/
theorem intersect_segments_self {c : Cfg K} {r : Range K} {tol : K} {so : St K} {f f' : Fr K} {m : Maps} {g : Log K}
    (h : Run1 c r tol so f m g f') :
    (∀ i ∈ f.dec.pid.live, i ∈ f'.dec.pid.live ∧ f'.dec.xy i = f.dec.xy i) ∧
    (∀ e ∈ f.dec.sid.live, e ∈ f'.dec.sid.live ∧ root m.self1 e = e) ∧
    (∀ e ∈ f'.dec.sid.live, root m.self1 e ∈ f.dec.sid.live ∨ get m.other1 e ≠ none) ∧
    ∃ lo hi : Id → K, (∀ e ∈ f'.dec.sid.live, root m.self1 e ∈ f.dec.sid.live →
        0 ≤ lo e ∧ lo e < hi e ∧ hi e ≤ 1 ∧ f'.dec.xy (f'.dec.vtx (e, false)) = on f.dec (root m.self1 e) (lo e) ∧
          f'.dec.xy (f'.dec.vtx (e, true)) = on f.dec (root m.self1 e) (hi e)) ∧
      (∀ r0 ∈ f.dec.sid.live, ∀ x, 0 ≤ x → x ≤ 1 → ∃ e ∈ f'.dec.sid.live, root m.self1 e = r0 ∧ lo e ≤ x ∧ x ≤ hi e) ∧
      ∀ r0 ∈ f.dec.sid.live, ∀ e ∈ f'.dec.sid.live, ∀ e' ∈ f'.dec.sid.live, root m.self1 e = r0 → root m.self1 e' = r0 → e ≠ e' →
        hi e ≤ lo e' ∨ hi e' ≤ lo e := by
  obtain ⟨_, _, d, hM⟩ := h.merged
  obtain ⟨iv, hL⟩ := hM.lift
  refine ⟨hL.pts, hL.old1, fun e he => ?_, fun e => (iv e).1, fun e => (iv e).2, fun e he hr => hL.ends e he hr, hL.cover, ?_⟩
  · by_cases hr : root m.self1 e ∈ f.dec.sid.live
    · exact Or.inl hr
    · exact Or.inr (hL.out e he hr)
  · intro r0 hr0 e he e' he' h1 h2 hne
    exact hL.apart e he e' he' hne (h1.trans h2.symm) (h1 ▸ hr0)

/-- **C126.** Each polygon `q` of the result has a polygon `maps_self[2].get(q, q)` of the decomposition, which for the old polygons is
`q`. At each part of an old segment both sides have the polygons of the sides of the old segment, and the two sides of a segment that is
only from the other decomposition have the same polygon: crossing it does not leave the polygon. -/
theorem intersect_polygons_self {c : Cfg K} {r : Range K} {tol : K} {so : St K} {f f' : Fr K} {m : Maps} {g : Log K}
    (h : Run1 c r tol so f m g f') :
    (∀ q ∈ f'.dec.qid.live, root m.self2 q ∈ f.dec.qid.live) ∧ (∀ q ∈ f.dec.qid.live, q ∈ f'.dec.qid.live ∧ root m.self2 q = q) ∧
    (∀ e ∈ f'.dec.sid.live, root m.self1 e ∈ f.dec.sid.live → ∀ v, ∃ q ∈ f'.dec.qid.live, sidePoly f'.dec (e, v) = some q ∧
      sidePoly f.dec (root m.self1 e, v) = some (root m.self2 q)) ∧
    ∀ e ∈ f'.dec.sid.live, root m.self1 e ∉ f.dec.sid.live → ∃ q q', sidePoly f'.dec (e, true) = some q ∧
      sidePoly f'.dec (e, false) = some q' ∧ root m.self2 q = root m.self2 q' := by
  obtain ⟨hC, _, d, hM⟩ := h.merged
  obtain ⟨iv, hL⟩ := hM.lift
  have hside : ∀ e ∈ f'.dec.sid.live, ∀ v, ∃ q ∈ f'.dec.qid.live, sidePoly f'.dec (e, v) = some q := by
    intro e he v
    obtain ⟨q, h1, h2⟩ := hC.side (d := (e, v)) he
    exact ⟨q, h1, h2⟩
  refine ⟨hL.poly, hL.old2, fun e he hr v => ?_, fun e he hr => ?_⟩
  · obtain ⟨q, h1, h2⟩ := hside e he v
    exact ⟨q, h1, h2, hL.side e he hr v q h2⟩
  · obtain ⟨q, _, h2⟩ := hside e he true
    obtain ⟨q', _, h2'⟩ := hside e he false
    exact ⟨q, q', h2, h2', hL.inner e he hr q q' h2 h2'⟩

/-- **C127.** Each segment of the other decomposition becomes a way in the result from the image of its first point to the image of its
second point, up to gaps that are shorter than the tolerance, and each segment of the way has a value in `maps_other[1]`; the value is
a segment whose way goes there. Each point of the other decomposition has an image, and a value in `maps_other[0]` is a point with that
image. -/
theorem intersect_segments_other {c : Cfg K} {r : Range K} {tol : K} {so : St K} {f f' : Fr K} {m : Maps} {g : Log K}
    (h : Run1 c r tol so f m g f') :
    ∃ (img : Id → Id) (way : Id → List Id), (∀ p ∈ so.pid.live, img p ∈ f'.dec.pid.live ∧ get m.other0 (img p) ≠ none) ∧
      (∀ i p, get m.other0 i = some p → p ∈ so.pid.live ∧ img p = i) ∧
      (∀ o ∈ so.sid.live, Trail f'.dec tol (img (so.vtx (o, false))) (way o) (img (so.vtx (o, true))) ∧
        ∀ e ∈ way o, e ∈ f'.dec.sid.live ∧ get m.other1 e ≠ none) ∧
      ∀ e o, get m.other1 e = some o → o ∈ so.sid.live ∧ e ∈ way o := by
  obtain ⟨_, _, d, hM⟩ := h.merged
  obtain ⟨opm, hp, hw⟩ := hM.pts
  have himg : ∀ p i, get opm p = some i → (get opm p).getD 0 = i := fun p i hh => by rw [hh]; rfl
  refine ⟨fun p => (get opm p).getD 0, fun o => segsOf o g.pieces, fun p hpl => ?_, fun i p hi => ?_, fun o ho => ⟨?_, fun e he => ?_⟩,
    fun e o he => ?_⟩
  · obtain ⟨i, hi⟩ := Option.ne_none_iff_exists'.1 ((hp.dom p).2 hpl)
    dsimp only
    rw [himg p i hi]
    exact hp.live p i hi
  · have := hp.back i p hi
    exact ⟨(hp.dom p).1 (by rw [this]; simp), himg p i this⟩
  · obtain ⟨a, b, h1, h2, h3⟩ := hw o ho
    dsimp only
    rw [himg _ _ h1, himg _ _ h2]
    exact h3
  · obtain ⟨x, hx, rfl⟩ := List.mem_map.1 he
    have := (hM.mark.pc x.1 x.2.1 x.2.2 (List.mem_filter.1 hx).1).1
    exact ⟨hM.mark.key1 _ this, this⟩
  · obtain ⟨a, ha⟩ := hM.mark.own e o he
    refine ⟨(hM.mark.pc o a e ha).2.1, List.mem_map.2 ⟨(o, a, e), List.mem_filter.2 ⟨ha, by simp⟩, rfl⟩⟩

/-- **C128.** A value of `maps_other[2]` at a polygon that has a segment of the other decomposition is the polygon at the same side of
that segment of the other decomposition, for one of its segments of a way: `e` is run through from `a`, the side `v` of `e` is in the
polygon `q`, and the side of the segment `o` on the same hand is in `p`. Such a polygon always has a value. -/
theorem intersect_polygons_other {c : Cfg K} {r : Range K} {tol : K} {so : St K} {f f' : Fr K} {m : Maps} {g : Log K}
    (h : Run1 c r tol so f m g f') :
    (∀ q ∈ f'.dec.qid.live, (∃ e v, get m.other1 e ≠ none ∧ sidePoly f'.dec (e, v) = some q) → ∃ p, get m.other2 q = some (some p)) ∧
    ∀ q p, (∃ e v, get m.other1 e ≠ none ∧ sidePoly f'.dec (e, v) = some q) → get m.other2 q = some (some p) →
      ∃ o a e v, (o, a, e) ∈ g.pieces ∧ o ∈ so.sid.live ∧ e ∈ f'.dec.sid.live ∧ sidePoly f'.dec (e, v) = some q ∧
        (f'.dec.vtx (e, false) = a → sidePoly so (o, v) = some p) ∧ (f'.dec.vtx (e, false) ≠ a → sidePoly so (o, !v) = some p) := by
  obtain ⟨hC, _, d, hM⟩ := h.merged
  have hmark : ∀ q, (∃ e v, get m.other1 e ≠ none ∧ sidePoly f'.dec (e, v) = some q) → ∃ p, get d q = some (some p) :=
    fun q ⟨e, v, he, hq⟩ => hM.mark.dom e he v q hq
  refine ⟨fun q _ hq => ?_, fun q p hq hp => ?_⟩
  · obtain ⟨p, hp⟩ := hmark q hq
    exact ⟨p, hM.ext q p hp⟩
  · obtain ⟨p', hp'⟩ := hmark q hq
    have hpp : p' = p := by
      have := hM.ext q p' hp'
      rw [hp] at this
      exact (Option.some.inj (Option.some.inj this)).symm
    subst hpp
    obtain ⟨o, a, e, v, k1, k2, k3⟩ := hM.mark.just q p' hp'
    obtain ⟨j1, j2, _⟩ := hM.mark.pc o a e k1
    refine ⟨o, a, e, v, k1, j2, hM.mark.key1 e j1, k2, fun hh => ?_, fun hh => ?_⟩
    · unfold otherSide at k3
      rw [decide_eq_false (not_not.2 hh), Bool.xor_false] at k3
      exact k3
    · unfold otherSide at k3
      rw [decide_eq_true hh, Bool.xor_true] at k3
      exact k3

/-- **C129.** The search for the remaining values always ends and gives an entry to each polygon of the result, `none` or a polygon. A
value of a polygon without segments of the other decomposition is that of a polygon `q0` with such a segment, from which one gets
there over outer wires and crosses only segments that are not of the other decomposition. Behind the outer wire of a polygon with a
value all polygons have values, so that a polygon without a value can be only in holes of those with a value. -/
theorem intersect_search {c : Cfg K} {r : Range K} {tol : K} {so : St K} {f f' : Fr K} {m : Maps} {g : Log K}
    (h : Run1 c r tol so f m g f') :
    (∀ q, get m.other2 q ≠ none ↔ q ∈ f'.dec.qid.live) ∧
    (∀ q p, get m.other2 q = some (some p) → ∃ q0, get m.other2 q0 = some (some p) ∧
      (∃ e v, get m.other1 e ≠ none ∧ sidePoly f'.dec (e, v) = some q0) ∧
      Relation.ReflTransGen (fun x y => ∃ d : HE, d.1 ∈ f'.dec.sid.live ∧ get m.other1 d.1 = none ∧ f'.dec.wire d = some (f'.dec.outer x) ∧
        sidePoly f'.dec (flip d) = some y) q0 q) ∧
    ∀ x p, get m.other2 x = some (some p) → ∀ d : HE, d.1 ∈ f'.dec.sid.live → f'.dec.wire d = some (f'.dec.outer x) →
      ∃ y p', sidePoly f'.dec (flip d) = some y ∧ get m.other2 y = some (some p') := by
  obtain ⟨hC, _, d, hM⟩ := h.merged
  refine ⟨hM.full, fun q p hq => ?_, fun x p hx d hd hw => ?_⟩
  · obtain ⟨q0, h1, h2⟩ := hM.from_ q p hq
    obtain ⟨o, a, e, v, k1, k2, _⟩ := hM.mark.just q0 p h1
    refine ⟨q0, hM.ext q0 p h1, ⟨e, v, (hM.mark.pc o a e k1).1, k2⟩, ?_⟩
    clear hq
    induction h2 with
    | refl => exact .refl
    | @tail x y _ hxy ih =>
      obtain ⟨⟨d', hd, hw, hs⟩, hno⟩ := hxy
      refine .tail ih ⟨d', hd, ?_, hw, hs⟩
      by_contra hh
      obtain ⟨p', hp'⟩ := hM.mark.dom d'.1 hh (flip d').2 y hs
      exact hno p' hp'
  · obtain ⟨y, _, hy⟩ := hC.side (d := flip d) hd
    obtain ⟨p', hp'⟩ := hM.closed x y p hx ⟨d, hd, hw, hy⟩
    exact ⟨y, p', hy, hp'⟩

/-- What is assumed of a run over a list of decompositions and how its intersections went. -/
structure RunAll (c : Cfg K) (r : Range K) (tol : K) (ds : List (Fr K)) (st : List (Maps × Log K × Fr K)) (ms : List Dims) (f' : Fr K) :
    Prop where
  nums : Nums c r tol
  start : r.m ≤ 1 / 100 ∧ 1 / 100 ≤ r.T
  given : ∀ o ∈ ds, Given r o.dec
  many : ds.length ≠ 1
  ran : intersectDecompositions c r.inf r.rt2 tol ds = .ok (ms, f')
  stages : Stages c tol (Verif.Front.init r.inf r.rt2 (1 / 100)) ds st
  plain : ∀ x ∈ st, Plain c x.2.1

/-- The intersections exist whenever the call returns. -/
theorem stages_exist {c : Cfg K} {r : Range K} {tol : K} {ds : List (Fr K)} {ms : List Dims} {f' : Fr K} (hm : ds.length ≠ 1)
    (hs : intersectDecompositions c r.inf r.rt2 tol ds = .ok (ms, f')) :
    ∃ st, Stages c tol (Verif.Front.init r.inf r.rt2 (1 / 100)) ds st := by
  unfold intersectDecompositions at hs
  split at hs
  · simp at hm
  · exact intersectAll_stages hs

theorem RunAll.ok {c : Cfg K} {r : Range K} {tol : K} {ds : List (Fr K)} {st : List (Maps × Log K × Fr K)} {ms : List Dims} {f' : Fr K}
    (h : RunAll c r tol ds st ms f') : Ctx c r f' ∧ (∀ d ∈ ms, d.In f'.dec) ∧ Composed st ms ∧ List.Forall₂ (fun o x => Onto o.dec x.1) ds st := by
  have hs := h.ran
  unfold intersectDecompositions at hs
  split at hs
  · exact absurd rfl h.many
  · obtain ⟨h1, h2, ⟨old, new, rfl, h3, h4⟩, h5⟩ := intersectAll_ok h.nums h.given (start_ctx h.start) (by simp) hs h.stages h.plain
    cases h3
    exact ⟨h1, h2, h4, h5⟩

/-- Each intersection of the run is a run of `intersect_single`. -/
theorem stages_runs {c : Cfg K} {r : Range K} {tol : K} (hn : Nums c r tol) : ∀ {ds : List (Fr K)} {f : Fr K} {st : List (Maps × Log K × Fr K)},
    Ctx c r f → (∀ o ∈ ds, Given r o.dec) → Stages c tol f ds st → (∀ x ∈ st, Plain c x.2.1) →
      List.Forall₂ (fun o x => ∃ f0, Run1 c r tol o.dec f0 x.1 x.2.1 x.2.2) ds st
  | [], f, st, _, _, hst, _ => by cases hst; exact .nil
  | o :: ds, f, st, hC, hg, hst, hp => by
    cases hst with
    | @cons _ f1 _ _ m g st h1 hst =>
    have hrun : Run1 c r tol o.dec f m g f1 := ⟨hn, hg o (by simp), hC, h1, hp (m, g, f1) (by simp)⟩
    exact .cons ⟨f, hrun⟩ (stages_runs hn hrun.merged.1 (fun o ho => hg o (by simp [ho])) hst fun x hx => hp x (by simp [hx]))

/-- Objects keep their ids over later intersections, and each segment is a part of the one it was before. -/
theorem stages_back {c : Cfg K} {r : Range K} {tol : K} (hn : Nums c r tol) : ∀ {ds : List (Fr K)} {f : Fr K} {st : List (Maps × Log K × Fr K)},
    Ctx c r f → (∀ o ∈ ds, Given r o.dec) → Stages c tol f ds st → (∀ x ∈ st, Plain c x.2.1) →
      (∀ e ∈ f.dec.sid.live, back1 st e = e) ∧ (∀ q ∈ f.dec.qid.live, back2 st q = q)
  | [], f, st, _, _, hst, _ => by cases hst; exact ⟨fun _ _ => rfl, fun _ _ => rfl⟩
  | o :: ds, f, st, hC, hg, hst, hp => by
    cases hst with
    | @cons _ f1 _ _ m g st h1 hst =>
    have hrun : Run1 c r tol o.dec f m g f1 := ⟨hn, hg o (by simp), hC, h1, hp (m, g, f1) (by simp)⟩
    obtain ⟨k1, k2⟩ := stages_back hn hrun.merged.1 (fun o ho => hg o (by simp [ho])) hst fun x hx => hp x (by simp [hx])
    obtain ⟨_, j1, _⟩ := intersect_segments_self hrun
    obtain ⟨_, j2, _⟩ := intersect_polygons_self hrun
    refine ⟨fun e he => ?_, fun q hq => ?_⟩
    · show root m.self1 (back1 st e) = e
      rw [k1 e (j1 e he).1, (j1 e he).2]
    · show root m.self2 (back2 st q) = q
      rw [k2 q (j2 q hq).1, (j2 q hq).2]

/-- The decomposition after the intersections. -/
def result (f : Fr K) : List (Maps × Log K × Fr K) → Fr K
  | [] => f
  | x :: st => result x.2.2 st

omit [IsStrictOrderedRing K] in
theorem intersectAll_result {c : Cfg K} {tol : K} : ∀ {os : List (Fr K)} {ms ms' : List Dims} {f f' : Fr K} {st : List (Maps × Log K × Fr K)},
    intersectAll c tol os ms f = .ok (ms', f') → Stages c tol f os st → f' = result f st
  | [], _, _, _, _, _, hs, hst => by cases hs; cases hst; rfl
  | o :: os, ms, ms', f, f', st, hs, hst => by
    rw [intersectAll] at hs
    simp only [bindOk] at hs
    obtain ⟨⟨m, g, f1⟩, h1, ms1, h2, _, h3, _, h4, _, h5, hs⟩ := hs
    cases hst with
    | @cons _ f2 _ _ m2 g2 st h1' hst =>
    rw [h1] at h1'
    cases h1'
    show f' = result f1 st
    exact intersectAll_result hs hst

/-- The segment `e` of `s'` is a part of the segment `e0` of `s`, with the same direction. -/
def Part (s s' : St K) (e0 e : Id) : Prop :=
  ∃ t u, 0 ≤ t ∧ t < u ∧ u ≤ 1 ∧ s'.xy (s'.vtx (e, false)) = on s e0 t ∧ s'.xy (s'.vtx (e, true)) = on s e0 u

theorem stages_parts {c : Cfg K} {r : Range K} {tol : K} (hn : Nums c r tol) : ∀ {ds : List (Fr K)} {f : Fr K} {st : List (Maps × Log K × Fr K)},
    Ctx c r f → (∀ o ∈ ds, Given r o.dec) → Stages c tol f ds st → (∀ x ∈ st, Plain c x.2.1) →
      (∀ e ∈ (result f st).dec.sid.live, back1 st e ∈ f.dec.sid.live → Part f.dec (result f st).dec (back1 st e) e) ∧
      (∀ q ∈ (result f st).dec.qid.live, back2 st q ∈ f.dec.qid.live) ∧
      (∀ i ∈ f.dec.pid.live, i ∈ (result f st).dec.pid.live ∧ (result f st).dec.xy i = f.dec.xy i) ∧
      (∀ i ∈ f.dec.sid.live, i ∈ (result f st).dec.sid.live) ∧ (∀ i ∈ f.dec.qid.live, i ∈ (result f st).dec.qid.live) ∧
      ∀ ms, Composed st ms → ∀ e ∈ (result f st).dec.sid.live, back1 st e ∈ f.dec.sid.live ∨ ∃ d ∈ ms, get d.segs e ≠ none
  | [], f, st, hC, _, hst, _ => by
    cases hst
    refine ⟨fun e he _ => ⟨0, 1, le_refl _, zero_lt_one, le_refl _, ?_, ?_⟩, fun q hq => hq, fun i hi => ⟨hi, rfl⟩, fun i hi => hi,
      fun i hi => hi, fun ms _ e he => Or.inl he⟩
    · simp [on, Verif.Plane.parametric, Verif.Front.sub, back1, result]
    · simp [on, Verif.Plane.parametric, Verif.Front.sub, back1, result]
  | o :: ds, f, st, hC, hg, hst, hp => by
    cases hst with
    | @cons _ f1 _ _ m g st h1 hst =>
    have hrun : Run1 c r tol o.dec f m g f1 := ⟨hn, hg o (by simp), hC, h1, hp (m, g, f1) (by simp)⟩
    obtain ⟨i1, i2, i3, i4, i5, i6⟩ := stages_parts hn hrun.merged.1 (fun o ho => hg o (by simp [ho])) hst fun x hx => hp x (by simp [hx])
    obtain ⟨j0, j1, j2, lo, hi, j3, _⟩ := intersect_segments_self hrun
    obtain ⟨k1, k2, _⟩ := intersect_polygons_self hrun
    obtain ⟨d0, hM⟩ := hrun.merged.2.2
    obtain ⟨iv, hL⟩ := hM.lift
    have hlive : ∀ e, root m.self1 e ∈ f.dec.sid.live → e ∈ f1.dec.sid.live := by
      intro e he
      cases hg : get m.self1 e with
      | none =>
        rw [root_of_none hg] at he
        exact (j1 e he).1
      | some y => exact hL.key1 e y hg
    refine ⟨fun e he hb => ?_, fun q hq => k1 _ (i2 q hq), fun i hi => ⟨(i3 i (j0 i hi).1).1, (i3 i (j0 i hi).1).2.trans (j0 i hi).2⟩,
      fun i hi => i4 i (j1 i hi).1, fun i hi => i5 i (k2 i hi).1, fun ms hms e he => ?_⟩
    · have hb' : root m.self1 (back1 st e) ∈ f.dec.sid.live := hb
      obtain ⟨t, u, t1, t2, t3, t4, t5⟩ := i1 e he (hlive _ hb')
      obtain ⟨a1, a2, a3, a4, a5⟩ := j3 (back1 st e) (hlive _ hb') hb'
      have hpos : 0 < hi (back1 st e) - lo (back1 st e) := sub_pos.2 a2
      refine ⟨lo (back1 st e) + t * (hi (back1 st e) - lo (back1 st e)), lo (back1 st e) + u * (hi (back1 st e) - lo (back1 st e)), ?_, ?_, ?_,
        ?_, ?_⟩
      · exact add_nonneg a1 (mul_nonneg t1 hpos.le)
      · exact add_lt_add_right (mul_lt_mul_of_pos_right t2 hpos) _
      · have := mul_le_mul_of_nonneg_right t3 hpos.le
        rw [one_mul] at this
        calc _ ≤ lo (back1 st e) + (hi (back1 st e) - lo (back1 st e)) := add_le_add_right this _
          _ = hi (back1 st e) := by ring
          _ ≤ 1 := a3
      · exact t4.trans (on_part a4 a5)
      · exact t5.trans (on_part a4 a5)
    · cases hms with
      | cons e1 e2 e3 e4 =>
      rcases i6 _ e4 e he with hl | ⟨d, hd, hh⟩
      · rcases j2 _ hl with h | h
        · exact Or.inl h
        · exact Or.inr ⟨_, List.mem_cons_self, by rw [e2]; exact h⟩
      · exact Or.inr ⟨d, by simp [hd], hh⟩

/-- What the returned maps `d` for the decomposition `o` say, when `x` is the intersection with `o` and `st` are the later ones: they
are the maps of that intersection composed with the maps of the later ones, their keys are in the result, each object of `o` is a
value, and each segment of the result with a value is a part of the segment which had that value after the intersection with `o`. -/
structure MapsOf (o : St K) (x : Maps × Log K × Fr K) (st : List (Maps × Log K × Fr K)) (s' : St K) (d : Dims) : Prop where
  pts : d.pts = x.1.other0
  segs : ∀ e, get d.segs e = get x.1.other1 (back1 st e)
  polys : ∀ q, get d.polys q = (get x.1.other2 (back2 st q)).join
  pkeys : ∀ i v, get d.pts i = some v → i ∈ s'.pid.live
  skeys : ∀ i v, get d.segs i = some v → i ∈ s'.sid.live
  qkeys : ∀ i v, get d.polys i = some v → i ∈ s'.qid.live
  ponto : ∀ i ∈ o.pid.live, ∃ p ∈ s'.pid.live, get d.pts p = some i
  sonto : ∀ i ∈ o.sid.live, ∃ e ∈ s'.sid.live, get d.segs e = some i
  qonto : ∀ i ∈ o.qid.live, ∃ q ∈ s'.qid.live, get d.polys q = some i
  part : ∀ e i, get d.segs e = some i → back1 st e ∈ x.2.2.dec.sid.live ∧ Part x.2.2.dec s' (back1 st e) e
  poly : ∀ q ∈ s'.qid.live, back2 st q ∈ x.2.2.dec.qid.live

theorem composed_maps {c : Cfg K} {r : Range K} {tol : K} (hn : Nums c r tol) : ∀ {ds : List (Fr K)} {f : Fr K} {st : List (Maps × Log K × Fr K)}
    {ms : List Dims}, Ctx c r f → (∀ o ∈ ds, Given r o.dec) → Stages c tol f ds st → (∀ x ∈ st, Plain c x.2.1) →
      (∀ d ∈ ms, d.In (result f st).dec) → List.Forall₂ (fun o x => Onto o.dec x.1) ds st → Composed st ms →
      ms.length = ds.length ∧ st.length = ds.length ∧ ∀ k (h1 : k < ds.length) (h2 : k < st.length) (h3 : k < ms.length),
        MapsOf ds[k].dec st[k] (st.drop (k + 1)) (result f st).dec ms[k]
  | [], f, st, ms, hC, _, hst, _, _, _, hc => by
    cases hst
    cases hc
    exact ⟨rfl, rfl, fun k hk => absurd hk (Nat.not_lt_zero k)⟩
  | o :: ds, f, st, ms, hC, hg, hst, hp, hin, hon, hc => by
    cases hst with
    | @cons _ f1 _ _ m g st h1 hst =>
    cases hon with
    | cons hon hons =>
    cases hc with
    | @cons _ _ _ _ d ms e1 e2 e3 e4 =>
    have hrun : Run1 c r tol o.dec f m g f1 := ⟨hn, hg o (by simp), hC, h1, hp (m, g, f1) (by simp)⟩
    have hg' : ∀ o ∈ ds, Given r o.dec := fun o ho => hg o (by simp [ho])
    have hp' : ∀ x ∈ st, Plain c x.2.1 := fun x hx => hp x (by simp [hx])
    have hC1 := hrun.merged.1
    obtain ⟨d0, hM⟩ := hrun.merged.2.2
    obtain ⟨l1, l2, l3⟩ := composed_maps hn hC1 hg' hst hp' (fun d hd => hin d (by simp [hd])) hons e4
    refine ⟨by simp [l1], by simp [l2], fun k k1 k2 k3 => ?_⟩
    cases k with
    | succ k => exact l3 k (Nat.lt_of_succ_lt_succ k1) (Nat.lt_of_succ_lt_succ k2) (Nat.lt_of_succ_lt_succ k3)
    | zero =>
      show MapsOf o.dec (m, g, f1) st (result f1 st).dec d
      have hd := hin d (by simp)
      obtain ⟨o1, o2, o3⟩ := hon
      obtain ⟨s1, s2, s3, s4, s5, _⟩ := stages_parts hn hC1 hg' hst hp'
      obtain ⟨b1, b2⟩ := stages_back hn hC1 hg' hst hp'
      obtain ⟨iv, hL⟩ := hM.lift
      refine ⟨e1, e2, e3, hd.pts, hd.segs, hd.polys, fun i hi => ?_, fun i hi => ?_, fun i hi => ?_, fun e i he => ?_, s2⟩
      · obtain ⟨x, hx⟩ := o1 i hi
        rw [← e1] at hx
        exact ⟨x, hd.pts x i hx, hx⟩
      · obtain ⟨x, hx⟩ := o2 i hi
        have hxl := hM.mark.key1 x (by rw [hx]; simp)
        exact ⟨x, s4 x hxl, by rw [e2, b1 x hxl]; exact hx⟩
      · obtain ⟨x, hx⟩ := o3 i hi
        have hxl := (hM.full x).1 (by rw [hx]; simp)
        exact ⟨x, s5 x hxl, by rw [e3, b2 x hxl, hx]; rfl⟩
      · have hl := hd.segs e i he
        rw [e2] at he
        have hb := hM.mark.key1 (back1 st e) (by rw [he]; simp)
        exact ⟨hb, s1 e hl hb⟩

/-- **C53.** For a list of other than one decomposition `intersect_decompositions` intersects an empty decomposition with each of them in
turn. It returns for each decomposition the maps of its intersection composed with the maps of the later intersections, see `MapsOf`,
and each segment of the result has a value in one of the maps. Each intersection is a run of `intersect_single`, for which there are
C125 to C129. What is missing: polygons need not have values, see `intersect_polygon_omitted`. -/
theorem intersect_list_partial {c : Cfg K} {r : Range K} {tol : K} {ds : List (Fr K)} {st : List (Maps × Log K × Fr K)} {ms : List Dims}
    {f' : Fr K} (h : RunAll c r tol ds st ms f') :
    ms.length = ds.length ∧ List.Forall₂ (fun o x => ∃ f0, Run1 c r tol o.dec f0 x.1 x.2.1 x.2.2) ds st ∧
    (∀ k (h1 : k < ds.length) (h2 : k < st.length) (h3 : k < ms.length), MapsOf ds[k].dec st[k] (st.drop (k + 1)) f'.dec ms[k]) ∧
    ∀ e ∈ f'.dec.sid.live, ∃ d ∈ ms, get d.segs e ≠ none := by
  obtain ⟨h1, h2, h3, h4⟩ := h.ok
  have hC := start_ctx (c := c) h.start
  have hres : f' = result (Verif.Front.init r.inf r.rt2 (1 / 100)) st := by
    have hs := h.ran
    unfold intersectDecompositions at hs
    split at hs
    · exact absurd rfl h.many
    · exact intersectAll_result hs h.stages
  rw [hres] at h2 ⊢
  obtain ⟨l1, l2, l3⟩ := composed_maps h.nums hC h.given h.stages h.plain h2 h4 h3
  refine ⟨l1, stages_runs h.nums hC h.given h.stages h.plain, l3, fun e he => ?_⟩
  obtain ⟨_, _, _, _, _, s6⟩ := stages_parts h.nums hC h.given h.stages h.plain
  rcases s6 ms h3 e he with hb | hb
  · exact absurd hb (by simp [Verif.Front.init, Verif.Decomp.init])
  · exact hb

/-- **C53.** The call returns only when each polygon of each decomposition of the list has a segment; in particular none of them is
without segments. -/
theorem intersect_needs_segments {c : Cfg K} {r : Range K} {tol : K} {ds : List (Fr K)} {st : List (Maps × Log K × Fr K)} {ms : List Dims}
    {f' : Fr K} (h : RunAll c r tol ds st ms f') :
    ∀ o ∈ ds, ∀ q ∈ o.dec.qid.live, ∃ d : HE, d.1 ∈ o.dec.sid.live ∧ sidePoly o.dec d = some q := by
  obtain ⟨_, _, _, h4⟩ := h.ok
  have h5 := stages_runs h.nums (start_ctx (c := c) h.start) h.given h.stages h.plain
  have key : ∀ {l : List (Fr K)} {st : List (Maps × Log K × Fr K)}, List.Forall₂ (fun o x => Onto o.dec x.1) l st →
      List.Forall₂ (fun o x => ∃ f0, Run1 c r tol o.dec f0 x.1 x.2.1 x.2.2) l st →
      ∀ o ∈ l, ∀ q ∈ o.dec.qid.live, ∃ d : HE, d.1 ∈ o.dec.sid.live ∧ sidePoly o.dec d = some q := by
    intro l st h1
    induction h1 with
    | nil => intro _ o ho; cases ho
    | @cons o1 x l st hon _ ih =>
      intro h2 o ho q hq
      cases h2 with
      | cons hrun hrest =>
      rcases List.mem_cons.1 ho with rfl | ho
      · obtain ⟨f0, hrun⟩ := hrun
        obtain ⟨y, hy⟩ := hon.2.2 q hq
        obtain ⟨d, hM⟩ := hrun.merged.2.2
        obtain ⟨q0, k1, _⟩ := hM.from_ y q hy
        obtain ⟨o', a, e, v, j1, j2, j3⟩ := hM.mark.just q0 q k1
        exact ⟨_, (hM.mark.pc o' a e j1).2.1, j3⟩
      · exact ih hrest o ho q hq
  exact key h4 h5

omit [IsStrictOrderedRing K] in
/-- **C53.** For one decomposition the result is that decomposition, and each of its objects is mapped to itself. -/
theorem intersect_one {c : Cfg K} {inf rt2 tol : K} {f : Fr K} : ∃ d, intersectDecompositions c inf rt2 tol [f] = .ok ([d], f) ∧
    (∀ i ∈ f.dec.pid.live, get d.pts i = some i) ∧ (∀ i ∈ f.dec.sid.live, get d.segs i = some i) ∧
    (∀ i ∈ f.dec.qid.live, get d.polys i = some i) := by
  have hid : ∀ (l : List Id) i, i ∈ l → get (identity l) i = some i := by
    intro l
    induction l with
    | nil => simp
    | cons x l ih =>
      intro i hi
      show (if x = i then some x else get (identity l) i) = some i
      split
      · next hh => rw [hh]
      · next hh =>
        rcases List.mem_cons.1 hi with rfl | hi
        · exact absurd rfl hh
        · exact ih i hi
  exact ⟨_, rfl, hid _, hid _, hid _⟩

/-- **C130.** After a point was added the entries for a divided segment are made without an error: the assertion at merge.py:86 cannot
fail. -/
theorem split_assert {c : Cfg K} {r : Range K} (hr : r.Ok) {f f' : Fr K} (h : Ctx c r f) {x : K × K} (hx : Verif.Front.Bounded r.C x)
    {p : Id} (hs : Verif.Front.addPoint c x f = .ok (p, f')) (m : Maps) : ∃ m', splitMap f.dec.pid.live.length p f' m = .ok m' := by
  unfold splitMap
  obtain ⟨_, _, _, rfl | hP | ⟨e, n, t, hS⟩⟩ := addPoint_ctx hr h hx hs
  · split
    · exact ⟨_, rfl⟩
    · rw [if_neg (lt_irrefl _)]
      exact ⟨_, rfl⟩
  · rw [hP.free]
    exact ⟨_, rfl⟩
  · rw [hS.pseg]
    dsimp only
    rw [if_pos hS.plen]
    refine ⟨_, bindOk.2 ⟨(e, false), ?_, bindOk.2 ⟨(n, true), ?_, bindOk.2 ⟨(), ?_, rfl⟩⟩⟩⟩
    · rw [needOk]; exact hS.nx0
    · rw [needOk]; exact hS.nx1
    · rw [checkOk]

/-- **C130.** After a segment was added its entries are made without an error: the assertion at merge.py:115, that no polygons were
joined or removed, cannot fail and both sides of the segment have polygons. -/
theorem change_assert {c : Cfg K} {r : Range K} (hm : 0 < r.m) {f f' : Fr K} (h : Ctx c r f) {a b e : Id}
    (hs : Verif.Front.addSegment c a b f = .ok (e, f')) (hno : Verif.Decomp.NoSwap f'.dec) (o qr ql : Id) (m : Maps) (g : Log K) :
    ∃ m' g', piece c o qr ql a b m g f = .ok (m', g', f') := by
  obtain ⟨k1, _, k3, _, _, k6, _⟩ := addSegment_ctx hm h hs hno
  have hch : ∀ m : Maps, ∃ m', changeMaps f'.dec.change m = .ok m' := by
    intro m
    cases hc : f'.dec.change with
    | none => exact ⟨_, rfl⟩
    | shape x => exact ⟨_, rfl⟩
    | split q q' => exact ⟨_, rfl⟩
    | add q q' => exact ⟨_, rfl⟩
    | join q q' => rw [hc] at k3; exact k3.elim
    | remove q q' => rw [hc] at k3; exact k3.elim
  obtain ⟨m1, h1⟩ := hch { m with other1 := set m.other1 e o }
  obtain ⟨x, _, hx⟩ := k1.side (d := (e, decide (f'.dec.vtx (e, false) ≠ a))) k6
  obtain ⟨y, _, hy⟩ := k1.side (d := (e, !decide (f'.dec.vtx (e, false) ≠ a))) k6
  unfold piece
  simp only [bindOk, liftD_ok, polyAt_ok]
  exact ⟨_, _, ⟨(e, f'), hs, m1, h1, x, hx, y, hy, rfl⟩⟩

end
end Verif.Merge
