import Verif.Front.Trace
import Verif.Aabb.Props

/-! The box tables of the frontend hold the points and the segments of the decomposition. -/

namespace Verif.Front
open Verif.Decomp (St Id HE Geom)
open Verif.Plane (parametric projectPoint intersection dist2)
open Verif.Aabb (Box Lookup stored)

variable {K : Type} [Field K] [LinearOrder K]

/-- The point is in the box with at least the margin `m` to each side. -/
def Inside (m : K) (b : Box K) (p : K × K) : Prop := b.x0 + m ≤ p.1 ∧ p.1 + m ≤ b.x1 ∧ b.y0 + m ≤ p.2 ∧ p.2 + m ≤ b.y1

/-- Both coordinates are at most `C` in absolute value. -/
def Bounded (C : K) (p : K × K) : Prop := -C ≤ p.1 ∧ p.1 ≤ C ∧ -C ≤ p.2 ∧ p.2 ≤ C

/-- Numbers fixed for a run: the infinity and the root of two of the tables, bounds `m ≤ tolerance ≤ T`, bound `C` of the
coordinates. -/
structure Range (K : Type) where
  inf : K
  rt2 : K
  m : K
  T : K
  C : K

/-- The tables are those after the additions and removals `po` and `so`, by which exactly the points and the segments of the
decomposition are stored, each in a box around it. -/
structure Mirror (r : Range K) (po so : List (Verif.Aabb.Op K)) (f : Fr K) : Prop where
  pl : f.pl = Verif.Aabb.run (Lookup.new r.inf r.rt2 128) po
  sl : f.sl = Verif.Aabb.run (Lookup.new r.inf r.rt2 128) so
  tol : r.m ≤ f.tol ∧ f.tol ≤ r.T
  pdom : ∀ i, stored po i ≠ none ↔ i ∈ f.dec.pid.live
  sdom : ∀ e, stored so e ≠ none ↔ e ∈ f.dec.sid.live
  pin : ∀ i ∈ f.dec.pid.live, Bounded r.C (f.dec.xy i)
  pbox : ∀ i b, stored po i = some b → Inside r.m b (f.dec.xy i) ∧ b.Within (r.C + r.T)
  sbox : ∀ e b, stored so e = some b → (∀ v, Inside r.m b (f.dec.xy (f.dec.vtx (e, v)))) ∧ b.Within (r.C + r.T)

/-- The invariant of the frontend. -/
structure Good (c : Cfg K) (r : Range K) (f : Fr K) : Prop where
  reach : Verif.Decomp.ReachBy c.geo
    (fun s o => (∀ p d, o = .move p d → p ∈ s.pid.live) ∧ ∀ m x y, o ≠ .joinSegments m x y) f.dec
  mirror : ∃ po so, Mirror r po so f

theorem stored_append (ops : List (Verif.Aabb.Op K)) (o : Verif.Aabb.Op K) :
    stored (ops ++ [o]) = Verif.Aabb.specStep (stored ops) o := by simp [stored]

theorem run_append (s : Lookup K) (ops : List (Verif.Aabb.Op K)) (o : Verif.Aabb.Op K) :
    Verif.Aabb.run s (ops ++ [o]) = Verif.Aabb.step (Verif.Aabb.run s ops) o := by simp [Verif.Aabb.run]

variable [IsStrictOrderedRing K]

theorem Inside.mono {m m' : K} {b : Box K} {p : K × K} (h : Inside m b p) (hm : m' ≤ m) : Inside m' b p := by
  obtain ⟨h1, h2, h3, h4⟩ := h
  refine ⟨?_, ?_, ?_, ?_⟩ <;> linarith

theorem between_le {a b t lo : K} (ha : lo ≤ a) (hb : lo ≤ b) (h0 : 0 ≤ t) (h1 : t ≤ 1) : lo ≤ a + t * (b - a) := by
  nlinarith [mul_nonneg h0 (sub_nonneg.2 hb), mul_nonneg (sub_nonneg.2 h1) (sub_nonneg.2 ha)]

theorem between_ge {a b t hi : K} (ha : a ≤ hi) (hb : b ≤ hi) (h0 : 0 ≤ t) (h1 : t ≤ 1) : a + t * (b - a) ≤ hi := by
  nlinarith [mul_nonneg h0 (sub_nonneg.2 hb), mul_nonneg (sub_nonneg.2 h1) (sub_nonneg.2 ha)]

/-- A box holds with two points all points of the segment between them. -/
theorem Inside.segment {m t : K} {b : Box K} {p q : K × K} (hp : Inside m b p) (hq : Inside m b q) (h0 : 0 ≤ t) (h1 : t ≤ 1) :
    Inside m b (parametric p (q.1 - p.1, q.2 - p.2) t) := by
  obtain ⟨p1, p2, p3, p4⟩ := hp
  obtain ⟨q1, q2, q3, q4⟩ := hq
  refine ⟨between_le p1 q1 h0 h1, ?_, between_le p3 q3 h0 h1, ?_⟩
  · have := between_ge (le_sub_iff_add_le.2 p2) (le_sub_iff_add_le.2 q2) h0 h1
    exact le_sub_iff_add_le.1 this
  · have := between_ge (le_sub_iff_add_le.2 p4) (le_sub_iff_add_le.2 q4) h0 h1
    exact le_sub_iff_add_le.1 this

theorem Bounded.segment {C t : K} {p q : K × K} (hp : Bounded C p) (hq : Bounded C q) (h0 : 0 ≤ t) (h1 : t ≤ 1) :
    Bounded C (parametric p (q.1 - p.1, q.2 - p.2) t) :=
  ⟨between_le hp.1 hq.1 h0 h1, between_ge hp.2.1 hq.2.1 h0 h1, between_le hp.2.2.1 hq.2.2.1 h0 h1,
    between_ge hp.2.2.2 hq.2.2.2 h0 h1⟩

theorem boxOf_one {f : Fr K} {p : K × K} {b : Box K} (h : boxOf f [p] = .ok b) (ht : 0 < f.tol) : Inside f.tol b p := by
  simp only [boxOf, liftB_ok, List.map_cons, List.map_nil, Verif.Aabb.makeAabb, List.foldl_nil, gt_iff_lt, ht, if_true,
    toPt] at h
  cases h
  refine ⟨?_, ?_, ?_, ?_⟩ <;> dsimp only <;> linarith

theorem boxOf_one_within {f : Fr K} {p : K × K} {b : Box K} {C : K} (h : boxOf f [p] = .ok b) (ht : 0 < f.tol)
    (hp : Bounded C p) : b.Within (C + f.tol) := by
  simp only [boxOf, liftB_ok, List.map_cons, List.map_nil, Verif.Aabb.makeAabb, List.foldl_nil, gt_iff_lt, ht, if_true,
    toPt] at h
  cases h
  obtain ⟨h1, h2, h3, h4⟩ := hp
  refine ⟨?_, ?_, ?_, ?_, ?_, ?_, ?_, ?_⟩ <;> dsimp only <;> linarith

theorem boxOf_two {f : Fr K} {p q : K × K} {b : Box K} {C : K} (h : boxOf f [p, q] = .ok b) (ht : 0 < f.tol)
    (hp : Bounded C p) (hq : Bounded C q) : Inside f.tol b p ∧ Inside f.tol b q ∧ b.Within (C + f.tol) := by
  simp only [boxOf, liftB_ok, List.map_cons, List.map_nil, Verif.Aabb.makeAabb, List.foldl_nil, List.foldl_cons, gt_iff_lt, ht,
    if_true, toPt] at h
  cases h
  obtain ⟨p1, p2, p3, p4⟩ := hp
  obtain ⟨q1, q2, q3, q4⟩ := hq
  have a1 := min_le_left p.1 q.1
  have a2 := min_le_right p.1 q.1
  have a3 := le_max_left p.1 q.1
  have a4 := le_max_right p.1 q.1
  have b1 := min_le_left p.2 q.2
  have b2 := min_le_right p.2 q.2
  have b3 := le_max_left p.2 q.2
  have b4 := le_max_right p.2 q.2
  have c1 := le_min p1 q1
  have c2 := max_le p2 q2
  have c3 := le_min p3 q3
  have c4 := max_le p4 q4
  refine ⟨⟨?_, ?_, ?_, ?_⟩, ⟨?_, ?_, ?_, ?_⟩, ?_, ?_, ?_, ?_, ?_, ?_, ?_, ?_⟩ <;> dsimp only <;> linarith

theorem Within.mono {b : Box K} {B B' : K} (h : b.Within B) (hB : B ≤ B') : b.Within B' := by
  obtain ⟨h1, h2, h3, h4, h5, h6, h7, h8⟩ := h
  refine ⟨?_, ?_, ?_, ?_, ?_, ?_, ?_, ?_⟩ <;> linarith

theorem not_scaledLt {t q c : K} (hc : 0 < c) (h : ¬ scaledLt t q c) : 0 < t ∧ c * c ≤ t * t * q := by
  unfold scaledLt at h
  rw [if_pos hc] at h
  push Not at h
  exact h

/-- What `new_segment` does to the objects: a new segment, or none. -/
theorem newSegment_objects {g : Geom K} {a b e : Id} {s s' : St K} (hs : Verif.Decomp.newSegment g a b s = .ok (e, s'))
    (hI : Verif.Decomp.Inv s) (ha : a ∈ s.pid.live) (hb : b ∈ s.pid.live) :
    (e ∉ s.sid.live ∧ Verif.Decomp.AddSeg s s' e a b) ∨
      (e ∈ s.sid.live ∧ s' = Verif.Decomp.quiet s ∧ ∃ v, s.vtx (e, v) = a ∧ s.vtx (e, !v) = b) := by
  by_cases hf : e ∈ s.sid.live
  · right
    cases (Verif.Decomp.newSegment_cases hs hI.links ha hb).2 with
    | old ho hs' =>
      refine ⟨hf, hs', ?_⟩
      rcases ho with h | h
      · obtain ⟨_, h1, h2⟩ := (hI.tab.exact_ _ _ _).1 h
        exact ⟨false, h1, h2⟩
      · obtain ⟨_, h1, h2⟩ := (hI.tab.exact_ _ _ _).1 h
        exact ⟨true, h2, h1⟩
    | wire t1 t2 pa pb q qa qb hs =>
      exact absurd hf (Verif.Decomp.newWire_eff (T := False) (s := Verif.Decomp.quiet s) hs
        (hI.links.frame rfl rfl rfl rfl rfl) ha hb (hI.free.congr rfl rfl rfl rfl rfl) pa pb).1.fresh
    | dendrite t1 t2 i root hC pa pb hs =>
      exact absurd hf (Verif.Decomp.addDendrite_eff (T := False) (s := Verif.Decomp.quiet s) hs
        (hI.links.frame rfl rfl rfl rfl rfl) ha hb (hI.free.congr rfl rfl rfl rfl rfl) hC pa).1.fresh
    | join t1 t2 ia ib hCa hCb pa pb _ hs =>
      exact absurd hf (Verif.Decomp.joinWires_eff (T := False) (s := Verif.Decomp.quiet s) hs
        (hI.links.frame rfl rfl rfl rfl rfl) ha hb (hI.free.congr rfl rfl rfl rfl rfl) hCa hCb).1.fresh
    | split t1 t2 ia ib hCa hCb pa pb _ hs =>
      obtain ⟨_, _, _, _, _, _, _, _, hS, _⟩ := Verif.Decomp.splitPoly_start (T := False) (s := Verif.Decomp.quiet s) hs
        (hI.links.frame rfl rfl rfl rfl rfl) ha hb (hI.free.congr rfl rfl rfl rfl rfl) (by simp) hCa hCb
      exact absurd hf hS.add.fresh
  · exact Or.inl ⟨hf, (Verif.Decomp.newSegment_next hs hI ha hb hf).1⟩

theorem removeFreePoint_objects {p : Id} {s s' : St K} (hs : Verif.Decomp.removeFreePoint p s = .ok s') :
    ∃ m, s.pid.remove p = .ok m ∧ s'.pid = m ∧ s'.sid = s.sid ∧ s'.vtx = s.vtx ∧ s'.xy = s.xy := by
  unfold Verif.Decomp.removeFreePoint at hs
  simp only [Verif.Decomp.bind_ok, Except.ok.injEq] at hs
  obtain ⟨_, _, q, _, _, _, l, _, m, hm, rfl⟩ := hs
  exact ⟨m, hm, rfl, rfl, rfl, rfl⟩

theorem rm_step {s s' : Lookup K} {i : Nat} (h : s.rm i = .ok s') : Verif.Aabb.step s (.rm i) = s' := by
  simp only [Verif.Aabb.step, h]

/-- The mirror after a new point. -/
theorem addPt_mirror {r : Range K} (hm : 0 < r.m) {po so : List (Verif.Aabb.Op K)} {xy : K × K} {q p : Id} {f f' : Fr K}
    (h : addPt xy q f = .ok (p, f')) (hI : Verif.Decomp.Inv f.dec) (hM : Mirror r po so f) (hx : Bounded r.C xy) :
    p ∉ f.dec.pid.live ∧ (∃ b, Mirror r (po ++ [.add p b]) so f') ∧ f'.dec.xy = Function.update f.dec.xy p xy ∧
      f'.dec.vtx = f.dec.vtx ∧ f'.dec.sid = f.dec.sid ∧ f'.dec.pseg p = none ∧ p ∈ f'.dec.pid.live ∧ f'.tol = f.tol ∧
      f'.dec.vec = f.dec.vec := by
  simp only [addPt, bindOk] at h
  obtain ⟨_, _, b, hb, h⟩ := h
  cases h
  obtain ⟨h1, h2, h3⟩ := Verif.Decomp.Ids.append_ok hI.pids
  have ht : 0 < f.tol := lt_of_lt_of_le hm hM.tol.1
  refine ⟨h1, ⟨b, ?_⟩, rfl, rfl, rfl, by simp [Verif.Decomp.addFreePoint, Verif.Decomp.upd], ?_, rfl, rfl⟩
  · have hxy : ∀ j ∈ f.dec.pid.live, (Verif.Decomp.addFreePoint xy q f.dec).2.xy j = f.dec.xy j := by
      intro j hj
      have : j ≠ f.dec.pid.append.1 := fun hh => h1 (hh ▸ hj)
      simp [Verif.Decomp.addFreePoint, Verif.Decomp.upd, Function.update_of_ne this]
    have hnew : (Verif.Decomp.addFreePoint xy q f.dec).2.xy f.dec.pid.append.1 = xy := by
      simp [Verif.Decomp.addFreePoint, Verif.Decomp.upd]
    constructor
    · rw [run_append, ← hM.pl]; rfl
    · exact hM.sl
    · exact hM.tol
    · intro i
      rw [stored_append]
      change (if i = f.dec.pid.append.1 then some b else stored po i) ≠ none ↔ i ∈ f.dec.pid.append.2.live
      rw [h2, List.mem_append, List.mem_singleton]
      split
      · next hi => simp [hi]
      · next hi => rw [hM.pdom]; simp [hi]
    · exact hM.sdom
    · intro i hi
      change i ∈ f.dec.pid.append.2.live at hi
      rw [h2, List.mem_append, List.mem_singleton] at hi
      rcases hi with hi | hi
      · dsimp only; rw [hxy i hi]; exact hM.pin i hi
      · subst hi; dsimp only; rw [hnew]; exact hx
    · intro i b' hb'
      rw [stored_append] at hb'
      change (if i = f.dec.pid.append.1 then some b else stored po i) = some b' at hb'
      dsimp only
      split at hb'
      · next hi =>
        subst hi
        cases hb'
        rw [hnew]
        exact ⟨(boxOf_one hb ht).mono hM.tol.1, Within.mono (boxOf_one_within hb ht hx) (by linarith [hM.tol.2])⟩
      · rw [hxy i ((hM.pdom i).1 (by rw [hb']; simp))]
        exact hM.pbox i b' hb'
    · intro e b' hb'
      obtain ⟨h4, h5⟩ := hM.sbox e b' hb'
      refine ⟨fun v => ?_, h5⟩
      dsimp only
      change Inside r.m b' ((Verif.Decomp.addFreePoint xy q f.dec).2.xy (f.dec.vtx (e, v)))
      rw [hxy _ (hI.links.vlive (e, v) ((hM.sdom e).1 (by rw [hb']; simp)))]
      exact h4 v
  · change f.dec.pid.append.1 ∈ f.dec.pid.append.2.live
    rw [h2]; simp

/-- The mirror after each step of the frontend. -/
theorem prim_mirror {c : Cfg K} {r : Range K} (hm : 0 < r.m) {f f' : Fr K} (h : Prim c (Bounded r.C) f f')
    (hr : Verif.Decomp.ReachBy c.geo
      (fun s o => (∀ p d, o = .move p d → p ∈ s.pid.live) ∧ ∀ m x y, o ≠ .joinSegments m x y) f.dec)
    {po so : List (Verif.Aabb.Op K)} (hM : Mirror r po so f) :
    ∃ po' so', Mirror r po' so' f' ∧ po <+: po' ∧ so <+: so' := by
  have hI := hr.reach.inv
  have hV := Verif.Decomp.vectors_exact_partial hr
  have ht : 0 < f.tol := lt_of_lt_of_le hm hM.tol.1
  cases h with
  | @addPt xy q p _ _ hP h =>
    obtain ⟨_, ⟨b, h⟩, _⟩ := addPt_mirror hm h hI hM hP
    exact ⟨_, _, h, List.prefix_append _ _, List.prefix_rfl⟩
  | @addSegment a b _ _ _ h =>
    simp only [Front.addSegment, bindOk, liftD_ok, key_ok] at h
    obtain ⟨_, ha, _, hb, ⟨e, s'⟩, h1, x, hx, h⟩ := h
    cases h
    obtain ⟨k1, k2, k3⟩ := boxOf_two hx ht (hM.pin a ha) (hM.pin b hb)
    have k1 := k1.mono hM.tol.1
    have k2 := k2.mono hM.tol.1
    have k3 : x.Within (r.C + r.T) := Within.mono k3 (by linarith [hM.tol.2])
    refine ⟨po, so ++ [.add e x], ?_, List.prefix_rfl, List.prefix_append _ _⟩
    rcases newSegment_objects h1 hI ha hb with ⟨hf, hA⟩ | ⟨hf, rfl, v, v1, v2⟩
    · constructor
      · exact hM.pl
      · rw [run_append, ← hM.sl]; rfl
      · exact hM.tol
      · intro i; rw [hM.pdom]; dsimp only; rw [hA.pid]
      · intro i
        rw [stored_append]
        change (if i = e then some x else stored so i) ≠ none ↔ _
        rw [hA.live]
        split
        · next hi => simp [hi]
        · next hi => rw [hM.sdom]; simp [hi]
      · dsimp only; rw [hA.pid, hA.xy]; exact hM.pin
      · dsimp only; rw [hA.xy]; exact hM.pbox
      · intro i b' hb'
        rw [stored_append] at hb'
        change (if i = e then some x else stored so i) = some b' at hb'
        dsimp only
        rw [hA.xy]
        split at hb'
        · next hi =>
          subst hi
          cases hb'
          refine ⟨fun v => ?_, k3⟩
          cases v
          · rw [hA.v0]; exact k1
          · rw [hA.v1]; exact k2
        · next hi =>
          obtain ⟨h4, h5⟩ := hM.sbox i b' hb'
          exact ⟨fun v => by rw [hA.vo (i, v) hi]; exact h4 v, h5⟩
    · constructor
      · exact hM.pl
      · rw [run_append, ← hM.sl]; rfl
      · exact hM.tol
      · exact hM.pdom
      · intro i
        rw [stored_append]
        change (if i = e then some x else stored so i) ≠ none ↔ i ∈ f.dec.sid.live
        split
        · next hi => simp [hi, hf]
        · next hi => exact hM.sdom i
      · exact hM.pin
      · exact hM.pbox
      · intro i b' hb'
        rw [stored_append] at hb'
        change (if i = e then some x else stored so i) = some b' at hb'
        split at hb'
        · next hi =>
          subst hi
          cases hb'
          refine ⟨fun w => ?_, k3⟩
          change Inside r.m x (f.dec.xy (f.dec.vtx (i, w)))
          by_cases hw : w = v
          · rw [hw, v1]; exact k1
          · have : w = !v := by cases w <;> cases v <;> simp_all
            rw [this, v2]; exact k2
        · exact hM.sbox i b' hb'
  | @rmPt p _ _ h =>
    simp only [Front.rmPt, bindOk, liftD_ok, liftB_ok, key_ok] at h
    obtain ⟨_, hp, pl, hpl, d, h1, h⟩ := h
    cases h
    obtain ⟨m, hm, e1, e2, e3, e4⟩ := removeFreePoint_objects h1
    have hl := (Verif.Decomp.Ids.remove_ok hI.pids hm).2.2.2
    refine ⟨po ++ [.rm p], so, ?_, List.prefix_append _ _, List.prefix_rfl⟩
    constructor
    · rw [run_append, ← hM.pl, rm_step hpl]
    · exact hM.sl
    · exact hM.tol
    · intro i
      rw [stored_append]
      change (if i = p then none else stored po i) ≠ none ↔ _
      rw [e1, hl]
      split
      · next hi => simp [hi]
      · next hi => rw [hM.pdom]; simp [hi]
    · dsimp only; rw [e2]; exact hM.sdom
    · dsimp only; rw [e1, e4]; exact fun i hi => hM.pin i ((hl i).1 hi).2
    · intro i b' hb'
      rw [stored_append] at hb'
      change (if i = p then none else stored po i) = some b' at hb'
      dsimp only
      rw [e4]
      split at hb'
      · cases hb'
      · exact hM.pbox i b' hb'
    · dsimp only; rw [e3, e4]; exact hM.sbox
  | @rmSegment e _ _ h =>
    simp only [Front.rmSegment, bindOk, liftD_ok, liftB_ok, key_ok] at h
    obtain ⟨_, he, sl, hsl, d, h1, h⟩ := h
    cases h
    have hD := (Verif.Decomp.deleteSegment_next h1 hI he).1
    refine ⟨po, so ++ [.rm e], ?_, List.prefix_rfl, List.prefix_append _ _⟩
    constructor
    · exact hM.pl
    · rw [run_append, ← hM.sl, rm_step hsl]
    · exact hM.tol
    · dsimp only; rw [hD.pid]; exact hM.pdom
    · intro i
      rw [stored_append]
      change (if i = e then none else stored so i) ≠ none ↔ _
      rw [hD.live]
      split
      · next hi => simp [hi]
      · next hi => rw [hM.sdom]; simp [hi]
    · dsimp only; rw [hD.pid, hD.xy]; exact hM.pin
    · dsimp only; rw [hD.xy]; exact hM.pbox
    · intro i b' hb'
      rw [stored_append] at hb'
      change (if i = e then none else stored so i) = some b' at hb'
      dsimp only
      rw [hD.xy, hD.vtx]
      split at hb'
      · cases hb'
      · exact hM.sbox i b' hb'
  | @split e mid _ t _ f1 _ h0 h1 ha hs =>
    simp only [Front.splitSegment, bindOk, liftD_ok, key_ok] at hs
    obtain ⟨_, he, _, hmid, ⟨n, s'⟩, h2, x, hx, hs⟩ := hs
    cases hs
    obtain ⟨t0, _⟩ := not_scaledLt ht h0
    obtain ⟨t1, _⟩ := not_scaledLt ht h1
    have hq : f1.dec.qid = f.dec.qid := by
      simp only [Front.addPt, bindOk] at ha
      obtain ⟨_, _, b, _, ha⟩ := ha
      cases ha
      rfl
    have hsid : f1.dec.sid = f.dec.sid := by
      simp only [Front.addPt, bindOk] at ha
      obtain ⟨_, _, b, _, ha⟩ := ha
      cases ha
      rfl
    have hel : e ∈ f.dec.sid.live := hsid ▸ he
    have hx0 := hM.pin _ (hI.links.vlive (e, false) hel)
    have hx1 := hM.pin _ (hI.links.vlive (e, true) hel)
    have hve := hV e hel
    have hmb : Bounded r.C (parametric (f.dec.xy (f.dec.vtx (e, false))) (f.dec.vec e) t) := by
      rw [hve]; exact hx0.segment hx1 t0.le (by linarith)
    have hI1 : Verif.Decomp.Inv f1.dec := by
      have ha' := ha
      simp only [Front.addPt, bindOk] at ha'
      obtain ⟨_, _, b, _, ha'⟩ := ha'
      cases ha'
      exact Verif.Decomp.addFreePoint_inv hI
    obtain ⟨hfr, ⟨b, hM1⟩, hxy1, hvt1, hs1, hps1, hpl1, htol1, hvec1⟩ := addPt_mirror hm ha hI hM hmb
    obtain ⟨_, _, hS⟩ := Verif.Decomp.splitSegment_eff h2 hI1.links he hmid hps1 hI1.free (by simp)
    have hen : e ≠ n := fun hh => hS.fresh (hh ▸ he)
    have hmxy : f1.dec.xy mid = parametric (f.dec.xy (f.dec.vtx (e, false))) (f.dec.vec e) t := by
      rw [hxy1, Function.update_self]
    have hv0ne : f.dec.vtx (e, false) ≠ mid := fun hh => hfr (hh ▸ hI.links.vlive (e, false) hel)
    have hv1ne : f.dec.vtx (e, true) ≠ mid := fun hh => hfr (hh ▸ hI.links.vlive (e, true) hel)
    have g0 : s'.vtx (n, false) = mid := hS.vn0
    have g1 : s'.vtx (n, true) = f.dec.vtx (e, true) := hS.vn1.trans (by rw [hvt1])
    have g2 : s'.xy = f1.dec.xy := hS.xy
    dsimp only at hx
    rw [g0, g1, g2] at hx
    have ht1 : 0 < f1.tol := by rw [htol1]; exact ht
    obtain ⟨k1, k2, k3⟩ := boxOf_two (C := r.C) hx ht1 (hM1.pin _ hpl1) (hM1.pin _ (by
      rw [← hvt1]; exact hI1.links.vlive (e, true) he))
    refine ⟨po ++ [.add mid b], so ++ [.add n x], ?_, List.prefix_append _ _, List.prefix_append _ _⟩
    constructor
    · exact hM1.pl
    · rw [run_append, ← hM1.sl]; rfl
    · exact hM1.tol
    · dsimp only; rw [hS.pid]; exact hM1.pdom
    · intro i
      rw [stored_append]
      change (if i = n then some x else stored so i) ≠ none ↔ _
      rw [hS.live]
      split
      · next hi => simp [hi]
      · next hi => rw [hM1.sdom]; simp [hi]
    · dsimp only; rw [hS.pid, g2]; exact hM1.pin
    · dsimp only; rw [g2]; exact hM1.pbox
    · intro i b' hb'
      rw [stored_append] at hb'
      change (if i = n then some x else stored so i) = some b' at hb'
      dsimp only
      rw [g2]
      split at hb'
      · next hi =>
        subst hi
        cases hb'
        refine ⟨fun v => ?_, Within.mono k3 (by linarith [hM1.tol.2])⟩
        cases v
        · rw [g0]; exact k1.mono hM1.tol.1
        · rw [g1]; exact k2.mono hM1.tol.1
      · next hi =>
        obtain ⟨h4, h5⟩ := hM1.sbox i b' hb'
        refine ⟨fun v => ?_, h5⟩
        by_cases hiv : (i, v) = (e, true)
        · cases hiv
          rw [hS.ve, hmxy, hve]
          have := h4 false
          have h6 := h4 true
          rw [hvt1, hxy1, Function.update_of_ne hv0ne] at this
          rw [hvt1, hxy1, Function.update_of_ne hv1ne] at h6
          exact this.segment h6 t0.le (by linarith)
        · rw [hS.vo (i, v) hiv hi]
          exact h4 v
  | attr h =>
    exact ⟨po, so, ⟨hM.pl, hM.sl, hM.tol, hM.pdom, hM.sdom, hM.pin, hM.pbox, hM.sbox⟩, List.prefix_rfl, List.prefix_rfl⟩

/-- The second state follows the first one. -/
def Follows (c : Cfg K) (r : Range K) (po so : List (Verif.Aabb.Op K)) (f : Fr K) : Prop :=
  Good c r f ∧ ∃ po' so', Mirror r po' so' f ∧ po <+: po' ∧ so <+: so'

theorem Good.follows {c : Cfg K} {r : Range K} {f : Fr K} (h : Good c r f) : ∃ po so, Mirror r po so f ∧ Follows c r po so f := by
  obtain ⟨po, so, hM⟩ := h.mirror
  exact ⟨po, so, hM, h, po, so, hM, List.prefix_rfl, List.prefix_rfl⟩

theorem prim_follows {c : Cfg K} {r : Range K} (hm : 0 < r.m) {f f' : Fr K} (h : Prim c (Bounded r.C) f f')
    {po so : List (Verif.Aabb.Op K)} (hG : Follows c r po so f) : Follows c r po so f' := by
  obtain ⟨hG, po', so', hM, h1, h2⟩ := hG
  obtain ⟨po1, so1, hM1, h3, h4⟩ := prim_mirror hm h hG.reach hM
  exact ⟨⟨prim_reach h hG.reach (fun s o h1 h2 => ⟨fun p d hh => absurd hh (h1 p d), h2⟩), po1, so1, hM1⟩,
    po1, so1, hM1, h1.trans h3, h2.trans h4⟩

theorem prims_follows {c : Cfg K} {r : Range K} (hm : 0 < r.m) {f f' : Fr K} (h : Prims c (Bounded r.C) f f')
    {po so : List (Verif.Aabb.Op K)} (hG : Follows c r po so f) : Follows c r po so f' := by
  induction h with
  | refl => exact hG
  | tail _ h ih => exact prim_follows hm h ih

theorem prims_good {c : Cfg K} {r : Range K} (hm : 0 < r.m) {f f' : Fr K} (h : Prims c (Bounded r.C) f f') (hG : Good c r f) :
    Good c r f' := by
  obtain ⟨_, _, _, hF⟩ := hG.follows
  exact (prims_follows hm h hF).1

theorem init_good {c : Cfg K} {r : Range K} {tol : K} (ht : r.m ≤ tol ∧ tol ≤ r.T) : Good c r (init r.inf r.rt2 tol) := by
  refine ⟨.init, [], [], ?_⟩
  constructor
  · rfl
  · rfl
  · exact ht
  · intro i; simp [stored, init, Verif.Decomp.init]
  · intro i; simp [stored, init, Verif.Decomp.init]
  · intro i hi; simp [init, Verif.Decomp.init] at hi
  · intro i b hb; simp [stored] at hb
  · intro i b hb; simp [stored] at hb

/-- The call moves no point, gives coordinates of at most `C` in absolute value, and sets tolerances between `m` and `T`. -/
def Fits (r : Range K) : Call K → Prop
  | .addPoint x => Bounded r.C x
  | .addLine x y => Bounded r.C x ∧ Bounded r.C y
  | .movePoints _ _ => False
  | .setTolerance t => r.m ≤ t ∧ t ≤ r.T
  | _ => True

theorem call_follows {c : Cfg K} {r : Range K} (hm : 0 < r.m) {f f' : Fr K} {o : Call K} {po so : List (Verif.Aabb.Op K)}
    (hG : Follows c r po so f) (ho : Fits r o) (h : call c f o = .ok f') : Follows c r po so f' := by
  by_cases hs : Still (Bounded r.C) o
  · exact prims_follows hm (call_prims h hs) hG
  · cases o with
    | setTolerance t =>
      cases h
      obtain ⟨hG, po, so, hM, h1, h2⟩ := hG
      have hM' : Mirror r po so { f with tol := t } :=
        ⟨hM.pl, hM.sl, ho, hM.pdom, hM.sdom, hM.pin, hM.pbox, hM.sbox⟩
      exact ⟨⟨hG.reach, po, so, hM'⟩, po, so, hM', h1, h2⟩
    | addPoint x => exact absurd ho hs
    | addLine x y => exact absurd ho hs
    | movePoints ps d => exact absurd ho (by simp [Fits])
    | _ => exact absurd (by simp [Still]) hs

theorem calls_follows {c : Cfg K} {r : Range K} (hm : 0 < r.m) {po so : List (Verif.Aabb.Op K)} {os : List (Call K)} :
    ∀ {f f' : Fr K}, Follows c r po so f → (∀ o ∈ os, Fits r o) → calls c os f = .ok f' → Follows c r po so f' := by
  induction os with
  | nil => intro f f' hG _ h; cases h; exact hG
  | cons o os ih =>
    intro f f' hG ho h
    rw [calls] at h
    simp only [bindOk] at h
    obtain ⟨f1, h1, h⟩ := h
    exact ih (call_follows hm hG (ho o (by simp)) h1) (fun o' h' => ho o' (by simp [h'])) h

theorem calls_good {c : Cfg K} {r : Range K} (hm : 0 < r.m) {os : List (Call K)} {f f' : Fr K} (hG : Good c r f)
    (ho : ∀ o ∈ os, Fits r o) (h : calls c os f = .ok f') : Good c r f' := by
  obtain ⟨_, _, _, hF⟩ := hG.follows
  exact (calls_follows hm hF ho h).1

/-- **C113.** After any calls that move no point the two tables hold exactly the live points and the live segments, each in a box
that holds the whole object with the margin `m`, the least tolerance used. Missing: `move_points` leaves the boxes as they
were (`moved_point_lost`). -/
theorem tables_mirror_partial {c : Cfg K} {r : Range K} (hm : 0 < r.m) {tol : K} (ht : r.m ≤ tol ∧ tol ≤ r.T)
    {os : List (Call K)} (ho : ∀ o ∈ os, Fits r o) {f : Fr K} (h : calls c os (init r.inf r.rt2 tol) = .ok f) :
    ∃ po so, f.pl = Verif.Aabb.run (Lookup.new r.inf r.rt2 128) po ∧ f.sl = Verif.Aabb.run (Lookup.new r.inf r.rt2 128) so ∧
      (∀ i, stored po i ≠ none ↔ i ∈ f.dec.pid.live) ∧ (∀ e, stored so e ≠ none ↔ e ∈ f.dec.sid.live) ∧
      (∀ i b, stored po i = some b → Inside r.m b (f.dec.xy i)) ∧
      (∀ e b, stored so e = some b → ∀ t, 0 ≤ t → t ≤ 1 →
        Inside r.m b (parametric (f.dec.xy (f.dec.vtx (e, false))) (f.dec.vec e) t)) := by
  have hG := calls_good hm (init_good ht) ho h
  obtain ⟨po, so, hM⟩ := hG.mirror
  refine ⟨po, so, hM.pl, hM.sl, hM.pdom, hM.sdom, fun i b hb => (hM.pbox i b hb).1, fun e b hb t h0 h1 => ?_⟩
  rw [Verif.Decomp.vectors_exact_partial hG.reach e ((hM.sdom e).1 (by rw [hb]; simp))]
  exact ((hM.sbox e b hb).1 false).segment ((hM.sbox e b hb).1 true) h0 h1

end Verif.Front
