import Verif.Front.Mirror

/-! What `_snap_point` and `add_point` find. -/

namespace Verif.Front
open Verif.Decomp (St Id HE Geom)
open Verif.Plane (parametric projectPoint intersection dist2)
open Verif.Aabb (Box Lookup stored)

variable {K : Type} [Field K] [LinearOrder K] [IsStrictOrderedRing K]

/-- The numbers of a run: positive tolerances, a root of two from above, coordinates far from the infinity of the tables. -/
structure Range.Ok (r : Range K) : Prop where
  m : 0 < r.m
  one : 1 < r.rt2
  two : 2 ≤ r.rt2 * r.rt2
  far : (2 * r.rt2 + 1) * (r.C + r.T) < r.inf

/-- The point `y` is nearer to `x` than the tolerance. -/
def Near (f : Fr K) (x y : K × K) : Prop := dist2 x y < f.tol * f.tol

/-- The point of the segment `e` with the parameter `t`. -/
def at_ (f : Fr K) (e : Id) (t : K) : K × K := parametric (f.dec.xy (f.dec.vtx (e, false))) (f.dec.vec e) t

theorem dist2_comm (x y : K × K) : dist2 x y = dist2 y x := by simp only [dist2]; ring

theorem dist2_toPt (x y : K × K) : Verif.Aabb.dist2 (toPt x) (toPt y) = dist2 x y := rfl

theorem exists_min {α : Type} (g : α → K) : ∀ l : List α, l ≠ [] → ∃ a ∈ l, ∀ b ∈ l, g a ≤ g b
  | [], h => absurd rfl h
  | [a], _ => ⟨a, by simp, by simp⟩
  | a :: b :: l, _ => by
    obtain ⟨m, hm, hl⟩ := exists_min g (b :: l) (by simp)
    rcases le_total (g a) (g m) with h | h
    · refine ⟨a, by simp, fun x hx => ?_⟩
      rcases List.mem_cons.1 hx with rfl | hx
      · exact le_refl _
      · exact h.trans (hl x hx)
    · refine ⟨m, List.mem_cons_of_mem _ hm, fun x hx => ?_⟩
      rcases List.mem_cons.1 hx with rfl | hx
      · exact h
      · exact hl x hx

theorem Bounded.toPt {C B : K} {x : K × K} (h : Bounded C x) (hB : C ≤ B) : (toPt x).Within B := by
  obtain ⟨h1, h2, h3, h4⟩ := h
  refine ⟨?_, ?_, ?_, ?_⟩ <;> dsimp only [Front.toPt] <;> linarith

theorem Range.Ok.sum {r : Range K} (hr : r.Ok) {x : K × K} (hx : Bounded r.C x) (hT : r.m ≤ r.T) :
    r.C ≤ r.C + r.T ∧ 3 * (r.C + r.T) < r.inf ∧ 0 < r.rt2 ∧ (r.C + r.T) < r.inf := by
  have h1 := hr.m
  have h2 := hr.one
  have h3 := hr.far
  obtain ⟨x1, x2, _⟩ := hx
  have hC : 0 ≤ r.C := by linarith
  have h4 : (r.C + r.T) ≤ r.rt2 * (r.C + r.T) := le_mul_of_one_le_left (by linarith) h2.le
  refine ⟨by linarith, by linarith, by linarith, by linarith⟩

/-! ### Points -/

theorem firstNear_some {f : Fr K} {x : K × K} {p : Id} : ∀ {l : List Id}, firstNear f x l = .ok (some p) →
    p ∈ l ∧ p ∈ f.dec.pid.live ∧ 0 < f.tol ∧ Near f (f.dec.xy p) x
  | [], h => by simp [firstNear] at h
  | a :: l, h => by
    rw [firstNear] at h
    simp only [bindOk, key_ok] at h
    obtain ⟨_, ha, h⟩ := h
    split at h
    · next hn =>
      cases h
      exact ⟨by simp, ha, hn.1, hn.2⟩
    · obtain ⟨h1, h2⟩ := firstNear_some h
      exact ⟨List.mem_cons_of_mem _ h1, h2⟩

theorem firstNear_none {f : Fr K} {x : K × K} : ∀ {l : List Id}, firstNear f x l = .ok none →
    ∀ p ∈ l, p ∈ f.dec.pid.live ∧ ¬ normLt (dist2 (f.dec.xy p) x) f.tol
  | [], _ => by simp
  | a :: l, h => by
    rw [firstNear] at h
    simp only [bindOk, key_ok] at h
    obtain ⟨_, ha, h⟩ := h
    split at h
    · cases h
    · next hn =>
      intro p hp
      rcases List.mem_cons.1 hp with rfl | hp
      · exact ⟨ha, hn⟩
      · exact firstNear_none h p hp

theorem firstNear_total {f : Fr K} {x : K × K} : ∀ {l : List Id}, (∀ p ∈ l, p ∈ f.dec.pid.live) → ∃ o, firstNear f x l = .ok o
  | [], _ => ⟨none, rfl⟩
  | a :: l, h => by
    rw [firstNear, key, if_pos (h a (by simp))]
    change ∃ o, (if normLt (dist2 (f.dec.xy a) x) f.tol then Except.ok (some a) else firstNear f x l) = _
    split
    · exact ⟨_, rfl⟩
    · exact firstNear_total fun p hp => h p (by simp [hp])

theorem firstNear_dead {f : Fr K} {x : K × K} (h0 : f.dec.pid.live = []) : ∀ {l : List Id}, l ≠ [] →
    firstNear f x l = .error .keyError
  | [], h => absurd rfl h
  | a :: l, _ => by
    rw [firstNear, key, if_neg (by simp [h0])]
    rfl

/-- The candidates of the table of points: live ids, among them each nearest one. -/
theorem points_candidates {c : Cfg K} {r : Range K} (hr : r.Ok) {f : Fr K} (hG : Good c r f) {x : K × K} (hx : Bounded r.C x)
    (hne : f.dec.pid.live ≠ []) :
    ∃ cs, f.pl.closest (toPt x) = .ok cs ∧ (∀ p ∈ cs, p ∈ f.dec.pid.live) ∧
      ∀ p ∈ f.dec.pid.live, (∀ q ∈ f.dec.pid.live, dist2 x (f.dec.xy p) ≤ dist2 x (f.dec.xy q)) → p ∈ cs := by
  obtain ⟨po, so, hM⟩ := hG.mirror
  obtain ⟨s1, s2, s3, s4⟩ := hr.sum hx (hM.tol.1.trans hM.tol.2)
  have hst : ∀ i, i ∈ f.dec.pid.live → ∃ b, stored po i = some b := by
    intro i hi
    exact Option.ne_none_iff_exists'.1 ((hM.pdom i).2 hi)
  obtain ⟨p0, hp0, hmin⟩ := exists_min (fun p => dist2 x (f.dec.xy p)) f.dec.pid.live hne
  obtain ⟨b0, hb0⟩ := hst p0 hp0
  obtain ⟨cs, hcs, hlive⟩ := Verif.Aabb.closest_only_stored_partial r.inf r.rt2 (r.C + r.T) 128 (by norm_num) hr.one.le hr.far
    po (fun i b hb => (hM.pbox i b hb).2) (toPt x) (hx.toPt s1) p0 b0 hb0
  refine ⟨cs, by rw [hM.pl]; exact hcs, fun p hp => (hM.pdom p).1 (hlive p hp), fun p hp hpm => ?_⟩
  obtain ⟨b, hb⟩ := hst p hp
  obtain ⟨cs', hcs', hmem⟩ := Verif.Aabb.closest_contains_nearest r.inf r.rt2 (r.C + r.T) r.m 128 (by norm_num) s3 hr.two s2 po
    (fun i b hb => (hM.pbox i b hb).2) (toPt x) (hx.toPt s1) (fun i q => q = toPt (f.dec.xy i)) hr.m
    (fun i b _ => ⟨_, rfl⟩) (fun i b hb q hq => by subst hq; exact (hM.pbox i b hb).1) p b hb _ rfl
    (fun j c q hj hq => by
      subst hq
      exact hpm j ((hM.pdom j).1 (by rw [hj]; simp)))
  rw [hcs] at hcs'
  cases hcs'
  exact hmem

/-- A point nearer than the tolerance is found if there is one. -/
theorem snap_near {c : Cfg K} {r : Range K} (hr : r.Ok) {f : Fr K} (hG : Good c r f) {x : K × K} (hx : Bounded r.C x)
    (hn : ∃ p ∈ f.dec.pid.live, Near f (f.dec.xy p) x) :
    ∃ p ∈ f.dec.pid.live, Near f (f.dec.xy p) x ∧ snapPoint c x f = .ok (.point p) := by
  obtain ⟨p1, hp1, hn1⟩ := hn
  obtain ⟨po, so, hM⟩ := hG.mirror
  have ht : 0 < f.tol := lt_of_lt_of_le hr.m hM.tol.1
  have hne : f.dec.pid.live ≠ [] := List.ne_nil_of_mem hp1
  obtain ⟨cs, hcs, hlive, hnear⟩ := points_candidates hr hG hx hne
  obtain ⟨p0, hp0, hmin⟩ := exists_min (fun p => dist2 x (f.dec.xy p)) f.dec.pid.live hne
  have hmem := hnear p0 hp0 hmin
  have hn0 : Near f (f.dec.xy p0) x := by
    have := hmin p1 hp1
    unfold Near at hn1 ⊢
    rw [dist2_comm]; rw [dist2_comm] at hn1
    exact lt_of_le_of_lt this hn1
  obtain ⟨o, ho⟩ := firstNear_total (f := f) (x := x) hlive
  cases o with
  | none => exact absurd ⟨ht, hn0⟩ (firstNear_none ho p0 hmem).2
  | some p =>
    obtain ⟨_, h2, _, h4⟩ := firstNear_some ho
    refine ⟨p, h2, h4, ?_⟩
    unfold snapPoint
    rw [hcs]
    change (firstNear f x cs >>= fun _ => _) = _
    rw [ho]
    rfl

theorem not_near_of_none {c : Cfg K} {r : Range K} (hr : r.Ok) {f : Fr K} (hG : Good c r f) {x : K × K} (hx : Bounded r.C x)
    {cs : List Id} (hcs : f.pl.closest (toPt x) = .ok cs) (ho : firstNear f x cs = .ok none) :
    ∀ p ∈ f.dec.pid.live, ¬ Near f (f.dec.xy p) x := by
  intro p hp hn
  obtain ⟨q, _, _, h⟩ := snap_near hr hG hx ⟨p, hp, hn⟩
  unfold snapPoint at h
  rw [hcs] at h
  change (firstNear f x cs >>= fun _ => _) = _ at h
  rw [ho] at h
  change (closeSegments f x >>= fun _ => _) = _ at h
  simp only [bindOk] at h
  obtain ⟨l, _, h⟩ := h
  split at h
  · simp only [bindOk] at h
    obtain ⟨_, _, h⟩ := h
    cases h
  · split at h
    · split at h
      · cases h
      · simp only [bindOk] at h
        obtain ⟨_, _, h⟩ := h
        cases h
    · simp only [bindOk] at h
      obtain ⟨_, _, _, _, h⟩ := h
      split at h <;> cases h

/-! ### Segments -/

theorem mapM_mem {α β : Type} {g : α → Except Err β} : ∀ {l : List α} {l' : List β}, l.mapM g = .ok l' →
    (∀ a ∈ l, ∃ b ∈ l', g a = .ok b) ∧ ∀ b ∈ l', ∃ a ∈ l, g a = .ok b
  | [], l', h => by cases h; simp
  | a :: l, l', h => by
    rw [List.mapM_cons] at h
    simp only [bindOk] at h
    obtain ⟨b, hb, bs, hbs, h⟩ := h
    cases h
    obtain ⟨h1, h2⟩ := mapM_mem hbs
    constructor
    · intro x hx
      rcases List.mem_cons.1 hx with rfl | hx
      · exact ⟨b, by simp, hb⟩
      · obtain ⟨y, hy, hg⟩ := h1 x hx
        exact ⟨y, by simp [hy], hg⟩
    · intro y hy
      rcases List.mem_cons.1 hy with rfl | hy
      · exact ⟨a, by simp, hb⟩
      · obtain ⟨x, hx, hg⟩ := h2 y hy
        exact ⟨x, by simp [hx], hg⟩

/-- Each segment has a point nearest to `x`. -/
theorem exists_nearest (o v x : K × K) : ∃ t : K, 0 ≤ t ∧ t ≤ 1 ∧
    ∀ s, 0 ≤ s → s ≤ 1 → dist2 x (parametric o v t) ≤ dist2 x (parametric o v s) := by
  by_cases hv : v = (0, 0)
  · subst hv
    exact ⟨0, le_refl _, zero_le_one, fun s _ _ => by simp [parametric]⟩
  · obtain ⟨t, ht⟩ := (Verif.Plane.project_total v o x).2 hv
    obtain ⟨h0, h1, h⟩ := Verif.Plane.project_nearest ht
    refine ⟨t, h0, h1, fun s s0 s1 => ?_⟩
    by_cases hs : s = t
    · rw [hs]
    · exact (h s s0 s1 hs).le

theorem closest_nodup {s : Lookup K} {p : Verif.Aabb.Pt K} {cs : List Nat} (h : s.closest p = .ok cs) : cs.Nodup := by
  unfold Lookup.closest at h
  dsimp only at h
  split at h
  · cases h; exact List.nodup_nil
  · split at h
    · cases h
    · split at h
      · cases h
      · cases h
      · cases h
        exact (Verif.Aabb.whereL_sorted _ _).imp (fun h => Nat.ne_of_lt h)

/-- The list of the near segments: each has a live id, a point of the segment nearest to `x` with its distance, they are in the
order of distances, and no segment is nearer than the first one. -/
theorem closeSegments_spec {c : Cfg K} {r : Range K} (hr : r.Ok) {f : Fr K} (hG : Good c r f) {x : K × K} (hx : Bounded r.C x)
    {l : List (K × Id × K)} (h : closeSegments f x = .ok l) :
    (∀ y ∈ l, y.2.1 ∈ f.dec.sid.live ∧ 0 ≤ y.2.2 ∧ y.2.2 ≤ 1 ∧ y.1 = dist2 x (at_ f y.2.1 y.2.2) ∧
        projectPoint (f.dec.vec y.2.1) (f.dec.xy (f.dec.vtx (y.2.1, false))) x = .ok y.2.2) ∧
      (l.map fun y => y.2.1).Nodup ∧
      (f.dec.sid.live ≠ [] → ∃ y l', l = y :: l' ∧ (∀ z ∈ l', y.1 ≤ z.1) ∧
        ∀ e ∈ f.dec.sid.live, ∀ s, 0 ≤ s → s ≤ 1 → y.1 ≤ dist2 x (at_ f e s)) := by
  unfold closeSegments at h
  simp only [bindOk, liftB_ok] at h
  obtain ⟨cs, hcs, l0, hl0, h⟩ := h
  cases h
  obtain ⟨hm1, hm2⟩ := mapM_mem hl0
  have hseg : ∀ e y, segDist f x e = .ok y → y.2.1 = e ∧ y.2.1 ∈ f.dec.sid.live ∧ 0 ≤ y.2.2 ∧ y.2.2 ≤ 1 ∧
      y.1 = dist2 x (at_ f y.2.1 y.2.2) ∧
      projectPoint (f.dec.vec y.2.1) (f.dec.xy (f.dec.vtx (y.2.1, false))) x = .ok y.2.2 := by
    intro e y hy
    unfold segDist at hy
    simp only [bindOk, liftD_ok, key_ok] at hy
    obtain ⟨_, he, t, ht, hy⟩ := hy
    cases hy
    obtain ⟨h0, h1, _⟩ := Verif.Plane.project_nearest ht
    exact ⟨rfl, he, h0, h1, rfl, ht⟩
  constructor
  · intro y hy
    rw [List.mem_insertionSort] at hy
    obtain ⟨e, _, he⟩ := hm2 y hy
    exact (hseg e y he).2
  constructor
  · have hperm := (List.perm_insertionSort (fun a b : K × Id × K => a.1 ≤ b.1) l0).map fun y => y.2.1
    rw [hperm.nodup_iff]
    have : ∀ {cs : List Id} {l0 : List (K × Id × K)}, cs.mapM (segDist f x) = .ok l0 → l0.map (fun y => y.2.1) = cs := by
      intro cs
      induction cs with
      | nil => intro l0 h; cases h; rfl
      | cons a cs ih =>
        intro l0 h
        rw [List.mapM_cons] at h
        simp only [bindOk] at h
        obtain ⟨b, hb, bs, hbs, h⟩ := h
        cases h
        rw [List.map_cons, ih hbs, (hseg a b hb).1]
    rw [this hl0]
    exact closest_nodup hcs
  · intro hne
    obtain ⟨po, so, hM⟩ := hG.mirror
    obtain ⟨s1, s2, s3, s4⟩ := hr.sum hx (hM.tol.1.trans hM.tol.2)
    have hV := Verif.Decomp.vectors_exact_partial hG.reach
    choose tm t0 t1 tn using fun e => exists_nearest (f.dec.xy (f.dec.vtx (e, false))) (f.dec.vec e) x
    obtain ⟨e0, he0, hmin⟩ := exists_min (fun e => dist2 x (at_ f e (tm e))) f.dec.sid.live hne
    obtain ⟨b0, hb0⟩ := Option.ne_none_iff_exists'.1 ((hM.sdom e0).2 he0)
    have hall : ∀ e ∈ f.dec.sid.live, ∀ s, 0 ≤ s → s ≤ 1 → dist2 x (at_ f e0 (tm e0)) ≤ dist2 x (at_ f e s) :=
      fun e he s hs0 hs1 => (hmin e he).trans (tn e s hs0 hs1)
    obtain ⟨cs', hcs', hmem⟩ := Verif.Aabb.closest_contains_nearest r.inf r.rt2 (r.C + r.T) r.m 128 (by norm_num) s3 hr.two s2
      so (fun i b hb => (hM.sbox i b hb).2) (toPt x) (hx.toPt s1)
      (fun e q => ∃ s, 0 ≤ s ∧ s ≤ 1 ∧ q = toPt (at_ f e s)) hr.m
      (fun e b _ => ⟨_, 0, le_refl _, zero_le_one, rfl⟩)
      (fun e b hb q hq => by
        obtain ⟨s, hs0, hs1, rfl⟩ := hq
        have hi := ((hM.sbox e b hb).1 false).segment ((hM.sbox e b hb).1 true) hs0 hs1
        unfold at_
        rw [hV e ((hM.sdom e).1 (by rw [hb]; simp))]
        exact hi)
      e0 b0 hb0 _ ⟨tm e0, t0 e0, t1 e0, rfl⟩
      (fun j d q hj hq => by
        obtain ⟨s, hs0, hs1, rfl⟩ := hq
        exact hall j ((hM.sdom j).1 (by rw [hj]; simp)) s hs0 hs1)
    rw [hM.sl] at hcs
    rw [hcs] at hcs'
    cases hcs'
    obtain ⟨y0, hy0, hg0⟩ := hm1 e0 hmem
    have hsort := List.pairwise_insertionSort (fun a b : K × Id × K => a.1 ≤ b.1) l0
    cases hl : l0.insertionSort (fun a b => a.1 ≤ b.1) with
    | nil =>
      rw [← List.mem_insertionSort (fun a b : K × Id × K => a.1 ≤ b.1), hl] at hy0
      cases hy0
    | cons y l' =>
      rw [hl] at hsort
      refine ⟨y, l', rfl, (List.pairwise_cons.1 hsort).1, fun e he s hs0 hs1 => ?_⟩
      have hle : y.1 ≤ y0.1 := by
        rw [← List.mem_insertionSort (fun a b : K × Id × K => a.1 ≤ b.1), hl] at hy0
        rcases List.mem_cons.1 hy0 with h | h
        · rw [h]
        · exact (List.pairwise_cons.1 hsort).1 y0 h
      obtain ⟨g1, _, g3, g4, g5, g6⟩ := hseg e0 y0 hg0
      refine hle.trans (le_trans ?_ (hall e he s hs0 hs1))
      rw [g5]
      rw [g1] at g6 ⊢
      obtain ⟨_, _, hpn⟩ := Verif.Plane.project_nearest g6
      by_cases ht : tm e0 = y0.2.2
      · rw [ht]
      · exact (hpn (tm e0) (t0 e0) (t1 e0) ht).le

/-- What each result of `_snap_point` says. -/
def SnapOk (x : K × K) (f : Fr K) : Snap K → Prop
  | .point p => p ∈ f.dec.pid.live ∧ Near f (f.dec.xy p) x
  | .segment e t => (∀ p ∈ f.dec.pid.live, ¬ Near f (f.dec.xy p) x) ∧ e ∈ f.dec.sid.live ∧
      ∃ t0, 0 ≤ t0 ∧ t0 ≤ 1 ∧ Near f x (at_ f e t0) ∧
        (∀ e' ∈ f.dec.sid.live, ∀ s, 0 ≤ s → s ≤ 1 → dist2 x (at_ f e t0) ≤ dist2 x (at_ f e' s)) ∧
        (t = t0 ∨ ∃ e' ∈ f.dec.sid.live, e' ≠ e ∧ ∃ s, 0 ≤ s ∧ s ≤ 1 ∧ Near f x (at_ f e' s))
  | .polygon q => (∀ p ∈ f.dec.pid.live, ¬ Near f (f.dec.xy p) x) ∧
      (∀ e ∈ f.dec.sid.live, ∀ s, 0 ≤ s → s ≤ 1 → ¬ Near f x (at_ f e s)) ∧
      (f.dec.sid.live = [] ∧ q = 0 ∨ polyContains f.dec q x = .ok true)

theorem snapPoint_spec {c : Cfg K} {r : Range K} (hr : r.Ok) {f : Fr K} (hG : Good c r f) {x : K × K} (hx : Bounded r.C x)
    {s : Snap K} (h : snapPoint c x f = .ok s) : SnapOk x f s := by
  obtain ⟨po, so, hM⟩ := hG.mirror
  have ht : 0 < f.tol := lt_of_lt_of_le hr.m hM.tol.1
  unfold snapPoint at h
  simp only [bindOk, liftB_ok] at h
  obtain ⟨cs, hcs, o, ho, h⟩ := h
  cases o with
  | some p =>
    cases h
    obtain ⟨_, h2, _, h4⟩ := firstNear_some ho
    exact ⟨h2, h4⟩
  | none =>
    have hfar := not_near_of_none hr hG hx hcs ho
    simp only [bindOk] at h
    obtain ⟨l, hl, h⟩ := h
    obtain ⟨hmem, hnd, hfirst⟩ := closeSegments_spec hr hG hx hl
    cases l with
    | nil =>
      simp only [bindOk, checkOk] at h
      obtain ⟨_, h0, h⟩ := h
      cases h
      refine ⟨hfar, ?_, Or.inl ⟨h0, rfl⟩⟩
      intro e he
      rw [h0] at he
      cases he
    | cons y l' =>
      obtain ⟨d, e, t⟩ := y
      obtain ⟨he, t0, t1, hd, hproj⟩ := hmem (d, e, t) (by simp)
      dsimp only at he t0 t1 hd hproj
      obtain ⟨y', l'', hyl, _, hminall⟩ := hfirst (List.ne_nil_of_mem he)
      cases hyl
      dsimp only at hminall h
      by_cases hn : normLt d f.tol
      · rw [if_pos hn] at h
        have hne : Near f x (at_ f e t) := by unfold Near; rw [← hd]; exact hn.2
        have hm' : ∀ e' ∈ f.dec.sid.live, ∀ s, 0 ≤ s → s ≤ 1 → dist2 x (at_ f e t) ≤ dist2 x (at_ f e' s) := by
          rw [← hd]; exact hminall
        cases hf : l'.filter (fun r => normLt r.1 f.tol) with
        | nil =>
          rw [hf] at h
          cases h
          exact ⟨hfar, he, t, t0, t1, hne, hm', Or.inl rfl⟩
        | cons z zs =>
          rw [hf] at h
          simp only [bindOk] at h
          obtain ⟨t', _, h⟩ := h
          cases h
          have hz : z ∈ l'.filter (fun r => normLt r.1 f.tol) := by rw [hf]; simp
          rw [List.mem_filter] at hz
          obtain ⟨z1, z2, z3, z4, _⟩ := hmem z (by simp [hz.1])
          refine ⟨hfar, he, t, t0, t1, hne, hm', Or.inr ⟨z.2.1, z1, ?_, z.2.2, z2, z3, ?_⟩⟩
          · intro hh
            rw [List.map_cons, List.nodup_cons] at hnd
            exact hnd.1 (List.mem_map.2 ⟨z, hz.1, hh⟩)
          unfold Near
          rw [← z4]
          exact (of_decide_eq_true hz.2).2
      · rw [if_neg hn] at h
        simp only [bindOk, liftD_ok] at h
        obtain ⟨q, hq, b, hb, h⟩ := h
        cases b with
        | false => simp at h
        | true =>
          rw [if_pos rfl] at h
          cases h
          refine ⟨hfar, fun e' he' s hs0 hs1 hnear => ?_, Or.inr hb⟩
          exact hn ⟨ht, lt_of_le_of_lt (hminall e' he' s hs0 hs1) hnear⟩

/-! ### `add_point` -/

theorem addPoint_point {c : Cfg K} {f : Fr K} {x : K × K} {p : Id} (h : snapPoint c x f = .ok (.point p)) :
    addPoint c x f = .ok (p, f) := by
  unfold addPoint
  rw [h]
  rfl

/-- What the frontend knows of a run. -/
structure Run (c : Cfg K) (r : Range K) (f : Fr K) : Prop where
  ok : r.Ok
  run : ∃ (tol : K) (os : List (Call K)), (r.m ≤ tol ∧ tol ≤ r.T) ∧ (∀ o ∈ os, Fits r o) ∧
    calls c os (init r.inf r.rt2 tol) = .ok f

theorem Run.good {c : Cfg K} {r : Range K} {f : Fr K} (h : Run c r f) : Good c r f := by
  obtain ⟨tol, os, ht, ho, hc⟩ := h.run
  exact calls_good h.ok.m (init_good ht) ho hc

/-- **C114.** If a point of the decomposition is nearer to `x` than the tolerance, `add_point(x)` returns such a point and
changes nothing. -/
theorem add_point_snaps {c : Cfg K} {r : Range K} {f : Fr K} (hR : Run c r f) {x : K × K} (hx : Bounded r.C x)
    (hn : ∃ p ∈ f.dec.pid.live, dist2 (f.dec.xy p) x < f.tol * f.tol) :
    ∃ p ∈ f.dec.pid.live, dist2 (f.dec.xy p) x < f.tol * f.tol ∧ addPoint c x f = .ok (p, f) := by
  obtain ⟨p, hp, h1, h2⟩ := snap_near hR.ok hR.good hx hn
  exact ⟨p, hp, h1, addPoint_point h2⟩

/-- What `add_point` does when it returns. -/
theorem addPoint_cases {c : Cfg K} {r : Range K} (hr : r.Ok) {f : Fr K} (hG : Good c r f) {x : K × K} (hx : Bounded r.C x)
    {p : Id} {f' : Fr K} (h : addPoint c x f = .ok (p, f')) :
    (f' = f ∧ p ∈ f.dec.pid.live) ∨
    ((∀ p ∈ f.dec.pid.live, ¬ Near f (f.dec.xy p) x) ∧ p ∉ f.dec.pid.live ∧ f'.tol = f.tol ∧
      (∀ i, i ∈ f'.dec.pid.live ↔ i = p ∨ i ∈ f.dec.pid.live) ∧ (∀ i ∈ f.dec.pid.live, f'.dec.xy i = f.dec.xy i) ∧
      ((f'.dec.xy p = x ∧ f'.dec.pseg p = none ∧ f'.dec.sid = f.dec.sid ∧
          ∀ e ∈ f.dec.sid.live, ∀ s, 0 ≤ s → s ≤ 1 → ¬ Near f x (at_ f e s)) ∨
        ∃ e ∈ f.dec.sid.live, ∃ t, 0 < t ∧ t < 1 ∧ f'.dec.xy p = at_ f e t ∧ f'.dec.pseg p ≠ none ∧
          f.tol * f.tol ≤ dist2 (at_ f e t) (at_ f e 0) ∧ f.tol * f.tol ≤ dist2 (at_ f e t) (at_ f e 1) ∧
          ∃ t0, 0 ≤ t0 ∧ t0 ≤ 1 ∧ Near f x (at_ f e t0) ∧
            (∀ e' ∈ f.dec.sid.live, ∀ s, 0 ≤ s → s ≤ 1 → dist2 x (at_ f e t0) ≤ dist2 x (at_ f e' s)) ∧
            (t = t0 ∨ ∃ e' ∈ f.dec.sid.live, e' ≠ e ∧ ∃ s, 0 ≤ s ∧ s ≤ 1 ∧ Near f x (at_ f e' s)))) := by
  obtain ⟨po, so, hM⟩ := hG.mirror
  have ht : 0 < f.tol := lt_of_lt_of_le hr.m hM.tol.1
  have hI := hG.reach.reach.inv
  have hV := Verif.Decomp.vectors_exact_partial hG.reach
  unfold addPoint at h
  simp only [bindOk] at h
  obtain ⟨s, hs, h⟩ := h
  have hso := snapPoint_spec hr hG hx hs
  cases s with
  | point q =>
    cases h
    exact Or.inl ⟨rfl, hso.1⟩
  | segment e t =>
    obtain ⟨hfar, he, hnear⟩ := hso
    simp only [bindOk] at h
    obtain ⟨⟨⟨mid0, n0⟩, f2⟩, h, h'⟩ := h
    cases h'
    unfold pointOnSegment at h
    dsimp only at h
    split at h
    · cases h
      exact Or.inl ⟨rfl, hI.links.vlive (e, false) he⟩
    split at h
    · cases h
      exact Or.inl ⟨rfl, hI.links.vlive (e, true) he⟩
    rename_i hn0 hn1
    simp only [bindOk] at h
    obtain ⟨⟨mid, f1⟩, ha, ⟨n', f2'⟩, hs2, h⟩ := h
    cases h
    obtain ⟨t0, q0⟩ := not_scaledLt ht hn0
    obtain ⟨t1, q1⟩ := not_scaledLt ht hn1
    have hmb : Bounded r.C (parametric (f.dec.xy (f.dec.vtx (e, false))) (f.dec.vec e) t) := by
      rw [hV e he]
      exact (hM.pin _ (hI.links.vlive (e, false) he)).segment (hM.pin _ (hI.links.vlive (e, true) he)) t0.le (by linarith)
    obtain ⟨hfr, ⟨b, hM1⟩, hxy1, hvt1, hs1, hps1, hpl1, htol1, hvec1⟩ := addPt_mirror hr.m ha hI hM hmb
    have hI1 : Verif.Decomp.Inv f1.dec := by
      have ha' := ha
      simp only [Front.addPt, bindOk] at ha'
      obtain ⟨_, _, b, _, ha'⟩ := ha'
      cases ha'
      exact Verif.Decomp.addFreePoint_inv hI
    have hlive1 : ∀ i, i ∈ f1.dec.pid.live ↔ i = mid ∨ i ∈ f.dec.pid.live := by
      simp only [Front.addPt, bindOk] at ha
      obtain ⟨_, _, b, _, ha⟩ := ha
      cases ha
      intro i
      change i ∈ f.dec.pid.append.2.live ↔ _
      rw [(Verif.Decomp.Ids.append_ok hI.pids).2.1, List.mem_append, List.mem_singleton]
      tauto
    simp only [Front.splitSegment, bindOk, liftD_ok, key_ok] at hs2
    obtain ⟨_, he1, _, hmid, ⟨n', s'⟩, h2, x', _, hs2⟩ := hs2
    cases hs2
    obtain ⟨hL2, _, hS⟩ := Verif.Decomp.splitSegment_eff h2 hI1.links he1 hmid hps1 hI1.free (by simp)
    right
    refine ⟨hfar, hfr, htol1, ?_, ?_, Or.inr ⟨e, he, t, t0, by linarith, ?_, ?_, ?_, ?_, hnear⟩⟩
    · intro i
      dsimp only
      rw [hS.pid]
      exact hlive1 i
    · intro i hi
      dsimp only
      rw [hS.xy, hxy1, Function.update_of_ne (ne_of_mem_of_not_mem hi hfr)]
    · dsimp only
      rw [hS.xy, hxy1, Function.update_self]
      rfl
    · dsimp only
      intro hh
      obtain ⟨l, hl, hp⟩ := hL2.ring mid (by rw [hS.pid]; exact hpl1)
      have hmem := (hl.mem (n', false)).2 ⟨(hS.live n').2 (Or.inr rfl), hS.vn0, by simp⟩
      rw [(hp (by simp)).non hh] at hmem
      cases hmem
    · have : dist2 (at_ f e t) (at_ f e 0) = t * t * dot (f.dec.vec e) (f.dec.vec e) := by
        simp only [dist2, at_, parametric, dot]; ring
      rw [this]; exact q0
    · have : dist2 (at_ f e t) (at_ f e 1) = (1 - t) * (1 - t) * dot (f.dec.vec e) (f.dec.vec e) := by
        simp only [dist2, at_, parametric, dot]; ring
      rw [this]; exact q1
  | polygon q =>
    obtain ⟨hfar, hfars, _⟩ := hso
    obtain ⟨hfr, ⟨b, hM1⟩, hxy1, hvt1, hs1, hps1, hpl1, htol1, hvec1⟩ := addPt_mirror hr.m h hI hM hx
    have hlive1 : ∀ i, i ∈ f'.dec.pid.live ↔ i = p ∨ i ∈ f.dec.pid.live := by
      simp only [Front.addPt, bindOk] at h
      obtain ⟨_, _, b, _, h⟩ := h
      cases h
      intro i
      change i ∈ f.dec.pid.append.2.live ↔ _
      rw [(Verif.Decomp.Ids.append_ok hI.pids).2.1, List.mem_append, List.mem_singleton]
      tauto
    right
    refine ⟨hfar, hfr, htol1, hlive1, ?_, Or.inl ⟨?_, hps1, hs1, hfars⟩⟩
    · intro i hi
      rw [hxy1, Function.update_of_ne (ne_of_mem_of_not_mem hi hfr)]
    · rw [hxy1, Function.update_self]

/-- **C115.** A point that `add_point` puts in freely is at the given place, and no point and no point of a segment is nearer to
it than the tolerance. -/
theorem free_point_apart {c : Cfg K} {r : Range K} {f : Fr K} (hR : Run c r f) {x : K × K} (hx : Bounded r.C x) {p : Id}
    {f' : Fr K} (h : addPoint c x f = .ok (p, f')) (hnew : p ∉ f.dec.pid.live) (hfree : f'.dec.pseg p = none) :
    f'.dec.xy p = x ∧ (∀ i ∈ f'.dec.pid.live, i ≠ p → f.tol * f.tol ≤ dist2 (f'.dec.xy i) x) ∧
      ∀ e ∈ f'.dec.sid.live, ∀ s, 0 ≤ s → s ≤ 1 →
        f.tol * f.tol ≤ dist2 x (parametric (f.dec.xy (f.dec.vtx (e, false))) (f.dec.vec e) s) := by
  rcases addPoint_cases hR.ok hR.good hx h with ⟨_, hp⟩ | ⟨hfar, _, _, hl, hxy, hc⟩
  · exact absurd hp hnew
  · rcases hc with ⟨h1, _, h3, h4⟩ | ⟨e, _, t, _, _, _, h5, _⟩
    · refine ⟨h1, fun i hi hip => ?_, fun e he s hs0 hs1 => ?_⟩
      · have hi' := ((hl i).1 hi).resolve_left hip
        rw [hxy i hi']
        exact not_lt.1 (hfar i hi')
      · rw [h3] at he
        exact not_lt.1 (h4 e he s hs0 hs1)
    · exact absurd hfree h5

/-- **C116.** A point that `add_point` puts on a segment is on it with at least the tolerance from both ends, the segment is a
nearest one and nearer than the tolerance, and no point of the decomposition was nearer to `x` than the tolerance. If no other
segment is nearer than the tolerance, the new point is the nearest one of the segment. -/
theorem point_on_segment {c : Cfg K} {r : Range K} {f : Fr K} (hR : Run c r f) {x : K × K} (hx : Bounded r.C x) {p : Id}
    {f' : Fr K} (h : addPoint c x f = .ok (p, f')) (hnew : p ∉ f.dec.pid.live) (hseg : f'.dec.pseg p ≠ none) :
    (∀ i ∈ f.dec.pid.live, f.tol * f.tol ≤ dist2 (f.dec.xy i) x) ∧
    ∃ e ∈ f.dec.sid.live, ∃ t, 0 < t ∧ t < 1 ∧
      f'.dec.xy p = parametric (f.dec.xy (f.dec.vtx (e, false))) (f.dec.vec e) t ∧
      f.tol * f.tol ≤ dist2 (f'.dec.xy p) (f.dec.xy (f.dec.vtx (e, false))) ∧
      f.tol * f.tol ≤ dist2 (f'.dec.xy p) (f.dec.xy (f.dec.vtx (e, true))) ∧
      ∃ t0, 0 ≤ t0 ∧ t0 ≤ 1 ∧ dist2 x (parametric (f.dec.xy (f.dec.vtx (e, false))) (f.dec.vec e) t0) < f.tol * f.tol ∧
        (∀ e' ∈ f.dec.sid.live, ∀ s, 0 ≤ s → s ≤ 1 →
          dist2 x (parametric (f.dec.xy (f.dec.vtx (e, false))) (f.dec.vec e) t0) ≤
            dist2 x (parametric (f.dec.xy (f.dec.vtx (e', false))) (f.dec.vec e') s)) := by
  have hV := Verif.Decomp.vectors_exact_partial hR.good.reach
  rcases addPoint_cases hR.ok hR.good hx h with ⟨_, hp⟩ | ⟨hfar, _, _, hl, hxy, hc⟩
  · exact absurd hp hnew
  · rcases hc with ⟨_, h2, _⟩ | ⟨e, he, t, t0, t1, h4, _, h6, h7, u, u0, u1, h8, h9, _⟩
    · exact absurd h2 hseg
    · have e0 : at_ f e 0 = f.dec.xy (f.dec.vtx (e, false)) := by simp [at_, parametric]
      have e1 : at_ f e 1 = f.dec.xy (f.dec.vtx (e, true)) := by
        unfold at_; rw [hV e he]; simp [parametric]
      refine ⟨fun i hi => not_lt.1 (hfar i hi), e, he, t, t0, t1, h4, ?_, ?_, u, u0, u1, h8, h9⟩
      · rw [h4, ← e0]; exact h6
      · rw [h4, ← e1]; exact h7

/-- **C117.** A second `add_point` with the same coordinates returns the same point and changes nothing, if the first one
changed nothing or gave a point nearer than the tolerance. Missing: a point moved along the segment away from another one. -/
theorem add_point_again_partial {c : Cfg K} {r : Range K} {f : Fr K} (hR : Run c r f) {x : K × K} (hx : Bounded r.C x) {p : Id}
    {f' : Fr K} (h : addPoint c x f = .ok (p, f')) (hn : f' = f ∨ dist2 (f'.dec.xy p) x < f.tol * f.tol) :
    addPoint c x f' = .ok (p, f') := by
  rcases addPoint_cases hR.ok hR.good hx h with ⟨rfl, hp⟩ | ⟨hfar, hnew, htol, hl, hxy, hc⟩
  · exact h
  · have hn := hn.resolve_left (fun hh => hnew (hh ▸ (hl p).2 (Or.inl rfl)))
    have hG' : Good c r f' := by
      refine prims_good hR.ok.m ?_ hR.good
      exact addPoint_prims hx h
    have hn' : Near f' (f'.dec.xy p) x := by unfold Near; rw [htol]; exact hn
    obtain ⟨q, hq, hqn, hsnap⟩ := snap_near hR.ok hG' hx ⟨p, (hl p).2 (Or.inl rfl), hn'⟩
    have hqp : q = p := by
      by_contra hh
      have hq' := ((hl q).1 hq).resolve_left hh
      refine hfar q hq' ?_
      unfold Near at hqn ⊢
      rw [hxy q hq', htol] at hqn
      exact hqn
    subst hqp
    exact addPoint_point hsnap

/-- **C117.** If at most one segment is nearer to `x` than the tolerance, a second `add_point` with the same coordinates returns
the same point and changes nothing. -/
theorem add_point_again {c : Cfg K} {r : Range K} {f : Fr K} (hR : Run c r f) {x : K × K} (hx : Bounded r.C x) {p : Id}
    {f' : Fr K} (h : addPoint c x f = .ok (p, f'))
    (hone : ∀ e ∈ f.dec.sid.live, ∀ e' ∈ f.dec.sid.live, ∀ s s', 0 ≤ s → s ≤ 1 → 0 ≤ s' → s' ≤ 1 →
      dist2 x (parametric (f.dec.xy (f.dec.vtx (e, false))) (f.dec.vec e) s) < f.tol * f.tol →
      dist2 x (parametric (f.dec.xy (f.dec.vtx (e', false))) (f.dec.vec e') s') < f.tol * f.tol → e = e') :
    addPoint c x f' = .ok (p, f') := by
  refine add_point_again_partial hR hx h ?_
  obtain ⟨po, so, hM⟩ := hR.good.mirror
  have ht : 0 < f.tol := lt_of_lt_of_le hR.ok.m hM.tol.1
  rcases addPoint_cases hR.ok hR.good hx h with ⟨hf, hp⟩ | ⟨hfar, _, htol, hl, hxy, hc⟩
  · exact Or.inl hf
  · right
    rcases hc with ⟨h1, _⟩ | ⟨e, he, t, _, _, h4, _, _, _, u, u0, u1, hu, _, h9⟩
    · rw [h1]
      have : dist2 x x = 0 := by simp [dist2]
      rw [this]; exact mul_pos ht ht
    · rcases h9 with rfl | ⟨e', he', hne, s, s0, s1, hs⟩
      · rw [h4, dist2_comm]; exact hu
      · exact absurd (hone e he e' he' u s u0 u1 s0 s1 hu hs) (Ne.symm hne)

/-! ### Emptied tables -/

theorem stored_add {ops : List (Verif.Aabb.Op K)} {i : Nat} (h : stored ops i ≠ none) : ∃ j b, Verif.Aabb.Op.add j b ∈ ops := by
  induction ops using List.reverseRecOn with
  | nil => simp [stored] at h
  | append_singleton l o ih =>
    cases o with
    | add j b => exact ⟨j, b, by simp⟩
    | rm j =>
      rw [stored_append] at h
      have : stored l i ≠ none := by
        intro hh
        apply h
        simp only [Verif.Aabb.specStep]
        split
        · rfl
        · exact hh
      obtain ⟨j', b, hb⟩ := ih this
      exact ⟨j', b, by simp [hb]⟩

/-- **C118.** Once there was a point and all points are deleted, every `add_point` raises `KeyError`. -/
theorem no_points_key_error {c : Cfg K} {r : Range K} {f1 f : Fr K} (hR : Run c r f1) (h1 : f1.dec.pid.live ≠ [])
    {os : List (Call K)} (ho : ∀ o ∈ os, Fits r o) (h : calls c os f1 = .ok f) (h0 : f.dec.pid.live = []) {x : K × K}
    (hx : Bounded r.C x) : addPoint c x f = .error .keyError := by
  obtain ⟨po1, so1, hM1, hF1⟩ := hR.good.follows
  obtain ⟨hG, po, so, hM, hpre, _⟩ := calls_follows hR.ok.m hF1 ho h
  obtain ⟨i, hi⟩ := List.exists_mem_of_ne_nil _ h1
  obtain ⟨j, b, hj⟩ := stored_add ((hM1.pdom i).2 hi)
  obtain ⟨s1, s2, s3, s4⟩ := hR.ok.sum hx (hM.tol.1.trans hM.tol.2)
  obtain ⟨cs, hcs, hall⟩ := Verif.Aabb.closest_on_emptied_table r.inf r.rt2 (r.C + r.T) 128 (by norm_num) hR.ok.one s4 po
    (toPt x) (hx.toPt s1) ⟨j, b, hpre.subset hj⟩ (fun i => by
      by_contra hh
      have := (hM.pdom i).1 hh
      rw [h0] at this
      cases this)
  have hne : cs ≠ [] := List.ne_nil_of_mem (hall 0 (by norm_num))
  unfold addPoint snapPoint
  rw [hM.pl, hcs]
  change (firstNear f x cs >>= _) >>= _ = _
  rw [firstNear_dead h0 hne]
  rfl

/-- **C118.** Once there was a segment and all segments are deleted, `add_point` raises `KeyError` at every place that is not
within the tolerance of a point. -/
theorem no_segments_key_error {c : Cfg K} {r : Range K} {f1 f : Fr K} (hR : Run c r f1) (h1 : f1.dec.sid.live ≠ [])
    {os : List (Call K)} (ho : ∀ o ∈ os, Fits r o) (h : calls c os f1 = .ok f) (h0 : f.dec.sid.live = [])
    (hp : f.dec.pid.live ≠ []) {x : K × K} (hx : Bounded r.C x)
    (hfar : ∀ p ∈ f.dec.pid.live, f.tol * f.tol ≤ dist2 (f.dec.xy p) x) : addPoint c x f = .error .keyError := by
  obtain ⟨po1, so1, hM1, hF1⟩ := hR.good.follows
  obtain ⟨hG, po, so, hM, _, hpre⟩ := calls_follows hR.ok.m hF1 ho h
  obtain ⟨i, hi⟩ := List.exists_mem_of_ne_nil _ h1
  obtain ⟨j, b, hj⟩ := stored_add ((hM1.sdom i).2 hi)
  obtain ⟨s1, s2, s3, s4⟩ := hR.ok.sum hx (hM.tol.1.trans hM.tol.2)
  obtain ⟨cs, hcs, hall⟩ := Verif.Aabb.closest_on_emptied_table r.inf r.rt2 (r.C + r.T) 128 (by norm_num) hR.ok.one s4 so
    (toPt x) (hx.toPt s1) ⟨j, b, hpre.subset hj⟩ (fun i => by
      by_contra hh
      have := (hM.sdom i).1 hh
      rw [h0] at this
      cases this)
  obtain ⟨ps, hps, hlive, _⟩ := points_candidates hR.ok hG hx hp
  obtain ⟨o, ho'⟩ := firstNear_total (f := f) (x := x) hlive
  cases o with
  | some p =>
    obtain ⟨_, h2, _, h4⟩ := firstNear_some ho'
    exact absurd h4 (not_lt.2 (hfar p h2))
  | none =>
    unfold addPoint snapPoint
    rw [hps]
    change (firstNear f x ps >>= _) >>= _ = _
    rw [ho']
    change (closeSegments f x >>= _) >>= _ = _
    have : closeSegments f x = .error .keyError := by
      unfold closeSegments
      rw [hM.sl, hcs]
      change (cs.mapM (segDist f x) >>= _) = _
      cases cs with
      | nil => exact absurd (hall 0 (by norm_num)) (by simp)
      | cons a l =>
        rw [List.mapM_cons]
        have : segDist f x a = .error .keyError := by
          unfold segDist key
          rw [if_neg (by simp [h0])]
          rfl
        rw [this]
        rfl
    rw [this]
    rfl

end Verif.Front
