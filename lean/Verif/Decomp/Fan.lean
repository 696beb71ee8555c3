import Verif.Decomp.Vec
import Mathlib.Tactic.Linarith
import Mathlib.Tactic.Ring

/-! The segments around every point are linked in clockwise order. -/
namespace Verif.Decomp

variable {K : Type}

/-! ### Clockwise neighbours -/

/-- Among the ends in `at_` with angles `α`, `k` is the first one clockwise from `d`: either the nearest smaller angle, or
`d` has the smallest angle and `k` the largest one. -/
def CW [LinearOrder K] (at_ : HE → Prop) (α : HE → K) (d k : HE) : Prop :=
  (α k < α d ∧ ∀ m, at_ m → ¬ (α k < α m ∧ α m < α d)) ∨ ((∀ m, at_ m → α d ≤ α m) ∧ ∀ m, at_ m → α m ≤ α k)

section
variable [LinearOrder K] {at_ at' : HE → Prop} {α α' : HE → K}

theorem CW.mono {d k : HE} (h : CW at_ α d k) (hs : ∀ m, at' m → at_ m) : CW at' α d k := by
  rcases h with ⟨h1, h2⟩ | ⟨h1, h2⟩
  · exact Or.inl ⟨h1, fun m hm => h2 m (hs m hm)⟩
  · exact Or.inr ⟨fun m hm => h1 m (hs m hm), fun m hm => h2 m (hs m hm)⟩

/-- Renaming of the ends. -/
theorem CW.map {d k d' k' : HE} (h : CW at_ α d k) (hd : α' d' = α d) (hk : α' k' = α k)
    (hs : ∀ m, at' m → ∃ m', at_ m' ∧ α m' = α' m) : CW at' α' d' k' := by
  rcases h with ⟨h1, h2⟩ | ⟨h1, h2⟩
  · refine Or.inl ⟨by rw [hd, hk]; exact h1, fun m hm => ?_⟩
    obtain ⟨m', h3, h4⟩ := hs m hm
    rw [hd, hk, ← h4]
    exact h2 m' h3
  · refine Or.inr ⟨fun m hm => ?_, fun m hm => ?_⟩
    · obtain ⟨m', h3, h4⟩ := hs m hm
      rw [hd, ← h4]; exact h1 m' h3
    · obtain ⟨m', h3, h4⟩ := hs m hm
      rw [hk, ← h4]; exact h2 m' h3

theorem CW.remove {d e k : HE} (h1 : CW at_ α d e) (h2 : CW at_ α e k) (hd : at_ d) (hde : α d ≠ α e)
    (hs : ∀ m, at' m → at_ m ∧ α m ≠ α e) : CW at' α d k := by
  rcases h1 with ⟨a1, a2⟩ | ⟨a1, a2⟩ <;> rcases h2 with ⟨b1, b2⟩ | ⟨b1, b2⟩
  · refine Or.inl ⟨b1.trans a1, fun m hm hh => ?_⟩
    obtain ⟨c1, c2⟩ := hs m hm
    rcases lt_or_gt_of_ne c2 with h | h
    · exact b2 m c1 ⟨hh.1, h⟩
    · exact a2 m c1 ⟨h, hh.2⟩
  · refine Or.inr ⟨fun m hm => ?_, fun m hm => b2 m (hs m hm).1⟩
    obtain ⟨c1, c2⟩ := hs m hm
    by_contra h
    exact a2 m c1 ⟨lt_of_le_of_ne (b1 m c1) c2.symm, not_le.1 h⟩
  · refine Or.inr ⟨fun m hm => a1 m (hs m hm).1, fun m hm => ?_⟩
    obtain ⟨c1, c2⟩ := hs m hm
    by_contra h
    exact b2 m c1 ⟨not_le.1 h, lt_of_le_of_ne (a2 m c1) c2⟩
  · exact absurd (le_antisymm (a2 d hd) (b1 d hd)) hde

/-- The angle `a` is between `x` and its clockwise neighbour `k`. -/
def InGap (at_ : HE → Prop) (α : HE → K) (x k : HE) (a : K) : Prop :=
  (α k < a ∧ a < α x ∧ ∀ m, at_ m → ¬ (α k < α m ∧ α m < α x)) ∨
    ((∀ m, at_ m → α x ≤ α m) ∧ (∀ m, at_ m → α m ≤ α k) ∧ (a < α x ∨ α k < a))

theorem InGap.left {x k z : HE} (h : InGap at_ α x k (α z)) (hx : at_ x) (hk : at_ k)
    (hs : ∀ m, at' m → at_ m ∨ m = z) : CW at' α x z := by
  rcases h with ⟨h1, h2, h3⟩ | ⟨h1, h2, h3 | h3⟩
  · refine Or.inl ⟨h2, fun m hm hh => ?_⟩
    rcases hs m hm with hm | rfl
    · exact h3 m hm ⟨h1.trans hh.1, hh.2⟩
    · exact lt_irrefl _ hh.1
  · refine Or.inl ⟨h3, fun m hm hh => ?_⟩
    rcases hs m hm with hm | rfl
    · exact not_lt.2 (h1 m hm) hh.2
    · exact lt_irrefl _ hh.1
  · refine Or.inr ⟨fun m hm => ?_, fun m hm => ?_⟩
    · rcases hs m hm with hm | rfl
      · exact h1 m hm
      · exact (h1 k hk).trans h3.le
    · rcases hs m hm with hm | rfl
      · exact (h2 m hm).trans h3.le
      · exact le_rfl

theorem InGap.right {x k z : HE} (h : InGap at_ α x k (α z)) (hx : at_ x) (hk : at_ k)
    (hs : ∀ m, at' m → at_ m ∨ m = z) : CW at' α z k := by
  rcases h with ⟨h1, h2, h3⟩ | ⟨h1, h2, h3 | h3⟩
  · refine Or.inl ⟨h1, fun m hm hh => ?_⟩
    rcases hs m hm with hm | rfl
    · exact h3 m hm ⟨hh.1, hh.2.trans h2⟩
    · exact lt_irrefl _ hh.2
  · refine Or.inr ⟨fun m hm => ?_, fun m hm => ?_⟩
    · rcases hs m hm with hm | rfl
      · exact h3.le.trans (h1 m hm)
      · exact le_rfl
    · rcases hs m hm with hm | rfl
      · exact h2 m hm
      · exact h3.le.trans (h2 x hx)
  · refine Or.inl ⟨h3, fun m hm hh => ?_⟩
    rcases hs m hm with hm | rfl
    · exact not_lt.2 (h2 m hm) hh.1
    · exact lt_irrefl _ hh.2

theorem InGap.other {x k z d m : HE} (h : InGap at_ α x k (α z)) (hx : at_ x) (hk : at_ k)
    (hs : ∀ m, at' m → at_ m ∨ m = z) (hd : at_ d) (hm : at_ m) (hc : CW at_ α d m) (hdx : α d ≠ α x) : CW at' α d m := by
  rcases hc with ⟨c1, c2⟩ | ⟨c1, c2⟩
  · refine Or.inl ⟨c1, fun j hj hh => ?_⟩
    rcases hs j hj with hj | rfl
    · exact c2 j hj hh
    · rcases h with ⟨h1, h2, h3⟩ | ⟨h1, h2, h3 | h3⟩
      · -- `d` is the first above `z`, and so is `x`
        rcases lt_or_gt_of_ne hdx with hlt | hlt
        · exact h3 d hd ⟨h1.trans hh.2, hlt⟩
        · exact c2 x hx ⟨hh.1.trans h2, hlt⟩
      · exact not_lt.2 (h1 m hm) (hh.1.trans h3)
      · exact not_lt.2 (h2 d hd) (h3.trans hh.2)
  · refine Or.inr ⟨fun j hj => ?_, fun j hj => ?_⟩
    · rcases hs j hj with hj | rfl
      · exact c1 j hj
      · rcases h with ⟨h1, h2, h3⟩ | ⟨h1, h2, h3⟩
        · exact (c1 k hk).trans h1.le
        · exact absurd (le_antisymm (c1 x hx) (h1 d hd)) hdx
    · rcases hs j hj with hj | rfl
      · exact c2 j hj
      · rcases h with ⟨h1, h2, h3⟩ | ⟨h1, h2, h3⟩
        · exact h2.le.trans (c2 x hx)
        · exact absurd (le_antisymm (c1 x hx) (h1 d hd)) hdx

end

variable [Field K] [LinearOrder K]

/-- What is used of `np.angle`: values in a half-open full turn, the same for positive multiples, different for opposite
vectors. -/
structure AngleOk (g : Geom K) : Prop where
  window : ∃ lo, ∀ v, lo < g.ang v ∧ g.ang v ≤ lo + g.twoPi
  scale : ∀ t, 0 < t → ∀ v : K × K, g.ang (t * v.1, t * v.2) = g.ang v
  opp : ∀ v : K × K, v ≠ (0, 0) → g.ang (-v.1, -v.2) ≠ g.ang v

/-- Angle of a segment end seen from its point, by the coordinates. -/
def dirAng (g : Geom K) (s : St K) (d : HE) : K := g.ang (diff s (s.vtx d) (s.vtx (d.1, !d.2)))

/-- Existing segment ends at the point of `d`. -/
def AtPoint (s : St K) (d m : HE) : Prop := m.1 ∈ s.sid.live ∧ s.vtx m = s.vtx d

/-- `k` is the first end clockwise from `d` at the same point. -/
def Clockwise (g : Geom K) (s : St K) (d k : HE) : Prop := CW (AtPoint s d) (dirAng g s) d k

/-- Ends have different angles, stored vectors have the right direction, and links are clockwise. -/
structure Fan (g : Geom K) (s : St K) : Prop where
  long : ∀ e ∈ s.sid.live, diff s (s.vtx (e, false)) (s.vtx (e, true)) ≠ (0, 0)
  dir : ∀ e ∈ s.sid.live, ∃ t, 0 < t ∧ s.vec e = (t * (diff s (s.vtx (e, false)) (s.vtx (e, true))).1,
    t * (diff s (s.vtx (e, false)) (s.vtx (e, true))).2)
  inj : ∀ d d' : HE, d.1 ∈ s.sid.live → d'.1 ∈ s.sid.live → s.vtx d = s.vtx d' → dirAng g s d = dirAng g s d' → d = d'
  cw : ∀ d k : HE, d.1 ∈ s.sid.live → s.next d = some k → Clockwise g s d (flip k)

variable [IsStrictOrderedRing K]

theorem diff_neg (s : St K) (a b : Id) : diff s b a = (-(diff s a b).1, -(diff s a b).2) := by
  unfold diff; ext <;> simp

theorem Fan.ang_eq {g : Geom K} {s : St K} (hg : AngleOk g) (h : Fan g s) {d : HE} (hd : d.1 ∈ s.sid.live) :
    g.ang (if d.2 then (-(s.vec d.1).1, -(s.vec d.1).2) else s.vec d.1) = dirAng g s d := by
  obtain ⟨e, b⟩ := d
  obtain ⟨t, ht, hv⟩ := h.dir e hd
  dsimp only at *
  unfold dirAng
  cases b
  · simp only [Bool.false_eq_true, if_false, Bool.not_false]
    rw [hv, hg.scale t ht]
  · simp only [if_true, Bool.not_true]
    have hsc := hg.scale t ht (diff s (s.vtx (e, true)) (s.vtx (e, false)))
    rw [← hsc, hv, diff_neg s (s.vtx (e, false))]
    simp

theorem Fan.turn_eq {g : Geom K} {s : St K} (hg : AngleOk g) (h : Fan g s) {d : HE} (hd : d.1 ∈ s.sid.live) (a : K) :
    turn g s a d = if dirAng g s d - a < 0 then dirAng g s d - a + g.twoPi else dirAng g s d - a := by
  unfold turn
  rw [← h.ang_eq hg hd]

theorem inGap_of_turn {at_ : HE → Prop} {α : HE → K} {x k : HE} {a lo T : K}
    (hc : CW at_ α x k) (hx : lo < α x ∧ α x ≤ lo + T) (hk : lo < α k ∧ α k ≤ lo + T) (hax : a ≠ α x) (hak : a ≠ α k)
    (hT : (if α x - a < 0 then α x - a + T else α x - a) ≤ if α k - a < 0 then α k - a + T else α k - a) :
    InGap at_ α x k a := by
  rcases hc with ⟨c1, c2⟩ | ⟨c1, c2⟩
  · left
    split_ifs at hT with h1 h2 h2
    · linarith
    · linarith
    · refine ⟨by linarith, lt_of_le_of_ne (by linarith) hax, c2⟩
    · linarith
  · right
    refine ⟨c1, c2, ?_⟩
    split_ifs at hT with h1 h2 h2
    · exact Or.inr (by linarith)
    · linarith
    · exact Or.inl (lt_of_le_of_ne (by linarith) hax)
    · exact Or.inl (lt_of_le_of_ne (by linarith) hax)

/-! ### Adding a segment -/

/-- Links at one end of a new segment. -/
inductive EndCase (g : Geom K) (s s' : St K) (e : Id) (v : Bool) (p : Id) (u : K × K) : Prop where
  | free (h : ∀ d : HE, d.1 ∈ s.sid.live → s.vtx d ≠ p) (hn : s'.next (e, v) = some (e, !v))
  | corner (i : Ins) (c : Corner s p i) (gap : Gap g s u i) (h1 : s'.next i.1 = some (e, !v))
      (h2 : s'.next (e, v) = some i.2.1)

omit [IsStrictOrderedRing K] in
theorem newSegment_ends {g : Geom K} {a b e : Id} {s s' : St K} (hs : newSegment g a b s = .ok (e, s')) (hI : Inv s)
    (ha : a ∈ s.pid.live) (hb : b ∈ s.pid.live) (hf : e ∉ s.sid.live) :
    EndCase g s s' e false a (diff s a b) ∧ EndCase g s s' e true b (-(diff s a b).1, -(diff s a b).2) := by
  have hI0 : Inv (quiet s) := hI.frame rfl rfl rfl rfl rfl rfl rfl rfl rfl rfl
  cases (newSegment_cases hs hI.links ha hb).2 with
  | old ho hs' =>
    rcases ho with h | h
    · exact absurd ((hI.tab.exact_ _ _ _).1 h).1 hf
    · exact absurd ((hI.tab.exact_ _ _ _).1 h).1 hf
  | wire t1 t2 pa pb q qa qb hs =>
    obtain ⟨_, _, _, _, _, _, _, _, _, _, _, hn⟩ := newWire_eff hs hI0.links ha hb hI0.free pa pb
    exact ⟨.free (hI.links.no_seg ha (by simp) pa) (hn false).2, .free (hI.links.no_seg hb (by simp) pb) (hn true).2⟩
  | dendrite t1 t2 i root hC pa pb hs hG =>
    obtain ⟨_, _, _, _, _, _, _, _, _, _, _, _, n1, n2, n3⟩ := addDendrite_eff hs hI0.links ha hb hI0.free hC pa
    have hC' : Corner s (if root then b else a) i := ⟨hC.live, hC.at_, hC.nxt, hC.wir⟩
    cases root
    · exact ⟨.corner i hC' hG n2 n1, .free (hI.links.no_seg hb (by simp) pa) n3⟩
    · exact ⟨.free (hI.links.no_seg ha (by simp) pa) n3, .corner i hC' hG n2 n1⟩
  | join t1 t2 ia ib hCa hCb pa pb _ hs hGa hGb =>
    obtain ⟨_, _, _, hS, _⟩ := joinWires_eff hs hI0.links ha hb hI0.free hCa hCb
    exact ⟨.corner ia ⟨hCa.live, hCa.at_, hCa.nxt, hCa.wir⟩ hGa hS.pa hS.e0,
      .corner ib ⟨hCb.live, hCb.at_, hCb.nxt, hCb.wir⟩ hGb hS.pb hS.e1⟩
  | split t1 t2 ia ib hCa hCb pa pb _ hs hGa hGb =>
    obtain ⟨ow, lw, q, q', l, s1, s2, s3, hS, hF1, k1, k2, k3⟩ :=
      splitPoly_start hs hI0.links ha hb hI0.free (by simp) hCa hCb
    obtain ⟨_, _, P, C, Q, O, pp, fp, c, rfl⟩ := splitPoly_rest hF1 (by simp) k1 k2 k3
    exact ⟨.corner ia ⟨hCa.live, hCa.at_, hCa.nxt, hCa.wir⟩ hGa hS.splice.pa hS.splice.e0,
      .corner ib ⟨hCb.live, hCb.at_, hCb.nxt, hCb.wir⟩ hGb hS.splice.pb hS.splice.e1⟩

omit [IsStrictOrderedRing K] in
theorem newSegment_long {g : Geom K} {a b : Id} {s : St K} {r : Id × St K} (hs : newSegment g a b s = .ok r) :
    g.tiny * g.tiny < (diff s a b).1 * (diff s a b).1 + (diff s a b).2 * (diff s a b).2 := by
  unfold newSegment at hs
  simp only [bind_ok, check_ok] at hs
  obtain ⟨_, _, _, h, _⟩ := hs
  exact h

/-- No segment end at the point has the direction of the other point. -/
def NewDir (g : Geom K) (s : St K) (a b : Id) : Prop :=
  ∀ d : HE, d.1 ∈ s.sid.live → s.vtx d = a → dirAng g s d ≠ g.ang (diff s a b)

theorem newSegment_fan {g : Geom K} (hg : AngleOk g) {a b e : Id} {s s' : St K} (hs : newSegment g a b s = .ok (e, s'))
    (hI : Inv s) (ha : a ∈ s.pid.live) (hb : b ∈ s.pid.live) (hf : e ∉ s.sid.live) (hF : Fan g s) (da : NewDir g s a b)
    (db : NewDir g s b a) : Fan g s' := by
  obtain ⟨hA, hN⟩ := newSegment_next hs hI ha hb hf
  have hI' := newSegment_inv hs hI ha hb
  obtain ⟨E0, E1⟩ := newSegment_ends hs hI ha hb hf
  have hl := newSegment_long hs
  have hne : ∀ d : HE, d.1 ∈ s.sid.live → d.1 ≠ e := fun d hd hh => hf (hh ▸ hd)
  have hvo : ∀ d : HE, d.1 ∈ s.sid.live → s'.vtx d = s.vtx d := fun d hd => hA.vo d (hne d hd)
  have hdf : ∀ p q, diff s' p q = diff s p q := fun p q => diff_congr (by rw [hA.xy]) (by rw [hA.xy])
  have hα : ∀ d : HE, d.1 ∈ s.sid.live → dirAng g s' d = dirAng g s d := by
    intro d hd
    unfold dirAng
    rw [hdf, hvo d hd, hvo (d.1, !d.2) hd]
  have hlive : ∀ d : HE, d.1 ∈ s'.sid.live ↔ d.1 ∈ s.sid.live ∨ d.1 = e := fun d => hA.live d.1
  -- both ends in one form
  have hE : ∀ v, EndCase g s s' e v (s'.vtx (e, v)) (diff s (s'.vtx (e, v)) (s'.vtx (e, !v))) ∧
      NewDir g s (s'.vtx (e, v)) (s'.vtx (e, !v)) := by
    intro v
    cases v
    · simp only [Bool.not_false, hA.v0, hA.v1]
      exact ⟨E0, da⟩
    · simp only [Bool.not_true, hA.v0, hA.v1]
      rw [diff_neg s a b]
      exact ⟨E1, db⟩
  have hαe : ∀ v, dirAng g s' (e, v) = g.ang (diff s (s'.vtx (e, v)) (s'.vtx (e, !v))) := by
    intro v
    unfold dirAng
    rw [hdf]
  clear E0 E1 da db
  have hlong : ∀ e' ∈ s'.sid.live, diff s' (s'.vtx (e', false)) (s'.vtx (e', true)) ≠ (0, 0) := by
    intro j hj
    by_cases hje : j = e
    · subst hje
      rw [hdf, hA.v0, hA.v1]
      intro h0
      rw [h0] at hl
      simp only [mul_zero, add_zero] at hl
      exact absurd hl (not_lt.2 (mul_self_nonneg _))
    · have hjl := ((hA.live j).1 hj).resolve_right hje
      rw [hdf, hvo (j, false) hjl, hvo (j, true) hjl]
      exact hF.long j hjl
  refine ⟨hlong, fun j hj => ?_, fun d d' hd hd' hv ha => ?_, fun d k hd hk => ?_⟩
  · by_cases hje : j = e
    · subst hje
      refine ⟨1, one_pos, ?_⟩
      rw [hA.vec, if_pos rfl, hdf, hA.v0, hA.v1, one_mul, one_mul]
      rfl
    · have hjl := ((hA.live j).1 hj).resolve_right hje
      rw [hdf, hvo (j, false) hjl, hvo (j, true) hjl, hA.vec, if_neg hje]
      exact hF.dir j hjl
  · rcases (hlive d).1 hd with h1 | h1 <;> rcases (hlive d').1 hd' with h2 | h2
    · rw [hvo d h1, hvo d' h2] at hv
      rw [hα d h1, hα d' h2] at ha
      exact hF.inj d d' h1 h2 hv ha
    · obtain ⟨d1, v⟩ := d'
      dsimp only at h2
      subst h2
      rw [hα d h1, hαe] at ha
      rw [hvo d h1] at hv
      exact absurd ha ((hE v).2 d h1 hv)
    · obtain ⟨d1, v⟩ := d
      dsimp only at h1
      subst h1
      rw [hα d' h2, hαe] at ha
      rw [hvo d' h2] at hv
      exact absurd ha.symm ((hE v).2 d' h2 hv.symm)
    · obtain ⟨d1, v⟩ := d
      obtain ⟨d2, w⟩ := d'
      dsimp only at h1 h2
      subst h1 h2
      by_cases hvw : v = w
      · rw [hvw]
      · have : w = !v := by cases v <;> cases w <;> simp_all
        subst this
        exact absurd hv.symm (hI'.links.flip_ne (d := (d2, v)) hd)
  · -- ends at the points of the new segment
    have hat : ∀ v m, AtPoint s' (e, v) m → (m.1 ∈ s.sid.live ∧ s.vtx m = s'.vtx (e, v)) ∨ m = (e, v) := by
      rintro v m ⟨m1, m2⟩
      rcases (hlive m).1 m1 with h1 | h1
      · left; exact ⟨h1, by rw [← hvo m h1]; exact m2⟩
      · right
        rcases eq_or_flip (h := m) (k := ((e, v) : HE)) h1 with h | h
        · exact h
        · subst h
          exact absurd m2 (hI'.links.flip_ne (d := (e, v)) ((hlive (e, v)).2 (Or.inr rfl)))
    have hgap : ∀ v i, Corner s (s'.vtx (e, v)) i → Gap g s (diff s (s'.vtx (e, v)) (s'.vtx (e, !v))) i →
        InGap (fun m => m.1 ∈ s.sid.live ∧ s.vtx m = s'.vtx (e, v)) (dirAng g s') i.1 (flip i.2.1)
          (dirAng g s' (e, v)) ∧ (flip i.2.1).1 ∈ s.sid.live ∧ s.vtx (flip i.2.1) = s'.vtx (e, v) := by
      intro v i hC hG
      obtain ⟨lo, hlo⟩ := hg.window
      obtain ⟨k', k1, k2, k3, _⟩ := hI.links.next_ok hC.live (by simp)
      rw [hC.nxt] at k1
      obtain rfl := Option.some.inj k1
      have k2' : (flip i.2.1).1 ∈ s.sid.live := k2
      have hcw := hF.cw _ _ hC.live hC.nxt
      have k4 : s.vtx (flip i.2.1) = s'.vtx (e, v) := k3.trans hC.at_
      refine ⟨?_, k2', k4⟩
      rw [hαe]
      refine inGap_of_turn (lo := lo) (T := g.twoPi) ?_ (hlo _) (hlo _) ?_ ?_ ?_
      · refine hcw.map (hα _ hC.live) (hα _ k2') (fun m hm => ⟨m, ⟨hm.1, hm.2.trans hC.at_.symm⟩, (hα m hm.1).symm⟩)
      · rw [hα _ hC.live]
        exact ((hE v).2 _ hC.live hC.at_).symm
      · rw [hα _ k2']
        exact ((hE v).2 _ k2' k4).symm
      · rw [hα _ hC.live, hα _ k2']
        unfold Gap at hG
        rw [hF.turn_eq hg hC.live, hF.turn_eq hg k2'] at hG
        exact hG
    rcases (hlive d).1 hd with h1 | h1
    · by_cases hke : k.1 = e
      · -- `d` is the side before the new segment
        obtain ⟨k1, u⟩ := k
        dsimp only at hke
        subst hke
        have hu : (k1, u) = ((k1, !(!u)) : HE) := by simp
        cases (hE (!u)).1 with
        | free hn hx =>
          have := hI'.links.next_inj hd ((hlive (k1, !u)).2 (Or.inr rfl)) (by simp) (by simp)
            (hk.trans (by rw [hx, Bool.not_not]))
          exact absurd (by rw [this]) (hne d h1)
        | corner i hC hG x1 x2 =>
          have hi := hI'.links.next_inj (k := i.1) hd ((hlive i.1).2 (Or.inl hC.live)) (by simp) (by simp)
            (hk.trans (by rw [x1, Bool.not_not]))
          subst hi
          obtain ⟨hgap, g1, g2⟩ := hgap (!u) i hC hG
          refine hgap.left ⟨hC.live, hC.at_⟩ ⟨g1, g2⟩ (fun m hm => hat (!u) m ⟨hm.1, ?_⟩)
          rw [hm.2, hvo _ hC.live, hC.at_]
      · have hkk : s'.next d = s.next d := by
          rw [← hN d h1, unhook_miss]
          intro v hv
          rw [hk] at hv
          exact hke (by rw [Option.some.inj hv])
        have hks : s.next d = some k := hkk ▸ hk
        have hc := hF.cw d k h1 hks
        obtain ⟨k', y1, y2, y3, _⟩ := hI.links.next_ok h1 (by simp)
        rw [hks] at y1
        obtain rfl := Option.some.inj y1
        have y2' : (flip k).1 ∈ s.sid.live := y2
        by_cases hp : ∃ v, s'.vtx (e, v) = s'.vtx d
        · obtain ⟨v, hv⟩ := hp
          rw [hvo d h1] at hv
          cases (hE v).1 with
          | free hn hx => exact absurd hv.symm (hn d h1)
          | corner i hC hG x1 x2 =>
            obtain ⟨hgap, g1, g2⟩ := hgap v i hC hG
            have hdi : d ≠ i.1 := by
              rintro rfl
              rw [hk] at x1
              exact hke (by rw [Option.some.inj x1])
            refine hgap.other ⟨hC.live, hC.at_⟩ ⟨g1, g2⟩ (fun m hm => hat v m ⟨hm.1, ?_⟩) ⟨h1, hv.symm⟩
              ⟨y2', y3.trans hv.symm⟩ ?_ ?_
            · rw [hm.2, hvo d h1, hv]
            · exact hc.map (hα d h1) (hα _ y2') (fun m hm => ⟨m, ⟨hm.1, hm.2.trans hv⟩, (hα m hm.1).symm⟩)
            · rw [hα d h1, hα _ hC.live]
              exact fun hh => hdi (hF.inj _ _ h1 hC.live (hv.symm.trans hC.at_.symm) hh)
        · refine CW.map hc (hα d h1) (hα _ y2') (fun m hm => ?_)
          have hml : m.1 ∈ s.sid.live := by
            refine ((hlive m).1 hm.1).resolve_right (fun hh => hp ⟨m.2, ?_⟩)
            rw [← hm.2, ← hh]
          exact ⟨m, ⟨hml, by rw [← hvo m hml, hm.2, hvo d h1]⟩, (hα m hml).symm⟩
    · obtain ⟨d1, v⟩ := d
      dsimp only at h1
      subst h1
      cases (hE v).1 with
      | free hn hx =>
        rw [hx] at hk
        obtain rfl := Option.some.inj hk
        refine Or.inr ⟨fun m hm => ?_, fun m hm => ?_⟩
        · rcases hat v m hm with h | h
          · exact absurd h.2 (hn m h.1)
          · rw [h]
        · rcases hat v m hm with h | h
          · exact absurd h.2 (hn m h.1)
          · rw [h]; simp [flip]
      | corner i hC hG x1 x2 =>
        rw [x2] at hk
        obtain rfl := Option.some.inj hk
        obtain ⟨hgap, g1, g2⟩ := hgap v i hC hG
        exact hgap.right ⟨hC.live, hC.at_⟩ ⟨g1, g2⟩ (fun m hm => hat v m hm)

/-! ### Deleting a segment -/

omit [IsStrictOrderedRing K] in
theorem deleteSegment_fan {g : Geom K} {e : Id} {s s' : St K} (hs : deleteSegment g e s = .ok s')
    (hI : Inv s) (he : e ∈ s.sid.live) (hF : Fan g s) : Fan g s' := by
  obtain ⟨hD, hN⟩ := deleteSegment_next hs hI he
  have hdf : ∀ p q, diff s' p q = diff s p q := fun p q => diff_congr (by rw [hD.xy]) (by rw [hD.xy])
  have hα : ∀ d : HE, dirAng g s' d = dirAng g s d := by
    intro d
    unfold dirAng
    rw [hdf, hD.vtx]
  have hl : ∀ j, j ∈ s'.sid.live → j ∈ s.sid.live ∧ j ≠ e := fun j hj => ((hD.live j).1 hj).symm
  refine ⟨fun j hj => ?_, fun j hj => ?_, fun d d' hd hd' hv ha => ?_, fun d k hd hk => ?_⟩
  · rw [hdf, hD.vtx]; exact hF.long j (hl j hj).1
  · rw [hdf, hD.vtx, hD.vec]; exact hF.dir j (hl j hj).1
  · rw [hD.vtx] at hv
    rw [hα, hα] at ha
    exact hF.inj d d' (hl _ hd).1 (hl _ hd').1 hv ha
  · obtain ⟨d1, d2⟩ := hl _ hd
    have hat : ∀ m, AtPoint s' d m → AtPoint s d m ∧ m.1 ≠ e := by
      rintro m ⟨m1, m2⟩
      rw [hD.vtx] at m2
      exact ⟨⟨(hl _ m1).1, m2⟩, (hl _ m1).2⟩
    rw [hN d d1 d2] at hk
    by_cases hke : ∃ v, s.next d = some (e, v)
    · obtain ⟨v, hv⟩ := hke
      rw [unhook_hit hv] at hk
      have c1 := hF.cw d _ d1 hv
      have c2 := hF.cw (e, !v) k he hk
      obtain ⟨k', x1, x2, x3, _⟩ := hI.links.next_ok d1 (by simp)
      rw [hv] at x1
      obtain rfl := Option.some.inj x1
      have hfl : flip (e, v) = (e, !v) := rfl
      rw [hfl] at c1 x3
      have c1 : CW (AtPoint s d) (dirAng g s) d (e, !v) := c1
      have c2 : CW (AtPoint s d) (dirAng g s) (e, !v) (flip k) :=
        CW.mono c2 (fun m hm => ⟨hm.1, hm.2.trans x3.symm⟩)
      have hne : dirAng g s d ≠ dirAng g s (e, !v) := by
        intro hh
        exact d2 (congrArg Prod.fst (hF.inj d (e, !v) d1 he x3.symm hh))
      have := c1.remove c2 (at' := AtPoint s' d) ⟨d1, rfl⟩ hne (fun m hm => by
        obtain ⟨m1, m2⟩ := hat m hm
        exact ⟨m1, fun hh => m2 (congrArg Prod.fst (hF.inj m (e, !v) m1.1 he (m1.2.trans x3.symm) hh))⟩)
      exact this.map (hα _) (hα _) (fun m hm => ⟨m, hm, (hα m).symm⟩)
    · rw [unhook_miss (fun v hv => hke ⟨v, hv⟩)] at hk
      exact (hF.cw d k d1 hk).map (hα _) (hα _) (fun m hm => ⟨m, (hat m hm).1, (hα m).symm⟩)

end Verif.Decomp
