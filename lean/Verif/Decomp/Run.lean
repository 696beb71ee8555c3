import Verif.Decomp.Sub

/-! Invariants of all runs: links, free points, the table of segments and the numbers of objects. -/
namespace Verif.Decomp

variable {K : Type} {T : Prop}

/-- A segment ends at the point. -/
def HasSeg (s : St K) (p : Id) : Prop := ∃ d : HE, d.1 ∈ s.sid.live ∧ s.vtx d = p

theorem Links.hasSeg {s : St K} (h : Links s ∅ ∅) {p : Id} (hp : p ∈ s.pid.live) : s.pseg p ≠ none ↔ HasSeg s p := by
  obtain ⟨l, hr, hP⟩ := h.ring p hp
  have hP := hP (by simp)
  constructor
  · intro hn
    cases hs : s.pseg p with
    | none => exact absurd hs hn
    | some d =>
      rcases hP.som d hs with h1 | ⟨_, h1, _⟩
      · have := (hr.mem d).1 h1
        exact ⟨d, this.1, this.2.1⟩
      · simp at h1
  · rintro ⟨d, h1, h2⟩ hn
    have := (hr.mem d).2 ⟨h1, h2, by simp⟩
    rw [hP.non hn] at this
    simp at this

/-- Number of points with a segment. -/
def verts (s : St K) : Nat := s.pid.live.countP (fun p => (s.pseg p).isSome)

theorem verts_congr {s s' : St K} (hL : Links s ∅ ∅) (hL' : Links s' ∅ ∅) (hp : s'.pid = s.pid)
    (h : ∀ p ∈ s.pid.live, HasSeg s' p ↔ HasSeg s p) : verts s' = verts s := by
  unfold verts
  rw [hp]
  refine List.countP_congr (fun p hpl => ?_)
  rw [Option.isSome_iff_ne_none, Option.isSome_iff_ne_none, hL.hasSeg hpl, hL'.hasSeg (hp ▸ hpl)]
  exact h p hpl

theorem countP_add {l : List Id} {P Q : Id → Bool} {x : Id} (hn : l.Nodup) (hx : x ∈ l) (hP : P x = false)
    (hQ : Q x = true) (h : ∀ p ∈ l, p ≠ x → (Q p ↔ P p)) : l.countP Q = l.countP P + 1 := by
  induction l with
  | nil => simp at hx
  | cons a l ih =>
    rw [List.countP_cons, List.countP_cons]
    obtain ⟨ha, hn⟩ := List.nodup_cons.1 hn
    by_cases hxa : x = a
    · subst hxa
      have : l.countP Q = l.countP P := List.countP_congr (fun p hp => h p (by simp [hp]) (fun h => ha (h ▸ hp)))
      simp [hP, hQ, this]
    · have hx' : x ∈ l := by simpa [hxa] using hx
      have h1 := ih hn hx' (fun p hp => h p (by simp [hp]))
      have h2 := h a (by simp) (fun h => hxa h.symm)
      rw [h1]
      by_cases hQa : Q a = true
      · simp [hQa, h2.1 hQa]
      · have : P a ≠ true := fun hh => hQa (h2.2 hh)
        simp [hQa, this]

theorem verts_add {s s' : St K} (hL : Links s ∅ ∅) (hL' : Links s' ∅ ∅) (hn : s.pid.live.Nodup) (hp : s'.pid = s.pid)
    {x : Id} (hx : x ∈ s.pid.live) (h0 : ¬ HasSeg s x) (h1 : HasSeg s' x)
    (h : ∀ p ∈ s.pid.live, p ≠ x → (HasSeg s' p ↔ HasSeg s p)) : verts s' = verts s + 1 := by
  unfold verts
  rw [hp]
  refine countP_add hn hx ?_ ?_ (fun p hpl hne => ?_)
  · rw [← Bool.not_eq_true, Option.isSome_iff_ne_none, hL.hasSeg hx]; exact h0
  · rw [Option.isSome_iff_ne_none, hL'.hasSeg (hp ▸ hx)]; exact h1
  · rw [Option.isSome_iff_ne_none, Option.isSome_iff_ne_none, hL.hasSeg hpl, hL'.hasSeg (hp ▸ hpl)]
    exact h p hpl hne

theorem countP_add2 {l : List Id} {P Q : Id → Bool} {x y : Id} (hn : l.Nodup) (hx : x ∈ l) (hy : y ∈ l) (hxy : x ≠ y)
    (hPx : P x = false) (hPy : P y = false) (hQx : Q x = true) (hQy : Q y = true)
    (h : ∀ p ∈ l, p ≠ x → p ≠ y → (Q p ↔ P p)) : l.countP Q = l.countP P + 2 := by
  have h1 := countP_add (P := fun p => if p = y then false else Q p) (Q := Q) hn hy (by simp) hQy (fun p hp hne => by simp [hne])
  have h2 := countP_add (P := P) (Q := fun p => if p = y then false else Q p) hn hx hPx (by simp [hxy, hQx])
    (fun p hp hne => by
      by_cases hpy : p = y
      · subst hpy; simp [hPy]
      · simp only [hpy, if_false]; exact h p hp hne hpy)
  omega

theorem verts_add2 {s s' : St K} (hL : Links s ∅ ∅) (hL' : Links s' ∅ ∅) (hn : s.pid.live.Nodup) (hp : s'.pid = s.pid)
    {x y : Id} (hx : x ∈ s.pid.live) (hy : y ∈ s.pid.live) (hxy : x ≠ y) (h0 : ¬ HasSeg s x) (h0' : ¬ HasSeg s y)
    (h1 : HasSeg s' x) (h1' : HasSeg s' y)
    (h : ∀ p ∈ s.pid.live, p ≠ x → p ≠ y → (HasSeg s' p ↔ HasSeg s p)) : verts s' = verts s + 2 := by
  unfold verts
  rw [hp]
  refine countP_add2 hn hx hy hxy ?_ ?_ ?_ ?_ (fun p hpl hne hne' => ?_)
  · rw [← Bool.not_eq_true, Option.isSome_iff_ne_none, hL.hasSeg hx]; exact h0
  · rw [← Bool.not_eq_true, Option.isSome_iff_ne_none, hL.hasSeg hy]; exact h0'
  · rw [Option.isSome_iff_ne_none, hL'.hasSeg (hp ▸ hx)]; exact h1
  · rw [Option.isSome_iff_ne_none, hL'.hasSeg (hp ▸ hy)]; exact h1'
  · rw [Option.isSome_iff_ne_none, Option.isSome_iff_ne_none, hL.hasSeg hpl, hL'.hasSeg (hp ▸ hpl)]
    exact h p hpl hne hne'

/-! ### Which points have a segment -/

theorem AddSeg.hasSeg [Field K] {s s' : St K} {e a b : Id} (h : AddSeg s s' e a b) (p : Id) :
    HasSeg s' p ↔ HasSeg s p ∨ p = a ∨ p = b := by
  constructor
  · rintro ⟨d, h1, h2⟩
    by_cases hd : d.1 = e
    · obtain ⟨d1, v⟩ := d
      subst hd
      cases v
      · right; left; rw [← h2]; exact h.v0
      · right; right; rw [← h2]; exact h.v1
    · left
      exact ⟨d, ((h.live d.1).1 h1).resolve_right hd, by rw [← h.vo d hd]; exact h2⟩
  · rintro (⟨d, h1, h2⟩ | rfl | rfl)
    · have hd : d.1 ≠ e := fun hh => h.fresh (hh ▸ h1)
      exact ⟨d, (h.live _).2 (Or.inl h1), by rw [h.vo d hd]; exact h2⟩
    · exact ⟨(e, false), (h.live e).2 (Or.inr rfl), h.v0⟩
    · exact ⟨(e, true), (h.live e).2 (Or.inr rfl), h.v1⟩

theorem DelSeg.hasSeg {s s' : St K} {e : Id} (h : DelSeg s s' e) (hL : Links s ∅ ∅) (p : Id) :
    HasSeg s' p ↔ HasSeg s p ∧ ∀ v, s.vtx (e, v) = p → s.next (e, v) ≠ some (e, !v) := by
  constructor
  · rintro ⟨d, h1, h2⟩
    obtain ⟨h3, h4⟩ := (h.live _).1 h1
    rw [h.vtx] at h2
    refine ⟨⟨d, h4, h2⟩, fun v hv hn => h3 ?_⟩
    have := hL.tip_only (d := (e, v)) (k := d) h.was h4 hn (h2.trans hv.symm)
    rw [this]
  · rintro ⟨⟨d, h1, h2⟩, h3⟩
    by_cases hd : d.1 = e
    · obtain ⟨d1, v⟩ := d
      subst hd
      obtain ⟨k, k1, k2, k3, _⟩ := hL.next_ok h1 (by simp)
      have h4 := h3 v h2
      refine ⟨flip k, (h.live _).2 ⟨fun hk => ?_, k2⟩, by rw [h.vtx]; exact k3.trans h2⟩
      have hk' : k.1 = d1 := hk
      have hfd := hL.flip_ne (d := (d1, v)) h1
      obtain ⟨k1', kv⟩ := k
      subst hk'
      by_cases hkv : kv = v
      · subst hkv
        exact hfd k3
      · have : kv = !v := by cases kv <;> cases v <;> simp_all
        subst this
        exact h4 k1
    · exact ⟨d, (h.live _).2 ⟨hd, h1⟩, by rw [h.vtx]; exact h2⟩

theorem SplitSeg.hasSeg [Field K] {s s' : St K} {e n mid : Id} (h : SplitSeg s s' e n mid) (p : Id) :
    HasSeg s' p ↔ HasSeg s p ∨ p = mid := by
  have hen : e ≠ n := fun hh => h.fresh (hh ▸ h.was)
  constructor
  · rintro ⟨d, h1, h2⟩
    by_cases hd : d = (e, true)
    · subst hd; right; rw [← h2]; exact h.ve
    · by_cases hdn : d.1 = n
      · obtain ⟨d1, v⟩ := d
        subst hdn
        cases v
        · right; rw [← h2]; exact h.vn0
        · left; exact ⟨(e, true), h.was, by rw [← h2]; exact h.vn1.symm⟩
      · left
        exact ⟨d, ((h.live d.1).1 h1).resolve_right hdn, by rw [← h.vo d hd hdn]; exact h2⟩
  · rintro (⟨d, h1, h2⟩ | rfl)
    · by_cases hd : d = (e, true)
      · subst hd
        exact ⟨(n, true), (h.live n).2 (Or.inr rfl), by rw [h.vn1]; exact h2⟩
      · have hdn : d.1 ≠ n := fun hh => h.fresh (hh ▸ h1)
        exact ⟨d, (h.live _).2 (Or.inl h1), by rw [h.vo d hd hdn]; exact h2⟩
    · exact ⟨(e, true), (h.live e).2 (Or.inl h.was), h.ve⟩

theorem JoinSeg.hasSeg [Field K] {s s' : St K} {x y : HE} (h : JoinSeg s s' x y) (hL : Links s ∅ ∅)
    (hy : y.1 ∈ s.sid.live) (p : Id) : HasSeg s' p ↔ HasSeg s p ∧ p ≠ s.vtx x := by
  have hny : s.vtx y ≠ s.vtx x := by rw [← h.mid]; exact (hL.flip_ne hy).symm
  constructor
  · rintro ⟨d, h1, h2⟩
    obtain ⟨h3, h4⟩ := (h.live _).1 h1
    rw [h.vtx] at h2
    by_cases hd : d = x
    · subst hd
      simp only [upd, Function.update_self] at h2
      exact ⟨⟨y, hy, h2⟩, h2 ▸ hny⟩
    · simp only [upd, Function.update_of_ne hd] at h2
      refine ⟨⟨d, h4, h2⟩, fun hp => ?_⟩
      obtain ⟨l, hr, _⟩ := hL.ring _ (hL.vlive x h.was)
      have m1 := (hr.mem d).2 ⟨h4, h2.trans hp, by simp⟩
      have m2 := (hr.mem x).2 ⟨h.was, rfl, by simp⟩
      rcases hr.two m2 (b := flip y) (by simpa using h.nx) (by simpa using h.ny) m1 with hh | hh
      · exact hd hh
      · exact h3 (by rw [hh]; rfl)
  · rintro ⟨⟨d, h1, h2⟩, h3⟩
    have hd : d ≠ x := fun hd => h3 (by rw [← h2, hd])
    by_cases hdy : d = y
    · subst hdy
      exact ⟨x, (h.live _).2 ⟨h.ne, h.was⟩, by rw [h.vtx]; simpa [upd] using h2⟩
    · by_cases hdf : d = flip y
      · subst hdf
        exact absurd (h2 ▸ h.mid) h3
      · refine ⟨d, (h.live _).2 ⟨fun hh => ?_, h1⟩, by rw [h.vtx]; simpa only [upd, Function.update_of_ne hd] using h2⟩
        obtain ⟨d1, dv⟩ := d
        obtain ⟨y1, yv⟩ := y
        simp only at hh
        subst hh
        cases dv <;> cases yv <;> simp [flip] at hdy hdf

/-! ### The table of segments -/

/-- `pt_to_seg` holds each segment under its ordered pair of points and nothing else; two points are connected by at most
one segment. -/
structure TableOk (s : St K) : Prop where
  exact_ : ∀ a b e, s.table (a, b) = some e ↔ e ∈ s.sid.live ∧ s.vtx (e, false) = a ∧ s.vtx (e, true) = b
  one : ∀ a b, s.table (a, b) ≠ none → s.table (b, a) = none

theorem TableOk.frame {s s' : St K} (h : TableOk s) (h1 : s'.sid = s.sid) (h2 : s'.vtx = s.vtx)
    (h3 : s'.table = s.table) : TableOk s' := by
  obtain ⟨a, b⟩ := h
  constructor
  · rw [h1, h2, h3]; exact a
  · rw [h3]; exact b

theorem AddSeg.table [Field K] {s s' : St K} {e a b : Id} (h : AddSeg s s' e a b) (hT : TableOk s)
    (h1 : s.table (a, b) = none) (h2 : s.table (b, a) = none) : TableOk s' := by
  have hvo : ∀ j ∈ s.sid.live, ∀ v, s'.vtx (j, v) = s.vtx (j, v) := fun j hj v =>
    h.vo _ (fun hh => h.fresh (show e ∈ s.sid.live from hh ▸ hj))
  have hne : ((b, a) : Id × Id) ≠ (a, b) := fun hh => h.ne (Prod.mk.inj hh).2
  constructor
  · intro x y j
    rw [h.tab, h.live]
    by_cases hxy : (x, y) = (a, b)
    · simp only [hxy, upd, Function.update_self, Option.some.injEq]
      obtain ⟨rfl, rfl⟩ := Prod.mk.inj hxy
      constructor
      · rintro rfl; exact ⟨Or.inr rfl, h.v0, h.v1⟩
      · rintro ⟨hj | hj, hx, hy⟩
        · rw [hvo j hj] at hx hy
          have := (hT.exact_ x y j).2 ⟨hj, hx, hy⟩
          rw [h1] at this; cases this
        · exact hj.symm
    · simp only [upd, Function.update_of_ne hxy]
      rw [hT.exact_]
      constructor
      · rintro ⟨hj, hx, hy⟩
        exact ⟨Or.inl hj, by rw [hvo j hj]; exact hx, by rw [hvo j hj]; exact hy⟩
      · rintro ⟨hj | rfl, hx, hy⟩
        · rw [hvo j hj] at hx hy; exact ⟨hj, hx, hy⟩
        · rw [h.v0] at hx; rw [h.v1] at hy; exact absurd (by rw [hx, hy]) hxy
  · intro x y
    rw [h.tab]
    by_cases hxy : (x, y) = (a, b)
    · obtain ⟨rfl, rfl⟩ := Prod.mk.inj hxy
      intro _
      simp only [upd, Function.update_of_ne hne]
      exact h2
    · by_cases hyx : (y, x) = (a, b)
      · obtain ⟨rfl, rfl⟩ := Prod.mk.inj hyx
        simp only [upd, Function.update_of_ne hne]
        intro hh; exact absurd h2 hh
      · simp only [upd, Function.update_of_ne hxy, Function.update_of_ne hyx]
        exact hT.one x y

theorem DelSeg.table {s s' : St K} {e : Id} (h : DelSeg s s' e) (hT : TableOk s) : TableOk s' := by
  have key : ∀ x y j, s'.table (x, y) = some j ↔ s.table (x, y) = some j ∧ j ≠ e := by
    intro x y j
    have he := (hT.exact_ _ _ e).2 ⟨h.was, rfl, rfl⟩
    rw [h.tab]
    by_cases h1 : (x, y) = (s.vtx (e, true), s.vtx (e, false))
    · simp only [h1, upd, Function.update_self]
      have := hT.one _ _ (by rw [he]; simp)
      rw [this]
      simp
    · simp only [upd, Function.update_of_ne h1]
      by_cases h2 : (x, y) = (s.vtx (e, false), s.vtx (e, true))
      · simp only [h2, Function.update_self, he]
        simp only [reduceCtorEq, Option.some.injEq, false_iff, not_and, not_not]
        exact fun hh => hh.symm
      · simp only [Function.update_of_ne h2]
        constructor
        · intro hj
          refine ⟨hj, ?_⟩
          rintro rfl
          obtain ⟨_, g1, g2⟩ := (hT.exact_ _ _ _).1 hj
          exact h2 (by rw [g1, g2])
        · exact fun hj => hj.1
  constructor
  · intro x y j
    rw [key, hT.exact_, h.live, h.vtx]
    tauto
  · intro x y hn
    cases hs : s'.table (x, y) with
    | none => exact absurd hs hn
    | some j =>
      have h1 := ((key x y j).1 hs).1
      have h2 := hT.one x y (by rw [h1]; simp)
      cases hs' : s'.table (y, x) with
      | none => rfl
      | some j' =>
        have := ((key y x j').1 hs').1
        rw [h2] at this; cases this

theorem SplitSeg.table [Field K] {s s' : St K} {e n mid : Id} (h : SplitSeg s s' e n mid) (hT : TableOk s)
    (hm : ¬ HasSeg s mid) (hne : s.vtx (e, false) ≠ s.vtx (e, true)) : TableOk s' := by
  have he0 : ∀ {x}, s.vtx (e, false) = x → s.vtx (e, true) = x → False := fun h1 h2 => hne (h1.trans h2.symm)
  have hen : e ≠ n := fun hh => h.fresh (hh ▸ h.was)
  have hmv : ∀ j ∈ s.sid.live, ∀ v, s.vtx (j, v) ≠ mid := fun j hj v hh => hm ⟨(j, v), hj, hh⟩
  have hvo : ∀ j ∈ s.sid.live, j ≠ e → ∀ v, s'.vtx (j, v) = s.vtx (j, v) := fun j hj hje v =>
    h.vo _ (fun hh => hje (Prod.mk.inj hh).1) (fun hh => h.fresh (show n ∈ s.sid.live from hh ▸ hj))
  have hva : s'.vtx (e, false) = s.vtx (e, false) := h.vo _ (by simp) hen
  have he := (hT.exact_ _ _ e).2 ⟨h.was, rfl, rfl⟩
  have hex : ∀ x y j, s'.table (x, y) = some j ↔ j ∈ s'.sid.live ∧ s'.vtx (j, false) = x ∧ s'.vtx (j, true) = y := by
    intro x y j
    rw [h.tab, h.live]
    by_cases h1 : (x, y) = (mid, s.vtx (e, true))
    · obtain ⟨rfl, rfl⟩ := Prod.mk.inj h1
      simp only [upd, Function.update_self, Option.some.injEq]
      constructor
      · rintro rfl; exact ⟨Or.inr rfl, h.vn0, h.vn1⟩
      · rintro ⟨hj | hj, hx, hy⟩
        · by_cases hje : j = e
          · subst hje; rw [h.ve] at hy; exact absurd hy h.ne1
          · rw [hvo j hj hje] at hx; exact absurd hx (hmv j hj _)
        · exact hj.symm
    · simp only [upd, Function.update_of_ne h1]
      by_cases h2 : (x, y) = (s.vtx (e, false), mid)
      · obtain ⟨rfl, rfl⟩ := Prod.mk.inj h2
        simp only [Function.update_self, Option.some.injEq]
        constructor
        · rintro rfl; exact ⟨Or.inl h.was, hva, h.ve⟩
        · rintro ⟨hj | rfl, hx, hy⟩
          · by_cases hje : j = e
            · exact hje.symm
            · rw [hvo j hj hje] at hy; exact absurd hy (hmv j hj _)
          · rw [h.vn0] at hx; exact absurd hx h.ne0
      · simp only [Function.update_of_ne h2]
        have hnot : ¬ (j = e ∧ s'.vtx (j, false) = x ∧ s'.vtx (j, true) = y) := by
          rintro ⟨rfl, hx, hy⟩
          rw [hva] at hx; rw [h.ve] at hy
          exact h2 (by rw [hx, hy])
        have hnot' : ¬ (j = n ∧ s'.vtx (j, false) = x ∧ s'.vtx (j, true) = y) := by
          rintro ⟨rfl, hx, hy⟩
          rw [h.vn0] at hx; rw [h.vn1] at hy
          exact h1 (by rw [hx, hy])
        by_cases h3 : (x, y) = (s.vtx (e, false), s.vtx (e, true))
        · simp only [h3, Function.update_self]
          obtain ⟨rfl, rfl⟩ := Prod.mk.inj h3
          simp only [reduceCtorEq, false_iff]
          rintro ⟨hj | hj, hx, hy⟩
          · by_cases hje : j = e
            · exact hnot ⟨hje, hx, hy⟩
            · rw [hvo j hj hje] at hx hy
              have := (hT.exact_ _ _ j).2 ⟨hj, hx, hy⟩
              rw [he] at this
              exact hje (Option.some.inj this).symm
          · exact hnot' ⟨hj, hx, hy⟩
        · simp only [Function.update_of_ne h3]
          rw [hT.exact_]
          constructor
          · rintro ⟨hj, hx, hy⟩
            have hje : j ≠ e := by rintro rfl; exact h3 (by rw [hx, hy])
            exact ⟨Or.inl hj, by rw [hvo j hj hje]; exact hx, by rw [hvo j hj hje]; exact hy⟩
          · rintro ⟨hj | hj, hx, hy⟩
            · by_cases hje : j = e
              · exact absurd ⟨hje, hx, hy⟩ hnot
              · rw [hvo j hj hje] at hx hy; exact ⟨hj, hx, hy⟩
            · exact absurd ⟨hj, hx, hy⟩ hnot'
  refine ⟨hex, fun x y hn => ?_⟩
  cases hs : s'.table (x, y) with
  | none => exact absurd hs hn
  | some j =>
    cases hs' : s'.table (y, x) with
    | none => rfl
    | some k =>
      exfalso
      obtain ⟨hj, hx, hy⟩ := (hex _ _ _).1 hs
      obtain ⟨hk, hy', hx'⟩ := (hex _ _ _).1 hs'
      rcases (h.live j).1 hj with hj | rfl
      · rcases (h.live k).1 hk with hk | rfl
        · by_cases hje : j = e
          · subst hje
            rw [h.ve] at hy
            by_cases hke : k = j
            · subst hke
              rw [h.ve] at hx'
              rw [hva] at hx
              exact h.ne0 (by rw [hx, hx'])
            · rw [hvo k hk hke] at hy'
              exact hmv k hk _ (hy'.trans hy.symm)
          · by_cases hke : k = e
            · subst hke
              rw [h.ve] at hx'
              rw [hvo j hj hje] at hx
              exact hmv j hj _ (hx.trans hx'.symm)
            · rw [hvo j hj hje] at hx hy
              rw [hvo k hk hke] at hx' hy'
              have h1 := (hT.exact_ _ _ j).2 ⟨hj, hx, hy⟩
              have h2 := (hT.exact_ _ _ k).2 ⟨hk, hy', hx'⟩
              have := hT.one x y (by rw [h1]; simp)
              rw [h2] at this; cases this
        · rw [h.vn0] at hy'; rw [h.vn1] at hx'
          by_cases hje : j = e
          · subst hje
            rw [hva] at hx
            exact he0 hx hx' 
          · rw [hvo j hj hje] at hy
            exact hmv j hj _ (hy.trans hy'.symm)
      · rw [h.vn0] at hx; rw [h.vn1] at hy
        rcases (h.live k).1 hk with hk | rfl
        · by_cases hke : k = e
          · subst hke
            rw [hva] at hy'
            exact he0 hy' hy
          · rw [hvo k hk hke] at hx'
            exact hmv k hk _ (hx'.trans hx.symm)
        · rw [h.vn0] at hy'
          exact h.ne1 (by rw [hy', hy])

theorem JoinSeg.table_ [Field K] {s s' : St K} {x y : HE} (h : JoinSeg s s' x y) (hT : TableOk s) (hL : Links s ∅ ∅)
    (hy : y.1 ∈ s.sid.live) (hAB : s.vtx (flip x) ≠ s.vtx y) (hn1 : s.table (s.vtx (flip x), s.vtx y) = none)
    (hn2 : s.table (s.vtx y, s.vtx (flip x)) = none) : TableOk s' := by
  obtain ⟨a, b, hab⟩ : ∃ a b, (s'.vtx (x.1, false), s'.vtx (x.1, true)) = ((a, b) : Id × Id) := ⟨_, _, rfl⟩
  have hka : s'.vtx (x.1, false) = a := (Prod.mk.inj hab).1
  have hkb : s'.vtx (x.1, true) = b := (Prod.mk.inj hab).2
  have hmx : s.vtx (flip x) ≠ s.vtx x := hL.flip_ne h.was
  have hmy : s.vtx y ≠ s.vtx x := by rw [← h.mid]; exact (hL.flip_ne hy).symm
  have hfacts : s.table (a, b) = none ∧ s.table (b, a) = none ∧ a ≠ b ∧ a ≠ s.vtx x ∧ b ≠ s.vtx x := by
    rw [← hka, ← hkb, h.vtx]
    obtain ⟨x1, v⟩ := x
    cases v
    · simp only [upd, Function.update_self, Function.update_of_ne (show ((x1, true) : HE) ≠ (x1, false) by simp)]
      exact ⟨hn2, hn1, hAB.symm, hmy, hmx⟩
    · simp only [upd, Function.update_self, Function.update_of_ne (show ((x1, false) : HE) ≠ (x1, true) by simp)]
      exact ⟨hn1, hn2, hAB, hmx, hmy⟩
  obtain ⟨f1, f2, f3, f4, f5⟩ := hfacts
  have hyk : s.vtx (y.1, false) = s.vtx x ∨ s.vtx (y.1, true) = s.vtx x := by
    have := h.mid
    obtain ⟨y1, v⟩ := y
    cases v
    · right; simpa [flip] using this
    · left; simpa [flip] using this
  have hex := (hT.exact_ _ _ x.1).2 ⟨h.was, rfl, rfl⟩
  have hey := (hT.exact_ _ _ y.1).2 ⟨hy, rfl, rfl⟩
  have key : ∀ c d j, s'.table (c, d) = some j ↔
      (j = x.1 ∧ (c, d) = (a, b)) ∨ (j ≠ x.1 ∧ j ≠ y.1 ∧ s.table (c, d) = some j) := by
    intro c d j
    rw [h.table, hka, hkb]
    by_cases k1 : (c, d) = (s.vtx (y.1, true), s.vtx (y.1, false))
    · have : s.table (c, d) = none := by
        rw [k1]; exact hT.one _ _ (by rw [hey]; simp)
      simp only [this, reduceCtorEq, and_false, or_false]
      simp only [k1, upd, Function.update_self, reduceCtorEq, false_iff, not_and, Prod.mk.injEq]
      rintro - h1 h2
      rcases hyk with hh | hh
      · exact f5 (by rw [← h2, hh])
      · exact f4 (by rw [← h1, hh])
    · simp only [upd, Function.update_of_ne k1]
      by_cases k2 : (c, d) = (s.vtx (y.1, false), s.vtx (y.1, true))
      · have : s.table (c, d) = some y.1 := by rw [k2]; exact hey
        simp only [this]
        simp only [k2, Function.update_self, reduceCtorEq, Option.some.injEq, Prod.mk.injEq, false_iff, not_or, not_and]
        constructor
        · rintro - h1 h2
          rcases hyk with hh | hh
          · exact f4 (by rw [← h1, hh])
          · exact f5 (by rw [← h2, hh])
        · exact fun _ h1 h2 => h1 h2.symm
      · simp only [Function.update_of_ne k2]
        by_cases k3 : (c, d) = (a, b)
        · simp only [k3, Function.update_self, Option.some.injEq, and_true, f1, reduceCtorEq, and_false, or_false]
          exact ⟨fun h => h.symm, fun h => h.symm⟩
        · simp only [Function.update_of_ne k3, k3, and_false, false_or]
          by_cases k4 : (c, d) = (s.vtx (x.1, false), s.vtx (x.1, true))
          · have : s.table (c, d) = some x.1 := by rw [k4]; exact hex
            simp only [this]
            simp only [k4, Function.update_self, reduceCtorEq, Option.some.injEq, false_iff, not_and]
            exact fun h1 _ h2 => h1 h2.symm
          · simp only [Function.update_of_ne k4, Function.update_of_ne k2]
            constructor
            · intro hj
              obtain ⟨_, g1, g2⟩ := (hT.exact_ _ _ _).1 hj
              refine ⟨?_, ?_, hj⟩
              · rintro rfl; exact k4 (by rw [g1, g2])
              · rintro rfl; exact k2 (by rw [g1, g2])
            · exact fun hj => hj.2.2
  have hvo : ∀ j, j ≠ x.1 → ∀ v, s'.vtx (j, v) = s.vtx (j, v) := fun j hj v => by
    rw [h.vtx]
    have : ((j, v) : HE) ≠ x := fun hh => hj (by rw [← hh])
    simp only [upd, Function.update_of_ne this]
  constructor
  · intro c d j
    rw [key, h.live]
    by_cases hj : j = x.1
    · subst hj
      simp only [true_and, ne_eq, not_true_eq_false, false_and, or_false, h.ne, not_false_eq_true, h.was, hka, hkb,
        Prod.mk.injEq]
      exact ⟨fun h => ⟨h.1.symm, h.2.symm⟩, fun h => ⟨h.1.symm, h.2.symm⟩⟩
    · rw [hvo j hj, hvo j hj, hT.exact_]
      tauto
  · intro c d hn
    cases hs : s'.table (c, d) with
    | none => exact absurd hs hn
    | some j =>
      cases hs' : s'.table (d, c) with
      | none => rfl
      | some k =>
        exfalso
        rcases (key _ _ _).1 hs with ⟨rfl, h1⟩ | ⟨h1, h2, h3⟩ <;>
          rcases (key _ _ _).1 hs' with ⟨rfl, h1'⟩ | ⟨h1', h2', h3'⟩
        · obtain ⟨rfl, rfl⟩ := Prod.mk.inj h1
          exact f3 (Prod.mk.inj h1').2
        · obtain ⟨rfl, rfl⟩ := Prod.mk.inj h1
          rw [f2] at h3'; cases h3'
        · obtain ⟨rfl, rfl⟩ := Prod.mk.inj h1'
          rw [f2] at h3; cases h3
        · have := hT.one c d (by rw [h3]; simp)
          rw [h3'] at this; cases this

/-! ### All invariants of every run -/

/-- Invariants that need nothing of the nesting of wires. -/
structure Inv (s : St K) : Prop where
  pids : s.pid.Ok
  wids : s.wid.Ok
  qids : s.qid.Ok
  links : Links s ∅ ∅
  free : Free False s
  tab : TableOk s
  /-- Numbers of points with a segment, of polygons, of segments and of wires; the root wire is one of the wires. -/
  euler : verts s + 2 * s.qid.live.length = s.sid.live.length + s.wid.live.length + 1

theorem Inv.frame {s s' : St K} (h : Inv s) (h1 : s'.pid = s.pid) (h2 : s'.wid = s.wid) (h3 : s'.qid = s.qid)
    (h4 : s'.sid = s.sid) (h5 : s'.vtx = s.vtx) (h6 : s'.next = s.next) (h7 : s'.pseg = s.pseg)
    (h8 : s'.table = s.table) (h9 : s'.ppoly = s.ppoly) (h10 : s'.fpts = s.fpts) : Inv s' := by
  refine ⟨h1 ▸ h.pids, h2 ▸ h.wids, h3 ▸ h.qids, ?_, h.free.congr h1 h3 h9 h10 h7, h.tab.frame h4 h5 h8, ?_⟩
  · exact h.links.frame h1 h4 h5 h6 h7
  · have := h.euler
    unfold verts at *
    rw [h1, h2, h3, h4, h7]
    exact this

theorem Ids.append_length {m : Ids} (h : m.Ok) : m.append.2.live.length = m.live.length + 1 := by
  rw [(Ids.append_ok h).2.1]; simp

theorem Ids.remove_length {m m' : Ids} {i : Id} (h : m.Ok) (hr : m.remove i = .ok m') :
    m'.live.length + 1 = m.live.length := by
  obtain ⟨h1, h2, _, _⟩ := Ids.remove_ok h hr
  rw [h2, List.length_erase_of_mem h1]
  have := List.length_pos_of_mem h1
  omega

theorem init_inv [Zero K] : Inv (init : St K) := by
  have hr : ∀ l : List Id, l.Nodup → (∀ i ∈ l, i < 1) → Ids.Ok { nxt := 1, free := [], live := l } := fun l h1 h2 =>
    ⟨h1, by simp, by simp, h2, by simp⟩
  refine ⟨⟨by simp [init], by simp [init], by simp [init], by simp [init], by simp [init]⟩,
    hr _ (by simp) (by simp), hr _ (by simp) (by simp),
    ⟨⟨by simp [init], by simp [init], by simp [init], by simp [init], by simp [init]⟩, by simp [init], by simp [init],
      by simp [init]⟩,
    ⟨by simp [init], by simp [init], by simp [init], by simp [init]⟩, ⟨by simp [init], by simp [init]⟩, by simp [init, verts]⟩

theorem addFreePoint_inv {xy : K × K} {q : Id} {s : St K} (h : Inv s) : Inv (addFreePoint xy q s).2 := by
  obtain ⟨h1, h2, h3⟩ := Ids.append_ok h.pids
  unfold addFreePoint
  have hfr : ∀ d : HE, d.1 ∈ s.sid.live → s.vtx d ≠ s.pid.append.1 := fun d hd hh => h1 (hh ▸ h.links.vlive d hd)
  have hml : ∀ p, p ∈ s.pid.append.2.live ↔ p ∈ s.pid.live ∨ p = s.pid.append.1 := by
    intro p; rw [h2]; simp
  have hpo : ∀ p ∈ s.pid.live, p ≠ s.pid.append.1 := fun p hp hh => h1 (hh ▸ hp)
  refine ⟨h3, h.wids, h.qids, ⟨h.links.sids, ?_, h.links.vne, ?_⟩, ⟨?_, ?_, ?_, by simp⟩, h.tab.frame rfl rfl rfl, ?_⟩
  · exact fun d hd => (hml _).2 (Or.inl (h.links.vlive d hd))
  · intro p hp
    rcases (hml p).1 hp with hp | rfl
    · obtain ⟨l, hr, hP⟩ := h.links.ring p hp
      refine ⟨l, hr.congr (fun _ => Iff.rfl) (fun _ _ => rfl), fun _ => ?_⟩
      have hP := hP (by simp)
      constructor
      · simp only [upd, Function.update_of_ne (hpo p hp)]; exact hP.non
      · simp only [upd, Function.update_of_ne (hpo p hp)]; exact hP.som
    · refine ⟨[], ⟨by simp, fun d => ?_, Or.inl rfl⟩, fun _ => ⟨fun _ => rfl, fun d hd => ?_⟩⟩
      · simp only [List.not_mem_nil, false_iff, not_and]
        exact fun hd hv => absurd hv (hfr d hd)
      · simp [upd] at hd
  · intro x
    by_cases hx : x = q
    · subst hx; simp only [upd, Function.update_self]; exact nodup_insertSet (h.free.nd x)
    · simp only [upd, Function.update_of_ne hx]; exact h.free.nd x
  · intro x p hp
    have hp' : (p = s.pid.append.1 ∧ x = q) ∨ p ∈ s.fpts x := by
      by_cases hx : x = q
      · subst hx
        simp only [upd, Function.update_self, mem_insertSet] at hp
        tauto
      · simp only [upd, Function.update_of_ne hx] at hp
        exact Or.inr hp
    rcases hp' with ⟨rfl, rfl⟩ | hp'
    · exact ⟨(hml _).2 (Or.inr rfl), by simp [upd]⟩
    · obtain ⟨g1, g2⟩ := h.free.mem x p hp'
      exact ⟨(hml _).2 (Or.inl g1), by simp only [upd, Function.update_of_ne (hpo p g1)]; exact g2⟩
  · intro p hp
    rcases (hml p).1 hp with hp | rfl
    · simp only [upd, Function.update_of_ne (hpo p hp)]; exact h.free.seg p hp
    · simp [upd]
  · have := h.euler
    have hv : List.countP (fun p => (upd s.pseg s.pid.append.1 none p).isSome) s.pid.append.2.live = verts s := by
      rw [h2, List.countP_append]
      unfold verts
      have h4 : List.countP (fun p => (upd s.pseg s.pid.append.1 none p).isSome) s.pid.live =
          List.countP (fun p => (s.pseg p).isSome) s.pid.live :=
        List.countP_congr (fun p hp => by simp only [upd, Function.update_of_ne (hpo p hp)])
      rw [h4]
      simp [upd]
    unfold verts
    dsimp only
    rw [hv]
    exact this

theorem removeFreePoint_inv {p : Id} {s s' : St K} (hs : removeFreePoint p s = .ok s') (h : Inv s) : Inv s' := by
  unfold removeFreePoint at hs
  simp only [bind_ok, check_ok, need_ok, Except.ok.injEq, removeSet_ok] at hs
  obtain ⟨_, c1, q, hq, _, c2, l, ⟨hl, rfl⟩, m, hm, rfl⟩ := hs
  obtain ⟨h1, h2, h3, h4⟩ := Ids.remove_ok h.pids hm
  have hno : ¬ HasSeg s p := fun hh => (h.links.hasSeg h1).2 hh c2
  refine ⟨h3, h.wids, h.qids, ⟨h.links.sids, ?_, h.links.vne, ?_⟩, ⟨?_, ?_, ?_, by simp⟩, h.tab.frame rfl rfl rfl, ?_⟩
  · exact fun d hd => (h4 _).2 ⟨fun hh => hno ⟨d, hd, hh⟩, h.links.vlive d hd⟩
  · intro x hx
    obtain ⟨l, hr, hP⟩ := h.links.ring x ((h4 x).1 hx).2
    exact ⟨l, hr.congr (fun _ => Iff.rfl) (fun _ _ => rfl), fun hh => ⟨(hP hh).non, (hP hh).som⟩⟩
  · intro x
    by_cases hx : x = q
    · subst hx; simp only [upd, Function.update_self]; exact (h.free.nd x).erase _
    · simp only [upd, Function.update_of_ne hx]; exact h.free.nd x
  · intro x y hy
    have hy' : y ≠ p ∧ y ∈ s.fpts x := by
      by_cases hx : x = q
      · subst hx
        simp only [upd, Function.update_self] at hy
        exact (h.free.nd x).mem_erase_iff.1 hy
      · simp only [upd, Function.update_of_ne hx] at hy
        refine ⟨?_, hy⟩
        rintro rfl
        have := (h.free.mem x y hy).2
        rw [hq] at this
        exact hx (Option.some.inj this).symm
    obtain ⟨g1, g2⟩ := h.free.mem x y hy'.2
    exact ⟨(h4 y).2 ⟨hy'.1, g1⟩, g2⟩
  · exact fun x hx => h.free.seg x ((h4 x).1 hx).2
  · have := h.euler
    unfold verts at *
    dsimp only
    have hp : List.countP (fun p => (s.pseg p).isSome) s.pid.live =
        List.countP (fun p => (s.pseg p).isSome) (s.pid.live.erase p) := by
      rw [(List.perm_cons_erase h1).countP_eq, List.countP_cons_of_neg (by simp [c2])]
    rw [h2, ← hp]
    exact this

theorem updateVectors_eq [Field K] {l : List HE} : ∀ {s : St K}, ∃ vc, updateVectors l s = { s with vec := vc } := by
  induction l with
  | nil => intro s; exact ⟨s.vec, rfl⟩
  | cons h l ih =>
    intro s
    obtain ⟨vc, hvc⟩ := @ih { s with vec := upd s.vec h.1 ((s.xy (s.vtx (h.1, true))).1 - (s.xy (s.vtx (h.1, false))).1,
      (s.xy (s.vtx (h.1, true))).2 - (s.xy (s.vtx (h.1, false))).2) }
    exact ⟨vc, by rw [updateVectors]; exact hvc⟩

theorem movePoint_eq [Field K] {p : Id} {d : K × K} {s s' : St K} (hs : movePoint p d s = .ok s') :
    ∃ vc, s' = { s with
      xy := upd s.xy p ((s.xy p).1 + d.1, (s.xy p).2 + d.2)
      vec := vc } := by
  unfold movePoint at hs
  simp only [bind_ok, Except.ok.injEq] at hs
  obtain ⟨l, _, rfl⟩ := hs
  obtain ⟨vc, hvc⟩ := updateVectors_eq (l := l) (s := { s with xy := upd s.xy p ((s.xy p).1 + d.1, (s.xy p).2 + d.2) })
  exact ⟨vc, hvc⟩

section
variable [Field K]

theorem AddSeg.inv {s s' : St K} {e a b : Id} (h : AddSeg s s' e a b) (hI : Inv s) (hL : Links s' ∅ ∅)
    (hF : Free False s') (h1 : s.table (a, b) = none) (h2 : s.table (b, a) = none) (hw : s'.wid.Ok) (hq : s'.qid.Ok)
    (hE : verts s' + 2 * s'.qid.live.length + s.sid.live.length + s.wid.live.length + 1 =
      verts s + 2 * s.qid.live.length + s'.sid.live.length + s'.wid.live.length + 1) : Inv s' := by
  refine ⟨h.pid ▸ hI.pids, hw, hq, hL, hF, h.table hI.tab h1 h2, ?_⟩
  have := hI.euler
  omega

theorem AddSeg.length {s s' : St K} {e a b : Id} (h : AddSeg s s' e a b) (hL : Links s ∅ ∅) :
    s'.sid.live.length = s.sid.live.length + 1 := by
  rw [h.sid]; exact Ids.append_length hL.sids

theorem AddSeg.verts_eq {s s1 : St K} {e a b : Id} (hA : AddSeg s s1 e a b) (hL : Links s ∅ ∅) (hL' : Links s1 ∅ ∅)
    (ha : HasSeg s a) (hb : HasSeg s b) : verts s1 = verts s := by
  refine verts_congr hL hL' hA.pid (fun p _ => ?_)
  rw [hA.hasSeg]
  constructor
  · rintro (h | h | h)
    · exact h
    · exact h ▸ ha
    · exact h ▸ hb
  · exact Or.inl

/-- The state with `last_polygon_change` reset. -/
def quiet (s : St K) : St K := { s with change := .none }

/-- Difference of the coordinates of the points `a` and `b`. -/
def diff (s : St K) (a b : Id) : K × K := ((s.xy b).1 - (s.xy a).1, (s.xy b).2 - (s.xy a).2)

/-- What `new_segment` did. -/
inductive NewCase [LinearOrder K] (g : Geom K) (a b : Id) (s : St K) (r : Id × St K) : Prop where
  | old (h : s.table (a, b) = some r.1 ∨ s.table (b, a) = some r.1) (hs : r.2 = quiet s)
  | wire (t1 : s.table (a, b) = none) (t2 : s.table (b, a) = none) (pa : s.pseg a = none) (pb : s.pseg b = none)
      (q : Id) (qa : s.ppoly a = some q) (qb : s.ppoly b = some q) (h : newWire q a b (quiet s) = .ok r)
  | dendrite (t1 : s.table (a, b) = none) (t2 : s.table (b, a) = none) (i : Ins) (root : Bool)
      (c : Corner (quiet s) (if root then b else a) i) (pa : s.pseg (if root then a else b) = none)
      (pb : s.pseg (if root then b else a) ≠ none) (h : wireAddDendrite a b i root (quiet s) = .ok r)
      (gap : Gap g s (if root then (-(diff s a b).1, -(diff s a b).2) else diff s a b) i)
  | join (t1 : s.table (a, b) = none) (t2 : s.table (b, a) = none) (ia ib : Ins) (ca : Corner (quiet s) a ia)
      (cb : Corner (quiet s) b ib) (pa : s.pseg a ≠ none) (pb : s.pseg b ≠ none) (ne : ia.2.2 ≠ ib.2.2)
      (h : joinWires a b ia ib (quiet s) = .ok r) (ga : Gap g s (diff s a b) ia)
      (gb : Gap g s (-(diff s a b).1, -(diff s a b).2) ib)
  | split (t1 : s.table (a, b) = none) (t2 : s.table (b, a) = none) (ia ib : Ins) (ca : Corner (quiet s) a ia)
      (cb : Corner (quiet s) b ib) (pa : s.pseg a ≠ none) (pb : s.pseg b ≠ none) (eq : ia.2.2 = ib.2.2)
      (h : splitPoly g a b ia ib (quiet s) = .ok r) (ga : Gap g s (diff s a b) ia)
      (gb : Gap g s (-(diff s a b).1, -(diff s a b).2) ib)

theorem newSegment_cases [LinearOrder K] {g : Geom K} {a b : Id} {s : St K} {r : Id × St K}
    (hs : newSegment g a b s = .ok r) (hL : Links s ∅ ∅) (ha : a ∈ s.pid.live) (hb : b ∈ s.pid.live) :
    a ≠ b ∧ NewCase g a b s r := by
  have hL0 : Links (quiet s) ∅ ∅ := hL.frame rfl rfl rfl rfl rfl
  unfold newSegment at hs
  simp only [bind_ok, check_ok] at hs
  obtain ⟨_, hab, _, _, hs⟩ := hs
  refine ⟨hab, ?_⟩
  split at hs
  · next t1 =>
    simp only [Except.ok.injEq] at hs
    subst hs
    exact .old (Or.inl t1) rfl
  next t1 =>
  split at hs
  · next t2 =>
    simp only [Except.ok.injEq] at hs
    subst hs
    exact .old (Or.inr t2) rfl
  next t2 =>
  split at hs
  · next hp =>
    simp only [bind_ok, check_ok, need_ok] at hs
    obtain ⟨_, hpp, q, hq, hs⟩ := hs
    exact .wire t1 t2 hp.1 hp.2 q hq (hpp ▸ hq) hs
  next hp =>
  simp only [bind_ok] at hs
  obtain ⟨oa, hoa, ob, hob, hs⟩ := hs
  have ca := insertVector_sound hL0 ha hoa
  have cb := insertVector_sound hL0 hb hob
  clear hoa hob
  split at hs
  · next hpa =>
    simp only [bind_ok, need_ok] at hs
    obtain ⟨ib, hib, hs⟩ := hs
    have hpb : s.pseg b ≠ none := fun hh => hp ⟨hpa, hh⟩
    obtain ⟨i, hi, hC, hG⟩ := cb.resolve_left (fun hh => hpb hh.1)
    rw [hib] at hi
    obtain rfl := Option.some.inj hi
    exact .dendrite t1 t2 ib true hC hpa hpb hs hG
  next hpa =>
  split at hs
  · next hpb =>
    simp only [bind_ok, need_ok] at hs
    obtain ⟨ia, hia, hs⟩ := hs
    obtain ⟨i, hi, hC, hG⟩ := ca.resolve_left (fun hh => hpa hh.1)
    rw [hia] at hi
    obtain rfl := Option.some.inj hi
    exact .dendrite t1 t2 ia false hC hpb hpa hs hG
  next hpb =>
  simp only [bind_ok, need_ok] at hs
  obtain ⟨ia, hia, ib, hib, hs⟩ := hs
  obtain ⟨i, hi, hCa, hGa⟩ := ca.resolve_left (fun hh => hpa hh.1)
  rw [hia] at hi
  obtain rfl := Option.some.inj hi
  obtain ⟨i, hi, hCb, hGb⟩ := cb.resolve_left (fun hh => hpb hh.1)
  rw [hib] at hi
  obtain rfl := Option.some.inj hi
  split at hs
  · next hne => exact .join t1 t2 ia ib hCa hCb hpa hpb hne hs hGa hGb
  · next hne => exact .split t1 t2 ia ib hCa hCb hpa hpb (not_not.1 hne) hs hGa hGb

theorem newSegment_inv [LinearOrder K] {g : Geom K} {a b e : Id} {s s' : St K}
    (hs : newSegment g a b s = .ok (e, s')) (hI : Inv s) (ha : a ∈ s.pid.live) (hb : b ∈ s.pid.live) : Inv s' := by
  obtain ⟨hab, hs⟩ := newSegment_cases hs hI.links ha hb
  have hI0 : Inv (quiet s) := hI.frame rfl rfl rfl rfl rfl rfl rfl rfl rfl rfl
  have hT1 := hI0.links.hasSeg ha
  have hT2 := hI0.links.hasSeg hb
  cases hs with
  | old _ hs =>
    dsimp only at hs
    subst hs
    exact hI0
  | wire t1 t2 pa pb q qa qb hs =>
    obtain ⟨hA, hL', hF', _, hw, hq, _⟩ := newWire_eff hs hI0.links ha hb hI0.free pa pb
    have hl := hA.length hI0.links
    have na : ¬ HasSeg (quiet s) a := fun hh => hT1.2 hh pa
    have nb : ¬ HasSeg (quiet s) b := fun hh => hT2.2 hh pb
    have hv : verts s' = verts (quiet s) + 2 := by
      refine verts_add2 hI0.links hL' hI0.pids.nd hA.pid ha hb hab na nb ?_ ?_ ?_
      · rw [hA.hasSeg]; tauto
      · rw [hA.hasSeg]; tauto
      · intro p _ h1 h2; rw [hA.hasSeg]; tauto
    refine hA.inv hI0 hL' hF' t1 t2 (hw ▸ (Ids.append_ok hI0.wids).2.2) (hq ▸ hI0.qids) ?_
    rw [hw, hq, Ids.append_length hI0.wids, hl, hv]
    omega
  | dendrite t1 t2 i root hC pa pb hs =>
    obtain ⟨hA, hL', hF', _, hw, hq, _⟩ := addDendrite_eff hs hI0.links ha hb hI0.free hC pa
    have hl := hA.length hI0.links
    have hv : verts s' = verts (quiet s) + 1 := by
      refine verts_add (x := if root then a else b) hI0.links hL' hI0.pids.nd hA.pid (by split <;> assumption)
        (fun hh => (hI0.links.hasSeg (by split <;> assumption)).2 hh pa) ?_ ?_
      · rw [hA.hasSeg]; split <;> tauto
      · intro p _ h1
        have := (hI0.links.hasSeg (p := if root then b else a) (by split <;> assumption)).1 pb
        rw [hA.hasSeg]
        constructor
        · cases root
          · rintro (h | h | h)
            · exact h
            · exact h ▸ this
            · exact absurd h h1
          · rintro (h | h | h)
            · exact h
            · exact absurd h h1
            · exact h ▸ this
        · exact Or.inl
    refine hA.inv hI0 hL' hF' t1 t2 (hw ▸ hI0.wids) (hq ▸ hI0.qids) ?_
    rw [hw, hq, hl, hv]
    omega
  | join t1 t2 ia ib hCa hCb pa pb _ hs =>
    obtain ⟨hA, hL', hF', _, aw, bw, q, keep, rm, l, rp, _, _, _, _, _, _, _, _, _, _, _, hw, hq, _⟩ :=
      joinWires_eff hs hI0.links ha hb hI0.free hCa hCb
    have hl := hA.length hI0.links
    have hv := hA.verts_eq hI0.links hL' (hT1.1 pa) (hT2.1 pb)
    have hwl := Ids.remove_length hI0.wids hw
    refine hA.inv hI0 hL' hF' t1 t2 (Ids.remove_ok hI0.wids hw).2.2.1 (hq ▸ hI0.qids) ?_
    rw [hq, hl, hv]
    omega
  | split t1 t2 ia ib hCa hCb pa pb _ hs =>
    obtain ⟨ow, lw, q, q', l, s1, s2, s3, hS, hF1, k1, k2, k3⟩ :=
      splitPoly_start hs hI0.links ha hb hI0.free (by simp) hCa hCb
    obtain ⟨hF', _, P, C, Q, O, pp, fp, c, rfl⟩ := splitPoly_rest hF1 (by simp) k1 k2 k3
    have hA := hS.add
    have hl := hA.length hI0.links
    have hv := hA.verts_eq hI0.links hS.links (hT1.1 pa) (hT2.1 pb)
    have hw := hS.wid
    have hq := hS.qid
    have hw' := (Ids.append_ok hI0.wids).2.2
    have hq' := (Ids.append_ok hI0.qids).2.2
    rw [← hw] at hw'
    rw [← hq] at hq'
    refine AddSeg.inv (hA.frame rfl rfl rfl rfl rfl rfl) hI0 (hS.links.frame rfl rfl rfl rfl rfl) hF' t1 t2 hw' hq' ?_
    have : verts { s1 with
        parent := P
        childs := C
        wpoly := Q
        outer := O
        ppoly := pp
        fpts := fp
        change := c } = verts s1 := rfl
    rw [this, hv]
    dsimp only
    rw [hw, hq, Ids.append_length hI0.wids, Ids.append_length hI0.qids, hl]
    omega

/-- What `delete_segment` did. -/
inductive DelCase [LinearOrder K] (g : Geom K) (e : Id) (s s' : St K) : Prop where
  | wire (h : ∀ v, s.next (e, v) = some (e, !v)) (hs : rmWire e (quiet s) = .ok s')
  | dendrite (tip : Bool) (ht : s.next (e, tip) = some (e, !tip)) (hr : s.next (e, !tip) ≠ some (e, tip))
      (hs : wireRmDendrite e tip (quiet s) = .ok s')
  | split (h : ∀ v, s.next (e, v) ≠ some (e, !v)) (hd : isDendrite s e) (hs : splitWire g e (quiet s) = .ok s')
  | join (h : ∀ v, s.next (e, v) ≠ some (e, !v)) (hd : ¬ isDendrite s e) (hs : joinPoly e (quiet s) = .ok s')

theorem deleteSegment_cases [LinearOrder K] {g : Geom K} {e : Id} {s s' : St K}
    (hs : deleteSegment g e s = .ok s') : DelCase g e s s' := by
  unfold deleteSegment at hs
  dsimp only at hs
  split at hs
  · next h => exact .wire (fun v => by cases v; exacts [h.2, h.1]) hs
  next h =>
  split at hs
  · next h1 => exact .dendrite true h1 (fun h2 => h ⟨h1, h2⟩) hs
  next h1 =>
  split at hs
  · next h2 => exact .dendrite false h2 (fun h3 => h ⟨h3, h2⟩) hs
  next h2 =>
  have h3 : ∀ v, s.next (e, v) ≠ some (e, !v) := fun v => by cases v; exacts [h2, h1]
  split at hs
  · next hd => exact .split h3 hd hs
  · next hd => exact .join h3 hd hs

theorem DelSeg.inv {s s' : St K} {e : Id} (h : DelSeg s s' e) (hI : Inv s) (hL : Links s' ∅ ∅)
    (hF : Free False s') (hw : s'.wid.Ok) (hq : s'.qid.Ok)
    (hE : verts s' + 2 * s'.qid.live.length + s.sid.live.length + s.wid.live.length + 1 =
      verts s + 2 * s.qid.live.length + s'.sid.live.length + s'.wid.live.length + 1) : Inv s' := by
  refine ⟨h.pid ▸ hI.pids, hw, hq, hL, hF, h.table hI.tab, ?_⟩
  have := hI.euler
  omega

theorem DelSeg.length {s s' : St K} {e : Id} (h : DelSeg s s' e) (hL : Links s ∅ ∅) :
    s'.sid.live.length + 1 = s.sid.live.length := Ids.remove_length hL.sids h.sid

theorem DelSeg.verts_eq {s s' : St K} {e : Id} (h : DelSeg s s' e) (hL : Links s ∅ ∅) (hL' : Links s' ∅ ∅)
    (hn : ∀ v, s.next (e, v) ≠ some (e, !v)) : verts s' = verts s := by
  refine verts_congr hL hL' h.pid (fun p _ => ?_)
  rw [h.hasSeg hL]
  exact ⟨fun h => h.1, fun h => ⟨h, fun v _ => hn v⟩⟩

theorem deleteSegment_inv [LinearOrder K] {g : Geom K} {e : Id} {s s' : St K} (hs : deleteSegment g e s = .ok s')
    (hI : Inv s) (he : e ∈ s.sid.live) : Inv s' := by
  have hI0 : Inv (quiet s) := hI.frame rfl rfl rfl rfl rfl rfl rfl rfl rfl rfl
  have he0 : e ∈ (quiet s).sid.live := he
  have hvl : ∀ v, (quiet s).vtx (e, v) ∈ (quiet s).pid.live := fun v => hI0.links.vlive (e, v) he
  have hne := hI0.links.vne e he
  cases deleteSegment_cases hs with
  | wire hn hs =>
    have hn : ∀ v, (quiet s).next (e, v) = some (e, !v) := hn
    obtain ⟨hD, hL', hF', _, _, _, hq, _, _, _, _, w, q, _, _, hw, _⟩ :=
      rmWire_eff hs hI0.links he0 hI0.free (by simp)
    have hl := hD.length hI0.links
    have hwl := Ids.remove_length hI0.wids hw
    have hv : verts (quiet s) = verts s' + 2 := by
      refine verts_add2 hL' hI0.links (hD.pid ▸ hI0.pids.nd) hD.pid.symm (hD.pid ▸ hvl false) (hD.pid ▸ hvl true) hne
        ?_ ?_ ⟨_, he, rfl⟩ ⟨_, he, rfl⟩ ?_
      · rw [hD.hasSeg hI0.links]; exact fun h => h.2 false rfl (hn false)
      · rw [hD.hasSeg hI0.links]; exact fun h => h.2 true rfl (hn true)
      · intro p _ h1 h2
        rw [hD.hasSeg hI0.links]
        refine ⟨fun h => ⟨h, fun v hv => ?_⟩, fun h => h.1⟩
        cases v
        · exact absurd hv.symm h1
        · exact absurd hv.symm h2
    refine hD.inv hI0 hL' hF' (Ids.remove_ok hI0.wids hw).2.2.1 (hq ▸ hI0.qids) ?_
    rw [hq]
    omega
  | dendrite tip ht hr hs =>
    have ht : (quiet s).next (e, tip) = some (e, !tip) := ht
    have hr : (quiet s).next (e, !tip) ≠ some (e, tip) := hr
    obtain ⟨hD, hL', hF', _, _, hw, hq, _⟩ := rmDendrite_eff hs hI0.links he0 hI0.free (by simp) ht hr
    have hl := hD.length hI0.links
    have hv : verts (quiet s) = verts s' + 1 := by
      refine verts_add hL' hI0.links (hD.pid ▸ hI0.pids.nd) hD.pid.symm (x := (quiet s).vtx (e, tip))
        (hD.pid ▸ hvl tip) ?_ ⟨_, he, rfl⟩ ?_
      · rw [hD.hasSeg hI0.links]; exact fun h => h.2 tip rfl ht
      · intro p _ h1
        rw [hD.hasSeg hI0.links]
        refine ⟨fun h => ⟨h, fun v hv => ?_⟩, fun h => h.1⟩
        by_cases hvt : v = tip
        · subst hvt; exact absurd hv.symm h1
        · have : v = !tip := by cases v <;> cases tip <;> simp_all
          subst this
          simpa using hr
    refine hD.inv hI0 hL' hF' (hw ▸ hI0.wids) (hq ▸ hI0.qids) ?_
    rw [hq, hw]
    omega
  | split hn hd hs =>
    have hn : ∀ v, (quiet s).next (e, v) ≠ some (e, !v) := hn
    obtain ⟨hF', aw, bw, q, l, bn, r0, r1, hS⟩ :=
      splitWire_eff hs hI0.links he0 hI0.free (by simp) (hn false) (hn true)
    have hl := hS.del.length hI0.links
    have hv := hS.del.verts_eq hI0.links hS.links hn
    refine hS.del.inv hI0 hS.links hF' (hS.wid ▸ (Ids.append_ok hI0.wids).2.2) (hS.qid ▸ hI0.qids) ?_
    rw [hS.qid, hS.wid, Ids.append_length hI0.wids, hv]
    omega
  | join hn hd hs =>
    have hn : ∀ v, (quiet s).next (e, v) ≠ some (e, !v) := hn
    obtain ⟨hF', lw, rw', lq, rq, q, q', keep, rm, l, r0, r1, hS⟩ :=
      joinPoly_eff hs hI0.links he0 hI0.free (by simp) (by simp) (by simp) (hn false) (hn true)
    have hl := hS.del.length hI0.links
    have hv := hS.del.verts_eq hI0.links hS.links hn
    have hwl := Ids.remove_length hI0.wids hS.wid
    have hql := Ids.remove_length hI0.qids hS.qid
    refine hS.del.inv hI0 hS.links hF' (Ids.remove_ok hI0.wids hS.wid).2.2.1 (Ids.remove_ok hI0.qids hS.qid).2.2.1 ?_
    rw [hv]
    omega

theorem splitSegment_inv {e mid n : Id} {s s' : St K} (hs : splitSegment e mid s = .ok (n, s')) (hI : Inv s)
    (he : e ∈ s.sid.live) (hm : mid ∈ s.pid.live) (hf : s.pseg mid = none) : Inv s' := by
  obtain ⟨hL', hF', hS⟩ := splitSegment_eff hs hI.links he hm hf hI.free (by simp)
  have hno : ¬ HasSeg s mid := fun hh => (hI.links.hasSeg hm).2 hh hf
  have hv : verts s' = verts s + 1 := by
    refine verts_add hI.links hL' hI.pids.nd hS.pid hm hno ?_ ?_
    · rw [hS.hasSeg]; exact Or.inr rfl
    · intro p _ h1; rw [hS.hasSeg]; tauto
  refine ⟨hS.pid ▸ hI.pids, hS.wid ▸ hI.wids, hS.qid ▸ hI.qids, hL', hF', hS.table hI.tab hno (hI.links.vne e he), ?_⟩
  have := hI.euler
  rw [hv, hS.wid, hS.qid, hS.sid, Ids.append_length hI.links.sids]
  omega

/-- The segments `e0` and `e1` share the point `mid` and no segment connects their other ends. -/
def Joinable (s : St K) (mid e0 e1 : Id) : Prop :=
  e0 ∈ s.sid.live ∧ e1 ∈ s.sid.live ∧ e0 ≠ e1 ∧ (∃ v, s.vtx (e0, v) = mid) ∧ (∃ v, s.vtx (e1, v) = mid) ∧
    ∀ v w, s.vtx (e0, v) ≠ mid → s.vtx (e1, w) ≠ mid → ∀ e ∈ s.sid.live, ∀ u,
      ¬ (s.vtx (e, u) = s.vtx (e0, v) ∧ s.vtx (e, !u) = s.vtx (e1, w))

theorem TableOk.unique {s : St K} (hT : TableOk s) {e e' : Id} (he : e ∈ s.sid.live) (he' : e' ∈ s.sid.live) {u v : Bool}
    (h1 : s.vtx (e, u) = s.vtx (e', v)) (h2 : s.vtx (e, !u) = s.vtx (e', !v)) : e = e' := by
  have g1 := (hT.exact_ _ _ e).2 ⟨he, rfl, rfl⟩
  have g2 := (hT.exact_ _ _ e').2 ⟨he', rfl, rfl⟩
  have g3 := hT.one _ _ (by rw [g2]; simp)
  cases u <;> cases v <;> simp only [Bool.not_false, Bool.not_true] at h1 h2
  · rw [h1, h2, g2] at g1; exact (Option.some.inj g1).symm
  · rw [h1, h2, g3] at g1; cases g1
  · rw [h1, h2, g3] at g1; cases g1
  · rw [h1, h2, g2] at g1; exact (Option.some.inj g1).symm

theorem Joinable.far {s : St K} {mid e0 e1 : Id} (h : Joinable s mid e0 e1) (hT : TableOk s) :
    ∀ v w, s.vtx (e0, v) ≠ mid → s.vtx (e1, w) ≠ mid → s.vtx (e0, v) ≠ s.vtx (e1, w) := by
  obtain ⟨h0, h1, hne, ⟨v0, hv0⟩, ⟨v1, hv1⟩, _⟩ := h
  intro v w hv hw hh
  have hv' : v = !v0 := by cases v <;> cases v0 <;> simp_all
  have hw' : w = !v1 := by cases w <;> cases v1 <;> simp_all
  subst hv' hw'
  exact hne (hT.unique h0 h1 (hv0.trans hv1.symm) hh)

theorem joinSegments_inv {mid e0 e1 : Id} {s s' : St K} (hs : joinSegments mid e0 e1 s = .ok s') (hI : Inv s)
    (hJ : Joinable s mid e0 e1) : Inv s' := by
  have hfar := hJ.far hI.tab
  obtain ⟨h0, h1, hne, ⟨v0, hv0⟩, ⟨v1, hv1⟩, hno⟩ := hJ
  obtain ⟨hL', hF', x, y, hx, hy, hxm, hS, _⟩ := joinSegments_eff hs hI.links h0 h1 hne
    (by cases v0; exacts [Or.inl hv0, Or.inr hv0]) (by cases v1; exacts [Or.inl hv1, Or.inr hv1]) hfar hI.free (by simp)
  have hyl : y.1 ∈ s.sid.live := hy ▸ h1
  have hmx : s.vtx (flip x) ≠ mid := hxm ▸ hI.links.flip_ne hS.was
  have hmy : s.vtx y ≠ mid := by rw [← hxm, ← hS.mid]; exact (hI.links.flip_ne hyl).symm
  have hx' : flip x = (e0, !x.2) := by rw [← hx]; rfl
  have hy' : y = (e1, y.2) := by rw [← hy]
  have hnt : ∀ u, ∀ e ∈ s.sid.live, ¬ (s.vtx (e, u) = s.vtx (flip x) ∧ s.vtx (e, !u) = s.vtx y) := by
    intro u e he
    rw [hx', hy']
    exact hno _ _ (hx' ▸ hmx) (hy' ▸ hmy) e he u
  have hAB : s.vtx (flip x) ≠ s.vtx y := by
    rw [hx', hy']
    exact hfar _ _ (hx' ▸ hmx) (hy' ▸ hmy)
  have t1 : s.table (s.vtx (flip x), s.vtx y) = none := by
    cases ht : s.table (s.vtx (flip x), s.vtx y) with
    | none => rfl
    | some e =>
      obtain ⟨g1, g2, g3⟩ := (hI.tab.exact_ _ _ _).1 ht
      exact absurd ⟨g2, g3⟩ (hnt false e g1)
  have t2 : s.table (s.vtx y, s.vtx (flip x)) = none := by
    cases ht : s.table (s.vtx y, s.vtx (flip x)) with
    | none => rfl
    | some e =>
      obtain ⟨g1, g2, g3⟩ := (hI.tab.exact_ _ _ _).1 ht
      exact absurd ⟨g3, g2⟩ (hnt true e g1)
  have hv : verts s = verts s' + 1 := by
    refine verts_add hL' hI.links (hS.pid ▸ hI.pids.nd) hS.pid.symm (x := s.vtx x)
      (hS.pid ▸ hI.links.vlive x hS.was) ?_ ⟨x, hS.was, rfl⟩ ?_
    · rw [hS.hasSeg hI.links hyl]; exact fun h => h.2 rfl
    · intro p _ h1
      rw [hS.hasSeg hI.links hyl]
      exact ⟨fun h => ⟨h, h1⟩, fun h => h.1⟩
  refine ⟨hS.pid ▸ hI.pids, hS.wid ▸ hI.wids, hS.qid ▸ hI.qids, hL', hF', hS.table_ hI.tab hI.links hyl hAB t1 t2, ?_⟩
  have := hI.euler
  have := Ids.remove_length hI.links.sids hS.del
  rw [hS.wid, hS.qid]
  omega

/-- The arguments of a call are objects of the decomposition; a segment is split at a free point; joined segments share a
point and their other ends are not connected. -/
def Valid (s : St K) : Op K → Prop
  | .addPoint _ _ => True
  | .removePoint _ => True
  | .newSegment a b => a ∈ s.pid.live ∧ b ∈ s.pid.live
  | .deleteSegment e => e ∈ s.sid.live
  | .splitSegment e mid => e ∈ s.sid.live ∧ mid ∈ s.pid.live ∧ s.pseg mid = none
  | .joinSegments mid e0 e1 => Joinable s mid e0 e1
  | .move _ _ => True

theorem step_inv [LinearOrder K] {g : Geom K} {o : Op K} {s s' : St K} (hs : step g s o = .ok s') (hI : Inv s)
    (hV : Valid s o) : Inv s' := by
  cases o with
  | addPoint xy q =>
    simp only [step, Except.ok.injEq] at hs
    exact hs ▸ addFreePoint_inv hI
  | removePoint p => exact removeFreePoint_inv hs hI
  | newSegment a b =>
    simp only [step, bind_ok, Except.ok.injEq] at hs
    obtain ⟨⟨e, s1⟩, h1, h2⟩ := hs
    exact h2 ▸ newSegment_inv h1 hI hV.1 hV.2
  | deleteSegment e => exact deleteSegment_inv hs hI hV
  | splitSegment e mid =>
    simp only [step, bind_ok, Except.ok.injEq] at hs
    obtain ⟨⟨n, s1⟩, h1, h2⟩ := hs
    exact h2 ▸ splitSegment_inv h1 hI hV.1 hV.2.1 hV.2.2
  | joinSegments mid e0 e1 => exact joinSegments_inv hs hI hV
  | move p d =>
    obtain ⟨vc, rfl⟩ := movePoint_eq hs
    exact hI.frame rfl rfl rfl rfl rfl rfl rfl rfl rfl rfl

/-- States reached from the empty decomposition by calls that raise no exception, with valid arguments. -/
inductive Reach [LinearOrder K] (g : Geom K) : St K → Prop where
  | init : Reach g init
  | step {s s' : St K} {o : Op K} (h : Reach g s) (hV : Valid s o) (hs : step g s o = .ok s') : Reach g s'

theorem Reach.inv [LinearOrder K] {g : Geom K} {s : St K} (h : Reach g s) : Inv s := by
  induction h with
  | init => exact init_inv
  | step _ hV hs ih => exact step_inv hs ih hV

end

end Verif.Decomp
