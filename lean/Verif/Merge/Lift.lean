import Verif.Merge.Steps

/-! The maps to the objects of the decomposition that is being intersected: what they say after each step. -/

namespace Verif.Merge
open Verif.Decomp (St Id HE flip upd sidePoly)
open Verif.Front (Fr Cfg Err Range Good bindOk liftD_ok key_ok checkOk needOk)

section
variable {K : Type} [Field K] [LinearOrder K] [IsStrictOrderedRing K]

/-- The state `s` is a division of `s0`: the dictionary `d1` tells the segments of `s0` of the parts, `d2` the polygons of `s0`,
the keys of `d3` are the segments of the other decomposition and `iv` has the parameters of the parts on the segments of `s0`. -/
structure Lift (s0 s : St K) (d1 d2 d3 : Dict Id) (iv : Id → K × K) : Prop where
  pts : ∀ i ∈ s0.pid.live, i ∈ s.pid.live ∧ s.xy i = s0.xy i
  key1 : ∀ e r, get d1 e = some r → e ∈ s.sid.live
  key2 : ∀ q r, get d2 q = some r → q ∈ s.qid.live
  key3 : ∀ e o, get d3 e = some o → e ∈ s.sid.live
  old1 : ∀ e ∈ s0.sid.live, e ∈ s.sid.live ∧ root d1 e = e
  old2 : ∀ q ∈ s0.qid.live, q ∈ s.qid.live ∧ root d2 q = q
  out : ∀ e ∈ s.sid.live, root d1 e ∉ s0.sid.live → get d3 e ≠ none
  ends : ∀ e ∈ s.sid.live, root d1 e ∈ s0.sid.live → 0 ≤ (iv e).1 ∧ (iv e).1 < (iv e).2 ∧ (iv e).2 ≤ 1 ∧
    s.xy (s.vtx (e, false)) = on s0 (root d1 e) (iv e).1 ∧ s.xy (s.vtx (e, true)) = on s0 (root d1 e) (iv e).2
  cover : ∀ r ∈ s0.sid.live, ∀ x, 0 ≤ x → x ≤ 1 → ∃ e ∈ s.sid.live, root d1 e = r ∧ (iv e).1 ≤ x ∧ x ≤ (iv e).2
  apart : ∀ e ∈ s.sid.live, ∀ e' ∈ s.sid.live, e ≠ e' → root d1 e = root d1 e' → root d1 e ∈ s0.sid.live →
    (iv e).2 ≤ (iv e').1 ∨ (iv e').2 ≤ (iv e).1
  side : ∀ e ∈ s.sid.live, root d1 e ∈ s0.sid.live → ∀ v q, sidePoly s (e, v) = some q →
    sidePoly s0 (root d1 e, v) = some (root d2 q)
  inner : ∀ e ∈ s.sid.live, root d1 e ∉ s0.sid.live → ∀ q q', sidePoly s (e, true) = some q → sidePoly s (e, false) = some q' →
    root d2 q = root d2 q'
  poly : ∀ q ∈ s.qid.live, root d2 q ∈ s0.qid.live
  val1 : ∀ e r, get d1 e = some r → r ∈ s0.sid.live

theorem Lift.start {s : St K} : Lift s s [] [] [] fun _ => (0, 1) := by
  refine ⟨fun i h => ⟨h, rfl⟩, ?_, ?_, ?_, fun e h => ⟨h, rfl⟩, fun e h => ⟨h, rfl⟩, fun e h k => absurd h k, fun e h _ => ?_,
    fun r h x k1 k2 => ⟨r, h, rfl, k1, k2⟩, fun e _ e' _ k1 k2 => absurd k2 k1, fun e _ _ v q k => k, fun e h k => absurd h k,
    fun q h => h, ?_⟩
  · intro e r h; cases h
  · intro e r h; cases h
  · intro e r h; cases h
  · refine ⟨le_refl _, zero_lt_one, le_refl _, ?_, ?_⟩
    · simp [on, Verif.Plane.parametric, Verif.Front.sub, root, get]
    · simp [on, Verif.Plane.parametric, Verif.Front.sub, root, get]
  · intro e r h; cases h

/-- An entry that changes nothing. -/
theorem Lift.same1 {s0 s : St K} {d1 d1' d2 d3 : Dict Id} {iv : Id → K × K} (h : Lift s0 s d1 d2 d3 iv)
    (hr : ∀ e, root d1' e = root d1 e) (hk : ∀ e r, get d1' e = some r → e ∈ s.sid.live ∧ r ∈ s0.sid.live) :
    Lift s0 s d1' d2 d3 iv := by
  obtain ⟨a1, a2, a3, a4, a5, a6, a7, a8, a9, a10, a11, a12, a13, a14⟩ := h
  have hr' : root d1' = root d1 := funext hr
  refine ⟨a1, fun e r h => (hk e r h).1, a3, a4, ?_, a6, ?_, ?_, ?_, ?_, ?_, ?_, a13, fun e r h => (hk e r h).2⟩ <;> rw [hr'] <;> assumption

theorem Lift.point {s0 s s' : St K} {d1 d2 d3 : Dict Id} {iv : Id → K × K} (h : Lift s0 s d1 d2 d3 iv) (hL : Verif.Decomp.Inv s)
    {p : Id} (hA : PointAdd s s' p) : Lift s0 s' d1 d2 d3 iv := by
  have hxy : ∀ e ∈ s.sid.live, ∀ v, s'.xy (s'.vtx (e, v)) = s.xy (s.vtx (e, v)) := fun e he v => by
    rw [hA.vtx]
    exact hA.xy _ (hL.links.vlive (e, v) he)
  obtain ⟨a1, a2, a3, a4, a5, a6, a7, a8, a9, a10, a11, a12, a13, a14⟩ := h
  refine ⟨fun i hi => ⟨(hA.live i).2 (Or.inl (a1 i hi).1), (hA.xy i (a1 i hi).1).trans (a1 i hi).2⟩, ?_, ?_, ?_, ?_, ?_, ?_, ?_, ?_,
    ?_, ?_, ?_, ?_, a14⟩
  · rw [hA.sid]; exact a2
  · rw [hA.qid]; exact a3
  · rw [hA.sid]; exact a4
  · rw [hA.sid]; exact a5
  · rw [hA.qid]; exact a6
  · rw [hA.sid]; exact a7
  · rw [hA.sid]
    intro e he hr
    obtain ⟨b1, b2, b3, b4, b5⟩ := a8 e he hr
    exact ⟨b1, b2, b3, (hxy e he false).trans b4, (hxy e he true).trans b5⟩
  · rw [hA.sid]; exact a9
  · rw [hA.sid]; exact a10
  · rw [hA.sid]
    intro e he hr v q hq
    rw [hA.side] at hq
    exact a11 e he hr v q hq
  · rw [hA.sid]
    intro e he hr q q' hq hq'
    rw [hA.side] at hq hq'
    exact a12 e he hr q q' hq hq'
  · rw [hA.qid]; exact a13

/-- A point of a part is a point of the segment. -/
theorem on_part {s0 s : St K} {e r : Id} {t u x : K} (h0 : s.xy (s.vtx (e, false)) = on s0 r t)
    (h1 : s.xy (s.vtx (e, true)) = on s0 r u) : on s e x = on s0 r (t + x * (u - t)) := by
  unfold on
  rw [h0, h1]
  unfold on
  ext <;> simp only [Verif.Plane.parametric, Verif.Front.sub] <;> ring

theorem Lift.split {s0 s s' : St K} {d1 d2 d3 : Dict Id} {iv : Id → K × K} (h : Lift s0 s d1 d2 d3 iv) (hL : Verif.Decomp.Inv s)
    {e n mid : Id} {t : K} (hS : SplitAt s s' e n mid t) (hn : get d3 e = none) :
    ∃ iv', Lift s0 s' (set d1 n (root d1 e)) d2 d3 iv' := by
  have hre : root d1 e ∈ s0.sid.live := by
    by_contra hh
    exact h.out e hS.was hh hn
  obtain ⟨e1, e2, e3, e4, e5⟩ := h.ends e hS.was hre
  have hne : n ≠ e := fun hh => hS.fresh (hh ▸ hS.was)
  have hlive : ∀ j ∈ s.sid.live, j ≠ n := fun j hj hh => hS.fresh (hh ▸ hj)
  have hroot : ∀ j ∈ s.sid.live, root (set d1 n (root d1 e)) j = root d1 j := fun j hj => by rw [root_set, if_neg (hlive j hj)]
  have hrn : root (set d1 n (root d1 e)) n = root d1 e := by rw [root_set, if_pos rfl]
  have hxy : ∀ j ∈ s.sid.live, ∀ v, s'.xy (s.vtx (j, v)) = s.xy (s.vtx (j, v)) := fun j hj v => hS.xy _ (hL.links.vlive (j, v) hj)
  have hu : 0 < (iv e).2 - (iv e).1 := sub_pos.2 e2
  have ht0 : 0 < t * ((iv e).2 - (iv e).1) := mul_pos hS.pos hu
  have ht1 : t * ((iv e).2 - (iv e).1) < (iv e).2 - (iv e).1 := by
    have := mul_lt_mul_of_pos_right hS.lt hu
    rwa [one_mul] at this
  obtain ⟨x, hx⟩ : ∃ x, x = (iv e).1 + t * ((iv e).2 - (iv e).1) := ⟨_, rfl⟩
  have hx1 : (iv e).1 < x := by rw [hx]; linarith
  have hx2 : x < (iv e).2 := by rw [hx]; linarith
  have hmid : s'.xy mid = on s0 (root d1 e) x := by rw [hS.xym, on_part e4 e5, hx]
  let iv' : Id → K × K := fun j => if j = n then (x, (iv e).2) else if j = e then ((iv e).1, x) else iv j
  have ivn : iv' n = (x, (iv e).2) := if_pos rfl
  have ive : iv' e = ((iv e).1, x) := (if_neg hne.symm).trans (if_pos rfl)
  have ivo : ∀ j ∈ s.sid.live, j ≠ e → iv' j = iv j := fun j hj hje => (if_neg (hlive j hj)).trans (if_neg hje)
  refine ⟨iv', fun i hi => ⟨(hS.plive i).2 (Or.inl (h.pts i hi).1), (hS.xy i (h.pts i hi).1).trans (h.pts i hi).2⟩, ?_, ?_, ?_, ?_, ?_,
    ?_, ?_, ?_, ?_, ?_, ?_, ?_, ?_⟩
  · intro j r hj
    rw [get_set] at hj
    split at hj
    · next hh => exact (hS.live j).2 (Or.inr hh)
    · exact (hS.live j).2 (Or.inl (h.key1 j r hj))
  · rw [hS.qid]; exact h.key2
  · intro j o hj
    exact (hS.live j).2 (Or.inl (h.key3 j o hj))
  · intro j hj
    obtain ⟨b1, b2⟩ := h.old1 j hj
    exact ⟨(hS.live j).2 (Or.inl b1), (hroot j b1).trans b2⟩
  · rw [hS.qid]; exact h.old2
  · intro j hj hr
    rcases (hS.live j).1 hj with hj | rfl
    · rw [hroot j hj] at hr
      exact h.out j hj hr
    · rw [hrn] at hr
      exact absurd hre hr
  · intro j hj hr
    rcases (hS.live j).1 hj with hj | rfl
    · rw [hroot j hj] at hr ⊢
      by_cases hje : j = e
      · subst hje
        rw [ive, hS.ve0, hS.ve1]
        exact ⟨e1, hx1, hx2.le.trans e3, (hxy j hj false).trans e4, hmid⟩
      · obtain ⟨b1, b2, b3, b4, b5⟩ := h.ends j hj hr
        rw [ivo j hj hje, hS.vo j hj hje, hS.vo j hj hje]
        exact ⟨b1, b2, b3, (hxy j hj false).trans b4, (hxy j hj true).trans b5⟩
    · rw [hrn, ivn, hS.vn0, hS.vn1]
      exact ⟨e1.trans hx1.le, hx2, e3, hmid, (hxy e hS.was true).trans e5⟩
  · intro r hr y h0 h1
    obtain ⟨j, hj, hjr, b1, b2⟩ := h.cover r hr y h0 h1
    by_cases hje : j = e
    · subst hje
      by_cases hy : y ≤ x
      · refine ⟨j, (hS.live j).2 (Or.inl hj), (hroot j hj).trans hjr, ?_⟩
        rw [ive]
        exact ⟨b1, hy⟩
      · refine ⟨n, (hS.live n).2 (Or.inr rfl), hrn.trans hjr, ?_⟩
        rw [ivn]
        exact ⟨(not_le.1 hy).le, b2⟩
    · refine ⟨j, (hS.live j).2 (Or.inl hj), (hroot j hj).trans hjr, ?_⟩
      rw [ivo j hj hje]
      exact ⟨b1, b2⟩
  · have key : ∀ j ∈ s.sid.live, ∀ k ∈ s.sid.live, j ≠ k → root d1 j = root d1 k → root d1 j ∈ s0.sid.live →
        (iv' j).2 ≤ (iv' k).1 ∨ (iv' k).2 ≤ (iv' j).1 := by
      intro j hj k hk hjk hr hrs
      by_cases hje : j = e
      · subst hje
        have hke : k ≠ j := hjk.symm
        rw [ive, ivo k hk hke]
        rcases h.apart j hj k hk hjk hr hrs with hh | hh
        · exact Or.inl (hx2.le.trans hh)
        · exact Or.inr hh
      · by_cases hke : k = e
        · subst hke
          rw [ive, ivo j hj hje]
          rcases h.apart j hj k hk hjk hr hrs with hh | hh
          · exact Or.inl hh
          · exact Or.inr (hx2.le.trans hh)
        · rw [ivo j hj hje, ivo k hk hke]
          exact h.apart j hj k hk hjk hr hrs
    have keyn : ∀ j ∈ s.sid.live, root d1 j = root d1 e → (iv' j).2 ≤ (iv' n).1 ∨ (iv' n).2 ≤ (iv' j).1 := by
      intro j hj hr
      rw [ivn]
      by_cases hje : j = e
      · subst hje
        rw [ive]
        exact Or.inl le_rfl
      · rw [ivo j hj hje]
        rcases h.apart j hj e hS.was hje hr (hr ▸ hre) with hh | hh
        · exact Or.inl (hh.trans hx1.le)
        · exact Or.inr hh
    intro j hj k hk hjk hr hrs
    rcases (hS.live j).1 hj with hj | rfl
    · rcases (hS.live k).1 hk with hk | rfl
      · rw [hroot j hj, hroot k hk] at hr
        rw [hroot j hj] at hrs
        exact key j hj k hk hjk hr hrs
      · rw [hroot j hj, hrn] at hr
        exact keyn j hj hr
    · rcases (hS.live k).1 hk with hk | rfl
      · rw [hroot k hk, hrn] at hr
        exact (keyn k hk hr.symm).symm
      · exact absurd rfl hjk
  · intro j hj hr v q hq
    rcases (hS.live j).1 hj with hj | rfl
    · rw [hroot j hj] at hr ⊢
      rw [hS.sideo (j, v) hj] at hq
      exact h.side j hj hr v q hq
    · rw [hrn]
      rw [hS.side] at hq
      exact h.side e hS.was hre v q hq
  · intro j hj hr q q' hq hq'
    rcases (hS.live j).1 hj with hj | rfl
    · rw [hroot j hj] at hr
      rw [hS.sideo (j, _) hj] at hq hq'
      exact h.inner j hj hr q q' hq hq'
    · rw [hrn] at hr
      exact absurd hre hr
  · rw [hS.qid]; exact h.poly
  · intro j r hj
    rw [get_set] at hj
    split at hj
    · cases hj
      exact hre
    · exact h.val1 j r hj

/-- A piece of a segment of the other decomposition. -/
theorem Lift.piece {s0 s s' : St K} {d1 d2 d3 : Dict Id} {iv : Id → K × K} (h : Lift s0 s d1 d2 d3 iv) (hN : Verif.Decomp.Nested s)
    {e o : Id} (hT : Verif.Decomp.TrueNew s s' e s'.change) (hxy : s'.xy = s.xy) (hp : s'.pid = s.pid)
    (hlive : ∀ j, j ∈ s'.sid.live ↔ j ∈ s.sid.live ∨ j = e) (hv : ∀ j ∈ s.sid.live, ∀ v, s'.vtx (j, v) = s.vtx (j, v))
    {m m' : Maps} (hm : changeMaps s'.change m = .ok m') (h2 : m.self2 = d2) :
    Lift s0 s' d1 m'.self2 (set d3 e o) iv := by
  have hmain : ∀ d2', (∀ q r, get d2' q = some r → q ∈ s'.qid.live) → (∀ q ∈ s.qid.live, q ∈ s'.qid.live ∧ root d2' q = root d2 q) →
      (∀ q ∈ s'.qid.live, root d2' q ∈ s0.qid.live) →
      (∀ d : HE, d.1 ∈ s.sid.live → ∀ q', sidePoly s' d = some q' → ∃ q, sidePoly s d = some q ∧ root d2' q' = root d2 q) →
      (e ∉ s.sid.live → ∀ q q', sidePoly s' (e, true) = some q → sidePoly s' (e, false) = some q' → root d2' q = root d2' q') →
      Lift s0 s' d1 d2' (set d3 e o) iv := by
    intro d2' k1 k2 k3 k4 k5
    have hroot : ∀ j, j ∉ s.sid.live → root d1 j = j := fun j hj => by
      refine root_of_none ?_
      cases hg : get d1 j with
      | none => rfl
      | some r => exact absurd (h.key1 j r hg) hj
    have hnew : ∀ j ∈ s'.sid.live, root d1 j ∈ s0.sid.live → j ∈ s.sid.live := fun j hj hr => by
      by_contra hh
      rw [hroot j hh] at hr
      exact hh (h.old1 j hr).1
    refine ⟨fun i hi => ?_, fun j r hj => (hlive j).2 (Or.inl (h.key1 j r hj)), k1, ?_, ?_, ?_, ?_, ?_, ?_, ?_, ?_, ?_, k3,
      h.val1⟩
    · rw [hp, hxy]; exact h.pts i hi
    · intro j r hj
      rw [get_set] at hj
      split at hj
      · next hh => exact (hlive j).2 (Or.inr hh)
      · exact (hlive j).2 (Or.inl (h.key3 j r hj))
    · exact fun j hj => ⟨(hlive j).2 (Or.inl (h.old1 j hj).1), (h.old1 j hj).2⟩
    · intro q hq
      obtain ⟨b1, b2⟩ := h.old2 q hq
      exact ⟨(k2 q b1).1, (k2 q b1).2.trans b2⟩
    · intro j hj hr
      rw [get_set]
      split
      · simp
      · next hh => exact h.out j (((hlive j).1 hj).resolve_right hh) hr
    · intro j hj hr
      have hj' := hnew j hj hr
      rw [hv j hj', hv j hj', hxy]
      exact h.ends j hj' hr
    · intro r hr x h0 h1
      obtain ⟨j, hj, b⟩ := h.cover r hr x h0 h1
      exact ⟨j, (hlive j).2 (Or.inl hj), b⟩
    · intro j hj k hk hjk hr hrs
      exact h.apart j (hnew j hj hrs) k (hnew k hk (hr ▸ hrs)) hjk hr hrs
    · intro j hj hr v q hq
      have hj' := hnew j hj hr
      obtain ⟨q0, b1, b2⟩ := k4 (j, v) hj' q hq
      rw [b2]
      exact h.side j hj' hr v q0 b1
    · intro j hj hr q q' hq hq'
      by_cases hj' : j ∈ s.sid.live
      · obtain ⟨q0, b1, b2⟩ := k4 (j, true) hj' q hq
        obtain ⟨q1, b3, b4⟩ := k4 (j, false) hj' q' hq'
        rw [b2, b4]
        exact h.inner j hj' hr q0 q1 b1 b3
      · obtain rfl := ((hlive j).1 hj).resolve_left hj'
        exact k5 hj' q q' hq hq'
  have hsame : s'.qid = s.qid → (∀ d : HE, d.1 ∈ s.sid.live → sidePoly s' d = sidePoly s d) →
      (e ∉ s.sid.live → sidePoly s' (e, true) = sidePoly s' (e, false)) → Lift s0 s' d1 d2 (set d3 e o) iv := fun k1 k2 k3 =>
    hmain d2 (by rw [k1]; exact h.key2) (by rw [k1]; exact fun q hq => ⟨hq, rfl⟩) (by rw [k1]; exact h.poly)
      (fun d hd q hq => ⟨q, by rw [← k2 d hd]; exact hq, rfl⟩) (fun he q q' h1 h2 => by
        rw [k3 he, h2] at h1
        cases h1
        rfl)
  have hdiv : ∀ q q', q ∈ s.qid.live → q' ∉ s.qid.live → (∀ x, x ∈ s'.qid.live ↔ x ∈ s.qid.live ∨ x = q') →
      (∃ v, sidePoly s' (e, v) = some q ∧ sidePoly s' (e, !v) = some q') →
      (∀ d : HE, d.1 ∈ s.sid.live → (sidePoly s d ≠ some q → sidePoly s' d = sidePoly s d) ∧
        (sidePoly s d = some q → sidePoly s' d = some q ∨ sidePoly s' d = some q')) →
      Lift s0 s' d1 (set d2 q' (root d2 q)) (set d3 e o) iv := by
    intro q q' b1 b2 b3 b4 b5
    have hne : ∀ x ∈ s.qid.live, x ≠ q' := fun x hx hh => b2 (hh ▸ hx)
    have hr : ∀ x ∈ s.qid.live, root (set d2 q' (root d2 q)) x = root d2 x := fun x hx => by rw [root_set, if_neg (hne x hx)]
    have hr' : root (set d2 q' (root d2 q)) q' = root d2 q := by rw [root_set, if_pos rfl]
    refine hmain _ ?_ (fun x hx => ⟨(b3 x).2 (Or.inl hx), hr x hx⟩) ?_ ?_ ?_
    · intro x r hx
      rw [get_set] at hx
      split at hx
      · next hh => exact (b3 x).2 (Or.inr hh)
      · exact (b3 x).2 (Or.inl (h.key2 x r hx))
    · intro x hx
      rcases (b3 x).1 hx with hx | rfl
      · rw [hr x hx]; exact h.poly x hx
      · rw [hr']; exact h.poly q b1
    · intro d hd x hx
      by_cases hdq : sidePoly s d = some q
      · refine ⟨q, hdq, ?_⟩
        rcases (b5 d hd).2 hdq with k | k
        · rw [k] at hx
          cases hx
          exact hr _ b1
        · rw [k] at hx
          cases hx
          exact hr'
      · have k := (b5 d hd).1 hdq
        rw [k] at hx
        by_cases hxq : x = q'
        · exfalso
          subst hxq
          obtain ⟨w, y, w1, _, _, w4, w5⟩ := hN.side hd
          simp only [sidePoly, w1, Option.bind_some, w4, Option.some.injEq] at hx
          exact b2 (hx ▸ w5)
        · exact ⟨x, hx, by rw [root_set, if_neg hxq]⟩
    · intro _ x y hx hy
      have : ∀ v z, sidePoly s' (e, v) = some z → root (set d2 q' (root d2 q)) z = root d2 q := by
        intro v z hz
        obtain ⟨w, w1, w2⟩ := b4
        by_cases hvw : v = w
        · subst hvw
          rw [w1] at hz
          cases hz
          exact hr _ b1
        · have : v = !w := by cases v <;> cases w <;> simp_all
          subst this
          rw [w2] at hz
          cases hz
          exact hr'
      rw [this _ _ hx, this _ _ hy]
  subst h2
  cases hc : s'.change with
  | none =>
    rw [hc] at hT hm
    cases hm
    exact hsame hT.1 hT.2.1 hT.2.2
  | shape x =>
    rw [hc] at hT hm
    cases hm
    exact hsame hT.1 hT.2.1 hT.2.2
  | split q q' =>
    rw [hc] at hT hm
    cases hm
    obtain ⟨b1, b2, b3, b4, b5, _⟩ := hT
    exact hdiv q q' b1 b2 b3 b4 b5
  | add q q' =>
    rw [hc] at hT hm
    cases hm
    obtain ⟨b1, b2, b3, b4, b5, _⟩ := hT
    exact hdiv q q' b1 b2 b3 b4 b5
  | join q q' => rw [hc] at hT; exact hT.elim
  | remove q q' => rw [hc] at hT; exact hT.elim

end
end Verif.Merge
