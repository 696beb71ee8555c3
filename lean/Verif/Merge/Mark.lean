import Verif.Merge.Lift

/-! The maps to the objects of the other decomposition before the remaining polygons are filled. -/

namespace Verif.Merge
open Verif.Decomp (St Id HE flip upd sidePoly)
open Verif.Front (Fr Cfg Err Range Good bindOk liftD_ok key_ok checkOk needOk)

section
variable {K : Type} [Field K] [LinearOrder K] [IsStrictOrderedRing K]

/-- The side of the segment `o` of the other decomposition `so` on which is the side `v` of its piece `e` that starts in `a`. -/
def otherSide (so s : St K) (o a e : Id) (v : Bool) : Option Id := sidePoly so (o, xor v (decide (s.vtx (e, false) ≠ a)))

/-- The dictionaries `d1` of segments and `d2` of polygons say where the pieces `ps` of the segments of `so` are. -/
structure Mark (so s : St K) (d1 : Dict Id) (d2 : Dict (Option Id)) (ps : List (Id × Id × Id)) : Prop where
  key1 : ∀ e, get d1 e ≠ none → e ∈ s.sid.live
  key2 : ∀ q, get d2 q ≠ none → q ∈ s.qid.live
  pc : ∀ o a e, (o, a, e) ∈ ps → get d1 e ≠ none ∧ o ∈ so.sid.live ∧ ∃ v, s.vtx (e, v) = a
  own : ∀ e o, get d1 e = some o → ∃ a, (o, a, e) ∈ ps
  just : ∀ q p, get d2 q = some (some p) → ∃ o a e v, (o, a, e) ∈ ps ∧ sidePoly s (e, v) = some q ∧ otherSide so s o a e v = some p
  dom : ∀ e, get d1 e ≠ none → ∀ v q, sidePoly s (e, v) = some q → ∃ p, get d2 q = some (some p)

theorem Mark.start {so s : St K} : Mark so s [] [] [] := by
  refine ⟨?_, ?_, ?_, ?_, ?_, ?_⟩ <;> intros <;> simp_all [get]

/-- Steps that change no marked segment. -/
theorem Mark.keep {so s s' : St K} {d1 : Dict Id} {d2 : Dict (Option Id)} {ps : List (Id × Id × Id)} (h : Mark so s d1 d2 ps)
    (h1 : ∀ e ∈ s.sid.live, e ∈ s'.sid.live) (h2 : s'.qid = s.qid) (h3 : ∀ e, get d1 e ≠ none → ∀ v, s'.vtx (e, v) = s.vtx (e, v))
    (h4 : ∀ e, get d1 e ≠ none → ∀ v, sidePoly s' (e, v) = sidePoly s (e, v)) : Mark so s' d1 d2 ps := by
  refine ⟨fun e he => h1 e (h.key1 e he), by rw [h2]; exact h.key2, fun o a e hm => ?_, h.own, fun q p hq => ?_, fun e he v q hq => ?_⟩
  · obtain ⟨b1, b2, v, b3⟩ := h.pc o a e hm
    exact ⟨b1, b2, v, (h3 e b1 v).trans b3⟩
  · obtain ⟨o, a, e, v, b1, b2, b3⟩ := h.just q p hq
    have he := (h.pc o a e b1).1
    refine ⟨o, a, e, v, b1, (h4 e he v).trans b2, ?_⟩
    unfold otherSide
    rw [h3 e he]
    exact b3
  · rw [h4 e he] at hq
    exact h.dom e he v q hq

theorem Mark.split {so s s' : St K} {d1 : Dict Id} {d2 : Dict (Option Id)} {ps : List (Id × Id × Id)} (h : Mark so s d1 d2 ps)
    {e n mid : Id} {t : K} (hS : SplitAt s s' e n mid t) (hn : get d1 e = none) : Mark so s' d1 d2 ps :=
  h.keep (fun j hj => (hS.live j).2 (Or.inl hj)) hS.qid (fun j hj v => hS.vo j (h.key1 j hj) (fun hh => hj (hh ▸ hn)) v)
    fun j hj v => hS.sideo (j, v) (h.key1 j hj)

theorem Mark.point {so s s' : St K} {d1 : Dict Id} {d2 : Dict (Option Id)} {ps : List (Id × Id × Id)} (h : Mark so s d1 d2 ps)
    {p : Id} (hA : PointAdd s s' p) : Mark so s' d1 d2 ps :=
  h.keep (by rw [hA.sid]; exact fun _ h => h) hA.qid (fun j _ v => by rw [hA.vtx]) fun j _ v => hA.side _

/-- The polygons whose sides are not those of the segment `e`, after a piece. -/
theorem trueNew_kept {s s' : St K} {e : Id} {c : Verif.Decomp.Change} (hT : Verif.Decomp.TrueNew s s' e c) :
    (∀ q ∈ s.qid.live, q ∈ s'.qid.live) ∧
      ∀ d : HE, d.1 ∈ s.sid.live → sidePoly s' d = sidePoly s d ∨
        ((∃ v, sidePoly s d = sidePoly s' (e, v)) ∧ ∃ v, sidePoly s' d = sidePoly s' (e, v)) := by
  have hdiv : ∀ q q', (∀ x, x ∈ s'.qid.live ↔ x ∈ s.qid.live ∨ x = q') →
      (∃ v, sidePoly s' (e, v) = some q ∧ sidePoly s' (e, !v) = some q') →
      (∀ d : HE, d.1 ∈ s.sid.live → (sidePoly s d ≠ some q → sidePoly s' d = sidePoly s d) ∧
        (sidePoly s d = some q → sidePoly s' d = some q ∨ sidePoly s' d = some q')) →
      (∀ q ∈ s.qid.live, q ∈ s'.qid.live) ∧
      ∀ d : HE, d.1 ∈ s.sid.live → sidePoly s' d = sidePoly s d ∨
        ((∃ v, sidePoly s d = sidePoly s' (e, v)) ∧ ∃ v, sidePoly s' d = sidePoly s' (e, v)) := by
    intro q q' b3 b4 b5
    refine ⟨fun x hx => (b3 x).2 (Or.inl hx), fun d hd => ?_⟩
    obtain ⟨v, v1, v2⟩ := b4
    by_cases hdq : sidePoly s d = some q
    · refine Or.inr ⟨⟨v, hdq.trans v1.symm⟩, ?_⟩
      rcases (b5 d hd).2 hdq with k | k
      · exact ⟨v, k.trans v1.symm⟩
      · exact ⟨!v, k.trans v2.symm⟩
    · exact Or.inl ((b5 d hd).1 hdq)
  cases c with
  | none => exact ⟨fun q hq => by rw [hT.1]; exact hq, fun d hd => Or.inl (hT.2.1 d hd)⟩
  | shape x => exact ⟨fun q hq => by rw [hT.1]; exact hq, fun d hd => Or.inl (hT.2.1 d hd)⟩
  | split q q' => exact hdiv q q' hT.2.2.1 hT.2.2.2.1 hT.2.2.2.2.1
  | add q q' => exact hdiv q q' hT.2.2.1 hT.2.2.2.1 hT.2.2.2.2.1
  | join q q' => exact hT.elim
  | remove q q' => exact hT.elim

/-- Values of other polygons are the same after the entries of a change. -/
theorem changeMaps_other {s s' : St K} {e : Id} (hT : Verif.Decomp.TrueNew s s' e s'.change) {m m' : Maps}
    (hm : changeMaps s'.change m = .ok m') : m'.self1 = m.self1 ∧ m'.other0 = m.other0 ∧ m'.other1 = m.other1 ∧
      ∀ x, get m'.other2 x = get m.other2 x ∨ (∃ v, sidePoly s' (e, v) = some x) := by
  have hdiv : ∀ q q', (∃ v, sidePoly s' (e, v) = some q ∧ sidePoly s' (e, !v) = some q') → ∀ y x,
      get (set m.other2 q' y) x = get m.other2 x ∨ (∃ v, sidePoly s' (e, v) = some x) := by
    rintro q q' ⟨v, _, v2⟩ y x
    rw [get_set]
    split
    · next hh => exact Or.inr ⟨!v, hh ▸ v2⟩
    · exact Or.inl rfl
  cases hc : s'.change with
  | none => rw [hc] at hm; cases hm; exact ⟨rfl, rfl, rfl, fun x => Or.inl rfl⟩
  | shape x => rw [hc] at hm; cases hm; exact ⟨rfl, rfl, rfl, fun x => Or.inl rfl⟩
  | split q q' => rw [hc] at hm hT; cases hm; exact ⟨rfl, rfl, rfl, hdiv q q' hT.2.2.2.1 _⟩
  | add q q' => rw [hc] at hm hT; cases hm; exact ⟨rfl, rfl, rfl, hdiv q q' hT.2.2.2.1 _⟩
  | join q q' => rw [hc] at hm; cases hm
  | remove q q' => rw [hc] at hm; cases hm

theorem Mark.piece {so s s' : St K} {ps : List (Id × Id × Id)} {m m' : Maps} (h : Mark so s m.other1 m.other2 ps)
    (hN : Verif.Decomp.Nested s') {o qr ql a e : Id} (ho : o ∈ so.sid.live) (hr : sidePoly so (o, false) = some qr)
    (hl : sidePoly so (o, true) = some ql) (hT : Verif.Decomp.TrueNew s s' e s'.change)
    (hlive : ∀ j, j ∈ s'.sid.live ↔ j ∈ s.sid.live ∨ j = e) (hv : ∀ j ∈ s.sid.live, ∀ v, s'.vtx (j, v) = s.vtx (j, v))
    (ha : ∃ v, s'.vtx (e, v) = a) (hm : changeMaps s'.change { m with other1 := set m.other1 e o } = .ok m') {r l : Id}
    (h1 : sidePoly s' (e, decide (s'.vtx (e, false) ≠ a)) = some r) (h2 : sidePoly s' (e, !decide (s'.vtx (e, false) ≠ a)) = some l) :
    Mark so s' m'.other1 (set (set m'.other2 r (some qr)) l (some ql)) (ps ++ [(o, a, e)]) := by
  obtain ⟨_, _, k1, k2⟩ := changeMaps_other hT hm
  obtain ⟨hq, hside⟩ := trueNew_kept hT
  dsimp only at k1 k2
  rw [k1]
  obtain ⟨back, hb⟩ : ∃ b, b = decide (s'.vtx (e, false) ≠ a) := ⟨_, rfl⟩
  rw [← hb] at h1 h2
  have hrl : ∀ v x, sidePoly s' (e, v) = some x → x = r ∨ x = l := by
    intro v x hx
    by_cases hvb : v = back
    · subst hvb
      rw [h1] at hx
      cases hx
      exact Or.inl rfl
    · have : v = !back := Bool.eq_not_iff.2 hvb
      subst this
      rw [h2] at hx
      cases hx
      exact Or.inr rfl
  have hget : ∀ x, get (set (set m'.other2 r (some qr)) l (some ql)) x = if x = l then some (some ql) else if x = r then some (some qr)
      else get m.other2 x := by
    intro x
    rw [get_set, get_set]
    split
    · rfl
    · split
      · rfl
      · next h3 h4 =>
        rcases k2 x with k | ⟨v, k⟩
        · exact k
        · rcases hrl v x k with hh | hh
          · exact absurd hh h4
          · exact absurd hh h3
  have hel : e ∈ s'.sid.live := (hlive e).2 (Or.inr rfl)
  have hpl : ∀ v x, sidePoly s' (e, v) = some x → x ∈ s'.qid.live := by
    intro v x hx
    obtain ⟨w, y, w1, _, _, w4, w5⟩ := hN.side (d := (e, v)) hel
    simp only [sidePoly, w1, Option.bind_some, w4, Option.some.injEq] at hx
    exact hx ▸ w5
  have hval : ∀ x, x = r ∨ x = l → ∃ p, get (set (set m'.other2 r (some qr)) l (some ql)) x = some (some p) := by
    intro x hx
    rw [hget]
    by_cases hxl : x = l
    · rw [if_pos hxl]; exact ⟨ql, rfl⟩
    · rw [if_neg hxl, if_pos (hx.resolve_right hxl)]; exact ⟨qr, rfl⟩
  have hold : ∀ j, get (set m.other1 e o) j ≠ none → j ≠ e → get m.other1 j ≠ none := by
    intro j hj hje
    rwa [get_set, if_neg hje] at hj
  refine ⟨?_, ?_, ?_, ?_, ?_, ?_⟩
  · intro j hj
    by_cases hje : j = e
    · exact hje ▸ hel
    · exact (hlive j).2 (Or.inl (h.key1 j (hold j hj hje)))
  · intro x hx
    rw [hget] at hx
    by_cases hxl : x = l
    · exact hpl _ x (hxl ▸ h2)
    · rw [if_neg hxl] at hx
      by_cases hxr : x = r
      · exact hpl _ x (hxr ▸ h1)
      · rw [if_neg hxr] at hx
        exact hq x (h.key2 x hx)
  · intro o' a' j hj
    rcases List.mem_append.1 hj with hj | hj
    · obtain ⟨b1, b2, v, b3⟩ := h.pc o' a' j hj
      refine ⟨?_, b2, v, (hv j (h.key1 j b1) v).trans b3⟩
      rw [get_set]
      split
      · simp
      · exact b1
    · simp only [List.mem_singleton, Prod.mk.injEq] at hj
      obtain ⟨rfl, rfl, rfl⟩ := hj
      exact ⟨by rw [get_set, if_pos rfl]; simp, ho, ha⟩
  · intro j o' hj
    rw [get_set] at hj
    split at hj
    · next hje =>
      cases hj
      exact ⟨a, by simp [hje]⟩
    · obtain ⟨a', ha'⟩ := h.own j o' hj
      exact ⟨a', by simp [ha']⟩
  · intro x p hx
    have hnew : ∀ v, sidePoly s' (e, v) = some x → otherSide so s' o a e v = some p →
        ∃ o' a' e' v, (o', a', e') ∈ ps ++ [(o, a, e)] ∧ sidePoly s' (e', v) = some x ∧ otherSide so s' o' a' e' v = some p :=
      fun v b1 b2 => ⟨o, a, e, v, by simp, b1, b2⟩
    rw [hget] at hx
    by_cases hxl : x = l
    · rw [if_pos hxl] at hx
      cases hx
      refine hnew (!back) (hxl ▸ h2) ?_
      unfold otherSide
      rw [← hb]
      simpa using hl
    · rw [if_neg hxl] at hx
      by_cases hxr : x = r
      · rw [if_pos hxr] at hx
        cases hx
        refine hnew back (hxr ▸ h1) ?_
        unfold otherSide
        rw [← hb]
        simpa using hr
      · rw [if_neg hxr] at hx
        obtain ⟨o', a', j, v, b1, b2, b3⟩ := h.just x p hx
        have hj := h.key1 j (h.pc o' a' j b1).1
        refine ⟨o', a', j, v, by simp [b1], ?_, ?_⟩
        · rcases hside (j, v) hj with k | ⟨⟨v1, k⟩, _⟩
          · exact k.trans b2
          · rw [b2] at k
            rcases hrl v1 x k.symm with hh | hh
            · exact absurd hh hxr
            · exact absurd hh hxl
        · unfold otherSide
          rw [hv j hj]
          exact b3
  · intro j hj v x hx
    by_cases hje : j = e
    · subst hje
      exact hval x (hrl v x hx)
    · have hj' := hold j hj hje
      have hjl := h.key1 j hj'
      rcases hside (j, v) hjl with k | ⟨_, v1, k⟩
      · rw [k] at hx
        obtain ⟨p, hp⟩ := h.dom j hj' v x hx
        by_cases hrx : x = r ∨ x = l
        · exact hval x hrx
        · rw [hget, if_neg fun hh => hrx (Or.inr hh), if_neg fun hh => hrx (Or.inl hh)]
          exact ⟨p, hp⟩
      · rw [k] at hx
        exact hval x (hrl v1 x hx)

end
end Verif.Merge
