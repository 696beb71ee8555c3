import Verif.Decomp.Jordan

/-! Deletion of bridges: the nesting is kept if the parts of the wire are put at the right places. -/
namespace Verif.Decomp

namespace Nest
variable {W Q : Id → Prop} {par pol : Id → Option Id} {out : Id → Id} {sh : Id → Id → Prop}
variable {W' : Id → Prop} {par' pol' : Id → Option Id} {out' : Id → Id} {sh' : Id → Id → Prop} {a b q : Id}

/-- The wire `a`, a hole, falls into the holes `a` and `b`. -/
theorem cutHole (h : Nest W Q par pol out sh) (ha : W a) (ha0 : a ≠ 0) (hq : pol a = some q) (hb : ¬ W b) (ho : out q ≠ a)
    (hW : ∀ w, W' w ↔ W w ∨ w = b) (hb' : par' b = par a) (hc : ∀ w, W w → par w = some a → par' w = some a ∨ par' w = some b)
    (hp : ∀ w, W w → par w ≠ some a → par' w = par w) (hpol : ∀ w, pol' w = if w = b then some q else pol w)
    (hsh : ∀ x y, sh' x y → sh (if x = b then a else x) (if y = b then a else y))
    (hshw : ∀ x y, sh' x y → W' x ∧ W' y ∧ x ≠ 0 ∧ y ≠ 0) (hsym : ∀ x y, sh' x y → sh' y x)
    (hsep : ¬ Relation.ReflTransGen sh' a b)
    (hcomp : ∀ q, Q q → q ≠ 0 → ∀ p, par' (out q) = some p → Relation.ReflTransGen sh' (out q) p) :
    Nest W' Q par' pol' out sh' := by
  have hA : ¬ Around Q out a := fun hh => ho (h.around hq hh)
  have hB : ¬ Around Q out b := by rintro ⟨q', h1, h2⟩; exact hb (h2 ▸ (h.outs q' h1).1)
  obtain ⟨hQ, hpa⟩ := h.inner ha hq hA
  have hpa' : par' a = par a := hp a ha (h.self ha)
  have hWne : ∀ w, W w → w ≠ b := fun w hw hh => hb (hh ▸ hw)
  have hrev : ∀ x y, Relation.ReflTransGen sh' x y → Relation.ReflTransGen sh' y x := by
    intro x y hxy
    induction hxy with
    | refl => exact .refl
    | tail _ h2 ih => exact .head (hsym _ _ h2) ih
  have hup : ∀ w, Up par w → W w → Up par' w := by
    intro w hw
    induction hw with
    | root => exact fun _ => .root
    | @step w p h1 _ ih =>
      intro hw
      obtain ⟨p', e1, e2⟩ := h.up w hw (h.nz h1)
      rw [h1] at e1
      cases e1
      have ih := ih e2
      by_cases hpe : p = a
      · subst hpe
        obtain ⟨r, r1, r2⟩ := ih.inv ha0
        rcases hc w hw h1 with k | k
        · exact .step k ih
        · exact .step k (.step (by rw [hb', ← hpa']; exact r1) r2)
      · exact .step (by rw [hp w hw (by rw [h1]; simpa using hpe)]; exact h1) ih
  have hout : ∀ q', Q q' → q' ≠ 0 → ∀ p, par (out q') = some p → p ≠ a → par' (out q') = some p := by
    intro q' h1 _ p h2 h3
    rw [hp _ (h.outs q' h1).1 (by rw [h2]; simpa using h3)]
    exact h2
  -- a child of `a` that is beside a wire of a part has this part as parent
  have hchild : ∀ w, Around Q out w → par w = some a → ∀ x, Relation.ReflTransGen sh' w x → (x = a → par' w = some a) ∧ (x = b → par' w = some b) := by
    rintro _ ⟨q', h1, rfl⟩ h2 x h3
    have hq0 : q' ≠ 0 := by
      rintro rfl
      rw [h.o0, h.p0] at h2
      cases h2
    have hcc := hc _ (h.outs q' h1).1 h2
    constructor
    · rintro rfl
      refine hcc.resolve_right fun hh => hsep ?_
      exact (hrev _ _ h3).trans (hcomp q' h1 hq0 b hh)
    · rintro rfl
      refine hcc.resolve_left fun hh => hsep ?_
      exact (hrev _ _ (hcomp q' h1 hq0 a hh)).trans h3
  refine ⟨(hW 0).2 (Or.inl h.w0), h.q0, h.o0, ?_, ?_, ?_, ?_, ?_, ?_, hshw, hsym, ?_, hcomp⟩
  · rw [hp 0 h.w0 (by rw [h.p0]; simp)]; exact h.p0
  · intro w hw h0
    rcases (hW w).1 hw with hw | rfl
    · by_cases hwa : par w = some a
      · rcases hc w hw hwa with k | k
        · exact ⟨a, k, (hW a).2 (Or.inl ha)⟩
        · exact ⟨b, k, (hW b).2 (Or.inr rfl)⟩
      · obtain ⟨p, h1, h2⟩ := h.up w hw h0
        exact ⟨p, by rw [hp w hw hwa]; exact h1, (hW p).2 (Or.inl h2)⟩
    · exact ⟨out q, by rw [hb']; exact hpa, (hW _).2 (Or.inl (h.outs q hQ).1)⟩
  · intro w hw
    rcases (hW w).1 hw with hw | rfl
    · exact hup w (h.chain w hw) hw
    · obtain ⟨r, r1, r2⟩ := (hup a (h.chain a ha) ha).inv ha0
      exact .step (by rw [hb', ← hpa']; exact r1) r2
  · intro q' hq'
    obtain ⟨h1, h2⟩ := h.outs q' hq'
    exact ⟨(hW _).2 (Or.inl h1), by rw [hpol, if_neg (hWne _ h1)]; exact h2⟩
  · intro w hw
    rcases (hW w).1 hw with hw | rfl
    · obtain ⟨q', h1, h2, h3⟩ := h.pols w hw
      refine ⟨q', h1, by rw [hpol, if_neg (hWne w hw)]; exact h2, h3.imp_right fun h3 => ?_⟩
      rw [hp w hw]
      · exact h3
      · rw [h3]
        intro hh
        exact hA ⟨q', h1, Option.some.inj hh⟩
    · exact ⟨q, hQ, by rw [hpol, if_pos rfl], Or.inr (by rw [hb']; exact hpa)⟩
  · intro q' hq' h0 p hpp
    by_cases hwa : par (out q') = some a
    · rcases hc _ (h.outs q' hq').1 hwa with k | k
      · rw [k] at hpp
        cases hpp
        exact hA
      · rw [k] at hpp
        cases hpp
        exact hB
    · rw [hp _ (h.outs q' hq').1 hwa] at hpp
      exact h.hole q' hq' h0 p hpp
  · intro x y hxy
    have hs := hsh x y hxy
    by_cases hxy' : x = y
    · exact Or.inl hxy'
    have hWxy := hshw x y hxy
    -- one of the parts and another wire
    have key : ∀ y, y ≠ a → y ≠ b → sh a y → ∀ x, (x = a ∨ x = b) → Relation.ReflTransGen sh' y x → Around Q out y ∧ ¬ Around Q out x ∧ par' y = some x := by
      intro y h1 h2 h3 x h4 h5
      rcases h.adj _ _ h3 with k | ⟨k, _, _⟩ | ⟨k, _, _⟩ | ⟨k1, k2, k3⟩
      · exact absurd k.symm h1
      · exact absurd k hA
      · exact absurd k hA
      · have := hchild y k1 k3 x h5
        rcases h4 with rfl | rfl
        · exact ⟨k1, hA, this.1 rfl⟩
        · exact ⟨k1, hB, this.2 rfl⟩
    by_cases hx : x = a ∨ x = b
    · by_cases hy : y = a ∨ y = b
      · exfalso
        rcases hx with rfl | rfl <;> rcases hy with rfl | rfl
        · exact hxy' rfl
        · exact hsep (.single hxy)
        · exact hsep (.single (hsym _ _ hxy))
        · exact hxy' rfl
      · rw [not_or] at hy
        have h1 : sh a y := by
          rw [if_neg hy.2] at hs
          rcases hx with rfl | rfl
          · rwa [if_neg (hWne x ha)] at hs
          · rwa [if_pos rfl] at hs
        exact Or.inr (Or.inr (Or.inr (key y hy.1 hy.2 h1 x hx (.single (hsym _ _ hxy)))))
    · rw [not_or] at hx
      by_cases hy : y = a ∨ y = b
      · have h1 : sh a x := by
          rw [if_neg hx.2] at hs
          refine h.sym _ _ ?_
          rcases hy with rfl | rfl
          · rwa [if_neg (hWne y ha)] at hs
          · rwa [if_pos rfl] at hs
        exact Or.inr (Or.inr (Or.inl ((fun k => ⟨k.1, k.2.1, k.2.2⟩) (key x hx.1 hx.2 h1 y hy (.single hxy)))))
      · rw [not_or] at hy
        rw [if_neg hx.2, if_neg hy.2] at hs
        have hwx : W x := ((hW x).1 hWxy.1).resolve_right hx.2
        have hwy : W y := ((hW y).1 hWxy.2.1).resolve_right hy.2
        rcases h.adj _ _ hs with k | ⟨k1, k2, k3⟩ | ⟨k1, k2, k3⟩ | ⟨k1, k2, k3⟩
        · exact absurd k hxy'
        · refine Or.inr (Or.inl ⟨k1, k2, ?_⟩)
          by_cases hxa : par x = some a
          · obtain ⟨qx, q1, rfl⟩ := k1
            have hqx : qx ≠ 0 := by
              rintro rfl
              rw [h.o0, h.p0] at hxa
              cases hxa
            have hya := k3 ▸ hxa
            rcases hc _ hwx hxa with k | k
            · rw [k, (hchild y k2 hya a (.head (hsym _ _ hxy) (hcomp qx q1 hqx a k))).1 rfl]
            · rw [k, (hchild y k2 hya b (.head (hsym _ _ hxy) (hcomp qx q1 hqx b k))).2 rfl]
          · rw [hp x hwx hxa, hp y hwy (k3 ▸ hxa), k3]
        · refine Or.inr (Or.inr (Or.inl ⟨k1, k2, ?_⟩))
          rw [hp x hwx (by rw [k3]; simpa using hy.1)]; exact k3
        · refine Or.inr (Or.inr (Or.inr ⟨k1, k2, ?_⟩))
          rw [hp y hwy (by rw [k3]; simpa using hx.1)]; exact k3

/-- The wire `a`, around the polygon `q`, falls into the outer wire `o` and the hole `i`. -/
theorem cutOuter {o i : Id} (h : Nest W Q par pol out sh) (ha : W a) (ha0 : a ≠ 0) (hq : pol a = some q) (hb : ¬ W b) (ho : out q = a)
    (hoi : (o = a ∧ i = b) ∨ (o = b ∧ i = a))
    (hW : ∀ w, W' w ↔ W w ∨ w = b) (po : par' o = par a) (pi : par' i = some o)
    (hc : ∀ w, W w → w ≠ a → sh' i w → par' w = some i) (hc' : ∀ w, W w → w ≠ a → ¬ sh' i w → par w = some a → par' w = some o)
    (hp : ∀ w, W w → w ≠ a → ¬ sh' i w → par w ≠ some a → par' w = par w) (hpol : ∀ w, pol' w = if w = b then some q else pol w)
    (hou : ∀ q', out' q' = if q' = q then o else out q')
    (hsh : ∀ x y, sh' x y → sh (if x = b then a else x) (if y = b then a else y))
    (hshw : ∀ x y, sh' x y → W' x ∧ W' y ∧ x ≠ 0 ∧ y ≠ 0) (hsym : ∀ x y, sh' x y → sh' y x)
    (hsep : ¬ Relation.ReflTransGen sh' a b)
    (hcomp : ∀ q, Q q → q ≠ 0 → ∀ p, par' (out' q) = some p → Relation.ReflTransGen sh' (out' q) p) :
    Nest W' Q par' pol' out' sh' := by
  have hQ : Q q := by
    obtain ⟨q', h1, h2, _⟩ := h.pols a ha
    rw [hq] at h2
    cases h2
    exact h1
  have hA : Around Q out a := ⟨q, hQ, ho⟩
  have hq0 : q ≠ 0 := by
    rintro rfl
    exact ha0 (ho ▸ h.o0)
  have hWne : ∀ w, W w → w ≠ b := fun w hw hh => hb (hh ▸ hw)
  have hB0 : b ≠ 0 := fun hh => hb (hh ▸ h.w0)
  have hrev : ∀ x y, Relation.ReflTransGen sh' x y → Relation.ReflTransGen sh' y x := by
    intro x y hxy
    induction hxy with
    | refl => exact .refl
    | tail _ h2 ih => exact .head (hsym _ _ h2) ih
  have hsep' : ¬ Relation.ReflTransGen sh' o i := by
    rcases hoi with ⟨rfl, rfl⟩ | ⟨rfl, rfl⟩
    · exact hsep
    · exact fun hh => hsep (hrev _ _ hh)
  have hi0 : i ≠ 0 := by rcases hoi with ⟨_, rfl⟩ | ⟨_, rfl⟩ <;> assumption
  have ho0 : o ≠ 0 := by rcases hoi with ⟨rfl, _⟩ | ⟨rfl, _⟩ <;> assumption
  have hoi' : o ≠ i := fun hh => hsep' (hh ▸ .refl)
  have hWo : W' o := (hW o).2 (by rcases hoi with ⟨rfl, _⟩ | ⟨rfl, _⟩; exacts [Or.inl ha, Or.inr rfl])
  have hWi : W' i := (hW i).2 (by rcases hoi with ⟨_, rfl⟩ | ⟨_, rfl⟩; exacts [Or.inr rfl, Or.inl ha])
  have hab : ∀ w, w = o ∨ w = i ↔ w = a ∨ w = b := by
    intro w
    rcases hoi with ⟨rfl, rfl⟩ | ⟨rfl, rfl⟩
    · rfl
    · exact or_comm
  obtain ⟨p0, hp0, hWp0⟩ := h.up a ha ha0
  have hn0 : ¬ Around Q out p0 := h.hole q hQ hq0 p0 (ho ▸ hp0)
  have hp0a : p0 ≠ a := fun hh => hn0 (hh ▸ hA)
  have hop0 : Relation.ReflTransGen sh' o p0 := by
    have := hcomp q hQ hq0 p0 (by rw [hou, if_pos rfl, po]; exact hp0)
    rwa [hou, if_pos rfl] at this
  have hAr : ∀ w, w ≠ a → w ≠ b → (Around Q out' w ↔ Around Q out w) := by
    intro w h1 h2
    have h3 : w ≠ o := fun hh => ((hab w).1 (Or.inl hh)).elim h1 h2
    constructor
    · rintro ⟨q', k1, k2⟩
      rw [hou] at k2
      split at k2
      · exact absurd k2.symm h3
      · exact ⟨q', k1, k2⟩
    · rintro ⟨q', k1, k2⟩
      refine ⟨q', k1, ?_⟩
      rw [hou, if_neg]
      · exact k2
      · rintro rfl
        exact h1 (k2.symm.trans ho)
  have hAo : Around Q out' o := ⟨q, hQ, by rw [hou, if_pos rfl]⟩
  have hAi : ¬ Around Q out' i := by
    rintro ⟨q', k1, k2⟩
    rw [hou] at k2
    split at k2
    · exact hoi' k2
    · next hne =>
      rcases hoi with ⟨_, rfl⟩ | ⟨_, rfl⟩
      · exact hb (k2 ▸ (h.outs q' k1).1)
      · exact hne (h.out_inj k1 hQ (k2.trans ho.symm))
  -- wires beside the inner part
  have hside : ∀ w, w ≠ a → w ≠ b → sh a w → (Around Q out w ∧ par w = some p0) ∨ (w = p0) := by
    intro w h1 _ h3
    rcases h.adj _ _ h3 with k | ⟨_, k2, k3⟩ | ⟨_, _, k3⟩ | ⟨_, k2, _⟩
    · exact absurd k.symm h1
    · exact Or.inl ⟨k2, by rw [← k3]; exact hp0⟩
    · exact Or.inr (Option.some.inj (k3.symm.trans hp0))
    · exact absurd hA k2
  have hsi : ∀ w, W w → w ≠ a → sh' i w → Around Q out w ∧ par w = some p0 := by
    intro w hw hwa hs
    have h1 := hsh _ _ hs
    rw [if_neg (hWne w hw)] at h1
    have h2 : sh a w := by
      rcases hoi with ⟨_, rfl⟩ | ⟨_, rfl⟩
      · rwa [if_pos rfl] at h1
      · rwa [if_neg (hWne i ha)] at h1
    rcases hside w hwa (hWne w hw) h2 with k | k
    · exact k
    · subst k
      exact absurd (hop0.trans (.single (hsym _ _ hs))) hsep'
  have hupI : Up par' p0 → Up par' o ∧ Up par' i := fun hh =>
    have h1 : Up par' o := .step (by rw [po]; exact hp0) hh
    ⟨h1, .step pi h1⟩
  have hup : ∀ w, Up par w → W w → Up par' w := by
    intro w hw
    induction hw with
    | root => exact fun _ => .root
    | @step w p h1 _ ih =>
      intro hw
      obtain ⟨p', e1, e2⟩ := h.up w hw (h.nz h1)
      rw [h1] at e1
      cases e1
      have ih := ih e2
      by_cases hwa : w = a
      · subst hwa
        rw [hp0] at h1
        cases h1
        have := hupI ih
        rcases hoi with ⟨rfl, _⟩ | ⟨_, rfl⟩
        · exact this.1
        · exact this.2
      · by_cases hs : sh' i w
        · obtain ⟨_, k⟩ := hsi w hw hwa hs
          rw [h1] at k
          cases k
          exact .step (hc w hw hwa hs) (hupI ih).2
        · by_cases hpa : par w = some a
          · rw [h1] at hpa
            cases hpa
            refine .step (hc' w hw hwa hs h1) ?_
            rcases hoi with ⟨rfl, _⟩ | ⟨_, rfl⟩
            · exact ih
            · obtain ⟨r, r1, r2⟩ := ih.inv hi0
              rw [pi] at r1
              cases r1
              exact r2
          · exact .step (by rw [hp w hw hwa hs hpa]; exact h1) ih
  have hchild : ∀ w, W w → par w = some a → w ≠ a ∧ ¬ sh' i w ∧ pol w = some q ∧ ¬ Around Q out w := by
    intro w hw hpa
    have hwa : w ≠ a := fun hh => h.self ha (hh ▸ hpa)
    obtain ⟨k1, k2⟩ := h.child hw hQ (ho ▸ hpa)
    exact ⟨hwa, fun hs => k2 (hsi w hw hwa hs).1, k1, k2⟩
  refine ⟨(hW 0).2 (Or.inl h.w0), h.q0, ?_, ?_, ?_, ?_, ?_, ?_, ?_, hshw, hsym, ?_, hcomp⟩
  · rw [hou, if_neg (Ne.symm hq0)]; exact h.o0
  · rw [hp 0 h.w0 (Ne.symm ha0) (fun hh => (hshw _ _ hh).2.2.2 rfl) (by rw [h.p0]; simp)]; exact h.p0
  · intro w hw h0
    by_cases hwab : w = o ∨ w = i
    · rcases hwab with rfl | rfl
      · exact ⟨p0, by rw [po]; exact hp0, (hW _).2 (Or.inl hWp0)⟩
      · exact ⟨o, pi, hWo⟩
    · have hwab' := not_or.1 fun hh => hwab ((hab w).2 hh)
      have hw := ((hW w).1 hw).resolve_right hwab'.2
      by_cases hs : sh' i w
      · exact ⟨i, hc w hw hwab'.1 hs, hWi⟩
      · by_cases hpa : par w = some a
        · exact ⟨o, hc' w hw hwab'.1 hs hpa, hWo⟩
        · obtain ⟨p, h1, h2⟩ := h.up w hw h0
          exact ⟨p, by rw [hp w hw hwab'.1 hs hpa]; exact h1, (hW p).2 (Or.inl h2)⟩
  · intro w hw
    rcases (hW w).1 hw with hw | rfl
    · exact hup w (h.chain w hw) hw
    · have := hupI (hup p0 (h.chain p0 hWp0) hWp0)
      rcases hoi with ⟨_, rfl⟩ | ⟨rfl, _⟩
      · exact this.2
      · exact this.1
  · intro q' hq'
    rw [hou]
    split
    · next hh =>
      subst hh
      refine ⟨hWo, ?_⟩
      rw [hpol]
      split
      · rfl
      · next hob =>
        rcases hoi with ⟨rfl, _⟩ | ⟨rfl, _⟩
        · exact hq
        · exact absurd rfl hob
    · obtain ⟨h1, h2⟩ := h.outs q' hq'
      exact ⟨(hW _).2 (Or.inl h1), by rw [hpol, if_neg (hWne _ h1)]; exact h2⟩
  · intro w hw
    by_cases hwab : w = o ∨ w = i
    · have hpw : pol' w = some q := by
        rw [hpol]
        split
        · rfl
        · next hwb => rw [((hab w).1 hwab).resolve_right hwb]; exact hq
      refine ⟨q, hQ, hpw, ?_⟩
      rw [hou, if_pos rfl]
      rcases hwab with rfl | rfl
      · exact Or.inl rfl
      · exact Or.inr pi
    · have hwab' := not_or.1 fun hh => hwab ((hab w).2 hh)
      have hw := ((hW w).1 hw).resolve_right hwab'.2
      obtain ⟨q', h1, h2, h3⟩ := h.pols w hw
      refine ⟨q', h1, by rw [hpol, if_neg hwab'.2]; exact h2, ?_⟩
      by_cases hqq : q' = q
      · subst hqq
        have hpa : par w = some a := by rw [← ho]; exact h3.resolve_left fun hh => hwab'.1 (hh.symm.trans ho)
        refine Or.inr ?_
        rw [hou, if_pos rfl, hc' w hw hwab'.1 (hchild w hw hpa).2.1 hpa]
      · rw [hou, if_neg hqq]
        rcases h3 with h3 | h3
        · exact Or.inl h3
        · refine Or.inr ?_
          have hpa : par w ≠ some a := by
            rw [h3]
            intro hh
            exact hqq (h.out_inj h1 hQ ((Option.some.inj hh).trans ho.symm))
          rw [hp w hw hwab'.1 ?_ hpa]
          · exact h3
          · intro hs
            obtain ⟨_, k⟩ := hsi w hw hwab'.1 hs
            rw [h3] at k
            exact hn0 ⟨q', h1, Option.some.inj k⟩
  · intro q' hq' h0 p hpp
    rw [hou] at hpp
    split at hpp
    · rw [po, hp0] at hpp
      cases hpp
      rw [hAr _ hp0a (hWne _ hWp0)]
      exact hn0
    · next hqq =>
      have hwo := (h.outs q' hq').1
      have hwa : out q' ≠ a := fun hh => hqq (h.out_inj hq' hQ (hh.trans ho.symm))
      by_cases hs : sh' i (out q')
      · rw [hc _ hwo hwa hs] at hpp
        cases hpp
        exact hAi
      · have hpa : par (out q') ≠ some a := fun hh => (hchild _ hwo hh).2.2.2 ⟨q', hq', rfl⟩
        rw [hp _ hwo hwa hs hpa] at hpp
        have h1 := h.hole q' hq' h0 p hpp
        rw [hAr]
        · exact h1
        · exact fun hh => h1 (hh ▸ hA)
        · rintro rfl
          exact hb (h.par_ex hwo hpp)
  · intro x y hxy
    have hs := hsh x y hxy
    by_cases hxy' : x = y
    · exact Or.inl hxy'
    have hWxy := hshw x y hxy
    have key : ∀ y, W y → y ≠ a → sh a y → ∀ x, (x = o ∨ x = i) → sh' x y → Beside (Around Q out') par' x y := by
      intro y hy h1 h3 x h4 h5
      have h2 := hWne y hy
      rcases h4 with rfl | rfl
      · have hns : ¬ sh' i y := fun hh => hsep' ((Relation.ReflTransGen.single h5).trans (.single (hsym _ _ hh)))
        rcases hside y h1 h2 h3 with ⟨k1, k2⟩ | k
        · refine Or.inr (Or.inl ⟨hAo, (hAr y h1 h2).2 k1, ?_⟩)
          rw [po, hp y hy h1 hns (by rw [k2]; simpa using hp0a), hp0, k2]
        · subst k
          exact Or.inr (Or.inr (Or.inl ⟨hAo, fun hh => hn0 ((hAr y h1 h2).1 hh), by rw [po]; exact hp0⟩))
      · exact Or.inr (Or.inr (Or.inr ⟨(hAr y h1 h2).2 (hsi y hy h1 h5).1, hAi, hc y hy h1 h5⟩))
    have hbs : ∀ x y, Beside (Around Q out') par' x y → Beside (Around Q out') par' y x := by
      rintro x y (k | ⟨k1, k2, k3⟩ | k | k)
      · exact Or.inl k.symm
      · exact Or.inr (Or.inl ⟨k2, k1, k3.symm⟩)
      · exact Or.inr (Or.inr (Or.inr k))
      · exact Or.inr (Or.inr (Or.inl k))
    by_cases hx : x = o ∨ x = i
    · by_cases hy : y = o ∨ y = i
      · exfalso
        rcases hx with rfl | rfl <;> rcases hy with rfl | rfl
        · exact hxy' rfl
        · exact hsep' (.single hxy)
        · exact hsep' (.single (hsym _ _ hxy))
        · exact hxy' rfl
      · have hy' := not_or.1 fun hh => hy ((hab y).2 hh)
        have h1 : sh a y := by
          rw [if_neg hy'.2] at hs
          rcases (hab x).1 hx with rfl | rfl
          · rwa [if_neg (hWne x ha)] at hs
          · rwa [if_pos rfl] at hs
        exact key y (((hW y).1 hWxy.2.1).resolve_right hy'.2) hy'.1 h1 x hx hxy
    · have hx' := not_or.1 fun hh => hx ((hab x).2 hh)
      have hwx : W x := ((hW x).1 hWxy.1).resolve_right hx'.2
      by_cases hy : y = o ∨ y = i
      · have h1 : sh a x := by
          rw [if_neg hx'.2] at hs
          refine h.sym _ _ ?_
          rcases (hab y).1 hy with rfl | rfl
          · rwa [if_neg (hWne y ha)] at hs
          · rwa [if_pos rfl] at hs
        exact hbs _ _ (key x hwx hx'.1 h1 y hy (hsym _ _ hxy))
      · have hy' := not_or.1 fun hh => hy ((hab y).2 hh)
        have hwy : W y := ((hW y).1 hWxy.2.1).resolve_right hy'.2
        rw [if_neg hx'.2, if_neg hy'.2] at hs
        -- a wire around a polygon beside the inner part is not connected with `p0`
        have hfar : ∀ z, W z → z ≠ a → sh' i z → ¬ Relation.ReflTransGen sh' z p0 := fun z _ _ hz hh =>
          hsep' (hop0.trans ((hrev _ _ hh).trans (.single (hsym _ _ hz))))
        have hkeep : ∀ z, W z → z ≠ a → ¬ sh' i z → Around Q out z → par' z = par z := fun z h1 h2 h3 h4 =>
          hp z h1 h2 h3 fun hh => (hchild z h1 hh).2.2.2 h4
        have hown : ∀ z, W z → z ≠ a → ¬ sh' i z → Around Q out z → par z = some p0 → Relation.ReflTransGen sh' z p0 := by
          rintro _ h1 h2 h3 ⟨q', h4, rfl⟩ h5
          have h6 : q' ≠ q := by rintro rfl; exact h2 ho
          have h7 : q' ≠ 0 := by
            rintro rfl
            rw [h.o0, h.p0] at h5
            cases h5
          have := hcomp q' h4 h7 p0 (by rw [hou, if_neg h6, hkeep _ h1 h2 h3 ⟨q', h4, rfl⟩]; exact h5)
          rwa [hou, if_neg h6] at this
        have hup2 : ∀ x y, W x → W y → x ≠ a → y ≠ a → y ≠ b → sh' x y → Around Q out x → ¬ Around Q out y → par x = some y → par' x = some y := by
          intro x y h1 h2 h3 h4 h4' h5 h6 h7 h8
          by_cases hi : sh' i x
          · have := (hsi x h1 h3 hi).2
            rw [h8] at this
            cases this
            exact absurd (.single h5) (hfar x h1 h3 hi)
          · rw [hkeep x h1 h3 hi h6]; exact h8
        have haw : ∀ x, W x → x ≠ a → Around Q out x → Around Q out' x := fun x h1 h2 => (hAr x h2 (hWne x h1)).2
        have hnw : ∀ x, W x → x ≠ a → ¬ Around Q out x → ¬ Around Q out' x := fun x h1 h2 h3 h4 => h3 ((hAr x h2 (hWne x h1)).1 h4)
        rcases h.adj _ _ hs with k | ⟨k1, k2, k3⟩ | ⟨k1, k2, k3⟩ | ⟨k1, k2, k3⟩
        · exact absurd k hxy'
        · refine Or.inr (Or.inl ⟨haw x hwx hx'.1 k1, haw y hwy hy'.1 k2, ?_⟩)
          by_cases hix : sh' i x
          · by_cases hiy : sh' i y
            · rw [hc x hwx hx'.1 hix, hc y hwy hy'.1 hiy]
            · exfalso
              refine hfar x hwx hx'.1 hix (.head hxy (hown y hwy hy'.1 hiy k2 ?_))
              rw [← k3]
              exact (hsi x hwx hx'.1 hix).2
          · by_cases hiy : sh' i y
            · exfalso
              refine hfar y hwy hy'.1 hiy (.head (hsym _ _ hxy) (hown x hwx hx'.1 hix k1 ?_))
              rw [k3]
              exact (hsi y hwy hy'.1 hiy).2
            · rw [hkeep x hwx hx'.1 hix k1, hkeep y hwy hy'.1 hiy k2, k3]
        · exact Or.inr (Or.inr (Or.inl ⟨haw x hwx hx'.1 k1, hnw y hwy hy'.1 k2, hup2 x y hwx hwy hx'.1 hy'.1 hy'.2 hxy k1 k2 k3⟩))
        · exact Or.inr (Or.inr (Or.inr ⟨haw y hwy hy'.1 k1, hnw x hwx hx'.1 k2, hup2 y x hwy hwx hy'.1 hx'.1 hx'.2 (hsym _ _ hxy) k1 k2 k3⟩))

end Nest

section
variable {K : Type}

/-- Wires connected by segments belong to joined points. -/
theorem share_joined {s : St K} (hL : Links s ∅ ∅) (hW : Wires s) {x y : Id} (h : Relation.ReflTransGen (Share s) x y) {d k : HE}
    (hd : d.1 ∈ s.sid.live) (hk : k.1 ∈ s.sid.live) (hx : s.wire d = some x) (hy : s.wire k = some y) :
    Joined s (fun _ => True) (s.vtx d) (s.vtx k) := by
  have hwire : ∀ a b : Dart s, s.wire a.he = s.wire b.he → joinSetoid s (fun _ => True) a b := fun a b hab =>
    sameCycle_le (fun z => by
      change Joined s _ (s.vtx z.he) (s.vtx (nextP hL z).he)
      rw [nextP_apply, ← (nextD_ok hL z).2]
      exact .single ⟨(flipD (nextD hL z)).he, (nextD hL z).1.2, trivial, rfl, by simp [flipD, Dart.he, flip]⟩)
      ((next_cycle hL hW).2 hab)
  induction h generalizing k with
  | refl => exact hwire (dart d hd) (dart k hk) (hx.trans hy.symm)
  | tail _ h2 ih =>
    obtain ⟨j, h3, h4, h5⟩ := h2
    refine (ih h3 h4).trans (.head ⟨j, h3, trivial, rfl, rfl⟩ ?_)
    exact hwire (dart (flip j) h3) (dart k hk) (h5.trans hy.symm)

/-- The list of `Wire.segments()` has all sides of the wire. -/
theorem wireAll_mem {s t : St K} (hW : Wires s) {w : Id} (hw : w ∈ s.wid.live) (h0 : w ≠ 0) (h1 : t.next = s.next) (h2 : t.wseg = s.wseg)
    (hp : t.parent w ≠ none) {l : List HE} (h : wireAll t w = .ok l) (d : HE) : d ∈ l ↔ d.1 ∈ s.sid.live ∧ s.wire d = some w := by
  obtain ⟨_, ⟨k, _⟩ | ⟨x, _, k2, k3, k4, k5⟩⟩ := wireAll_sound h
  · exact absurd k hp
  rw [h1] at k3
  rw [h2] at k2
  obtain ⟨lc, hc⟩ := hW.cyc w hw h0
  obtain ⟨x', x1, x2, x3⟩ := hW.seg w hw h0
  rw [k2] at x1
  cases x1
  obtain ⟨a, ha⟩ := hc.path
  obtain ⟨l', p1, p2, p3⟩ := path_from ha hc.nd ((hc.mem x).2 ⟨x2, x3⟩)
  rw [path_first k3 p1 k4 (by simp) k5 (by simpa using (List.nodup_cons.1 p3).1), p2.mem_iff, hc.mem]

/-- Members of an open walk have a predecessor in it. -/
theorem path_before {f : HE → Option HE} {l : List HE} : ∀ {a b : HE}, Path f a l b → ∀ y ∈ l, y = a ∨ ∃ z ∈ l, f z = some y := by
  induction l with
  | nil => intro a b _ y hy; cases hy
  | cons x l ih =>
    intro a b h y hy
    obtain ⟨rfl, z, hz, h2⟩ := h
    rcases List.mem_cons.1 hy with hy | hy
    · exact Or.inl hy
    · rcases ih h2 y hy with rfl | ⟨u, h3, h4⟩
      · exact Or.inr ⟨a, by simp, hz⟩
      · exact Or.inr ⟨u, by simp [h3], h4⟩

theorem path_live {s : St K} (hL : Links s ∅ ∅) {l : List HE} : ∀ {a b : HE}, Path s.next a l b → a.1 ∈ s.sid.live →
    ∀ y ∈ l, y.1 ∈ s.sid.live := by
  induction l with
  | nil => intro a b _ _ y hy; cases hy
  | cons x l ih =>
    intro a b h ha y hy
    obtain ⟨rfl, z, hz, h2⟩ := h
    rcases List.mem_cons.1 hy with rfl | hy
    · exact ha
    · obtain ⟨k, k1, k2, _⟩ := hL.next_ok (d := a) ha (by simp)
      rw [hz] at k1
      cases k1
      exact ih h2 k2 y hy

variable [Field K]

/-- After the deletion of a bridge no segments connect the two parts of its wire. -/
theorem splitWire_apart {s s' : St K} {e aw bw q : Id} {l : List HE} {bn r0 r1 : HE} (h : Nested s) (hW' : Wires s')
    (hS : SplitWire s s' e aw bw q l bn r0 r1) (hn : ∀ v, s.next (e, v) ≠ some (e, !v)) :
    ¬ Relation.ReflTransGen (Share s') aw bw := by
  intro hh
  have hL := h.inv.links
  have hD := hS.del
  have hne : s.vtx (e, false) ≠ s.vtx (e, true) := hL.vne e hD.was
  have hfl : ∀ v k, s.next (e, v) = some k → k.1 ∈ s.sid.live ∧ k.1 ≠ e ∧ s.vtx (flip k) = s.vtx (e, v) := by
    intro v k hk
    obtain ⟨k', h1, h2, h3, _⟩ := hL.next_ok (d := (e, v)) hD.was (by simp)
    rw [hk] at h1
    cases h1
    refine ⟨h2, ?_, h3⟩
    rintro rfl
    obtain ⟨k1, u⟩ := k
    cases u <;> cases v
    · exact hne h3.symm
    · exact hn true hk
    · exact hn false hk
    · exact hne h3
  obtain ⟨an, han, _⟩ := hL.next_ok (d := (e, false)) hD.was (by simp)
  obtain ⟨a1, a2, a3⟩ := hfl false an han
  obtain ⟨b1, b2, b3⟩ := hfl true bn hS.hbn
  have hw0 : s.parent aw ≠ none := by
    obtain ⟨w, w1, w2, w3⟩ := h.wires.lab (e, true) hD.was
    rw [hS.hw] at w1
    cases w1
    exact h.wires.par _ w2 w3
  obtain ⟨p1, p2, p3⟩ : Path s.next bn l (e, false) ∧ l ≠ [] ∧ (e, false) ∉ l.tail := by
    rcases hS.walk with k | k
    · exact absurd k.1 hw0
    · exact k.2
  have hbl : bn ∈ l := by
    cases l with
    | nil => exact absurd rfl p2
    | cons z l => rw [path_head p1]; simp
  have hal : an ∉ l := by
    intro hal
    rcases path_before p1 an hal with k | ⟨z, k1, k2⟩
    · subst k
      have := hL.next_inj (d := (e, false)) (k := (e, true)) hD.was hD.was (by simp) (by simp) (han.trans hS.hbn.symm)
      simp at this
    · have hzl := path_live hL p1 b1 z k1
      have := hL.next_inj (d := (e, false)) (k := z) hD.was hzl (by simp) (by simp) (han.trans k2.symm)
      subst this
      cases l with
      | nil => exact absurd rfl p2
      | cons y l =>
        rcases List.mem_cons.1 k1 with k | k
        · rw [← path_head p1] at k
          exact b2 (k ▸ rfl)
        · exact p3 k
  have j := share_joined hS.links hW' hh (d := an) (k := bn) ((hD.live _).2 ⟨a2, a1⟩) ((hD.live _).2 ⟨b2, b1⟩)
    (by rw [hS.wir, if_neg hal, (h.wires.next_wire hD.was han).2]; exact hS.hw false) (by rw [hS.wir, if_pos hbl])
  have j' : Joined s (· ≠ e) (s.vtx an) (s.vtx bn) := by
    rw [hD.vtx] at j
    refine reach_mono ?_ j
    rintro p r ⟨d, d1, _, d3, d4⟩
    rw [hD.vtx] at d3 d4
    exact ⟨d, ((hD.live _).1 d1).2, ((hD.live _).1 d1).1, d3, d4⟩
  refine bridge_of_wire h hD.was ((hS.hw false).trans (hS.hw true).symm) ?_
  refine .head ⟨flip an, a1, a2, a3, by rw [flip_flip]⟩ (j'.trans (.single ⟨bn, b1, b2, rfl, b3⟩))

variable [LinearOrder K] {g : Geom K}

theorem bubble_up {iw : Id} {l : List HE} : ∀ {s s' : St K}, bubble g iw l s = .ok s' → UpTree s →
    (∀ h ∈ l, ∀ w, s.wire (flip h) = some w → w ∈ s.wid.live ∧ w ≠ 0) → iw ∈ s.wid.live → UpTree s' := by
  induction l with
  | nil =>
    intro s s' hs h _ _
    simp only [bubble, Except.ok.injEq] at hs
    exact hs ▸ h
  | cons x l ih =>
    intro s s' hs h hl hi
    simp only [bubble, bind_ok, check_ok, need_ok] at hs
    obtain ⟨sw, hsw, c, _, _, _, s1, h1, h2⟩ := hs
    obtain ⟨k1, k2⟩ := hl x (by simp) sw hsw
    have ht := setParent_up h k1 k2 hi h1
    obtain ⟨C, rfl⟩ := setParent_eq h1
    exact ih h2 ht (fun y hy => hl y (by simp [hy])) hi

theorem spread_up {aw bw : Id} {l : List Id} : ∀ {s s' : St K}, spread g aw bw l s = .ok s' → UpTree s →
    (∀ c ∈ l, c ∈ s.wid.live ∧ c ≠ 0) → aw ∈ s.wid.live → bw ∈ s.wid.live → UpTree s' := by
  induction l with
  | nil =>
    intro s s' hs h _ _ _
    simp only [spread, Except.ok.injEq] at hs
    exact hs ▸ h
  | cons x l ih =>
    intro s s' hs h hl ha hb
    simp only [spread, bind_ok] at hs
    obtain ⟨c, _, s1, h1, h2⟩ := hs
    obtain ⟨k1, k2⟩ := hl x (by simp)
    have ht := setParent_up h k1 k2 (x := if c = true then aw else bw) (by split <;> assumption) h1
    obtain ⟨C, rfl⟩ := setParent_eq h1
    exact ih h2 ht (fun y hy => hl y (by simp [hy])) ha hb

/-- The state in which `_split_wire` nests the parts of the wire. -/
theorem splitWire_nest {e : Id} {s s' : St K} (h : splitWire g e s = .ok s') :
    ∃ aw q t t', s.wire (e, true) = some aw ∧ s.wpoly aw = some q ∧ nest g q aw (newWireObj s).1 t = .ok t' ∧
      t.parent = (newWireObj s).2.parent ∧ t.childs = (newWireObj s).2.childs ∧ t.outer = s.outer ∧ t.wid = s'.wid ∧
      t.wire = s'.wire ∧ t.next = s'.next ∧ t.wseg = s'.wseg ∧ s'.parent = t'.parent ∧ s'.childs = t'.childs ∧ s'.outer = t'.outer ∧
      s'.change = .shape (some q) ∧ t.vtx = s'.vtx ∧ t.xy = s'.xy ∧ t.vec = s'.vec := by
  unfold splitWire at h
  simp only [bind_ok, check_ok, need_ok] at h
  obtain ⟨_, h0, aw, haw, q, hq, bn, hbn, l, hl, s1, h1, s2, h2, s3, h3, s4, h4, s5, h5, h6⟩ := h
  have e1 := relabel_same h1
  have e2 := disconnectWires_same h2
  have e3 := disconnectVtx_same h3
  have e4 := disconnectVtx_same h4
  unfold destroySegment at h6
  simp only [bind_ok, Except.ok.injEq] at h6
  obtain ⟨t1, k1, t2, k2, m, _, rfl⟩ := h6
  obtain ⟨pp, fp, o, rfl, _⟩ := rmSegment_eq k1
  obtain ⟨pp', fp', o', rfl, _⟩ := rmSegment_eq k2
  refine ⟨aw, q, _, s5, haw, hq, h5, ?_, ?_, ?_, ?_⟩
  · exact (e4.par.trans e3.par).trans (e2.par.trans e1.par)
  · exact (e4.chs.trans e3.chs).trans (e2.chs.trans e1.chs)
  · exact (e4.out.trans e3.out).trans (e2.out.trans e1.out)
  · obtain ⟨P, C, O, rfl, _⟩ := nest_eq h5
    exact ⟨rfl, rfl, rfl, rfl, rfl, rfl, rfl, rfl, rfl, rfl, rfl⟩

/-- No wire is its own parent, and segments connect the outer wire of every polygon with the parent of this wire. -/
def Placed (s : St K) : Prop :=
  (∀ w ∈ s.wid.live, s.parent w ≠ some w) ∧
    ∀ q ∈ s.qid.live, q ≠ 0 → ∀ p, s.parent (s.outer q) = some p → Relation.ReflTransGen (Share s) (s.outer q) p

theorem splitWire_share {s s' : St K} {e aw bw q : Id} {l : List HE} {bn r0 r1 : HE} (hb : ∀ d : HE, d.1 ∈ s.sid.live → s.wire d ≠ some bw)
    (hS : SplitWire s s' e aw bw q l bn r0 r1) (x y : Id) (h : Share s' x y) :
    Share s (if x = bw then aw else x) (if y = bw then aw else y) := by
  obtain ⟨d, h1, h2, h3⟩ := h
  have hd := ((hS.del.live _).1 h1).2
  have key : ∀ d : HE, d.1 ∈ s.sid.live → ∀ z, s'.wire d = some z → s.wire d = some (if z = bw then aw else z) := by
    intro d hd z hz
    rw [hS.wir] at hz
    split at hz
    · next hl =>
      cases hz
      rw [if_pos rfl]
      exact hS.old d hl
    · rw [if_neg]
      · exact hz
      · rintro rfl
        exact hb d hd hz
  exact ⟨d, hd, key d hd x h2, key (flip d) hd y h3⟩

/-- The parents of the wires after the wire `aw` of the polygon `q` is split into `aw` and `bw`. -/
def SplitKind (s s' : St K) (aw bw q : Id) : Prop :=
  (s.outer q ≠ aw ∧ s'.outer = s.outer ∧ s'.parent bw = s.parent aw ∧
    (∀ w ∈ s.wid.live, s.parent w = some aw → s'.parent w = some aw ∨ s'.parent w = some bw) ∧
    ∀ w ∈ s.wid.live, s.parent w ≠ some aw → s'.parent w = s.parent w) ∨
  (s.outer q = aw ∧ ∃ o i, ((o = aw ∧ i = bw) ∨ (o = bw ∧ i = aw)) ∧ s'.parent o = s.parent aw ∧ s'.parent i = some o ∧
    (∀ w ∈ s.wid.live, w ≠ aw → Share s' i w → s'.parent w = some i) ∧
    (∀ w ∈ s.wid.live, w ≠ aw → ¬ Share s' i w → s.parent w = some aw → s'.parent w = some o) ∧
    (∀ w ∈ s.wid.live, w ≠ aw → ¬ Share s' i w → s.parent w ≠ some aw → s'.parent w = s.parent w) ∧
    ∀ q', s'.outer q' = if q' = q then o else s.outer q')

theorem splitWire_kind {e : Id} {s s' : St K} (hs : splitWire g e s = .ok s') (h : Nested s) (he : e ∈ s.sid.live)
    (hn : ∀ v, s.next (e, v) ≠ some (e, !v)) (hW' : Wires s') (hok : Placed s') :
    UpTree s' ∧ Free True s' ∧ NestSt s' ∧
      ∃ aw bw q l bn r0 r1, SplitWire s s' e aw bw q l bn r0 r1 ∧ SplitKind s s' aw bw q := by
  obtain ⟨hF, aw, bw, q, l, bn, r0, r1, hS⟩ := splitWire_eff (T := True) hs h.inv.links he h.free
    (fun _ w q hw hq => h.polyLive (d := (e, true)) he hw hq) (hn false) (hn true)
  obtain ⟨aw', q', t, t', e1, e2, hnest, t1, t2, t3, t4, t5, t6, t7, u1, u2, u3, _⟩ := splitWire_nest hs
  rw [hS.hw] at e1
  cases e1
  rw [hS.hq] at e2
  cases e2
  have hbw : (newWireObj s).1 = bw := hS.hbw.symm
  rw [hbw] at hnest
  obtain ⟨k1, k2, k3⟩ := Ids.append_ok h.inv.wids
  rw [← hS.hbw] at k1 k2
  have hml : ∀ w, w ∈ s'.wid.live ↔ w ∈ s.wid.live ∨ w = bw := by intro w; rw [hS.wid, k2]; simp
  have hmt : ∀ w, w ∈ t.wid.live ↔ w ∈ s.wid.live ∨ w = bw := by intro w; rw [t4]; exact hml w
  obtain ⟨w, w1, haw, haw0⟩ := h.wires.lab (e, true) he
  rw [hS.hw] at w1
  cases w1
  have hbw0 : bw ≠ 0 := fun hh => k1 (hh ▸ h.nest.w0)
  have hab : aw ≠ bw := fun hh => k1 (hh ▸ haw)
  obtain ⟨p0, hp0, hp0l⟩ := h.nest.up aw haw haw0
  have hT : UpTree t := (newWireObj_up h.tree).frame (by rw [t4, hS.wid]; rfl) t1 t2
  have htp : ∀ w, t.parent w = if w = bw then some bw else s.parent w := by
    intro w
    rw [t1]
    simp only [newWireObj, upd, Function.update_apply, hS.hbw]
  have hat : t.parent aw = some p0 := by rw [htp, if_neg hab]; exact hp0
  have hat' : aw ∈ t.wid.live := (hmt _).2 (Or.inl haw)
  have hbt' : bw ∈ t.wid.live := (hmt _).2 (Or.inr rfl)
  have hpt' : p0 ∈ t.wid.live := (hmt _).2 (Or.inl hp0l)
  have hsep := splitWire_apart h hW' hS hn
  have hshare := splitWire_share (fun d hd hh => by
    obtain ⟨w, w1, w2, _⟩ := h.wires.lab d hd
    rw [hh] at w1
    cases w1
    exact k1 w2) hS
  have hshw : ∀ x y, Share s' x y → x ∈ s'.wid.live ∧ y ∈ s'.wid.live ∧ x ≠ 0 ∧ y ≠ 0 := by
    rintro x y ⟨d, d1, d2, d3⟩
    obtain ⟨w, w1, w2, w3⟩ := hW'.lab d d1
    rw [d2] at w1
    cases w1
    obtain ⟨w', w1', w2', w3'⟩ := hW'.lab (flip d) d1
    rw [d3] at w1'
    cases w1'
    exact ⟨w2, w2', w3, w3'⟩
  have hpol : ∀ w, s'.wpoly w = if w = bw then some q else s.wpoly w := by
    intro w
    rw [hS.wpoly]
    simp only [upd, Function.update_apply]
  have hcomp := hok.2
  rw [hS.qid] at hcomp
  suffices hh : UpTree t' ∧ t'.wid = t.wid ∧ Nest (· ∈ s'.wid.live) (· ∈ s.qid.live) s'.parent s'.wpoly s'.outer (Share s') ∧
      SplitKind s s' aw bw q by
    obtain ⟨g1, g2, g3, g4⟩ := hh
    refine ⟨g1.frame (by rw [g2, t4]) u1 u2, hF, ?_, aw, bw, q, l, bn, r0, r1, hS, g4⟩
    unfold NestSt
    rw [hS.qid]
    exact g3
  unfold nest at hnest
  split at hnest
  · next ho =>
    rw [t3] at ho
    unfold nestOuter at hnest
    simp only [bind_ok] at hnest
    obtain ⟨inA, _, s1, h1, s2, h2, s3, h3, lw, hlw, h4⟩ := hnest
    rw [hat] at h1
    obtain ⟨o, i, rfl, rfl, hoi⟩ : ∃ o i, o = (if inA = true then aw else bw) ∧ i = (if inA = true then bw else aw) ∧
        ((o = aw ∧ i = bw) ∨ (o = bw ∧ i = aw)) := by
      cases inA
      · exact ⟨_, _, rfl, rfl, Or.inr ⟨by simp, by simp⟩⟩
      · exact ⟨_, _, rfl, rfl, Or.inl ⟨by simp, by simp⟩⟩
    generalize (if inA = true then aw else bw) = o at *
    generalize (if inA = true then bw else aw) = i at *
    have hol : o ∈ t.wid.live := by rcases hoi with ⟨rfl, _⟩ | ⟨rfl, _⟩ <;> assumption
    have hil : i ∈ t.wid.live := by rcases hoi with ⟨_, rfl⟩ | ⟨_, rfl⟩ <;> assumption
    have ho0 : o ≠ 0 := by rcases hoi with ⟨rfl, _⟩ | ⟨rfl, _⟩ <;> assumption
    have hi0 : i ≠ 0 := by rcases hoi with ⟨_, rfl⟩ | ⟨_, rfl⟩ <;> assumption
    have hoin : o ≠ i := by rcases hoi with ⟨rfl, rfl⟩ | ⟨rfl, rfl⟩; exacts [hab, Ne.symm hab]
    have hT1 := setParent_up (hT.frame (s' := { t with outer := upd t.outer q o }) rfl rfl rfl) hol ho0 hpt' h1
    obtain ⟨C1, rfl⟩ := setParent_eq h1
    have hT2 := setParent_up hT1 hil hi0 hol h2
    obtain ⟨C2, rfl⟩ := setParent_eq h2
    have hch : ∀ c ∈ C2 aw, c ∈ t.wid.live ∧ c ≠ 0 ∧ upd (upd t.parent o (some p0)) i (some o) c = some aw := fun c hc => by
      have := hT2.mem aw hat' c hc
      exact this
    have hT3 := setParents_up hT2 (fun c hc => ⟨(hch c hc).1, (hch c hc).2.1⟩) hol h3
    obtain ⟨C3, rfl⟩ := setParents_eq h3
    have hlm := fun d => (wireAll_mem hW' (w := i) (by rw [← t4]; exact hil) hi0 ?_ ?_ ?_ hlw d)
    rotate_left
    · exact t6
    · exact t7
    · change (if i ∈ C2 aw then some o else upd (upd t.parent o (some p0)) i (some o) i) ≠ none
      simp [upd]
    have hbub : ∀ c, (∃ d ∈ lw, t.wire (flip d) = some c) ↔ Share s' i c := by
      intro c
      rw [t5]
      constructor
      · rintro ⟨d, d1, d2⟩
        exact ⟨d, ((hlm d).1 d1).1, ((hlm d).1 d1).2, d2⟩
      · rintro ⟨d, d1, d2, d3⟩
        exact ⟨d, (hlm d).2 ⟨d1, d2⟩, d3⟩
    have hT4 := bubble_up h4 hT3 (fun d hd w hw => by
      have := hshw i w ((hbub w).1 ⟨d, hd, hw⟩)
      exact ⟨by rw [t4]; exact this.2.1, this.2.2.2⟩) hil
    obtain ⟨C4, rfl⟩ := bubble_eq h4
    refine ⟨hT4, rfl, ?_⟩
    have hP : ∀ c, (Share s' i c → s'.parent c = some i) ∧ (¬ Share s' i c → c ∈ C2 aw → s'.parent c = some o) ∧
        (¬ Share s' i c → c ∉ C2 aw → s'.parent c = upd (upd t.parent o (some p0)) i (some o) c) := by
      intro c
      have hc : s'.parent c = if ∃ d ∈ lw, t.wire (flip d) = some c then some i else
          if c ∈ C2 aw then some o else upd (upd t.parent o (some p0)) i (some o) c := by rw [u1]
      rw [hc]
      refine ⟨fun k => if_pos ((hbub c).2 k), fun k k' => ?_, fun k k' => ?_⟩
      · rw [if_neg fun hh => k ((hbub c).1 hh), if_pos k']
      · rw [if_neg fun hh => k ((hbub c).1 hh), if_neg k']
    have hnoi : ¬ Share s' i i := fun hh => hok.1 i (by rw [← t4]; exact hil) ((hP i).1 hh)
    have hsep' : ∀ {x y}, Share s' x y → ¬ (x = i ∧ y = o) := by
      rintro x y hxy ⟨rfl, rfl⟩
      rcases hoi with ⟨rfl, rfl⟩ | ⟨rfl, rfl⟩
      · exact hsep (.single hxy.symm)
      · exact hsep (.single hxy)
    have hoC : o ∉ C2 aw := by
      intro hh
      have := (hch o hh).2.2
      rw [upd, upd, Function.update_of_ne hoin, Function.update_self] at this
      cases this
      exact h.nest.self haw hp0
    have hwab : ∀ w, w ∈ s.wid.live → w ≠ aw → w ≠ o ∧ w ≠ i := by
      intro w m1 m2
      have m3 : w ≠ bw := fun hh => k1 (hh ▸ m1)
      rcases hoi with ⟨rfl, rfl⟩ | ⟨rfl, rfl⟩
      · exact ⟨m2, m3⟩
      · exact ⟨m3, m2⟩
    have hpw : ∀ w, w ∈ s.wid.live → w ≠ aw → upd (upd t.parent o (some p0)) i (some o) w = s.parent w := by
      intro w m1 m2
      obtain ⟨m3, m4⟩ := hwab w m1 m2
      have m5 : w ≠ bw := fun hh => k1 (hh ▸ m1)
      rw [upd, upd, Function.update_of_ne m4, Function.update_of_ne m3, htp, if_neg m5]
    have hout : ∀ q', s'.outer q' = if q' = q then o else s.outer q' := by
      intro q'
      rw [u3]
      change upd t.outer q o q' = _
      rw [t3]
      simp only [upd, Function.update_apply]
    suffices hh : s'.parent o = s.parent aw ∧ s'.parent i = some o ∧
        (∀ w ∈ s.wid.live, w ≠ aw → Share s' i w → s'.parent w = some i) ∧
        (∀ w ∈ s.wid.live, w ≠ aw → ¬ Share s' i w → s.parent w = some aw → s'.parent w = some o) ∧
        (∀ w ∈ s.wid.live, w ≠ aw → ¬ Share s' i w → s.parent w ≠ some aw → s'.parent w = s.parent w) by
      obtain ⟨j1, j2, j3, j4, j5⟩ := hh
      exact ⟨h.nest.cutOuter haw haw0 hS.hq k1 ho hoi hml j1 j2 j3 j4 j5 hpol hout hshare hshw (fun x y => Share.symm) hsep hcomp,
        Or.inr ⟨ho, o, i, hoi, j1, j2, j3, j4, j5, hout⟩⟩
    refine ⟨?_, ?_, ?_, ?_, ?_⟩
    · rw [(hP o).2.2 (fun hh => hsep' hh ⟨rfl, rfl⟩) hoC, hp0]
      rw [upd, upd, Function.update_of_ne hoin, Function.update_self]
    · by_cases hc : i ∈ C2 aw
      · exact (hP i).2.1 hnoi hc
      · rw [(hP i).2.2 hnoi hc, upd, Function.update_self]
    · exact fun w _ _ hw => (hP w).1 hw
    · intro w h1 h2 h3 h4
      refine (hP w).2.1 h3 ?_
      refine (hT2.childs_iff hat' ((hmt w).2 (Or.inl h1)) h2).2 ?_
      exact (hpw w h1 h2).trans h4
    · intro w h1 h2 h3 h4
      rw [(hP w).2.2 h3, hpw w h1 h2]
      intro hh
      have := (hch w hh).2.2
      rw [hpw w h1 h2] at this
      exact h4 this
  · next ho =>
    rw [t3] at ho
    unfold nestHole at hnest
    simp only [bind_ok] at hnest
    obtain ⟨s1, h1, s2, h2, h3⟩ := hnest
    rw [hat] at h1 h2
    have hT1 := setParent_up hT hat' haw0 hpt' h1
    obtain ⟨C1, rfl⟩ := setParent_eq h1
    have hT2 := setParent_up hT1 hbt' hbw0 hpt' h2
    obtain ⟨C2, rfl⟩ := setParent_eq h2
    have hch : ∀ c ∈ C2 aw, c ∈ t.wid.live ∧ c ≠ 0 ∧ upd (upd t.parent aw (some p0)) bw (some p0) c = some aw := fun c hc => by
      have := hT2.mem aw hat' c hc
      exact this
    have hT3 := spread_up h3 hT2 (fun c hc => ⟨(hch c hc).1, (hch c hc).2.1⟩) hat' hbt'
    obtain ⟨P, C, rfl, hP⟩ := spread_eq h3
    refine ⟨hT3, rfl, ?_⟩
    have hpw : ∀ w, w ∈ s.wid.live → upd (upd t.parent aw (some p0)) bw (some p0) w = s.parent w := by
      intro w h1
      have h2 : w ≠ bw := fun hh => k1 (hh ▸ h1)
      rw [upd, Function.update_of_ne h2, upd, Function.update_apply]
      split
      · next hh => rw [hh]; exact hp0.symm
      · rw [htp, if_neg h2]
    have hou : s'.outer = s.outer := by rw [u3]; exact t3
    have hcomp' := hcomp
    rw [u1, hou] at hcomp'
    rw [hou, u1]
    suffices hh : s'.parent bw = s.parent aw ∧
        (∀ w ∈ s.wid.live, s.parent w = some aw → s'.parent w = some aw ∨ s'.parent w = some bw) ∧
        ∀ w ∈ s.wid.live, s.parent w ≠ some aw → s'.parent w = s.parent w by
      obtain ⟨j1, j2, j3⟩ := hh
      refine ⟨?_, Or.inl ⟨ho, hou, j1, j2, j3⟩⟩
      rw [u1] at j1 j2 j3
      exact h.nest.cutHole haw haw0 hS.hq k1 ho hml j1 j2 j3 hpol hshare hshw (fun x y => Share.symm) hsep hcomp'
    rw [u1]
    refine ⟨?_, ?_, ?_⟩
    · change P bw = _
      rw [(hP bw).2]
      · change upd _ bw _ bw = _
        rw [upd, Function.update_self]
        exact hp0.symm
      · intro hh
        have := (hch bw hh).2.2
        rw [upd, Function.update_self] at this
        cases this
        exact h.nest.self haw hp0
    · intro w hw h2
      refine (hP w).1 ?_
      refine (hT2.childs_iff hat' ((hmt w).2 (Or.inl hw)) ?_).2 ((hpw w hw).trans h2)
      intro hh
      rw [← hh] at h2
      exact h.nest.self hw h2
    · intro w h1 h2
      change P w = _
      rw [(hP w).2]
      · exact hpw w h1
      · intro hh
        have := (hch w hh).2.2
        rw [hpw w h1] at this
        exact h2 this

theorem splitWire_nested {e : Id} {s s' : St K} (hs : splitWire g e s = .ok s') (h : Nested s) (he : e ∈ s.sid.live)
    (hn : ∀ v, s.next (e, v) ≠ some (e, !v)) (hW' : Wires s') (hok : Placed s') :
    UpTree s' ∧ Free True s' ∧ NestSt s' := by
  obtain ⟨h1, h2, h3, _⟩ := splitWire_kind hs h he hn hW' hok
  exact ⟨h1, h2, h3⟩

/-- The parts of a hole are not their own parents. -/
theorem splitWire_noself {e : Id} {s s' : St K} (hs : splitWire g e s = .ok s') (h : Nested s) (he : e ∈ s.sid.live)
    (hn : ∀ v, s.next (e, v) ≠ some (e, !v)) (ho : ∀ q ∈ s.qid.live, s.wire (e, true) ≠ some (s.outer q)) :
    ∀ w ∈ s'.wid.live, s'.parent w ≠ some w := by
  obtain ⟨_, aw, bw, q, l, bn, r0, r1, hS⟩ := splitWire_eff (T := True) hs h.inv.links he h.free
    (fun _ w q hw hq => h.polyLive (d := (e, true)) he hw hq) (hn false) (hn true)
  obtain ⟨aw', q', t, t', e1, e2, hnest, t1, t2, t3, t4, t5, t6, t7, u1, u2, u3, _⟩ := splitWire_nest hs
  rw [hS.hw] at e1
  cases e1
  rw [hS.hq] at e2
  cases e2
  have hbw : (newWireObj s).1 = bw := hS.hbw.symm
  rw [hbw] at hnest
  obtain ⟨k1, k2, _⟩ := Ids.append_ok h.inv.wids
  rw [← hS.hbw] at k1 k2
  have hml : ∀ w, w ∈ s'.wid.live ↔ w ∈ s.wid.live ∨ w = bw := by intro w; rw [hS.wid, k2]; simp
  obtain ⟨w, w1, haw, haw0⟩ := h.wires.lab (e, true) he
  rw [hS.hw] at w1
  cases w1
  have hab : aw ≠ bw := fun hh => k1 (hh ▸ haw)
  have hT : UpTree t := (newWireObj_up h.tree).frame (by rw [t4, hS.wid]; rfl) t1 t2
  have htp : ∀ w, t.parent w = if w = bw then some bw else s.parent w := by
    intro w
    rw [t1]
    simp only [newWireObj, upd, Function.update_apply, hS.hbw]
  have hpa : t.parent aw = s.parent aw := by rw [htp, if_neg hab]
  have hout : t.outer q ≠ aw := by
    rw [t3]
    intro hh
    exact ho q (h.polyLive (d := (e, true)) he (hS.hw true) hS.hq) (by rw [hh]; exact hS.hw true)
  unfold nest at hnest
  rw [if_neg hout] at hnest
  obtain ⟨P, C, m, rfl, hP, hP', _⟩ := nestHole_eq hnest
  intro w hw
  rw [u1]
  change P w ≠ some w
  have hlt : ∀ w, w ∈ s'.wid.live → w ∈ t.wid.live := fun w hw => by rw [t4]; exact hw
  have hb0 : bw ≠ 0 := fun hh => k1 (hh ▸ h.nest.w0)
  by_cases hwm : w ∈ m
  · obtain ⟨_, _, hc⟩ := hP' w hwm hT.toTree (hlt _ ((hml _).2 (Or.inl haw))) haw0 (hlt _ ((hml _).2 (Or.inr rfl))) hb0
    rcases hc with hc | ⟨rfl, hc⟩
    · intro hh
      rcases (hP w).1 hwm with k | k
      · rw [hh] at k
        cases k
        rw [hpa] at hc
        exact h.nest.self haw hc
      · rw [hh] at k
        cases k
        rw [htp, if_pos rfl] at hc
        exact hab (Option.some.inj hc).symm
    · rw [hpa] at hc
      exact absurd hc (h.nest.self haw)
  · rw [(hP w).2 hwm]
    split
    · next hwb =>
      subst hwb
      rw [hpa]
      intro hh
      exact k1 (h.nest.par_ex haw hh)
    · next hwb =>
      rw [htp, if_neg hwb]
      exact h.nest.self (((hml w).1 hw).resolve_right hwb)

end
end Verif.Decomp
