import Verif.Plane.Sees
import Mathlib.Tactic.FieldSimp

/-! What holds far away and is carried over segments holds everywhere. -/

namespace Verif.Decomp
open Verif.Plane

section
variable {K : Type} [Field K] [LinearOrder K] [IsStrictOrderedRing K]

theorem list_bound : ∀ l : List K, ∃ b, ∀ a ∈ l, a < b
  | [] => ⟨0, by simp⟩
  | a :: l => by
    obtain ⟨b, hb⟩ := list_bound l
    refine ⟨max b (a + 1), fun c hc => ?_⟩
    rcases List.mem_cons.1 hc with rfl | hc
    · exact lt_of_lt_of_le (by linarith) (le_max_right _ _)
    · exact lt_of_lt_of_le (hb c hc) (le_max_left _ _)

/-- The straight path meets no end of a segment and is not parallel to a segment. -/
def Generic (s : St K) (z q : K × K) : Prop :=
  ∀ d : HE, d.1 ∈ s.sid.live → ¬ OnSeg z q (dst s d) ∧ crs (dir (org s d) (dst s d)) (dir z q) ≠ 0

theorem generic_ex {s : St K} (hL : Links s ∅ ∅) (hP : Planar s) {x : K × K} (hx : Off s x) :
    ∃ q, (∀ d : HE, d.1 ∈ s.sid.live → (dst s d).1 < q.1) ∧ Generic s x q := by
  classical
  obtain ⟨T, hT⟩ := list_bound (0 :: (darts s).toList.map fun d => (dst s d).1 - x.1)
  obtain ⟨η, hη⟩ := list_bound (((darts s).toList.map fun d => ((dst s d).2 - x.2) / ((dst s d).1 - x.1)) ++
    (darts s).toList.map fun d => ((dst s d).2 - (org s d).2) / ((dst s d).1 - (org s d).1))
  have T0 : 0 < T := hT 0 List.mem_cons_self
  have hT' : ∀ d : HE, d.1 ∈ s.sid.live → (dst s d).1 - x.1 < T := fun d hd =>
    hT _ (List.mem_cons_of_mem _ (List.mem_map.2 ⟨d, Finset.mem_toList.2 (mem_darts.2 hd), rfl⟩))
  refine ⟨(x.1 + T, x.2 + η * T), fun d hd => by linarith [hT' d hd], fun d hd => ⟨?_, ?_⟩⟩
  · rintro ⟨t, t0, t1, ht⟩
    have e1 : (dst s d).1 - x.1 = t * T := by rw [ht]; simp [parametric, dir]
    have e2 : (dst s d).2 - x.2 = η * (t * T) := by rw [ht]; simp [parametric, dir]; ring
    rcases eq_or_lt_of_le t0 with h | h
    · refine hx d.1 hd ?_
      have hxd : x = dst s d := by rw [ht, ← h]; simp [parametric]
      rw [hxd]
      obtain ⟨e, v⟩ := d
      cases v
      · exact OnSeg.left _ _
      · exact OnSeg.right _ _
    · have hne : t * T ≠ 0 := (mul_pos h T0).ne'
      have := hη (((dst s d).2 - x.2) / ((dst s d).1 - x.1))
        (List.mem_append_left _ (List.mem_map.2 ⟨d, Finset.mem_toList.2 (mem_darts.2 hd), rfl⟩))
      rw [e1, e2, mul_div_assoc, div_self hne, mul_one] at this
      exact lt_irrefl _ this
  · intro h0
    have hne := ends_ne' hL hP hd
    simp only [crs, dir, add_sub_cancel_left] at h0
    have h1 : (dst s d).2 - (org s d).2 = η * ((dst s d).1 - (org s d).1) := by
      have : T * (η * ((dst s d).1 - (org s d).1) - ((dst s d).2 - (org s d).2)) = 0 := by linear_combination h0
      rcases mul_eq_zero.1 this with h | h
      · exact absurd h T0.ne'
      · linear_combination -h
    by_cases h2 : (dst s d).1 - (org s d).1 = 0
    · rw [h2, mul_zero] at h1
      exact hne (Prod.ext (by linarith) (by linarith))
    · have := hη (((dst s d).2 - (org s d).2) / ((dst s d).1 - (org s d).1))
        (List.mem_append_right _ (List.mem_map.2 ⟨d, Finset.mem_toList.2 (mem_darts.2 hd), rfl⟩))
      rw [h1, mul_div_assoc, div_self h2, mul_one] at this
      exact lt_irrefl _ this

/-- A path that is not parallel to a segment meets it once. -/
theorem Generic.once {s : St K} {z q : K × K} (h : Generic s z q) {e : Id} (he : e ∈ s.sid.live) {t u : K}
    (ht : OnSeg (s.xy (s.vtx (e, false))) (s.xy (s.vtx (e, true))) (parametric z (dir z q) t))
    (hu : OnSeg (s.xy (s.vtx (e, false))) (s.xy (s.vtx (e, true))) (parametric z (dir z q) u)) : t = u := by
  have hc := (h (e, true) he).2
  have e1 : org s (e, true) = s.xy (s.vtx (e, false)) := rfl
  have e2 : dst s (e, true) = s.xy (s.vtx (e, true)) := rfl
  rw [e1, e2] at hc
  obtain ⟨_, _, _, h1⟩ := ht
  obtain ⟨_, _, _, h2⟩ := hu
  have k1 := side_param (s.xy (s.vtx (e, false))) (s.xy (s.vtx (e, true))) ‹_›
  have k1 : side (s.xy (s.vtx (e, false))) (s.xy (s.vtx (e, true))) (parametric z (dir z q) t) = 0 := by rw [h1, side_param]
  have k2 : side (s.xy (s.vtx (e, false))) (s.xy (s.vtx (e, true))) (parametric z (dir z q) u) = 0 := by rw [h2, side_param]
  rw [side_add] at k1 k2
  have : (t - u) * crs (dir (s.xy (s.vtx (e, false))) (s.xy (s.vtx (e, true)))) (dir z q) = 0 := by linear_combination k1 - k2
  exact sub_eq_zero.1 ((mul_eq_zero.1 this).resolve_right hc)

/-- The first segment on the way. -/
theorem first_hit {s : St K} (hL : Links s ∅ ∅) (hP : Planar s) {z q : K × K} (hz : Off s z) (hG : Generic s z q)
    (hq : ∀ d : HE, d.1 ∈ s.sid.live → (dst s d).1 < q.1) (hne : ∃ e ∈ s.sid.live, ¬ SegApart s e z q) :
    ∃ (f : HE) (z2 : K × K), ¬ SegApart s f.1 z q ∧ Sees s f z ∧ Sees s (flip f) z2 ∧ Generic s z2 q ∧
      SegApart s f.1 z2 q ∧ ∀ e ∈ s.sid.live, ¬ SegApart s e z2 q → ¬ SegApart s e z q := by
  classical
  let on : Id → K × K → Prop := fun e r => OnSeg (s.xy (s.vtx (e, false))) (s.xy (s.vtx (e, true))) r
  let par : K → K × K := fun t => parametric z (dir z q) t
  let bad : Finset Id := s.sid.live.toFinset.filter fun e => ¬ SegApart s e z q
  have hbad : ∀ e, e ∈ bad ↔ e ∈ s.sid.live ∧ ∃ t, 0 ≤ t ∧ t ≤ 1 ∧ on e (par t) := by
    intro e
    simp only [bad, Finset.mem_filter, List.mem_toFinset]
    refine and_congr_right fun _ => ⟨fun h => ?_, fun h hA => ?_⟩
    · by_contra hc
      refine h fun r h1 h2 => ?_
      obtain ⟨t, t0, t1, rfl⟩ := h2
      exact hc ⟨t, t0, t1, h1⟩
    · obtain ⟨t, t0, t1, h1⟩ := h
      exact hA _ h1 ⟨t, t0, t1, rfl⟩
  let f : Id → K := fun e => if h : ∃ t, 0 ≤ t ∧ t ≤ 1 ∧ on e (par t) then h.choose else 0
  have hf : ∀ e ∈ bad, 0 ≤ f e ∧ f e ≤ 1 ∧ on e (par (f e)) := by
    intro e he
    have h := ((hbad e).1 he).2
    have : f e = h.choose := dif_pos h
    rw [this]
    exact h.choose_spec
  have hne' : bad.Nonempty := by
    obtain ⟨e, h1, h2⟩ := hne
    exact ⟨e, by simp only [bad, Finset.mem_filter, List.mem_toFinset]; exact ⟨h1, h2⟩⟩
  obtain ⟨e, heb, hmin⟩ := Finset.exists_min_image bad f hne'
  obtain ⟨t0, t1, hon⟩ := hf e heb
  have he := ((hbad e).1 heb).1
  set t := f e with htdef
  have t0' : 0 < t := by
    refine lt_of_le_of_ne t0 fun h0 => hz e he ?_
    have : par t = z := by rw [← h0]; simp [par, parametric]
    rw [← this]; exact hon
  have t1' : t < 1 := by
    refine lt_of_le_of_ne t1 fun h0 => ?_
    have hpq : par t = q := by
      rw [h0]; simp only [par, parametric, dir]; ext <;> ring
    rw [hpq] at hon
    obtain ⟨u, u0, u1, hu⟩ := hon
    have a := hq (e, false) he
    have b := hq (e, true) he
    have c : q.1 = (1 - u) * (dst s (e, false)).1 + u * (dst s (e, true)).1 := by
      rw [hu]; simp only [parametric, dir, dst]; ring
    have : 0 < (1 - u) * (q.1 - (dst s (e, false)).1) + u * (q.1 - (dst s (e, true)).1) := by
      rcases eq_or_lt_of_le u0 with rfl | hy
      · simpa using a
      · exact add_pos_of_nonneg_of_pos (mul_nonneg (by linarith) (by linarith)) (mul_pos hy (by linarith))
    have : (1 - u) * (q.1 - (dst s (e, false)).1) + u * (q.1 - (dst s (e, true)).1) = 0 := by linear_combination c
    linarith
  obtain ⟨u, u0, u1, hu⟩ := hon
  have hpar : OnSeg z q (par t) := ⟨t, t0, t1, rfl⟩
  have u0' : 0 < u := by
    refine lt_of_le_of_ne u0 fun h0 => (hG (e, false) he).1 ?_
    have : par t = dst s (e, false) := by rw [hu, ← h0]; simp [parametric, dst]
    rw [← this]; exact hpar
  have u1' : u < 1 := by
    refine lt_of_le_of_ne u1 fun h0 => (hG (e, true) he).1 ?_
    have : par t = dst s (e, true) := by rw [hu, h0]; simp only [parametric, dst, dir]; ext <;> ring
    rw [← this]; exact hpar
  have hd0 : onDart s (e, true) u = par t := hu.symm
  have hin : ∀ e' ∈ s.sid.live, e' ≠ e → SegApart s e' (par t) (par t) := by
    intro e' he' hne2
    rw [← hd0]
    exact hP.inner hL (d := (e, true)) he ⟨u0', u1'⟩ ⟨u0', u1'⟩ he' hne2
  have hbefore : ∀ e' ∈ s.sid.live, e' ≠ e → SegApart s e' (par t) z := by
    intro e' he' hne2 r h1 h2
    obtain ⟨y, y0, y1, rfl⟩ := h2.swap
    have hy : parametric z (dir z (par t)) y = par (y * t) := by
      simp only [par, parametric, dir]; ext <;> ring
    rw [hy] at h1
    have b0 : 0 ≤ y * t := mul_nonneg y0 t0
    have b1 : y * t ≤ t := by
      have := mul_le_mul_of_nonneg_right y1 t0
      linarith
    have hb : e' ∈ bad := (hbad e').2 ⟨he', y * t, b0, b1.trans t1, h1⟩
    have h3 := hmin e' hb
    have h4 : f e' = y * t := hG.once he' (hf e' hb).2.2 h1
    rw [h4] at h3
    rw [le_antisymm b1 h3] at h1
    exact hin e' he' hne2 _ h1 (OnSeg.left _ _)
  -- the side seen from `z`
  have hs0 : side (org s (e, true)) (dst s (e, true)) z + t * crs (dir (org s (e, true)) (dst s (e, true))) (dir z q) = 0 := by
    rw [← side_add]
    have : parametric z (dir z q) t = onDart s (e, true) u := hu
    rw [this]
    exact side_param ..
  have hc := (hG (e, true) he).2
  obtain ⟨d, hd1, hleft, τ, τ0, τ1, hτ, hcd⟩ : ∃ d : HE, d.1 = e ∧ 0 < side (org s d) (dst s d) z ∧ ∃ τ, 0 < τ ∧ τ < 1 ∧
      onDart s d τ = par t ∧ crs (dir (org s d) (dst s d)) (dir z q) < 0 := by
    have hflip : crs (dir (org s (e, false)) (dst s (e, false))) (dir z q) =
        -crs (dir (org s (e, true)) (dst s (e, true))) (dir z q) := by
      have h1 : org s (e, false) = dst s (e, true) := rfl
      have h2 : dst s (e, false) = org s (e, true) := rfl
      rw [h1, h2]; simp only [crs, dir]; ring
    rcases lt_or_gt_of_ne hc with h | h
    · refine ⟨(e, true), rfl, ?_, u, u0', u1', hd0, h⟩
      have := mul_neg_of_pos_of_neg t0' h
      linarith
    · refine ⟨(e, false), rfl, ?_, 1 - u, by linarith, by linarith, ?_, by linarith [hflip]⟩
      · have h3 := side_flip s (e, true) z
        have h4 : flip (e, true) = ((e, false) : HE) := rfl
        rw [h4] at h3
        rw [h3]
        have := mul_pos t0' h
        linarith
      · have h3 := onDart_flip s (e, true) (1 - u)
        have h4 : flip (e, true) = ((e, false) : HE) := rfl
        rw [h4, sub_sub_cancel] at h3
        rw [h3, hd0]
  obtain ⟨σ, σ0, hσ⟩ := apart_push (fun e => s.xy (s.vtx (e, false))) (fun e => s.xy (s.vtx (e, true))) (p := par t)
    (q := par t) (0, 0) (dir z q) (s.sid.live.filter fun e' => decide (e' ≠ e)) (by
      intro e' he'
      rw [List.mem_filter, decide_eq_true_iff] at he'
      exact hin e' he'.1 he'.2)
  set m := min σ ((1 - t) / 2) with hm
  have m0 : 0 < m := lt_min σ0 (by linarith)
  have m1 : t + m < 1 := by linarith [min_le_right σ ((1 - t) / 2)]
  have hz2 : parametric (par t) (dir z q) m = par (t + m) := by
    simp only [par, parametric]; ext <;> ring
  have hdir : ∀ r, parametric (par (t + m)) (dir (par (t + m)) q) r = par (t + m + r * (1 - (t + m))) := by
    intro r; simp only [par, parametric, dir]; ext <;> ring
  have hsub : ∀ r, OnSeg (par (t + m)) q r → OnSeg z q r := fun r hr =>
    OnSeg.sub ⟨t + m, by linarith, m1.le, rfl⟩ (OnSeg.right z q) hr
  refine ⟨d, par (t + m), ?_, ⟨hd1 ▸ he, hleft, τ, τ0, τ1, fun e' he' hne2 => ?_⟩, ⟨hd1 ▸ he, ?_, 1 - τ, by linarith, by linarith,
    fun e' he' hne2 => ?_⟩, fun k hk => ⟨fun h1 => (hG k hk).1 (hsub _ h1), ?_⟩, ?_, fun e' he' h1 h2 => h1 fun r h3 h4 =>
    h2 r h3 (hsub r h4)⟩
  · rw [hd1]
    exact fun hA => hA _ ⟨u, u0, u1, rfl⟩ (by rw [← hu]; exact hpar)
  · rw [hτ]
    exact hbefore e' he' (hd1 ▸ hne2)
  · rw [side_flip, ← hz2, ← hτ]
    have : side (org s d) (dst s d) (parametric (onDart s d τ) (dir z q) m) = m * crs (dir (org s d) (dst s d)) (dir z q) :=
      side_push ..
    rw [this, neg_pos]
    exact mul_neg_of_pos_of_neg m0 hcd
  · rw [onDart_flip, sub_sub_cancel, hτ, ← hz2]
    have hne3 : e' ≠ e := hd1 ▸ hne2
    have := hσ 0 le_rfl σ0.le m m0.le (min_le_left _ _) e' (by rw [List.mem_filter, decide_eq_true_iff]; exact ⟨he', hne3⟩)
    simpa [parametric] using this
  · have h1 : crs (dir (org s k) (dst s k)) (dir (par (t + m)) q) = (1 - (t + m)) * crs (dir (org s k) (dst s k)) (dir z q) := by
      simp only [crs, dir, par, parametric]; ring
    rw [h1]
    exact mul_ne_zero (by linarith) (hG k hk).2
  · rw [hd1]
    rintro r h1 ⟨y, y0, y1, rfl⟩
    rw [hdir] at h1
    have h2 : t = t + m + y * (1 - (t + m)) := hG.once he (by
      change on e (par t)
      rw [hu]
      exact ⟨u, u0, u1, rfl⟩) h1
    have h3 : 0 ≤ y * (1 - (t + m)) := mul_nonneg y0 (by linarith)
    linarith

/-- A property of points that holds beyond all segments, is the same along paths that meet no segment, and is carried from the
right to the left of every side. -/
theorem ray_ind {s : St K} (hL : Links s ∅ ∅) (hP : Planar s) {P : K × K → Prop}
    (far : ∀ x, (∀ d : HE, d.1 ∈ s.sid.live → (dst s d).1 < x.1) → P x)
    (move : ∀ x y, Clear s x y → P y → P x)
    (cross : ∀ d x y, Sees s d x → Sees s (flip d) y → P y → P x) (x : K × K) (hx : Off s x) : P x := by
  classical
  obtain ⟨q, hq, hG⟩ := generic_ex hL hP hx
  suffices h : ∀ n, ∀ z, Off s z → Generic s z q → (s.sid.live.toFinset.filter fun e => ¬ SegApart s e z q).card = n → P z from
    h _ x hx hG rfl
  intro n
  induction n using Nat.strong_induction_on with
  | _ n ih =>
    intro z hz hGz hn
    by_cases hne : ∃ e ∈ s.sid.live, ¬ SegApart s e z q
    · obtain ⟨f, z2, h1, h2, h3, h4, h5, h6⟩ := first_hit hL hP hz hGz hq hne
      refine cross f z z2 h2 h3 (ih _ ?_ z2 h3.off h4 rfl)
      rw [← hn]
      refine Finset.card_lt_card ⟨fun e he => ?_, fun hh => ?_⟩
      · rw [Finset.mem_filter, List.mem_toFinset] at he ⊢
        exact ⟨he.1, h6 e he.1 he.2⟩
      · have : f.1 ∈ s.sid.live.toFinset.filter fun e => ¬ SegApart s e z q := by
          rw [Finset.mem_filter, List.mem_toFinset]
          exact ⟨h2.live, h1⟩
        have := hh this
        rw [Finset.mem_filter] at this
        exact this.2 h5
    · refine move z q (fun e he => ?_) (far q hq)
      by_contra hA
      exact hne ⟨e, he, hA⟩

end
end Verif.Decomp
