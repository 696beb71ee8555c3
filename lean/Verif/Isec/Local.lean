import Verif.Isec.Model
import Verif.Spline.Geom
/-! Local evaluation on closed knot intervals. The intersection code evaluates at both ends of a knot interval with the
functions of that interval, while `find_knot_interval` would take the next one. -/
namespace Verif.Isec
open Verif.Spline Finset

set_option linter.unusedSectionVars false
variable {K : Type} [Field K] [LinearOrder K] [IsStrictOrderedRing K]

/-- Inner knots are repeated at most `degree` times (the curve or surface is continuous). -/
def Inner (B : Basis K) : Prop := ∀ i, 0 < i → i < B.size → B.k i < B.k (i + B.degree)

/-- A function vanishes at the first knot of its support unless that knot is repeated more than `degree` times. -/
theorem basisFn_start (k : Nat → K) (hk : Monotone k) (t : K) : ∀ d i, t ≤ k i → t < k (i + (d + 1)) →
    basisFn k (d + 1) i t = 0 := by
  intro d
  have first : ∀ d i, t ≤ k i → (t - k i) * basisFn k d i t = 0 := by
    intro d i h
    rcases lt_or_eq_of_le h with h | h
    · rw [basisFn_zero_out _ hk _ _ _ (Or.inl h), mul_zero]
    · rw [h, sub_self, zero_mul]
  induction d with
  | zero =>
    intro i h1 h2
    rw [basisFn_succ, basisFn_zero_out k hk t 0 (i + 1) (Or.inl h2), mul_zero, add_zero, div_mul_eq_mul_div, first 0 i h1, zero_div]
  | succ d ih =>
    intro i h1 h2
    rw [basisFn_succ, ih (i + 1) (le_trans h1 (hk (by omega))) (lt_of_lt_of_le h2 (hk (by omega))), mul_zero, add_zero,
      div_mul_eq_mul_div, first _ i h1, zero_div]

/-- On the closed knot interval `r` all functions but those of the window of `r` vanish. -/
theorem out_zero_closed {B : Basis K} (hB : B.Valid) (hd : 0 < B.degree) (hI : Inner B) {r : Nat} (hr : r < B.nIntervals) {t : K}
    (h1 : B.k (r + B.degree) ≤ t) (h2 : t ≤ B.k (r + B.degree + 1)) {i : Nat} (his : i < B.size)
    (hi : i < r ∨ r + B.degree < i) : B.val i t = 0 := by
  have hse := hB.size_eq
  have hie := hB.nInt_eq
  rw [← kx_eq B (by omega)] at h1 h2
  have hhi : t ≤ B.hi := le_trans h2 (hB.kx_le_hi _)
  rcases lt_or_eq_of_le hhi with h | h
  · unfold Basis.val
    rw [if_neg (by rintro ⟨_, e⟩; exact absurd e h.ne)]
    rcases hi with hi | hi
    · exact basisFn_zero_out _ hB.mono _ _ _ (Or.inr (le_trans (hB.mono (by omega)) h1))
    · obtain ⟨p, hp⟩ : ∃ p, B.degree = p + 1 := ⟨B.degree - 1, by omega⟩
      have hk : t ≤ B.kx i := le_trans h2 (hB.mono (by omega))
      have hlt : t < B.kx (i + (p + 1)) := by
        have := hI i (by omega) his
        rw [hp, ← kx_eq B (by omega), ← kx_eq B (by omega)] at this
        exact lt_of_le_of_lt hk this
      rw [hp]
      exact basisFn_start _ hB.mono _ _ _ hk hlt
  · subst h
    rw [hB.eval_hi]
    rw [if_neg]
    rintro rfl
    rcases hi with hi | hi
    · omega
    · have := hI (B.size - 1) (by omega) (by omega)
      rw [hB.k_stop (i := B.size - 1 + B.degree) (by omega) (by omega)] at this
      have h3 : B.kx (r + B.degree + 1) ≤ B.kx (B.size - 1) := hB.mono (by omega)
      rw [kx_eq B (i := B.size - 1) (by omega)] at h3
      exact absurd (le_trans h2 h3) (not_le.2 this)

/-- A weighted sum over the window of `r` is the same as over the window `find_knot_interval` picks. -/
theorem window_eq {B : Basis K} (hB : B.Valid) (hd : 0 < B.degree) (hI : Inner B) {r : Nat} (hr : r < B.nIntervals) {t : K}
    (h1 : B.k (r + B.degree) ≤ t) (h2 : t ≤ B.k (r + B.degree + 1)) {r0 : Nat} (hf : B.findInterval t = .ok r0)
    (c : Nat → K) : ∑ j ∈ range (B.degree + 1), B.val (r0 + j) t * c (r0 + j) =
      ∑ j ∈ range (B.degree + 1), B.val (r + j) t * c (r + j) := by
  have hse := hB.size_eq
  have hie := hB.nInt_eq
  have hlo : B.lo ≤ t := by
    refine le_trans ?_ h1
    rw [← hB.kx_lo (le_refl B.degree), ← kx_eq B (i := r + B.degree) (by omega)]
    exact hB.mono (by omega)
  have hhi : t ≤ B.hi := by
    refine le_trans h2 ?_
    rw [← kx_eq B (by omega)]
    exact hB.kx_le_hi _
  obtain ⟨r', hf', hr', a1, a2, a3⟩ := hB.find ⟨hlo, hhi⟩
  rw [hf] at hf'
  cases hf'
  have e1 := hB.full_sum hr' a1 a2 a3 hhi c
  have e2 : ∑ i ∈ range B.size, c i * B.val i t = ∑ j ∈ range (B.degree + 1), c (r + j) * B.val (r + j) t := by
    rw [← sum_shift (fun i => c i * B.val i t)]
    symm
    apply sum_subset
    · intro i hi
      have := mem_Ico.1 hi
      exact mem_range.2 (by omega)
    · intro i hi hni
      have h := mem_range.1 hi
      rw [out_zero_closed hB hd hI hr h1 h2 h ?_, mul_zero]
      by_contra hc
      exact hni (mem_Ico.2 (by omega))
  rw [sum_congr rfl (fun j _ => mul_comm _ _), ← e1, e2]
  exact sum_congr rfl (fun j _ => mul_comm _ _)

/-- Points of a closed knot interval are in the domain. -/
theorem dom_of_interval {B : Basis K} (hB : B.Valid) {r : Nat} (hr : r < B.nIntervals) {t : K}
    (h1 : B.k (r + B.degree) ≤ t) (h2 : t ≤ B.k (r + B.degree + 1)) : B.Dom t := by
  have hse := hB.size_eq
  have hie := hB.nInt_eq
  constructor
  · refine le_trans ?_ h1
    rw [← hB.kx_lo (le_refl B.degree), ← kx_eq B (i := r + B.degree) (by omega)]
    exact hB.mono (by omega)
  · refine le_trans h2 ?_
    rw [← kx_eq B (by omega)]
    exact hB.kx_le_hi _

/-! ### What a point of a curve or surface is, by the evaluation methods -/

/-- `S.eval(u, v)` returns the three numbers `x`. -/
def SurfAt (S : Surface K) (u v : K) (x : V3 K) : Prop :=
  ∀ c4 rtol, S.eval c4 rtol u v = .ok [some (x 0), some (x 1), some (x 2)]

/-- `C.eval(t)` returns the three numbers `x`. -/
def CurveAt (C : Curve K) (t : K) (x : V3 K) : Prop :=
  ∀ c4 rtol, C.eval c4 rtol t = .ok [some (x 0), some (x 1), some (x 2)]

theorem range3 {α : Type} (f : Nat → α) : (List.range 3).map f = [f 0, f 1, f 2] := rfl

/-- The point of the surface by the functions of a closed patch. -/
theorem surfAt_local {S : Surface K} (hu : S.ub.Valid) (hv : S.vb.Valid) (hr : S.rational = false) (hdim : S.dim = 3)
    (du : 0 < S.ub.degree) (dv : 0 < S.vb.degree) (Iu : Inner S.ub) (Iv : Inner S.vb) {iu iv : Nat}
    (hiu : iu < S.ub.nIntervals) (hiv : iv < S.vb.nIntervals) {u v : K}
    (u1 : S.ub.k (iu + S.ub.degree) ≤ u) (u2 : u ≤ S.ub.k (iu + S.ub.degree + 1))
    (v1 : S.vb.k (iv + S.vb.degree) ≤ v) (v2 : v ≤ S.vb.k (iv + S.vb.degree + 1)) :
    SurfAt S u v (vec fun d => ∑ j ∈ range (S.vb.degree + 1), S.vb.val (iv + j) v *
          ∑ i ∈ range (S.ub.degree + 1), S.ub.val (iu + i) u * S.pole (iu + i) (iv + j) d) := by
  intro c4 rtol
  obtain ⟨ru, rv, fu, fv, _, _, _, _, he⟩ := Surface.eval_eq hu hv hr (dom_of_interval hu hiu u1 u2)
    (dom_of_interval hv hiv v1 v2) c4 rtol
  rw [he, hdim]
  have e : ∀ d, (∑ j ∈ range (S.vb.degree + 1), S.vb.val (rv + j) v *
      ∑ i ∈ range (S.ub.degree + 1), S.ub.val (ru + i) u * S.pole (ru + i) (rv + j) d) =
      ∑ j ∈ range (S.vb.degree + 1), S.vb.val (iv + j) v *
          ∑ i ∈ range (S.ub.degree + 1), S.ub.val (iu + i) u * S.pole (iu + i) (iv + j) d := by
    intro d
    have a := fun j => window_eq hu du Iu hiu u1 u2 fu (fun i => S.pole i j d)
    rw [sum_congr rfl (fun j _ => by rw [a])]
    exact window_eq hv dv Iv hiv v1 v2 fv
      (fun j => ∑ i ∈ range (S.ub.degree + 1), S.ub.val (iu + i) u * S.pole (iu + i) j d)
  rw [range3, e, e, e]
  rfl

/-- The point of the curve by the functions of a closed knot interval. -/
theorem curveAt_local {C : Curve K} (hB : C.basis.Valid) (hr : C.rational = false) (hdim : C.dim = 3)
    (hd : 0 < C.basis.degree) (hI : Inner C.basis) {it : Nat} (hit : it < C.basis.nIntervals) {t : K}
    (h1 : C.basis.k (it + C.basis.degree) ≤ t) (h2 : t ≤ C.basis.k (it + C.basis.degree + 1)) :
    CurveAt C t (vec fun d => ∑ j ∈ range (C.basis.degree + 1), C.basis.val (it + j) t * C.pole (it + j) d) := by
  intro c4 rtol
  obtain ⟨r, fr, _, _, he⟩ := Curve.eval_eq hB rfl (dom_of_interval hB hit h1 h2) (C := C) c4 rtol
  rw [he, hdim]
  have e : ∀ d, (∑ j ∈ range (C.basis.degree + 1), C.basis.val (r + j) t * C.pole (r + j) d) =
      ∑ j ∈ range (C.basis.degree + 1), C.basis.val (it + j) t * C.pole (it + j) d :=
    fun d => window_eq hB hd hI hit h1 h2 fr (fun j => C.pole j d)
  simp only [hr, Bool.false_eq_true, if_false]
  rw [range3, e, e, e]
  rfl

end Verif.Isec
