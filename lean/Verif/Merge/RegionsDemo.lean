import Verif.Merge.Regions
import Verif.Merge.Demo
import Verif.Front.HomeDemo

/-! The polygons of two squares that overlap. -/

namespace Verif.Merge
open Verif.Decomp (St Id HE Off Planar ArgOk polyContains segPt between apartB apartB_ok offSegB offSegB_ok offB offB_ok)
open Verif.Front (Fr Cfg demoCfg wideB wideB_ok)

/-- The first two numbers are less than the others. -/
def below (a b c d : ℚ) : Bool := decide (max a b < min c d)

theorem below_ok {a b c d u v : ℚ} (h : below a b c d = true) (u0 : 0 ≤ u) (u1 : u ≤ 1) (v0 : 0 ≤ v) (v1 : v ≤ 1) :
    a + u * (b - a) ≠ c + v * (d - c) := by
  have h := of_decide_eq_true h
  have k1 : a + u * (b - a) ≤ max a b := by
    have := mul_le_mul_of_nonneg_left (le_max_right a b) u0
    have := mul_le_mul_of_nonneg_left (le_max_left a b) (sub_nonneg.2 u1)
    linarith
  have k2 : min c d ≤ c + v * (d - c) := by
    have := mul_le_mul_of_nonneg_left (min_le_right c d) v0
    have := mul_le_mul_of_nonneg_left (min_le_left c d) (sub_nonneg.2 v1)
    linarith
  exact ne_of_lt (lt_of_le_of_lt k1 (lt_of_lt_of_le h k2))

/-- Two segments do not meet, or they have a common end and other directions from it. -/
def pairB (s : St ℚ) (e e' : Id) : Bool :=
  let a := s.xy (s.vtx (e, false))
  let b := s.xy (s.vtx (e, true))
  let c := s.xy (s.vtx (e', false))
  let d := s.xy (s.vtx (e', true))
  apartB a b c d || below a.1 b.1 c.1 d.1 || below c.1 d.1 a.1 b.1 || below a.2 b.2 c.2 d.2 || below c.2 d.2 a.2 b.2 ||
    [false, true].any fun v => [false, true].any fun v' => decide (s.vtx (e, v) = s.vtx (e', v')) &&
      let z := s.xy (s.vtx (e, v))
      let x := s.xy (s.vtx (e, !v))
      let y := s.xy (s.vtx (e', !v'))
      (decide ((x.1 - z.1) * (y.2 - z.2) - (x.2 - z.2) * (y.1 - z.1) ≠ 0) || decide ((x.1 - z.1) * (y.1 - z.1) + (x.2 - z.2) * (y.2 - z.2) < 0))

theorem segPt_from (s : St ℚ) (e : Id) (v : Bool) {u : ℚ} (u0 : 0 ≤ u) (u1 : u ≤ 1) :
    ∃ w, 0 ≤ w ∧ segPt s e u = between (s.xy (s.vtx (e, v))) (s.xy (s.vtx (e, !v))) w := by
  cases v
  · exact ⟨u, u0, rfl⟩
  · refine ⟨1 - u, by linarith, ?_⟩
    simp only [segPt, between, Bool.not_true, Prod.mk.injEq]
    constructor <;> ring

theorem pairB_ok {s : St ℚ} {e e' : Id} (h : pairB s e e' = true) {u u' : ℚ} (u0 : 0 ≤ u) (u1 : u ≤ 1) (v0 : 0 ≤ u') (v1 : u' ≤ 1)
    (hm : segPt s e u = segPt s e' u') : ∃ v v', s.vtx (e, v) = s.vtx (e', v') ∧ s.xy (s.vtx (e, v)) = segPt s e u := by
  have hm1 := congrArg Prod.fst hm
  have hm2 := congrArg Prod.snd hm
  simp only [segPt, between] at hm1 hm2
  simp only [pairB, Bool.or_eq_true] at h
  rcases h with ((((h | h) | h) | h) | h) | h
  · exact absurd ⟨u', v0, v1, hm⟩ (apartB_ok h (segPt s e u) ⟨u, u0, u1, rfl⟩)
  · exact absurd hm1 (below_ok h u0 u1 v0 v1)
  · exact absurd hm1.symm (below_ok h v0 v1 u0 u1)
  · exact absurd hm2 (below_ok h u0 u1 v0 v1)
  · exact absurd hm2.symm (below_ok h v0 v1 u0 u1)
  · obtain ⟨v, _, h⟩ := List.any_eq_true.1 h
    obtain ⟨v', _, h⟩ := List.any_eq_true.1 h
    simp only [Bool.and_eq_true, Bool.or_eq_true, decide_eq_true_eq] at h
    obtain ⟨hv, h⟩ := h
    refine ⟨v, v', hv, ?_⟩
    obtain ⟨w, w0, hw⟩ := segPt_from s e v u0 u1
    obtain ⟨w', w0', hw'⟩ := segPt_from s e' v' v0 v1
    rw [← hv] at hw'
    rw [hw, hw'] at hm
    rw [hw]
    generalize s.xy (s.vtx (e, v)) = z at *
    generalize s.xy (s.vtx (e, !v)) = x at *
    generalize s.xy (s.vtx (e', !v')) = y at *
    simp only [between, Prod.mk.injEq] at hm
    obtain ⟨k1, k2⟩ := hm
    have hw0 : w = 0 := by
      rcases h with h | h
      · have : w * ((x.1 - z.1) * (y.2 - z.2) - (x.2 - z.2) * (y.1 - z.1)) = 0 := by
          linear_combination (y.2 - z.2) * k1 - (y.1 - z.1) * k2
        exact (mul_eq_zero.1 this).resolve_right h
      · have k : w * ((x.1 - z.1) * (y.1 - z.1) + (x.2 - z.2) * (y.2 - z.2)) = w' * ((y.1 - z.1) * (y.1 - z.1) + (y.2 - z.2) * (y.2 - z.2)) := by
          linear_combination (y.1 - z.1) * k1 + (y.2 - z.2) * k2
        have k3 : 0 ≤ w' * ((y.1 - z.1) * (y.1 - z.1) + (y.2 - z.2) * (y.2 - z.2)) :=
          mul_nonneg w0' (add_nonneg (mul_self_nonneg _) (mul_self_nonneg _))
        by_contra hne
        have := mul_neg_of_pos_of_neg (lt_of_le_of_ne w0 (Ne.symm hne)) h
        linarith
    subst hw0
    simp [between]

/-- Test for `Planar`. -/
def planarB (s : St ℚ) : Bool :=
  decide (∀ p ∈ s.pid.live, ∀ q ∈ s.pid.live, s.xy p = s.xy q → p = q) &&
  (s.pid.live.all fun p => s.sid.live.all fun e => decide (s.vtx (e, false) = p) || decide (s.vtx (e, true) = p) ||
    offSegB (s.xy (s.vtx (e, false))) (s.xy (s.vtx (e, true))) (s.xy p)) &&
  s.sid.live.all fun e => s.sid.live.all fun e' => decide (e = e') || pairB s e e'

theorem planarB_ok {s : St ℚ} (h : planarB s = true) : Planar s := by
  simp only [planarB, Bool.and_eq_true, decide_eq_true_eq] at h
  obtain ⟨⟨h1, h2⟩, h3⟩ := h
  refine ⟨h1, fun p hp e he u u0 u1 hh => ?_, fun e he e' he' hne u u' u0 u1 v0 v1 hh => ?_⟩
  · have := List.all_eq_true.1 (List.all_eq_true.1 h2 p hp) e he
    simp only [Bool.or_eq_true, decide_eq_true_eq] at this
    rcases this with (k | k) | k
    · exact ⟨false, k⟩
    · exact ⟨true, k⟩
    · exact absurd ⟨u, u0, u1, hh⟩ (offSegB_ok k)
  · have := List.all_eq_true.1 (List.all_eq_true.1 h3 e he) e' he'
    simp only [Bool.or_eq_true, decide_eq_true_eq] at this
    exact pairB_ok (this.resolve_left hne) u0 u1 v0 v1 hh

def fineB (g : Log ℚ) : Bool := g.states.all fun s => planarB s && wideB s

theorem fineB_ok {g : Log ℚ} (h : fineB g = true) : Fine demoCfg g := fun s hs => by
  have := List.all_eq_true.1 h s hs
  rw [Bool.and_eq_true] at this
  exact ⟨planarB_ok this.1, wideB_ok this.2⟩

/-- The hypotheses of C179 hold for two squares that overlap; the geometry of the configuration is fit too. The polygon 1 of the first
square is divided into 1 and the common part 3. -/
theorem regions_squares : ArgOk demoCfg.geo ∧ 0 < demoCfg.geo.eps ∧ Nums demoCfg mergeRange (1 / 1000) ∧
    ∃ so f m g f', Given mergeRange so ∧ Common demoCfg mergeRange f ∧ intersectSingle demoCfg (1 / 1000) so f = .ok (m, g, f') ∧
      Fine demoCfg g ∧ f.dec.qid.live = [0, 1] ∧ f'.dec.qid.live = [0, 1, 2, 3] ∧ f'.dec.qid.live.map (root m.self2) = [0, 1, 0, 1] ∧
      Off f'.dec (7, 7) ∧ polyContains f'.dec 3 (7, 7) = .ok true ∧ polyContains f.dec 1 (7, 7) = .ok true ∧
      Off f'.dec (12, 12) ∧ polyContains f'.dec 2 (12, 12) = .ok true ∧ polyContains f.dec 0 (12, 12) = .ok true := by
  refine ⟨Verif.Decomp.demo_arg, by norm_num [demoCfg, Verif.Decomp.demo], merge_nums, ?_⟩
  have : (match intersectSingle demoCfg (1 / 1000) (made (square (0, 0) 10)).dec (Verif.Front.init mergeRange.inf mergeRange.rt2 (1 / 100)) with
    | .ok (_, g1, f) => (match intersectSingle demoCfg (1 / 1000) (made (square (5, 5) 10)).dec f with
      | .ok (m, g, f') => fineB g1 && fineB g && offB f'.dec (7, 7) && offB f'.dec (12, 12) && decide (
          givenTest (made (square (0, 0) 10)).dec ∧ givenTest (made (square (5, 5) 10)).dec ∧
          f.dec.qid.live = [0, 1] ∧ f'.dec.qid.live = [0, 1, 2, 3] ∧ f'.dec.qid.live.map (root m.self2) = [0, 1, 0, 1] ∧
          polyContains f'.dec 3 (7, 7) = .ok true ∧ polyContains f.dec 1 (7, 7) = .ok true ∧
          polyContains f'.dec 2 (12, 12) = .ok true ∧ polyContains f.dec 0 (12, 12) = .ok true)
      | .error _ => false)
    | .error _ => false) = true := by decide +kernel
  split at this
  · next m1 g1 f h1 =>
    split at this
    · next m g f' h2 =>
      simp only [Bool.and_eq_true, decide_eq_true_eq] at this
      obtain ⟨⟨⟨⟨a1, a2⟩, a3⟩, a4⟩, b1, b2, b3, b4, b5, b6, b7, b8, b9⟩ := this
      exact ⟨_, f, m, g, f', ⟨b2.1, b2.2.1, b2.2.2⟩, .step (.empty (by norm_num [mergeRange])) merge_nums ⟨b1.1, b1.2.1, b1.2.2⟩ h1 (fineB_ok a1), h2,
        fineB_ok a2, b3, b4, b5, offB_ok a3, b6, b7, offB_ok a4, b8, b9⟩
    · cases this
  · cases this

end Verif.Merge
