import Verif.Isec.Local
import Mathlib.Tactic.FinCases
/-! Property theorems about `IsecCurveSurf.get_intersection` (C57). -/
namespace Verif.Isec
open Verif.Spline Finset

set_option linter.unusedSectionVars false
variable {K : Type} [Field K] [LinearOrder K] [IsStrictOrderedRing K]

/-- A continuous quadratic surface in space, not rational. -/
structure GoodSurf (S : Surface K) : Prop where
  hu : S.ub.Valid
  hv : S.vb.Valid
  du : S.ub.degree = 2
  dv : S.vb.degree = 2
  iu : Inner S.ub
  iv : Inner S.vb
  rat : S.rational = false
  dim : S.dim = 3

/-- A continuous quadratic curve in space, not rational. -/
structure GoodCurve (C : Curve K) : Prop where
  hb : C.basis.Valid
  deg : C.basis.degree = 2
  inner : Inner C.basis
  rat : C.rational = false
  dim : C.dim = 3

/-- `p` lies in the closed cell of patch `iu, iv` and curve interval `it`. -/
def InCell (S : Surface K) (C : Curve K) (iu iv it : Nat) (p : V3 K) : Prop :=
  (S.ub.k (iu + 2) ≤ p 0 ∧ p 0 ≤ S.ub.k (iu + 3)) ∧ (S.vb.k (iv + 2) ≤ p 1 ∧ p 1 ≤ S.vb.k (iv + 3)) ∧
    (C.basis.k (it + 2) ≤ p 2 ∧ p 2 ≤ C.basis.k (it + 3))

/-- `eval_diff` returns a number at every knot of multiplicity at most the degree. -/
theorem evalDiff_some {B : Basis K} (hB : B.Valid) (hd : 0 < B.degree) (hI : Inner B) {i : Nat} (hi : i < B.size) (t : K) :
    ∃ D, B.evalDiff i t = .ok (some D) := by
  have hse := hB.size_eq
  have hl := hB.len
  have a1 : 0 < i → B.k (i + B.degree) - B.k i ≠ 0 := fun h => (sub_pos.2 (hI i h hi)).ne'
  have a2 : i < B.size - 1 → B.k (i + B.degree + 1) - B.k (i + 1) ≠ 0 := by
    intro h
    have := hI (i + 1) (by omega) (by omega)
    rw [show i + 1 + B.degree = i + B.degree + 1 by omega] at this
    exact (sub_pos.2 this).ne'
  unfold Basis.evalDiff
  rw [if_pos hi]
  simp only
  split
  · rename_i h
    rw [npDiv, if_neg (a2 (by omega))]
    exact ⟨_, rfl⟩
  · split
    · rename_i h
      rw [npDiv, if_neg (a1 (by omega))]
      exact ⟨_, rfl⟩
    · by_cases h1 : 0 < i <;> by_cases h2 : i < B.size - 1 <;> simp only [h1, h2, if_true, if_false, npDiv]
      · rw [if_neg (a1 h1), if_neg (a2 h2)]; exact ⟨_, rfl⟩
      · rw [if_neg (a1 h1)]; exact ⟨_, rfl⟩
      · rw [if_neg (a2 h2)]; exact ⟨_, rfl⟩
      · exact ⟨_, rfl⟩

theorem mapM_some {α β : Type} (f : α → Except Verif.Spline.Err (Option β)) (l : List α)
    (h : ∀ a ∈ l, ∃ b, f a = .ok (some b)) : ∃ r, l.mapM f = .ok r ∧ ∃ r' : List β, r = r'.map some := by
  induction l with
  | nil => exact ⟨[], rfl, [], rfl⟩
  | cons a l ih =>
    obtain ⟨b, hb⟩ := h a (by simp)
    obtain ⟨r, hr, r', hr'⟩ := ih fun x hx => h x (by simp [hx])
    refine ⟨some b :: r, ?_, b :: r', by simp [hr']⟩
    rw [List.mapM_cons, hb, hr]
    rfl

theorem noNan_some (l : List K) : noNan (l.map some) = .ok l := by
  have : (l.map some).mapM (id : Option K → Option K) = some l := by
    induction l with
    | nil => rfl
    | cons a l ih => rw [List.map_cons, List.mapM_cons, ih]; rfl
  unfold noNan
  rw [this]

theorem evalDiffVec_some {B : Basis K} (hB : B.Valid) (hd : 0 < B.degree) (hI : Inner B) {r : Nat} (hr : r < B.nIntervals)
    (t : K) : ∃ l : List K, B.evalDiffVector r t = .ok (l.map some) := by
  have hie := hB.nInt_eq
  obtain ⟨r', h, l, hl⟩ := mapM_some (fun j => B.evalDiff (r + j) t) (List.range (B.degree + 1)) (fun j hj =>
    evalDiff_some hB hd hI (by have := List.mem_range.1 hj; omega) t)
  exact ⟨l, by rw [← hl]; exact h⟩

theorem width_of_dim {S : Surface K} (hr : S.rational = false) (hd : S.dim = 3) :
    ((S.poles.headD []).headD []).length = 3 := by
  unfold Surface.dim at hd
  rw [hr] at hd
  simpa using hd

theorem cwidth_of_dim {C : Curve K} (hr : C.rational = false) (hd : C.dim = 3) : (C.poles.headD []).length = 3 := by
  unfold Curve.dim at hd
  rw [hr] at hd
  simpa using hd

/-- Inside the cell the coordinates are the points of the surface and of the curve, and nothing raises. -/
theorem coordinates_spec {S : Surface K} {C : Curve K} (hS : GoodSurf S) (hC : GoodCurve C) {iu iv it : Nat}
    (hiu : iu < S.ub.nIntervals) (hiv : iv < S.vb.nIntervals) (hit : it < C.basis.nIntervals) {p : V3 K}
    (hp : InCell S C iu iv it p) : ∃ J x1 x2, jacobianAndCoordinates S C p iu iv it = .ok (J, x1, x2) ∧
      SurfAt S (p 0) (p 1) x1 ∧ CurveAt C (p 2) x2 := by
  obtain ⟨⟨u1, u2⟩, ⟨v1, v2⟩, ⟨t1, t2⟩⟩ := hp
  obtain ⟨lu, elu⟩ := evalDiffVec_some hS.hu (by rw [hS.du]; omega) hS.iu hiu (p 0)
  obtain ⟨lv, elv⟩ := evalDiffVec_some hS.hv (by rw [hS.dv]; omega) hS.iv hiv (p 1)
  obtain ⟨lt, elt⟩ := evalDiffVec_some hC.hb (by rw [hC.deg]; omega) hC.inner hit (p 2)
  have s1 := surfAt_local hS.hu hS.hv hS.rat hS.dim (by rw [hS.du]; omega) (by rw [hS.dv]; omega) hS.iu hS.iv hiu hiv
    (u := p 0) (v := p 1) (by rw [hS.du]; exact u1) (by rw [hS.du]; exact u2) (by rw [hS.dv]; exact v1)
    (by rw [hS.dv]; exact v2)
  have s2 := curveAt_local hC.hb hC.rat hC.dim (by rw [hC.deg]; omega) hC.inner hit (t := p 2) (by rw [hC.deg]; exact t1)
    (by rw [hC.deg]; exact t2)
  unfold jacobianAndCoordinates
  rw [hS.hu.evalVec hiu, hS.hv.evalVec hiv, hC.hb.evalVec hit, elu, elv, elt]
  simp only [liftE, bind, Except.bind]
  rw [if_neg]
  · simp only [noNan_some]
    refine ⟨_, _, _, rfl, ?_, ?_⟩
    · convert s1 using 3 with d
      exact inner2_eq _ _ _ _ _ _ _
    · convert s2 using 3 with d
      have e3 : List.range 3 = List.range (C.basis.degree + 1) := by rw [hC.deg]
      rw [e3]
      exact inner_range _ _ _
  · rintro (h | h | h | h | h)
    · exact h hS.du
    · exact h hS.dv
    · exact h hC.deg
    · exact h (width_of_dim hS.rat hS.dim)
    · exact h (cwidth_of_dim hC.rat hC.dim)

theorem knot_eq {B : Basis K} {i : Nat} (h : i < B.knots.length) : knot B i = .ok (B.k i) := by
  unfold knot Basis.k
  rw [List.getD_eq_getElem?_getD, List.getElem?_eq_getElem h]
  rfl

theorem clip_mem {lo hi x : V3 K} (h : ∀ i, lo i ≤ hi i) (i : Fin 3) : lo i ≤ clip lo hi x i ∧ clip lo hi x i ≤ hi i := by
  unfold clip
  exact ⟨le_min (le_max_right _ _) (h i), min_le_right _ _⟩

/-- The loop keeps the parameters between the bounds; its local variables afterwards come from one evaluation inside the
bounds, and if that one was close the parameters are still there. -/
theorem newtonLoop_spec (solve : Solver K) (F : V3 K → Except Err ((Fin 3 → Fin 3 → K) × V3 K × V3 K)) (lo hi : V3 K) (tol : K)
    (hlo : ∀ i, lo i ≤ hi i) : ∀ n x last y out, newtonLoop solve F lo hi tol n x last = .ok (y, out) →
      (∀ i, lo i ≤ x i ∧ x i ≤ hi i) → (∀ i, lo i ≤ y i ∧ y i ≤ hi i) ∧ (n = 0 → out = last) ∧
      (0 < n → ∃ p J x1 x2, (∀ i, lo i ≤ p i ∧ p i ≤ hi i) ∧ F p = .ok (J, x1, x2) ∧
        out = some (x1, x2, normLe (fun i => x1 i - x2 i) tol) ∧
        (normLt (fun i => x1 i - x2 i) tol = true → y = p)) := by
  intro n
  induction n with
  | zero =>
    intro x last y out h hx
    unfold newtonLoop at h
    cases h
    exact ⟨hx, fun _ => rfl, fun h => absurd h (by omega)⟩
  | succ n ih =>
    intro x last y out h hx
    unfold newtonLoop at h
    cases hF : F x with
    | error e => rw [hF] at h; simp [bind, Except.bind] at h
    | ok r =>
      obtain ⟨J, x1, x2⟩ := r
      rw [hF] at h
      simp only [bind, Except.bind] at h
      split at h
      · rename_i hlt
        cases h
        exact ⟨hx, fun h => absurd h (by omega), fun _ => ⟨x, J, x1, x2, hx, hF, rfl, fun _ => rfl⟩⟩
      · rename_i hlt
        cases hs : solve J (fun i => x1 i - x2 i) with
        | error e => rw [hs] at h; simp at h
        | ok s =>
          rw [hs] at h
          simp only at h
          obtain ⟨a, b, c⟩ := ih _ _ _ _ h (clip_mem hlo)
          refine ⟨a, fun h => absurd h (by omega), fun _ => ?_⟩
          rcases Nat.eq_zero_or_pos n with h0 | h0
          · exact ⟨x, J, x1, x2, hx, hF, b h0, fun h => absurd h hlt⟩
          · exact c h0

/-- What `get_intersection` does once the bounds are read. -/
theorem getIntersection_eq (solve : Solver K) {S : Surface K} {C : Curve K} (hS : GoodSurf S) (hC : GoodCurve C)
    {iu iv it : Nat} (hiu : iu < S.ub.nIntervals) (hiv : iv < S.vb.nIntervals) (hit : it < C.basis.nIntervals) (maxIt : Nat)
    (tol : K) :
    let lo : V3 K := ![S.ub.k (iu + 2), S.vb.k (iv + 2), C.basis.k (it + 2)]
    let hi : V3 K := ![S.ub.k (iu + 3), S.vb.k (iv + 3), C.basis.k (it + 3)]
    getIntersection solve S C iu iv it maxIt tol =
      (newtonLoop solve (fun x => jacobianAndCoordinates S C x iu iv it) lo hi tol maxIt (fun i => (lo i + hi i) / 2) none).bind
        fun r => match r.2 with
          | none => .error .unboundLocalError
          | some (x1, x2, conv) => .ok ⟨r.1, conv, fun i => (x1 i + x2 i) / 2⟩ := by
  have e1 := hS.hu.size_eq
  have e2 := hS.hu.nInt_eq
  have e3 := hS.hv.size_eq
  have e4 := hS.hv.nInt_eq
  have e5 := hC.hb.size_eq
  have e6 := hC.hb.nInt_eq
  rw [hS.du] at e1 e2
  rw [hS.dv] at e3 e4
  rw [hC.deg] at e5 e6
  unfold getIntersection
  rw [knot_eq (by omega), knot_eq (by omega), knot_eq (by omega), knot_eq (by omega), knot_eq (by omega), knot_eq (by omega)]
  simp only [bind, Except.bind]
  rfl

theorem cell_iff (S : Surface K) (C : Curve K) (iu iv it : Nat) (p : V3 K) : InCell S C iu iv it p ↔
    ∀ i, (![S.ub.k (iu + 2), S.vb.k (iv + 2), C.basis.k (it + 2)] : V3 K) i ≤ p i ∧
      p i ≤ (![S.ub.k (iu + 3), S.vb.k (iv + 3), C.basis.k (it + 3)] : V3 K) i := by
  unfold InCell
  constructor
  · rintro ⟨h0, h1, h2⟩ i
    fin_cases i
    · exact h0
    · exact h1
    · exact h2
  · intro h
    exact ⟨h 0, h 1, h 2⟩

/-- The bounds of a cell are in order. -/
theorem cell_le {S : Surface K} {C : Curve K} (hS : GoodSurf S) (hC : GoodCurve C) {iu iv it : Nat}
    (hiu : iu < S.ub.nIntervals) (hiv : iv < S.vb.nIntervals) (hit : it < C.basis.nIntervals) (i : Fin 3) :
    (![S.ub.k (iu + 2), S.vb.k (iv + 2), C.basis.k (it + 2)] : V3 K) i ≤
      (![S.ub.k (iu + 3), S.vb.k (iv + 3), C.basis.k (it + 3)] : V3 K) i := by
  have e1 := hS.hu.size_eq
  have e2 := hS.hu.nInt_eq
  have e3 := hS.hv.size_eq
  have e4 := hS.hv.nInt_eq
  have e5 := hC.hb.size_eq
  have e6 := hC.hb.nInt_eq
  rw [hS.du] at e1 e2
  rw [hS.dv] at e3 e4
  rw [hC.deg] at e5 e6
  fin_cases i
  · exact k_mono _ hS.hu.sorted (by omega) (by omega)
  · exact k_mono _ hS.hv.sorted (by omega) (by omega)
  · exact k_mono _ hC.hb.sorted (by omega) (by omega)

theorem mid_mem {a b : K} (h : a ≤ b) : a ≤ (a + b) / 2 ∧ (a + b) / 2 ≤ b := by
  constructor
  · rw [le_div_iff₀ two_pos]; linarith
  · rw [div_le_iff₀ two_pos]; linarith

/-- C57. Whatever the linear solver returns, the returned parameters lie in the given cell; the returned point is the
midpoint of a surface point and a curve point of the same cell, and `conv` says whether those two points are within
`abs_tol`. If they are closer than `abs_tol`, they are the points at the returned parameters. -/
theorem get_intersection_honest (solve : Solver K) {S : Surface K} {C : Curve K} (hS : GoodSurf S) (hC : GoodCurve C)
    {iu iv it : Nat} (hiu : iu < S.ub.nIntervals) (hiv : iv < S.vb.nIntervals) (hit : it < C.basis.nIntervals) (maxIt : Nat)
    (tol : K) (f : Found K) (hf : getIntersection solve S C iu iv it maxIt tol = .ok f) :
    InCell S C iu iv it f.uvt ∧ ∃ p x1 x2, InCell S C iu iv it p ∧ SurfAt S (p 0) (p 1) x1 ∧ CurveAt C (p 2) x2 ∧
      (∀ i, f.xyz i = (x1 i + x2 i) / 2) ∧
      (f.conv = true ↔ 0 ≤ tol ∧ sq (fun i => x1 i - x2 i) ≤ tol ^ 2) ∧
      (0 < tol → sq (fun i => x1 i - x2 i) < tol ^ 2 → f.uvt = p) := by
  rw [getIntersection_eq solve hS hC hiu hiv hit] at hf
  simp only [Except.bind] at hf
  split at hf
  · simp at hf
  · rename_i r hr
    obtain ⟨y, out⟩ := r
    have hle := cell_le hS hC hiu hiv hit
    obtain ⟨a, b, c⟩ := newtonLoop_spec solve _ _ _ _ hle _ _ _ _ _ hr (fun i => mid_mem (hle i))
    cases out with
    | none => simp at hf
    | some o =>
      obtain ⟨x1, x2, cv⟩ := o
      simp only at hf
      cases hf
      have hpos : 0 < maxIt := by
        rcases Nat.eq_zero_or_pos maxIt with h | h
        · have := b h; simp at this
        · exact h
      obtain ⟨p, J, y1, y2, hp, hF, ho, hlt⟩ := c hpos
      cases ho
      have hpc := (cell_iff S C iu iv it p).2 hp
      obtain ⟨J', z1, z2, hF', s1, s2⟩ := coordinates_spec hS hC hiu hiv hit hpc
      rw [hF'] at hF
      cases hF
      refine ⟨(cell_iff S C iu iv it y).2 a, p, x1, x2, hpc, s1, s2, fun i => rfl, ?_, ?_⟩
      · simp [normLe, pow_two]
      · intro h1 h2
        exact hlt (by simp [normLt, h1, ← pow_two, h2])

/-- C57. With a solver that does not fail, at least one turn and indices in range, nothing raises. -/
theorem get_intersection_total (solve : Solver K) (hsolve : ∀ J d, ∃ s, solve J d = .ok s) {S : Surface K} {C : Curve K}
    (hS : GoodSurf S) (hC : GoodCurve C) {iu iv it : Nat} (hiu : iu < S.ub.nIntervals) (hiv : iv < S.vb.nIntervals)
    (hit : it < C.basis.nIntervals) (maxIt : Nat) (hm : 0 < maxIt) (tol : K) :
    ∃ f, getIntersection solve S C iu iv it maxIt tol = .ok f := by
  rw [getIntersection_eq solve hS hC hiu hiv hit]
  have hle := cell_le hS hC hiu hiv hit
  have key : ∀ n x last, (∀ i, (![S.ub.k (iu + 2), S.vb.k (iv + 2), C.basis.k (it + 2)] : V3 K) i ≤ x i ∧
      x i ≤ (![S.ub.k (iu + 3), S.vb.k (iv + 3), C.basis.k (it + 3)] : V3 K) i) → (0 < n ∨ last ≠ none) →
      ∃ y o, newtonLoop solve (fun x => jacobianAndCoordinates S C x iu iv it)
        ![S.ub.k (iu + 2), S.vb.k (iv + 2), C.basis.k (it + 2)] ![S.ub.k (iu + 3), S.vb.k (iv + 3), C.basis.k (it + 3)] tol
        n x last = .ok (y, some o) := by
    intro n
    induction n with
    | zero =>
      intro x last _ h
      obtain ⟨o, ho⟩ := Option.ne_none_iff_exists'.1 (h.resolve_left (by omega))
      exact ⟨x, o, by rw [ho]; rfl⟩
    | succ n ih =>
      intro x last hx _
      obtain ⟨J, x1, x2, hF, _, _⟩ := coordinates_spec hS hC hiu hiv hit ((cell_iff S C iu iv it x).2 hx)
      unfold newtonLoop
      rw [hF]
      simp only [bind, Except.bind]
      split
      · exact ⟨_, _, rfl⟩
      · obtain ⟨s, hs⟩ := hsolve J (fun i => x1 i - x2 i)
        rw [hs]
        exact ih _ _ (clip_mem hle) (Or.inr (by simp))
  obtain ⟨y, o, h⟩ := key maxIt _ none (fun i => mid_mem (hle i)) (Or.inl hm)
  rw [h]
  exact ⟨_, rfl⟩

/-- With `max_it = 0` the code fails on an unset variable. -/
theorem get_intersection_no_turn (solve : Solver K) {S : Surface K} {C : Curve K} (hS : GoodSurf S) (hC : GoodCurve C)
    {iu iv it : Nat} (hiu : iu < S.ub.nIntervals) (hiv : iv < S.vb.nIntervals) (hit : it < C.basis.nIntervals) (tol : K) :
    getIntersection solve S C iu iv it 0 tol = .error .unboundLocalError := by
  rw [getIntersection_eq solve hS hC hiu hiv hit]
  rfl

end Verif.Isec
