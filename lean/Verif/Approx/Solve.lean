import Verif.Approx.Reg
import Verif.ZSurf.Props

/-!
Model of `SurfaceApprox.compute_approximation` and of its helpers (src/bgem/bspline/bspline_approx.py:385-526): mapping of
the points to the unit square, the system of equations, the result and the error.

Points without weights only. Floats are exact numbers. `spsolve` is any solution of the system; the factor
`regularization_weight * (bb_norm[0] / a_norm[0])` is a number `lam`.
-/
namespace Verif.Approx

open Verif.Spline Verif.ZSurf Finset

variable {K : Type} [Field K] [LinearOrder K] [IsStrictOrderedRing K]

/-- Test of a point against the unit square (bspline_approx.py:513-517). -/
def inCut (eps : K) (p : V2 K) : Bool :=
  decide (-eps < p.x) && decide (-eps < p.y) && decide (p.x ≤ 1 + eps) && decide (p.y ≤ 1 + eps)

/-- Snap to `[0, 1]` (bspline_approx.py:522-523). -/
def snap (x : K) : K := min (max x 0) 1

/-- `_compute_uv_points` (bspline_approx.py:499-524): the kept points with their parameters and heights; `LinAlgError` for
a degenerate quad. -/
def uvPoints (eps : K) (q0 q1 q2 : V2 K) (pts : List (V2 K × K)) : Except Exc (List ((K × K) × K)) :=
  match (M2.cols (q2.sub q1) (q0.sub q1)).inv with
  | none => .error .linAlg
  | some mi => .ok (((pts.map fun p => (mi.mulV (p.1.sub q1), p.2)).filter fun p => inCut eps p.1).map fun p =>
      ((snap p.1.x, snap p.1.y), p.2))

/-- Entry of `c_mat` (bspline_approx.py:440, 450): `Bᵀ B + lam A` for `n` points. -/
def sysMat (ts as : List (Item K)) (n : Nat) (lam : K) (k j : Nat) : K :=
  ∑ i ∈ range n, entry ts i k * entry ts i j + lam * entry as k j

/-- `b_vec` (bspline_approx.py:439). -/
def sysRhs (ts : List (Item K)) (n : Nat) (g : Nat → K) (k : Nat) : K := ∑ i ∈ range n, entry ts i k * g i

/-- `z` is what an exact `spsolve(c_mat, b_vec)` returns (bspline_approx.py:456). -/
def Solves (ts as : List (Item K)) (n m : Nat) (lam : K) (g z : Nat → K) : Prop :=
  ∀ k < m, ∑ j ∈ range m, sysMat ts as n lam k j * z j = sysRhs ts n g k

/-- `np.max` of the differences (bspline_approx.py:463-464) of a nonempty list. -/
def maxDiff (ts : List (Item K)) (m : Nat) (z g : Nat → K) : Nat → K
  | 0 => mulVec ts m z 0 - g 0
  | i + 1 => max (maxDiff ts m z g i) (mulVec ts m z (i + 1) - g (i + 1))

/-- The sum of squares of the deviations plus the regularization term. -/
def cost (ts as : List (Item K)) (n m : Nat) (lam : K) (g y : Nat → K) : K :=
  ∑ i ∈ range n, (mulVec ts m y i - g i) ^ 2 + lam * form as m y y

/-! ### Linear algebra -/

omit [LinearOrder K] [IsStrictOrderedRing K] in
theorem mulVec_add (ts : List (Item K)) (m : Nat) (y z : Nat → K) (i : Nat) :
    mulVec ts m (fun k => y k + z k) i = mulVec ts m y i + mulVec ts m z i := by
  unfold mulVec
  rw [← sum_add_distrib]
  exact sum_congr rfl fun j _ => by ring

omit [LinearOrder K] [IsStrictOrderedRing K] in
theorem form_add_left (ts : List (Item K)) (m : Nat) (x y z : Nat → K) :
    form ts m (fun k => x k + y k) z = form ts m x z + form ts m y z := by
  unfold form
  rw [← sum_add_distrib]
  exact sum_congr rfl fun j _ => by ring

omit [LinearOrder K] [IsStrictOrderedRing K] in
theorem form_add_right (ts : List (Item K)) (m : Nat) (x y z : Nat → K) :
    form ts m z (fun k => x k + y k) = form ts m z x + form ts m z y := by
  unfold form
  rw [← sum_add_distrib]
  exact sum_congr rfl fun j _ => by rw [mulVec_add]; ring

omit [LinearOrder K] [IsStrictOrderedRing K] in
/-- the form of the system matrix -/
theorem sys_form (ts as : List (Item K)) (n m : Nat) (lam : K) (e z : Nat → K) :
    ∑ k ∈ range m, e k * ∑ j ∈ range m, sysMat ts as n lam k j * z j =
      ∑ i ∈ range n, mulVec ts m e i * mulVec ts m z i + lam * form as m e z := by
  have h1 : ∀ k ∈ range m, e k * ∑ j ∈ range m, sysMat ts as n lam k j * z j =
      (∑ i ∈ range n, (entry ts i k * e k) * mulVec ts m z i) + lam * (e k * mulVec as m z k) := by
    intro k _
    unfold sysMat mulVec
    rw [sum_congr rfl fun j _ => by rw [add_mul], sum_add_distrib, mul_add]
    congr 1
    · rw [sum_congr rfl fun j _ => by rw [sum_mul], sum_comm, mul_sum]
      refine sum_congr rfl fun i _ => ?_
      rw [mul_sum, mul_sum]
      exact sum_congr rfl fun j _ => by ring
    · rw [mul_sum, mul_sum, mul_sum]
      exact sum_congr rfl fun j _ => by ring
  rw [sum_congr rfl h1, sum_add_distrib, ← mul_sum, sum_comm]
  congr 1
  refine sum_congr rfl fun i _ => ?_
  rw [← sum_mul]
  rfl

omit [LinearOrder K] [IsStrictOrderedRing K] in
theorem rhs_form (ts : List (Item K)) (n m : Nat) (g e : Nat → K) :
    ∑ k ∈ range m, e k * sysRhs ts n g k = ∑ i ∈ range n, mulVec ts m e i * g i := by
  unfold sysRhs mulVec
  rw [sum_congr rfl fun k _ => by rw [mul_sum], sum_comm]
  refine sum_congr rfl fun i _ => ?_
  rw [sum_mul]
  exact sum_congr rfl fun j _ => by ring

/-- A solution of the system has the least cost, for any symmetric regularization without negative values. -/
theorem solves_minimal {ts as : List (Item K)} {n m : Nat} {lam : K} (hl : 0 ≤ lam) (hs : ∀ y z, form as m y z = form as m z y)
    (hn : ∀ z, 0 ≤ form as m z z) {g z : Nat → K} (h : Solves ts as n m lam g z) (y : Nat → K) :
    cost ts as n m lam g z ≤ cost ts as n m lam g y := by
  obtain ⟨e, rfl⟩ : ∃ e : Nat → K, y = fun k => z k + e k := ⟨fun k => y k - z k, by funext k; ring⟩
  have h0 : ∑ i ∈ range n, mulVec ts m e i * (mulVec ts m z i - g i) + lam * form as m e z = 0 := by
    have h1 := sys_form ts as n m lam e z
    rw [sum_congr rfl fun k hk => by rw [h k (mem_range.1 hk)], rhs_form] at h1
    simp only [mul_sub, sum_sub_distrib]
    linarith
  have h2 : cost ts as n m lam g (fun k => z k + e k) = cost ts as n m lam g z +
      (∑ i ∈ range n, mulVec ts m e i ^ 2 + lam * form as m e e) +
      2 * (∑ i ∈ range n, mulVec ts m e i * (mulVec ts m z i - g i) + lam * form as m e z) := by
    unfold cost
    rw [form_add_left, form_add_right, form_add_right, hs z e]
    have h3 : ∀ i ∈ range n, (mulVec ts m (fun k => z k + e k) i - g i) ^ 2 = (mulVec ts m z i - g i) ^ 2 +
        (mulVec ts m e i ^ 2 + 2 * (mulVec ts m e i * (mulVec ts m z i - g i))) := fun i _ => by rw [mulVec_add]; ring
    rw [sum_congr rfl h3, sum_add_distrib, sum_add_distrib, ← mul_sum]
    ring
  rw [h2, h0]
  have := sum_nonneg (s := range n) (f := fun i => mulVec ts m e i ^ 2) fun i _ => sq_nonneg _
  have := mul_nonneg hl (hn e)
  linarith

/-- If only the zero vector has zero form, the system has exactly one solution. -/
theorem solves_unique {ts as : List (Item K)} {n m : Nat} {lam : K}
    (hp : ∀ z : Nat → K, ∑ i ∈ range n, mulVec ts m z i ^ 2 + lam * form as m z z = 0 → ∀ k < m, z k = 0) (g : Nat → K) :
    ∃ z, Solves ts as n m lam g z ∧ ∀ z', Solves ts as n m lam g z' → ∀ k < m, z' k = z k := by
  let M : Matrix (Fin m) (Fin m) K := fun k j => sysMat ts as n lam k j
  let ext : (Fin m → K) → Nat → K := fun x k => if h : k < m then x ⟨k, h⟩ else 0
  have hext : ∀ (x : Fin m → K) (i : Fin m), ext x i = x i := fun x i => by simp [ext]
  have hmul : ∀ (x : Fin m → K) (k : Fin m), M.mulVec x k = ∑ j ∈ range m, sysMat ts as n lam k j * ext x j := by
    intro x k
    rw [← Fin.sum_univ_eq_sum_range (fun j => sysMat ts as n lam k j * ext x j) m]
    simp only [hext]
    rfl
  have inj : Function.Injective M.mulVecLin := by
    rw [← LinearMap.ker_eq_bot, LinearMap.ker_eq_bot']
    intro x hx
    have h1 := sys_form ts as n m lam (ext x) (ext x)
    have h2 : ∀ k ∈ range m, ext x k * ∑ j ∈ range m, sysMat ts as n lam k j * ext x j = 0 := by
      intro k hk
      have := congrFun hx ⟨k, mem_range.1 hk⟩
      rw [Matrix.mulVecLin_apply, hmul] at this
      rw [this]; simp
    rw [sum_eq_zero h2] at h1
    funext i
    have := hp (ext x) (by rw [h1]; congr 1; exact sum_congr rfl fun i _ => sq _) i i.2
    rw [hext] at this
    exact this
  obtain ⟨x, hx⟩ := LinearMap.injective_iff_surjective.1 inj fun k => sysRhs ts n g k
  have hsol : Solves ts as n m lam g (ext x) := by
    intro k hk
    have := congrFun hx ⟨k, hk⟩
    rw [Matrix.mulVecLin_apply, hmul] at this
    exact this
  refine ⟨ext x, hsol, fun z' hz' k hk => ?_⟩
  have h3 : M.mulVecLin (fun i : Fin m => z' i) = fun k : Fin m => sysRhs ts n g k := by
    funext i
    rw [Matrix.mulVecLin_apply, hmul, ← hz' i i.2]
    exact sum_congr rfl fun j hj => by
      have := hext (fun i : Fin m => z' i) ⟨j, mem_range.1 hj⟩
      simp only at this
      rw [this]
  have h4 := inj (h3.trans hx.symm)
  have h5 := congrFun h4 ⟨k, hk⟩
  have h6 := hext x ⟨k, hk⟩
  simp only at h5 h6
  rw [h6]
  exact h5

/-! ### The fit -/

theorem equidistant_fitS {n : Nat} (hn : 0 < n) : ∃ B, Basis.equidistant 2 n (0 : K) 1 = .ok B ∧ Fit2S B ∧ B.size = n + 2 ∧
    B.nIntervals = n ∧ ∀ t, B.Dom t ↔ 0 ≤ t ∧ t ≤ 1 := by
  obtain ⟨B, e, hf, hs, hni, hd, hk⟩ := equidistant_fit (K := K) hn
  have hlen := hf.valid.size_eq
  rw [hf.deg] at hlen
  have hnK : (0 : K) < n := by exact_mod_cast hn
  refine ⟨B, e, ⟨hf, fun i hi => ⟨?_, ?_, ?_⟩⟩, hs, hni, hd⟩
  · exact k_mono B hf.valid.sorted (by omega) (by omega)
  · rw [show i + 2 = 2 + i by omega, show i + 3 = 2 + (i + 1) by omega, hk i (by omega), hk (i + 1) (by omega)]
    push_cast
    have : (0 : K) < 1 / n := by positivity
    linarith
  · exact k_mono B hf.valid.sorted (by omega) (by omega)

/-- equal heights make a flat surface -/
theorem mulVec_const {ub vb : Basis K} (hu : Fit2 ub) (hv : Fit2 vb) {ps : List (K × K)}
    (hp : ∀ p ∈ ps, ub.Dom p.1 ∧ vb.Dom p.2) {ts : List (Item K)} (h : lsItems ub vb 0 ps = .ok ts) {i : Nat}
    (hi : i < ps.length) {z : Nat → K} {c : K} (hz : ∀ k < ub.size * vb.size, z k = c) :
    mulVec ts (ub.size * vb.size) z i = c := by
  have hpi := List.getElem?_eq_getElem hi
  obtain ⟨du, dv⟩ := hp _ (List.getElem_mem hi)
  obtain ⟨ru, rv, f1, f2, l1, l2, hm⟩ := mulVec_point hu hv hp h hpi
  obtain ⟨ru', g1, _, a1, a2, a3⟩ := hu.valid.find du
  obtain ⟨rv', g2, _, b1, b2, b3⟩ := hv.valid.find dv
  rw [f1] at g1
  rw [f2] at g2
  cases g1
  cases g2
  have su := hu.valid.window_sum a1 a2 a3 du.2
  have sv := hv.valid.window_sum b1 b2 b3 dv.2
  rw [hu.deg] at su
  rw [hv.deg] at sv
  rw [hm]
  have h1 : ∀ n ∈ range 3, vb.val (rv + n) ps[i].2 * ∑ m ∈ range 3, ub.val (ru + m) ps[i].1 *
      z ((rv + n) * ub.size + (ru + m)) = vb.val (rv + n) ps[i].2 * c := by
    intro n hn
    have h2 : ∀ m ∈ range 3, ub.val (ru + m) ps[i].1 * z ((rv + n) * ub.size + (ru + m)) = ub.val (ru + m) ps[i].1 * c := by
      intro m hm
      have := mem_range.1 hn
      have := mem_range.1 hm
      rw [hz _ (col_lt (by omega) (by omega))]
    rw [sum_congr rfl h2, ← sum_mul, su, one_mul]
  rw [sum_congr rfl h1, ← sum_mul, sv, one_mul]

/-- C97. The system of the approximation has exactly one solution, if at least one point is in the quad and the factor of
the regularization is positive, whatever the number of intervals and the position of the points. -/
theorem fit_unique {ub vb : Basis K} (hu : Fit2S ub) (hv : Fit2S vb) {q : K} (q0 : 0 < q) (q1 : q < 1 / 2)
    {ps : List (K × K)} (hne : ps ≠ []) (hp : ∀ p ∈ ps, ub.Dom p.1 ∧ vb.Dom p.2) {lam : K} (hl : 0 < lam) (g : Nat → K) :
    ∃ ts, lsItems ub vb 0 ps = .ok ts ∧ ∃ z, Solves ts (regItems ub vb q) ps.length (ub.size * vb.size) lam g z ∧
      ∀ z', Solves ts (regItems ub vb q) ps.length (ub.size * vb.size) lam g z' → ∀ k < ub.size * vb.size, z' k = z k := by
  obtain ⟨ts, h1, _⟩ := lsItems_ok hu.toFit2 hv.toFit2 ps 0 hp
  refine ⟨ts, h1, solves_unique (fun z hz => ?_) g⟩
  have hn := reg_nonneg hu.toFit2 hv.toFit2 q z
  have hs := sum_nonneg (s := range ps.length) (f := fun i => mulVec ts (ub.size * vb.size) z i ^ 2) fun i _ => sq_nonneg _
  have hf : form (regItems ub vb q) (ub.size * vb.size) z z = 0 := by
    have := mul_nonneg hl.le hn
    exact (mul_eq_zero.1 (by linarith : lam * form (regItems ub vb q) (ub.size * vb.size) z z = 0)).resolve_left hl.ne'
  have hc := reg_kernel hu hv q0 q1 z hf
  have hlen : 0 < ps.length := List.length_pos_iff.2 hne
  have hb : ∑ i ∈ range ps.length, mulVec ts (ub.size * vb.size) z i ^ 2 = 0 := by rw [hf] at hz; linarith
  have h0 := (sum_eq_zero_iff_of_nonneg fun i _ => sq_nonneg _).1 hb 0 (mem_range.2 hlen)
  rw [mulVec_const hu.toFit2 hv.toFit2 hp h1 hlen hc] at h0
  intro k hk
  rw [hc k hk]
  exact pow_eq_zero_iff two_ne_zero |>.1 h0

/-- C98. The solution is the best surface: no other heights have a smaller sum of squares plus regularization. -/
theorem fit_minimal {ub vb : Basis K} (hu : Fit2 ub) (hv : Fit2 vb) (q : K) {n : Nat} {ts : List (Item K)} {lam : K}
    (hl : 0 ≤ lam) {g z : Nat → K} (h : Solves ts (regItems ub vb q) n (ub.size * vb.size) lam g z) (y : Nat → K) :
    cost ts (regItems ub vb q) n (ub.size * vb.size) lam g z ≤ cost ts (regItems ub vb q) n (ub.size * vb.size) lam g y :=
  solves_minimal hl (reg_symm hu hv q) (reg_nonneg hu hv q) h y

/-! ### No points -/

/-- the matrix of the regularization times equal heights is zero -/
theorem reg_const {ub vb : Basis K} (hu : Fit2S ub) (hv : Fit2S vb) (q : K) (y : Nat → K) {z : Nat → K} {c : K}
    (hz : ∀ k < ub.size * vb.size, z k = c) : form (regItems ub vb q) (ub.size * vb.size) y z = 0 := by
  have zero : ∀ {B : Basis K}, Fit2S B → ∀ i < B.nIntervals, ∀ b', ∑ b ∈ range 3, diffOuter B q i b b' = 0 := by
    intro B hB i hi b'
    unfold diffOuter
    rw [sum_comm]
    refine sum_eq_zero fun j _ => ?_
    rw [← mul_sum, ← sum_mul]
    have : ∑ b ∈ range 3, (B.evalDiffVector2 i (qAt B q i j)).getD b 0 = 0 := by
      obtain ⟨h12, h23, h34⟩ := hB.cell i hi
      simp only [sum_range_succ, sum_range_zero, Basis.evalDiffVector2, List.getD_cons_zero, List.getD_cons_succ]
      have p1 : B.k (i + 3) - B.k (i + 1) ≠ 0 := by linarith
      have p2 : B.k (i + 3) - B.k (i + 2) ≠ 0 := by linarith
      have p3 : B.k (i + 4) - B.k (i + 2) ≠ 0 := by linarith
      field_simp
      ring
    rw [this, zero_mul, mul_zero]
  rw [reg_form hu.toFit2 hv.toFit2]
  refine sum_eq_zero fun iv hiv => sum_eq_zero fun iu hiu => ?_
  rw [sum_comm]
  have hiv := mem_range.1 hiv
  have hiu := mem_range.1 hiu
  have su := hu.toFit2.size_eq
  have sv := hv.toFit2.size_eq
  rw [sum_eq_zero, mul_zero]
  intro p' _
  have h1 : ∀ p ∈ range 3 ×ˢ range 3, (valOuter vb q iv p.1 p'.1 * diffOuter ub q iu p.2 p'.2 +
      diffOuter vb q iv p.1 p'.1 * valOuter ub q iu p.2 p'.2) *
        (cellPole ub.size z iu iv p * cellPole ub.size y iu iv p') =
      (c * cellPole ub.size y iu iv p') * (valOuter vb q iv p.1 p'.1 * diffOuter ub q iu p.2 p'.2) +
      (c * cellPole ub.size y iu iv p') * (diffOuter vb q iv p.1 p'.1 * valOuter ub q iu p.2 p'.2) := by
    intro p hp
    have hp := mem_product.1 hp
    have h2 := mem_range.1 hp.1
    have h3 := mem_range.1 hp.2
    have : cellPole ub.size z iu iv p = c := hz _ (col_lt (by omega) (by omega))
    rw [this]; ring
  rw [sum_congr rfl h1, sum_add_distrib, ← mul_sum, ← mul_sum]
  have e1 : ∑ p ∈ range 3 ×ˢ range 3, valOuter vb q iv p.1 p'.1 * diffOuter ub q iu p.2 p'.2 = 0 := by
    rw [sum_product]
    refine sum_eq_zero fun a _ => ?_
    simp only
    rw [← mul_sum, zero hu iu hiu, mul_zero]
  have e2 : ∑ p ∈ range 3 ×ˢ range 3, diffOuter vb q iv p.1 p'.1 * valOuter ub q iu p.2 p'.2 = 0 := by
    rw [sum_product_right]
    refine sum_eq_zero fun b _ => ?_
    simp only
    rw [← sum_mul, zero hv iv hiv, zero_mul]
  rw [e1, e2, mul_zero, add_zero]

/-- one entry of the product, by the form -/
theorem mulVec_eq_form (ts : List (Item K)) {m k : Nat} (hk : k < m) (z : Nat → K) :
    mulVec ts m z k = form ts m (fun i => if i = k then 1 else 0) z := by
  unfold form
  rw [sum_eq_single k]
  · simp
  · intro i _ hi; simp [hi]
  · intro hn; exact absurd (mem_range.2 hk) hn

/-- equal heights solve the system, when their value minimises the sum of squares alone -/
theorem const_solves {ub vb : Basis K} (hu : Fit2S ub) (hv : Fit2S vb) (q : K) {ts : List (Item K)} {n : Nat} {lam c : K}
    {g : Nat → K} (hm : ∀ i < n, mulVec ts (ub.size * vb.size) (fun _ => c) i = c)
    (hg : ∀ k, ∑ i ∈ range n, entry ts i k * (c - g i) = 0) :
    Solves ts (regItems ub vb q) n (ub.size * vb.size) lam g fun _ => c := by
  intro k hk
  have h1 := sys_form ts (regItems ub vb q) n (ub.size * vb.size) lam (fun i => if i = k then 1 else 0) fun _ => c
  rw [reg_const hu hv q _ (fun _ _ => rfl), mul_zero, add_zero, sum_eq_single k] at h1
  · rw [if_pos rfl, one_mul] at h1
    rw [h1]
    have h2 : ∀ i ∈ range n, mulVec ts (ub.size * vb.size) (fun i => if i = k then 1 else 0) i *
        mulVec ts (ub.size * vb.size) (fun _ => c) i = entry ts i k * c := by
      intro i hi
      rw [hm i (mem_range.1 hi)]
      congr 1
      unfold mulVec
      rw [sum_eq_single k]
      · simp
      · intro j _ hj; simp [hj]
      · intro hn; exact absurd (mem_range.2 hk) hn
    rw [sum_congr rfl h2]
    unfold sysRhs
    have h3 := hg k
    simp only [mul_sub, sum_sub_distrib] at h3
    linarith
  · intro i _ hi; rw [if_neg hi, zero_mul]
  · intro hn; exact absurd (mem_range.2 hk) hn

/-- Without a point in the quad the system is singular: all equal heights are solutions. -/
theorem fit_no_points {ub vb : Basis K} (hu : Fit2S ub) (hv : Fit2S vb) (q lam c : K) (g : Nat → K) :
    lsItems ub vb 0 [] = .ok [] ∧ Solves [] (regItems ub vb q) 0 (ub.size * vb.size) lam g fun _ => c :=
  ⟨rfl, const_solves hu hv q (fun i hi => absurd hi (by omega)) fun k => by simp⟩

/-! ### The error -/

/-- C99 fails: three points over one place with heights 0, 0, 3. The solution of the system is the plane of height 1 (for
every basis and every positive factor); the deviations are 1, 1, -2, the code reports 1 as the maximum norm. -/
theorem error_not_norm {ub vb : Basis K} (hu : Fit2S ub) (hv : Fit2S vb) {q : K} (q0 : 0 < q) (q1 : q < 1 / 2) {u v lam : K}
    (du : ub.Dom u) (dv : vb.Dom v) (hl : 0 < lam) (g : Nat → K) (g0 : g 0 = 0) (g1 : g 1 = 0) (g2 : g 2 = 3) :
    ∃ ts, lsItems ub vb 0 [(u, v), (u, v), (u, v)] = .ok ts ∧
      ∀ z, Solves ts (regItems ub vb q) 3 (ub.size * vb.size) lam g z →
        maxDiff ts (ub.size * vb.size) z g 2 = 1 ∧ |mulVec ts (ub.size * vb.size) z 2 - g 2| = 2 := by
  have hp : ∀ p ∈ [(u, v), (u, v), (u, v)], ub.Dom p.1 ∧ vb.Dom p.2 := by
    intro p hp
    simp only [List.mem_cons, List.not_mem_nil, or_false, or_self] at hp
    subst hp
    exact ⟨du, dv⟩
  obtain ⟨ts, h1, z, hz, huniq⟩ := fit_unique hu hv q0 q1 (List.cons_ne_nil _ _) hp hl g
  refine ⟨ts, h1, fun z' hz' => ?_⟩
  have hrow : ∀ i < 3, ∀ k, entry ts i k = entry ts 0 k := by
    obtain ⟨ru, rv, f1, f2, l1, l2, hpi⟩ := pointItems_ok hu.toFit2 hv.toFit2 0 (p := (u, v)) du dv
    have e : ∀ idx, ∃ as, pointItems ub vb idx (u, v) = .ok as ∧ (∀ i k, entry as i k = if idx = i then
        entry ((List.range 3).flatMap fun n => (List.range 3).map fun m =>
        (0, (rv + n) * ub.size + ru + m, vb.val (rv + n) v * ub.val (ru + m) u)) 0 k else 0) := by
      intro idx
      obtain ⟨ru', rv', f1', f2', _, _, hpi'⟩ := pointItems_ok hu.toFit2 hv.toFit2 idx (p := (u, v)) du dv
      rw [f1] at f1'
      rw [f2] at f2'
      cases f1'
      cases f2'
      refine ⟨_, hpi', fun i k => ?_⟩
      simp only [List.range_succ, List.range_zero, List.nil_append, List.map_cons, List.map_nil, List.cons_append,
        List.flatMap_cons, List.flatMap_nil, List.append_nil, entry_cons]
      by_cases hi : idx = i
      · simp [hi, entry]
      · simp [hi, entry]
    obtain ⟨a0, p0, e0⟩ := e 0
    obtain ⟨a1, p1, e1⟩ := e 1
    obtain ⟨a2, p2, e2⟩ := e 2
    have hts : ts = a0 ++ (a1 ++ (a2 ++ [])) := by
      have : lsItems ub vb 0 [(u, v), (u, v), (u, v)] = .ok (a0 ++ (a1 ++ (a2 ++ []))) := by
        simp only [lsItems, p0, p1, p2, bind, Except.bind]
      rw [h1] at this
      exact Except.ok.inj this
    intro i hi k
    have : i = 0 ∨ i = 1 ∨ i = 2 := by omega
    rcases this with rfl | rfl | rfl <;>
      simp only [hts, entry_append, e0, e1, e2, entry_nil] <;> simp
  have hm : ∀ i < 3, ∀ w : Nat → K, (∀ k < ub.size * vb.size, w k = 1) → mulVec ts (ub.size * vb.size) w i = 1 :=
    fun i hi w hw => mulVec_const hu.toFit2 hv.toFit2 hp h1 hi hw
  have hone : Solves ts (regItems ub vb q) 3 (ub.size * vb.size) lam g fun _ => 1 :=
    const_solves hu hv q (fun i hi => hm i hi _ fun _ _ => rfl) fun k => by
      simp only [sum_range_succ, sum_range_zero, hrow 1 (by omega) k, hrow 2 (by omega) k, g0, g1, g2]
      ring
  have h2 : ∀ k < ub.size * vb.size, z' k = 1 := fun k hk => by
    rw [huniq z' hz' k hk, ← huniq (fun _ => 1) hone k hk]
  simp only [maxDiff, hm 0 (by omega) z' h2, hm 1 (by omega) z' h2, hm 2 (by omega) z' h2, g0, g1, g2]
  norm_num

end Verif.Approx
