import Mathlib.Analysis.Complex.Norm
import Mathlib.Tactic.Linarith
import Verif.ZSurf.Grid

/-!
Construction of `GridSurface` from a sequence of points (src/bgem/bspline/bspline.py:965-1075), in exact arithmetic of real
numbers.
-/
namespace Verif.ZSurf

open Verif.Spline

/-- Exceptions of the constructor. -/
inductive GExc where
  /-- `IndexError`: fewer than two points -/
  | index
  /-- `GridNotInShapeExc` -/
  | notInShape
  /-- `IrregularGridExc` -/
  | irregular
  /-- raised by the spline classes or by `Z_Surface` -/
  | inner (e : Exc)
  /-- the assertion of `_check_map` -/
  | check

/-- `la.norm(v, np.inf)` -/
noncomputable def normInf (p : V2 ℝ) : ℝ := max |p.x| |p.y|

/-- `la.norm(v)` -/
noncomputable def norm2 (p : V2 ℝ) : ℝ := √(p.x ^ 2 + p.y ^ 2)

/-- `v / n` -/
noncomputable def V2.div (p : V2 ℝ) (n : ℝ) : V2 ℝ := ⟨p.x / n, p.y / n⟩

/-- `xy_points[i]` -/
noncomputable def pt (pts : List (V2 ℝ)) (i : Nat) : V2 ℝ := pts.getD i ⟨0, 0⟩

/-- Attributes of the grid. -/
structure Info where
  nu : Nat
  nv : Nat
  quad : Quad ℝ
  ptol : ℝ
  us : V2 ℝ
  vs : V2 ℝ

/-- `GridSurface.step_tolerance` (bspline.py:943). -/
noncomputable def stepTol : ℝ := 1 / 100000

open Classical in
/-- The end of the first row (bspline.py:1003-1015): the first point whose step differs from the first step. -/
noncomputable def rowEnd (tol : ℝ) (pts : List (V2 ℝ)) : Option Nat :=
  let vStep := (pt pts 1).sub (pt pts 0)
  (List.range' 2 (pts.length - 2)).find? fun i =>
    decide (tol * normInf vStep < normInf (vStep.sub ((pt pts i).sub (pt pts (i - 1)))))

open Classical in
/-- `_get_grid_corners` (bspline.py:1001-1036). -/
noncomputable def corners (tol : ℝ) (pts : List (V2 ℝ)) : Except GExc Info :=
  if pts.length < 2 then .error .index
  else match rowEnd tol pts with
    | none => .error .notInShape
    | some nv =>
      let n := pts.length
      let nu := n / nv
      if n ≠ nu * nv then .error .notInShape
      else
        let q : Quad ℝ := ⟨pt pts (nv - 1), pt pts 0, pt pts (n - nv), pt pts (n - 1)⟩
        let d0 := q.q1.sub q.q0
        let d1 := q.q2.sub q.q1
        let d2 := q.q3.sub q.q2
        let d3 := q.q0.sub q.q3
        if norm2 (d0.add d2) < tol * norm2 d0 ∧ norm2 (d1.add d3) < stepTol * norm2 d1 then
          .ok ⟨nu, nv, q, tol * max (max (max (norm2 d0) (norm2 d1)) (norm2 d2)) (norm2 d3),
            d1.div ((nu : ℝ) - 1), d2.div ((nv : ℝ) - 1)⟩
        else .error .notInShape

open Classical in
/-- `_check_grid_regularity` (bspline.py:1039-1050); the numbers of the previous points are integers, `-1` for none. -/
noncomputable def regular (g : Info) (pts : List (V2 ℝ)) : Bool :=
  decide (∀ i < g.nu * g.nv,
    ((0 : Int) < (i : Int) - g.nv → norm2 (((pt pts i).sub (pt pts (i - g.nv))).sub g.us) < g.ptol) ∧
    ((0 : Int) < (if i % g.nv = 0 then -1 else (i : Int) - 1) →
      norm2 (((pt pts i).sub (pt pts (i - 1))).sub g.vs) < g.ptol))

/-- `GridSurface.__init__` (bspline.py:965-998) with `_make_z_surface` and `_check_map` (1052-1075), for points `pts` with the
Z values `zs`; the new `Z_Surface` has the name `self`. The list `grid_uvz` is not kept: it holds the images of the points under
`xy_to_uv` and the Z values. -/
noncomputable def gridNew (cs : Consts ℝ) (tol : ℝ) (self : Nat) (pts : List (V2 ℝ)) (zs : List ℝ) : Except GExc (Info × Obj ℝ) :=
  match corners tol pts with
  | .error e => .error e
  | .ok g =>
    if regular g pts = false then .error .irregular
    else match gridSurface g.nu g.nv (fun i j => zs.getD (i * g.nv + j) 0) with
      | .error e => .error (.inner (.spline e))
      | .ok S =>
        match Obj.new cs self (complete g.quad.q0 g.quad.q1 g.quad.q2) S with
        | .error e => .error (.inner e)
        | .ok o =>
          match o.lin with
          | none => .error .check
          | some l =>
            if allclose cs (l.xyToUv g.quad.q0) ⟨0, 1⟩ && allclose cs (l.xyToUv g.quad.q1) ⟨0, 0⟩ &&
              allclose cs (l.xyToUv g.quad.q2) ⟨1, 0⟩ && allclose cs (l.xyToUv g.quad.q3) ⟨1, 1⟩ then .ok (g, o)
            else .error .check

/-! ### What an accepted grid looks like -/

/-- A point as a complex number. -/
noncomputable def toC (p : V2 ℝ) : ℂ := ⟨p.x, p.y⟩

theorem norm2_eq (p : V2 ℝ) : norm2 p = ‖toC p‖ := by
  rw [norm2, Complex.norm_def, Complex.normSq_apply]
  simp only [toC]; congr 1; ring

theorem toC_sub (p q : V2 ℝ) : toC (p.sub q) = toC p - toC q := by
  apply Complex.ext <;> simp [toC, V2.sub]

theorem corners_ok {tol : ℝ} {pts : List (V2 ℝ)} {g : Info} (h : corners tol pts = .ok g) :
    2 ≤ g.nu ∧ 2 ≤ g.nv ∧ pts.length = g.nu * g.nv ∧
    g.quad = ⟨pt pts (g.nv - 1), pt pts 0, pt pts ((g.nu - 1) * g.nv), pt pts (pts.length - 1)⟩ ∧
    g.us = ((pt pts ((g.nu - 1) * g.nv)).sub (pt pts 0)).div ((g.nu : ℝ) - 1) ∧
    g.vs = ((pt pts (pts.length - 1)).sub (pt pts ((g.nu - 1) * g.nv))).div ((g.nv : ℝ) - 1) ∧
    (∀ i, 2 ≤ i → i < g.nv → normInf (((pt pts 1).sub (pt pts 0)).sub ((pt pts i).sub (pt pts (i - 1)))) ≤
      tol * normInf ((pt pts 1).sub (pt pts 0))) ∧ (0 ≤ tol → 0 ≤ g.ptol) := by
  unfold corners at h
  split at h
  · cases h
  rename_i hlen
  split at h
  · cases h
  rename_i nv hr
  dsimp only at h
  split at h
  · cases h
  rename_i hn
  split at h
  swap
  · cases h
  cases h
  rename_i hq
  simp only [not_not] at hn
  unfold rowEnd at hr
  have hmem := List.mem_of_find?_eq_some hr
  rw [List.mem_range'_1] at hmem
  have hnu : 2 ≤ pts.length / nv := by
    by_contra hc
    have : pts.length / nv ≤ 1 := by omega
    have : pts.length / nv * nv ≤ 1 * nv := Nat.mul_le_mul_right _ this
    omega
  have hsub : pts.length - nv = (pts.length / nv - 1) * nv := by
    rw [Nat.sub_mul, one_mul, ← hn]
  refine ⟨hnu, hmem.1, hn, ?_, ?_, ?_, ?_, ?_⟩
  · simp only [hsub]
  · simp only [hsub]
  · simp only [hsub]
  · intro i h2 hi
    change i < nv at hi
    obtain ⟨as, bs, e, hall⟩ := (List.find?_eq_some_iff_append.1 hr).2
    have him : i ∈ as := by
      have h3 : i ∈ List.range' 2 (pts.length - 2) := by rw [List.mem_range'_1]; omega
      rw [e] at h3
      rcases List.mem_append.1 h3 with h | h
      · exact h
      · exfalso
        have hs : (as ++ nv :: bs).Pairwise (· < ·) := by rw [← e]; exact List.pairwise_lt_range'
        have hs2 := (List.pairwise_append.1 hs).2.1
        rcases List.mem_cons.1 h with rfl | h
        · omega
        · have := (List.pairwise_cons.1 hs2).1 i h
          omega
    have := hall i him
    simpa using this
  · intro ht
    have : ∀ p, 0 ≤ norm2 p := fun p => Real.sqrt_nonneg _
    exact mul_nonneg ht (le_trans (this _) (le_max_right _ _))

/-- **C138**: an accepted sequence is a grid: its length is the product of the two numbers, both at least two, and every point is
near the place with its indices in the grid spanned by the corners. The steps from the first point are not compared by the
check (the numbers `pred_x` and `pred_y` are compared with `> 0`), the bound holds all the same. -/
theorem grid_sound {cs : Consts ℝ} {tol : ℝ} {self : Nat} {pts : List (V2 ℝ)} {zs : List ℝ} {g : Info} {o : Obj ℝ} (htol : 0 ≤ tol)
    (h : gridNew cs tol self pts zs = .ok (g, o)) :
    2 ≤ g.nu ∧ 2 ≤ g.nv ∧ pts.length = g.nu * g.nv ∧
    ∀ i j, i < g.nu → j < g.nv →
      norm2 ((pt pts (i * g.nv + j)).sub ⟨(pt pts 0).x + i * g.us.x + j * g.vs.x, (pt pts 0).y + i * g.us.y + j * g.vs.y⟩) ≤
        ((g.nu - 1 - i + j : ℕ) : ℝ) * g.ptol := by
  unfold gridNew at h
  split at h
  · cases h
  rename_i g' hg
  split at h
  · cases h
  rename_i hreg
  have hgg : g' = g := by
    split at h
    · cases h
    split at h
    · cases h
    split at h
    · cases h
    split at h
    · cases h; rfl
    · cases h
  subst hgg
  clear h
  obtain ⟨hu, hv, hn, -, hus, -, -, ht0⟩ := corners_ok hg
  refine ⟨hu, hv, hn, ?_⟩
  have ht := ht0 htol
  have hreg : regular g' pts = true := by simpa using hreg
  unfold regular at hreg
  rw [decide_eq_true_eq] at hreg
  set t := g'.ptol with htd
  set nu := g'.nu
  set nv := g'.nv
  set U := toC g'.us with hU
  set V := toC g'.vs with hV
  set E : ℕ → ℕ → ℂ := fun i j => toC (pt pts (i * nv + j)) - toC (pt pts 0) - i * U - j * V with hE
  -- steps
  have hX : ∀ i j, j < nv → i + 1 < nu → 0 < i * nv + j → ‖E (i + 1) j - E i j‖ ≤ t := by
    intro i j hj hi h0
    have hlt : (i + 1) * nv + j < nu * nv := by
      have : (i + 2) * nv ≤ nu * nv := Nat.mul_le_mul_right _ hi
      have e : (i + 2) * nv = (i + 1) * nv + nv := by ring
      omega
    have e2 : (i + 1) * nv = i * nv + nv := by ring
    have := (hreg _ hlt).1 (by push_cast; rw [show ((i : ℤ) + 1) * nv + j - nv = i * nv + j by ring]; exact_mod_cast h0)
    rw [norm2_eq, toC_sub, toC_sub, show (i + 1) * nv + j - nv = i * nv + j by omega] at this
    have he : E (i + 1) j - E i j = toC (pt pts ((i + 1) * nv + j)) - toC (pt pts (i * nv + j)) - U := by
      simp only [hE]; push_cast; ring
    rw [he]; exact this.le
  have hY : ∀ i j, j + 1 < nv → i < nu → 0 < i * nv + j → ‖E i (j + 1) - E i j‖ ≤ t := by
    intro i j hj hi h0
    have hlt : i * nv + (j + 1) < nu * nv := by
      have : (i + 1) * nv ≤ nu * nv := Nat.mul_le_mul_right _ hi
      have e : (i + 1) * nv = i * nv + nv := by ring
      omega
    have hmod : (i * nv + (j + 1)) % nv ≠ 0 := by
      rw [Nat.add_comm, Nat.add_mul_mod_self_right, Nat.mod_eq_of_lt hj]; omega
    have := (hreg _ hlt).2 (by rw [if_neg hmod]; push_cast; rw [show (i : ℤ) * nv + (j + 1) - 1 = i * nv + j by ring]; exact_mod_cast h0)
    rw [norm2_eq, toC_sub, toC_sub, show i * nv + (j + 1) - 1 = i * nv + j by omega] at this
    have he : E i (j + 1) - E i j = toC (pt pts (i * nv + (j + 1))) - toC (pt pts (i * nv + j)) - V := by
      simp only [hE]; push_cast; ring
    rw [he]; exact this.le
  -- the corner
  have hcorner : E (nu - 1) 0 = 0 := by
    have hnu1 : ((nu : ℝ) - 1) ≠ 0 := by
      have : (2 : ℝ) ≤ nu := by exact_mod_cast hu
      linarith
    have hc : (((nu - 1 : ℕ) : ℝ)) = (nu : ℝ) - 1 := by
      rw [Nat.cast_sub (by omega)]; simp
    have hU' : (((nu - 1 : ℕ) : ℂ)) * U = toC (pt pts ((nu - 1) * nv)) - toC (pt pts 0) := by
      rw [hU, hus, ← Complex.ofReal_natCast, hc]
      apply Complex.ext
      · simp only [toC, V2.div, V2.sub, Complex.re_ofReal_mul, Complex.sub_re]
        field_simp
      · simp only [toC, V2.div, V2.sub, Complex.im_ofReal_mul, Complex.sub_im]
        field_simp
    simp only [hE, Nat.add_zero]
    rw [hU']
    push_cast; ring
  -- first column, from the last row up
  have hcol : ∀ m, m ≤ nu - 2 → ‖E (nu - 1 - m) 0‖ ≤ m * t := by
    intro m
    induction m with
    | zero => intro _; rw [Nat.sub_zero, hcorner]; simp
    | succ m ih =>
      intro hm
      have h1 := ih (by omega)
      have h2 := hX (nu - 1 - (m + 1)) 0 (by omega) (by omega) (by
        have : 1 * nv ≤ (nu - 1 - (m + 1)) * nv := Nat.mul_le_mul_right _ (by omega)
        omega)
      rw [show nu - 1 - (m + 1) + 1 = nu - 1 - m by omega] at h2
      have h3 : E (nu - 1 - (m + 1)) 0 = E (nu - 1 - m) 0 - (E (nu - 1 - m) 0 - E (nu - 1 - (m + 1)) 0) := by ring
      rw [h3]
      refine le_trans (norm_sub_le _ _) ?_
      push_cast; linarith
  have hrow : ∀ i, 1 ≤ i → i < nu → ∀ j, j < nv → ‖E i j‖ ≤ ((nu - 1 - i + j : ℕ) : ℝ) * t := by
    intro i h1 hi j
    induction j with
    | zero =>
      intro _
      have := hcol (nu - 1 - i) (by omega)
      rw [show nu - 1 - (nu - 1 - i) = i by omega] at this
      simpa using this
    | succ j ih =>
      intro hj
      have h2 := ih (by omega)
      have h3 := hY i j hj hi (by
        have : 1 * nv ≤ i * nv := Nat.mul_le_mul_right _ h1
        omega)
      have h4 : E i (j + 1) = E i j + (E i (j + 1) - E i j) := by ring
      rw [h4]
      refine le_trans (norm_add_le _ _) ?_
      push_cast at h2 ⊢; linarith
  have hall : ∀ i j, i < nu → j < nv → ‖E i j‖ ≤ ((nu - 1 - i + j : ℕ) : ℝ) * t := by
    intro i j hi hj
    by_cases h1 : 1 ≤ i
    · exact hrow i h1 hi j hj
    have i0 : i = 0 := by omega
    subst i0
    by_cases j0 : j = 0
    · subst j0
      have : E 0 0 = 0 := by simp only [hE]; simp
      rw [this, norm_zero]; positivity
    have h2 := hrow 1 le_rfl (by omega) j hj
    have h3 := hX 0 j hj (by omega) (by omega)
    have h4 : E 0 j = E (0 + 1) j - (E (0 + 1) j - E 0 j) := by ring
    rw [h4]
    refine le_trans (norm_sub_le _ _) ?_
    have h5 : ((nu - 1 - 0 + j : ℕ) : ℝ) = ((nu - 1 - 1 + j : ℕ) : ℝ) + 1 := by
      exact_mod_cast (by omega : nu - 1 - 0 + j = nu - 1 - 1 + j + 1)
    rw [h5]
    linarith
  intro i j hi hj
  have := hall i j hi hj
  rw [norm2_eq, toC_sub]
  have he : toC (pt pts (i * nv + j)) - toC ⟨(pt pts 0).x + i * g'.us.x + j * g'.vs.x, (pt pts 0).y + i * g'.us.y + j * g'.vs.y⟩ =
      E i j := by
    simp only [hE, hU, hV]
    have : toC ⟨(pt pts 0).x + i * g'.us.x + j * g'.vs.x, (pt pts 0).y + i * g'.us.y + j * g'.vs.y⟩ =
        toC (pt pts 0) + i * toC g'.us + j * toC g'.vs := by
      apply Complex.ext <;> simp [toC]
    rw [this]; ring
  rw [he]; exact this

/-! ### Exact grids are accepted -/

/-- The points of a grid, row by row. -/
def IsGrid (nu nv : Nat) (p0 U V : V2 ℝ) (pts : List (V2 ℝ)) : Prop :=
  pts.length = nu * nv ∧ ∀ i j, i < nu → j < nv →
    pt pts (i * nv + j) = ⟨p0.x + i * U.x + j * V.x, p0.y + i * U.y + j * V.y⟩

theorem norm2_zero : norm2 ⟨0, 0⟩ = 0 := by simp [norm2]

theorem norm2_pos {p : V2 ℝ} (h : p.x ≠ 0 ∨ p.y ≠ 0) : 0 < norm2 p := by
  apply Real.sqrt_pos.2
  rcases h with h | h
  · have : 0 < p.x ^ 2 := by positivity
    have := sq_nonneg p.y
    linarith
  · have : 0 < p.y ^ 2 := by positivity
    have := sq_nonneg p.x
    linarith

theorem grid_rowEnd {tol : ℝ} (ht : 0 < tol) {nu nv : Nat} (hu : 2 ≤ nu) (hv : 2 ≤ nv) {p0 U V : V2 ℝ} {pts : List (V2 ℝ)}
    (hg : IsGrid nu nv p0 U V pts) (hr : tol * normInf V < normInf ⟨nv * V.x - U.x, nv * V.y - U.y⟩) :
    rowEnd tol pts = some nv := by
  obtain ⟨hlen, hp⟩ := hg
  have h0 : ∀ j, j < nv → pt pts j = ⟨p0.x + j * V.x, p0.y + j * V.y⟩ := by
    intro j hj
    have := hp 0 j (by omega) hj
    simpa using this
  have h1 : pt pts nv = ⟨p0.x + U.x, p0.y + U.y⟩ := by
    have := hp 1 0 (by omega) (by omega)
    simpa using this
  have hvs : (pt pts 1).sub (pt pts 0) = V := by
    rw [h0 1 (by omega), h0 0 (by omega)]
    simp [V2.sub]
  have hge : nv * 2 ≤ pts.length := by rw [hlen, Nat.mul_comm nu]; exact Nat.mul_le_mul_left _ hu
  unfold rowEnd
  simp only [hvs]
  rw [List.find?_eq_some_iff_append]
  constructor
  · rw [h1, h0 (nv - 1) (by omega), decide_eq_true_eq]
    have hc : (((nv - 1 : ℕ) : ℝ)) = (nv : ℝ) - 1 := by
      rw [Nat.cast_sub (by omega)]; simp
    have e : V.sub ((⟨p0.x + U.x, p0.y + U.y⟩ : V2 ℝ).sub ⟨p0.x + ((nv - 1 : ℕ) : ℝ) * V.x, p0.y + ((nv - 1 : ℕ) : ℝ) * V.y⟩) =
        ⟨nv * V.x - U.x, nv * V.y - U.y⟩ := by
      rw [hc]; simp only [V2.sub, V2.mk.injEq]; constructor <;> ring
    rw [e]; exact hr
  · refine ⟨List.range' 2 (nv - 2), List.range' (nv + 1) (pts.length - nv - 1), ?_, ?_⟩
    · have e1 : pts.length - 2 = (nv - 2) + ((pts.length - nv - 1) + 1) := by omega
      rw [e1, ← List.range'_append_1, show 2 + (nv - 2) = nv by omega, List.range'_succ]
    · intro i hi
      rw [List.mem_range'_1] at hi
      rw [h0 i (by omega), h0 (i - 1) (by omega)]
      have hc : (((i - 1 : ℕ) : ℝ)) = (i : ℝ) - 1 := by
        rw [Nat.cast_sub (by omega)]; simp
      have e : V.sub ((⟨p0.x + i * V.x, p0.y + i * V.y⟩ : V2 ℝ).sub ⟨p0.x + ((i - 1 : ℕ) : ℝ) * V.x, p0.y + ((i - 1 : ℕ) : ℝ) * V.y⟩) =
          ⟨0, 0⟩ := by
        rw [hc]; simp only [V2.sub, V2.mk.injEq]; constructor <;> ring
      rw [e]
      have hn : 0 ≤ normInf V := le_trans (abs_nonneg _) (le_max_left _ _)
      have : ¬ tol * normInf V < normInf ⟨0, 0⟩ := by
        have h2 : normInf ⟨0, 0⟩ = 0 := by simp [normInf]
        rw [h2]
        exact not_lt.2 (mul_nonneg ht.le hn)
      simp [this]

theorem grid_corners {tol : ℝ} (ht : 0 < tol) {nu nv : Nat} (hu : 2 ≤ nu) (hv : 2 ≤ nv) {p0 U V : V2 ℝ} {pts : List (V2 ℝ)}
    (hg : IsGrid nu nv p0 U V pts) (hr : tol * normInf V < normInf ⟨nv * V.x - U.x, nv * V.y - U.y⟩)
    (hd : U.x * V.y - U.y * V.x ≠ 0) :
    ∃ g, corners tol pts = .ok g ∧ g.nu = nu ∧ g.nv = nv ∧ g.us = U ∧ g.vs = V ∧ 0 < g.ptol ∧
      g.quad = ⟨⟨p0.x + (nv - 1) * V.x, p0.y + (nv - 1) * V.y⟩, p0, ⟨p0.x + (nu - 1) * U.x, p0.y + (nu - 1) * U.y⟩,
        ⟨p0.x + (nu - 1) * U.x + (nv - 1) * V.x, p0.y + (nu - 1) * U.y + (nv - 1) * V.y⟩⟩ := by
  have hrow := grid_rowEnd ht hu hv hg hr
  obtain ⟨hlen, hp⟩ := hg
  have hge : nv * 2 ≤ pts.length := by rw [hlen, Nat.mul_comm nu]; exact Nat.mul_le_mul_left _ hu
  have cu : (((nu - 1 : ℕ) : ℝ)) = (nu : ℝ) - 1 := by rw [Nat.cast_sub (by omega)]; simp
  have cv : (((nv - 1 : ℕ) : ℝ)) = (nv : ℝ) - 1 := by rw [Nat.cast_sub (by omega)]; simp
  have nu1 : (0 : ℝ) < (nu : ℝ) - 1 := by
    have : (2 : ℝ) ≤ nu := by exact_mod_cast hu
    linarith
  have nv1 : (0 : ℝ) < (nv : ℝ) - 1 := by
    have : (2 : ℝ) ≤ nv := by exact_mod_cast hv
    linarith
  have a0 : pt pts 0 = p0 := by
    have := hp 0 0 (by omega) (by omega)
    simpa using this
  have a1 : pt pts (nv - 1) = ⟨p0.x + (nv - 1) * V.x, p0.y + (nv - 1) * V.y⟩ := by
    have := hp 0 (nv - 1) (by omega) (by omega)
    rw [cv] at this
    simpa using this
  have hsub : pts.length - nv = (nu - 1) * nv := by rw [hlen, Nat.sub_mul, one_mul]
  have a2 : pt pts (pts.length - nv) = ⟨p0.x + (nu - 1) * U.x, p0.y + (nu - 1) * U.y⟩ := by
    have := hp (nu - 1) 0 (by omega) (by omega)
    rw [cu] at this
    rw [hsub]
    simpa using this
  have a3 : pt pts (pts.length - 1) = ⟨p0.x + (nu - 1) * U.x + (nv - 1) * V.x, p0.y + (nu - 1) * U.y + (nv - 1) * V.y⟩ := by
    have := hp (nu - 1) (nv - 1) (by omega) (by omega)
    rw [cu, cv, show (nu - 1) * nv + (nv - 1) = pts.length - 1 by omega] at this
    exact this
  have hUne : U.x ≠ 0 ∨ U.y ≠ 0 := by
    by_contra hc
    rw [not_or, not_not, not_not] at hc
    apply hd; rw [hc.1, hc.2]; ring
  have hVne : V.x ≠ 0 ∨ V.y ≠ 0 := by
    by_contra hc
    rw [not_or, not_not, not_not] at hc
    apply hd; rw [hc.1, hc.2]; ring
  have hdiv : pts.length / nv = nu := by rw [hlen]; exact Nat.mul_div_cancel _ (by omega)
  have n0 : 0 < norm2 (p0.sub ⟨p0.x + (nv - 1) * V.x, p0.y + (nv - 1) * V.y⟩) := by
    apply norm2_pos
    simp only [V2.sub]
    rcases hVne with h | h
    · left
      have : (nv - 1) * V.x ≠ 0 := mul_ne_zero nv1.ne' h
      intro hc; apply this; linarith
    · right
      have : (nv - 1) * V.y ≠ 0 := mul_ne_zero nv1.ne' h
      intro hc; apply this; linarith
  have n1 : 0 < norm2 ((⟨p0.x + (nu - 1) * U.x, p0.y + (nu - 1) * U.y⟩ : V2 ℝ).sub p0) := by
    apply norm2_pos
    simp only [V2.sub]
    rcases hUne with h | h
    · left
      have : (nu - 1) * U.x ≠ 0 := mul_ne_zero nu1.ne' h
      intro hc; apply this; linarith
    · right
      have : (nu - 1) * U.y ≠ 0 := mul_ne_zero nu1.ne' h
      intro hc; apply this; linarith
  unfold corners
  rw [if_neg (by omega), hrow]
  simp only [hdiv]
  rw [if_neg (by simp [hlen]), a0, a1, a2, a3]
  have z0 : (p0.sub ⟨p0.x + (nv - 1) * V.x, p0.y + (nv - 1) * V.y⟩).add
      ((⟨p0.x + (nu - 1) * U.x + (nv - 1) * V.x, p0.y + (nu - 1) * U.y + (nv - 1) * V.y⟩ : V2 ℝ).sub
        ⟨p0.x + (nu - 1) * U.x, p0.y + (nu - 1) * U.y⟩) = ⟨0, 0⟩ := by
    simp only [V2.sub, V2.add, V2.mk.injEq]; constructor <;> ring
  have z1 : ((⟨p0.x + (nu - 1) * U.x, p0.y + (nu - 1) * U.y⟩ : V2 ℝ).sub p0).add
      ((⟨p0.x + (nv - 1) * V.x, p0.y + (nv - 1) * V.y⟩ : V2 ℝ).sub
        ⟨p0.x + (nu - 1) * U.x + (nv - 1) * V.x, p0.y + (nu - 1) * U.y + (nv - 1) * V.y⟩) = ⟨0, 0⟩ := by
    simp only [V2.sub, V2.add, V2.mk.injEq]; constructor <;> ring
  rw [z0, z1, norm2_zero, if_pos ⟨mul_pos ht n0, mul_pos (by unfold stepTol; norm_num) n1⟩]
  refine ⟨_, rfl, rfl, rfl, ?_, ?_, ?_, rfl⟩
  · simp only [V2.sub, V2.div, add_sub_cancel_left]
    rw [mul_div_cancel_left₀ _ nu1.ne', mul_div_cancel_left₀ _ nu1.ne']
  · simp only [V2.sub, V2.div, add_sub_cancel_left]
    rw [mul_div_cancel_left₀ _ nv1.ne', mul_div_cancel_left₀ _ nv1.ne']
  · refine mul_pos ht (lt_of_lt_of_le n0 ?_)
    exact le_trans (le_max_left _ _) (le_trans (le_max_left _ _) (le_max_left _ _))

theorem grid_regular {nu nv : Nat} {p0 : V2 ℝ} {pts : List (V2 ℝ)} {g : Info} (hv : 2 ≤ nv) (hg : IsGrid nu nv p0 g.us g.vs pts)
    (h1 : g.nu = nu) (h2 : g.nv = nv) (ht : 0 < g.ptol) : regular g pts = true := by
  obtain ⟨hlen, hp⟩ := hg
  unfold regular
  rw [decide_eq_true_eq, h1, h2]
  have key : ∀ k, k < nu * nv → pt pts k = ⟨p0.x + (k / nv : ℕ) * g.us.x + (k % nv : ℕ) * g.vs.x,
      p0.y + (k / nv : ℕ) * g.us.y + (k % nv : ℕ) * g.vs.y⟩ := by
    intro k hk
    have := hp (k / nv) (k % nv) (Nat.div_lt_of_lt_mul (by rwa [Nat.mul_comm])) (Nat.mod_lt _ (by omega))
    rwa [Nat.div_add_mod'] at this
  intro k hk
  constructor
  · intro h
    have hge : nv ≤ k := by omega
    have hdiv : k / nv = (k - nv) / nv + 1 := by
      rw [Nat.div_eq_sub_div (by omega) hge]
    have hmod : k % nv = (k - nv) % nv := by
      rw [Nat.mod_eq_sub_mod hge]
    have e : ((pt pts k).sub (pt pts (k - nv))).sub g.us = ⟨0, 0⟩ := by
      rw [key k hk, key (k - nv) (by omega), hdiv, hmod]
      simp only [V2.sub, V2.mk.injEq]; push_cast; constructor <;> ring
    rw [e, norm2_zero]; exact ht
  · intro h
    have hne : k % nv ≠ 0 := by
      intro hc; rw [if_pos hc] at h; omega
    have h1k : 1 ≤ k := by
      by_contra hc
      have : k = 0 := by omega
      apply hne; rw [this]; simp
    obtain ⟨j, hj⟩ : ∃ j, k % nv = j + 1 := ⟨k % nv - 1, by omega⟩
    have hk2 : k - 1 = j + nv * (k / nv) := by
      have := Nat.mod_add_div k nv
      omega
    have hjl : j < nv := by
      have := Nat.mod_lt k (show 0 < nv by omega)
      omega
    have hdiv : (k - 1) / nv = k / nv := by
      rw [hk2, Nat.add_mul_div_left _ _ (by omega), Nat.div_eq_of_lt hjl, Nat.zero_add]
    have hmod : (k - 1) % nv = j := by
      rw [hk2, Nat.add_mul_mod_self_left, Nat.mod_eq_of_lt hjl]
    have e : ((pt pts k).sub (pt pts (k - 1))).sub g.vs = ⟨0, 0⟩ := by
      rw [key k hk, key (k - 1) (by omega), hdiv, hmod, hj]
      simp only [V2.sub, V2.mk.injEq]; push_cast; constructor <;> ring
    rw [e, norm2_zero]; exact ht

/-- The index and the local coordinate of a node of the grid. -/
theorem node_local {n i : Nat} (hn : 2 ≤ n) (hi : i < n) :
    ∃ k : Nat, gridIdx n ((i : ℝ) / ((n : ℝ) - 1)) = (k : Int) ∧
      ((k = i ∧ ((i : ℝ) / ((n : ℝ) - 1)) / (1 / ((n : ℝ) - 1)) - (k : ℝ) = 0) ∨
        (k + 1 = i ∧ ((i : ℝ) / ((n : ℝ) - 1)) / (1 / ((n : ℝ) - 1)) - (k : ℝ) = 1)) := by
  have n1 : (0 : ℝ) < (n : ℝ) - 1 := by
    have : (2 : ℝ) ≤ n := by exact_mod_cast hn
    linarith
  have e : ((i : ℝ) / ((n : ℝ) - 1)) / (1 / ((n : ℝ) - 1)) = i := by field_simp
  unfold gridIdx
  rw [e, Int.floor_natCast]
  by_cases h : i ≤ n - 2
  · refine ⟨i, ?_, Or.inl ⟨rfl, sub_self _⟩⟩
    rw [min_eq_right (by omega), max_eq_right (by omega)]
  · refine ⟨n - 2, ?_, Or.inr ⟨by omega, ?_⟩⟩
    · rw [min_eq_left (by omega), max_eq_right (by omega)]; omega
    · have : i = n - 2 + 1 := by omega
      have h3 : (i : ℝ) = ((n - 2 : ℕ) : ℝ) + 1 := by exact_mod_cast this
      rw [h3]; ring

theorem gridLocal_node {nu nv i j : Nat} (hu : 2 ≤ nu) (hv : 2 ≤ nv) (hi : i < nu) (hj : j < nv) (z : Nat → Nat → ℝ) :
    gridLocal nu nv z ((i : ℝ) / ((nu : ℝ) - 1)) ((j : ℝ) / ((nv : ℝ) - 1)) = z i j := by
  obtain ⟨k, hk, ck⟩ := node_local hu hi
  obtain ⟨m, hm, cm⟩ := node_local hv hj
  unfold gridLocal
  simp only [hk, hm, Int.cast_natCast, Int.toNat_natCast]
  rcases ck with ⟨rfl, e1⟩ | ⟨rfl, e1⟩ <;> rcases cm with ⟨rfl, e2⟩ | ⟨rfl, e2⟩ <;> rw [e1, e2] <;> simp

/-- **C139**: every exact grid of at least 2 x 2 points in a parallelogram is accepted, if the step to the second row can be told
from a step in the row. Its shape is found, and evaluation at the X and Y of any of its points gives that point with its Z. -/
theorem grid_interpolates {cs : Consts ℝ} (ha : 0 ≤ cs.atol) (hc : 0 ≤ cs.crtol) {tol : ℝ} (ht : 0 < tol) {nu nv : Nat} (hu : 2 ≤ nu)
    (hv : 2 ≤ nv) {p0 U V : V2 ℝ} {pts : List (V2 ℝ)} (zs : List ℝ) (self : Nat) (hg : IsGrid nu nv p0 U V pts)
    (hr : tol * normInf V < normInf ⟨nv * V.x - U.x, nv * V.y - U.y⟩) (hd : U.x * V.y - U.y * V.x ≠ 0) :
    ∃ g o, gridNew cs tol self pts zs = .ok (g, o) ∧ g.nu = nu ∧ g.nv = nv ∧
      ∀ (w : World ℝ), w[self]? = some o → ∀ i j, i < nu → j < nv →
        xyToUv w self (pt pts (i * nv + j)) = .ok ⟨i / ((nu : ℝ) - 1), j / ((nv : ℝ) - 1)⟩ ∧
        evalXY cs w self (pt pts (i * nv + j)).x (pt pts (i * nv + j)).y =
          .ok ((pt pts (i * nv + j)).x, (pt pts (i * nv + j)).y, zs.getD (i * nv + j) 0) := by
  obtain ⟨g, hcor, gnu, gnv, gus, gvs, gpt, gq⟩ := grid_corners ht hu hv hg hr hd
  have hreg : regular g pts = true := grid_regular hv (by rw [gus, gvs]; exact hg) gnu gnv gpt
  have nu1 : (0 : ℝ) < (nu : ℝ) - 1 := by
    have : (2 : ℝ) ≤ nu := by exact_mod_cast hu
    linarith
  have nv1 : (0 : ℝ) < (nv : ℝ) - 1 := by
    have : (2 : ℝ) ≤ nv := by exact_mod_cast hv
    linarith
  obtain ⟨S, hS, hdim, hrat, -, -, -, hz⟩ := grid_raw cs nu nv hu hv (fun i j => zs.getD (i * nv + j) 0)
  -- the linear map
  set q0 : V2 ℝ := ⟨p0.x + (nv - 1) * V.x, p0.y + (nv - 1) * V.y⟩ with hq0
  set q2 : V2 ℝ := ⟨p0.x + (nu - 1) * U.x, p0.y + (nu - 1) * U.y⟩ with hq2
  have hac : ∀ p : V2 ℝ, allclose cs p p = true := by
    intro p
    unfold allclose
    simp only [sub_self, abs_zero, Bool.and_eq_true, decide_eq_true_eq]
    exact ⟨add_nonneg ha (mul_nonneg hc (abs_nonneg _)), add_nonneg ha (mul_nonneg hc (abs_nonneg _))⟩
  set m : M2 ℝ := M2.cols (q2.sub p0) (q0.sub p0) with hm
  have hdet : m.det = (nu - 1) * (nv - 1) * (U.x * V.y - U.y * V.x) := by
    rw [hm, hq0, hq2]; simp only [M2.cols, M2.det, V2.sub]; ring
  have hdet0 : m.det ≠ 0 := by
    rw [hdet]; exact mul_ne_zero (mul_pos nu1 nv1).ne' hd
  obtain ⟨mi, hmi⟩ : ∃ mi, m.inv = some mi := by
    unfold M2.inv; rw [if_neg hdet0]; exact ⟨_, rfl⟩
  set o : Obj ℝ := ⟨S, complete q0 p0 q2, complete q0 p0 q2, true, self, some ⟨p0, m, mi⟩, (idMat, ⟨0, 0⟩), (1, 0), (1, 0), false⟩
    with ho
  have hnew : Obj.new cs self (complete q0 p0 q2) S = .ok o := by
    unfold Obj.new
    rw [hrat, if_neg (by simp), if_neg (by simp [hdim])]
    have hb : allclose cs (complete q0 p0 q2).q3
        (((complete q0 p0 q2).q0.add (complete q0 p0 q2).q2).sub (complete q0 p0 q2).q1) = true := hac _
    have hm' : M2.cols ((complete q0 p0 q2).q2.sub (complete q0 p0 q2).q1)
        ((complete q0 p0 q2).q0.sub (complete q0 p0 q2).q1) = m := rfl
    unfold Obj.resetXY
    simp only [hb, if_true, hm', hmi]
    rfl
  have hpt : ∀ a b : ℝ, mi.mulV ((⟨p0.x + a * ((nu - 1) * U.x) + b * ((nv - 1) * V.x), p0.y + a * ((nu - 1) * U.y) + b * ((nv - 1) * V.y)⟩ :
      V2 ℝ).sub p0) = ⟨a, b⟩ := by
    intro a b
    have e : (⟨p0.x + a * ((nu - 1) * U.x) + b * ((nv - 1) * V.x), p0.y + a * ((nu - 1) * U.y) + b * ((nv - 1) * V.y)⟩ :
        V2 ℝ).sub p0 = m.mulV ⟨a, b⟩ := by
      rw [hm, hq0, hq2]; simp only [M2.cols, M2.mulV, V2.sub, V2.mk.injEq]; constructor <;> ring
    rw [e]; exact (inv_spec hmi ⟨a, b⟩).2
  have hxy : ∀ a b : ℝ, (Lin.mk p0 m mi).xyToUv ⟨p0.x + a * ((nu - 1) * U.x) + b * ((nv - 1) * V.x),
      p0.y + a * ((nu - 1) * U.y) + b * ((nv - 1) * V.y)⟩ = ⟨a, b⟩ := hpt
  have hgn : gridNew cs tol self pts zs = .ok (g, o) := by
    unfold gridNew
    rw [hcor]
    simp only [hreg, gnu, gnv, gq]
    rw [if_neg (by simp), hS]
    simp only
    rw [hnew]
    simp only [ho]
    have c0 : (Lin.mk p0 m mi).xyToUv q0 = ⟨0, 1⟩ := by
      have := hxy 0 1
      simpa [hq0] using this
    have c1 : (Lin.mk p0 m mi).xyToUv p0 = ⟨0, 0⟩ := by
      have := hxy 0 0
      simpa using this
    have c2 : (Lin.mk p0 m mi).xyToUv q2 = ⟨1, 0⟩ := by
      have := hxy 1 0
      simpa [hq2] using this
    have c3 : (Lin.mk p0 m mi).xyToUv ⟨p0.x + (nu - 1) * U.x + (nv - 1) * V.x, p0.y + (nu - 1) * U.y + (nv - 1) * V.y⟩ = ⟨1, 1⟩ := by
      have := hxy 1 1
      simpa using this
    rw [c0, c1, c2, c3, hac, hac, hac, hac]
    simp
  refine ⟨g, o, hgn, gnu, gnv, ?_⟩
  intro w hw i j hi hj
  have hP : pt pts (i * nv + j) = ⟨p0.x + (i / ((nu : ℝ) - 1)) * ((nu - 1) * U.x) + (j / ((nv : ℝ) - 1)) * ((nv - 1) * V.x),
      p0.y + (i / ((nu : ℝ) - 1)) * ((nu - 1) * U.y) + (j / ((nv : ℝ) - 1)) * ((nv - 1) * V.y)⟩ := by
    rw [hg.2 i j hi hj]
    simp only [V2.mk.injEq]
    constructor <;> field_simp
  have huv : xyToUv w self (pt pts (i * nv + j)) = .ok ⟨i / ((nu : ℝ) - 1), j / ((nv : ℝ) - 1)⟩ := by
    unfold xyToUv
    rw [hw]
    simp only [ho]
    rw [hw]
    simp only [ho]
    rw [hP, hxy]
    rfl
  refine ⟨huv, ?_⟩
  have hback : uvToXy w self ⟨i / ((nu : ℝ) - 1), j / ((nv : ℝ) - 1)⟩ = .ok (pt pts (i * nv + j)) := by
    unfold uvToXy
    rw [hw]
    simp only [ho]
    rw [hw]
    simp only [ho, if_true]
    congr 1
    rw [hP]
    unfold Lin.uvToXy
    rw [hm, hq0, hq2]
    simp only [M2.cols, M2.mulV, V2.sub, V2.add, V2.mk.injEq]; constructor <;> ring
  have hin : ∀ (k n : Nat), 2 ≤ n → k < n → (0 : ℝ) ≤ k / ((n : ℝ) - 1) ∧ (k : ℝ) / ((n : ℝ) - 1) ≤ 1 := by
    intro k n hn hk
    have n1 : (0 : ℝ) < (n : ℝ) - 1 := by
      have : (2 : ℝ) ≤ n := by exact_mod_cast hn
      linarith
    refine ⟨by positivity, (div_le_one n1).2 ?_⟩
    have : (k : ℝ) + 1 ≤ n := by exact_mod_cast hk
    linarith
  unfold evalXY
  have e3 : (⟨(pt pts (i * nv + j)).x, (pt pts (i * nv + j)).y⟩ : V2 ℝ) = pt pts (i * nv + j) := rfl
  rw [e3, huv]
  simp only
  unfold evalPoint
  rw [hw]
  simp only
  unfold Obj.zEval
  simp only [ho]
  rw [hz _ _ (hin i nu hu hi).1 (hin i nu hu hi).2 (hin j nv hv hj).1 (hin j nv hv hj).2, gridLocal_node hu hv hi hj]
  simp only
  rw [hback]
  simp

/-- `make_function_grid` (bspline.py:1174-1190) as a sequence of points (XY part): `X` is constant in a row. -/
noncomputable def functionGrid (nu nv : Nat) : List (V2 ℝ) :=
  (List.range (nu * nv)).map fun k => ⟨((k / nv : ℕ) : ℝ) / ((nu : ℝ) - 1), ((k % nv : ℕ) : ℝ) / ((nv : ℝ) - 1)⟩

/-- The Z values of `make_function_grid`. -/
noncomputable def functionZ (fn : V2 ℝ → ℝ) (nu nv : Nat) : List ℝ := (functionGrid nu nv).map fn

/-- **C139**: the surface of the grid of a function has the value of the function at every node. -/
theorem function_grid {cs : Consts ℝ} (ha : 0 ≤ cs.atol) (hc : 0 ≤ cs.crtol) {tol : ℝ} (ht : 0 < tol) (ht1 : tol ≤ 1) {nu nv : Nat}
    (hu : 2 ≤ nu) (hv : 2 ≤ nv) (fn : V2 ℝ → ℝ) (self : Nat) :
    ∃ g o, gridNew cs tol self (functionGrid nu nv) (functionZ fn nu nv) = .ok (g, o) ∧ g.nu = nu ∧ g.nv = nv ∧
      ∀ (w : World ℝ), w[self]? = some o → ∀ i j, i < nu → j < nv →
        evalXY cs w self (i / ((nu : ℝ) - 1)) (j / ((nv : ℝ) - 1)) =
          .ok (i / ((nu : ℝ) - 1), j / ((nv : ℝ) - 1), fn ⟨i / ((nu : ℝ) - 1), j / ((nv : ℝ) - 1)⟩) := by
  have nu1 : (0 : ℝ) < (nu : ℝ) - 1 := by
    have : (2 : ℝ) ≤ nu := by exact_mod_cast hu
    linarith
  have nv1 : (0 : ℝ) < (nv : ℝ) - 1 := by
    have : (2 : ℝ) ≤ nv := by exact_mod_cast hv
    linarith
  have hk : ∀ i j, i < nu → j < nv → i * nv + j < nu * nv := by
    intro i j hi hj
    have : (i + 1) * nv ≤ nu * nv := Nat.mul_le_mul_right _ hi
    have e : (i + 1) * nv = i * nv + nv := by ring
    omega
  have hdm : ∀ i j, j < nv → (i * nv + j) / nv = i ∧ (i * nv + j) % nv = j := by
    intro i j hj
    constructor
    · rw [Nat.add_comm, Nat.add_mul_div_right _ _ (by omega), Nat.div_eq_of_lt hj, Nat.zero_add]
    · rw [Nat.add_comm, Nat.add_mul_mod_self_right, Nat.mod_eq_of_lt hj]
  have hp : ∀ i j, i < nu → j < nv → pt (functionGrid nu nv) (i * nv + j) = ⟨i / ((nu : ℝ) - 1), j / ((nv : ℝ) - 1)⟩ := by
    intro i j hi hj
    unfold pt functionGrid
    rw [List.getD_eq_getElem?_getD, List.getElem?_map, List.getElem?_range (hk i j hi hj)]
    simp only [Option.map_some, Option.getD_some, (hdm i j hj).1, (hdm i j hj).2]
  have hg : IsGrid nu nv ⟨0, 0⟩ ⟨1 / ((nu : ℝ) - 1), 0⟩ ⟨0, 1 / ((nv : ℝ) - 1)⟩ (functionGrid nu nv) := by
    refine ⟨by simp [functionGrid], ?_⟩
    intro i j hi hj
    rw [hp i j hi hj]
    simp only [V2.mk.injEq]; constructor <;> ring
  have hr : tol * normInf ⟨0, 1 / ((nv : ℝ) - 1)⟩ < normInf ⟨nv * 0 - 1 / ((nu : ℝ) - 1), nv * (1 / ((nv : ℝ) - 1)) - 0⟩ := by
    have p1 : 0 < 1 / ((nv : ℝ) - 1) := by positivity
    have e1 : normInf ⟨0, 1 / ((nv : ℝ) - 1)⟩ = 1 / ((nv : ℝ) - 1) := by
      unfold normInf; rw [abs_zero, abs_of_pos p1, max_eq_right p1.le]
    rw [e1]
    refine lt_of_lt_of_le ?_ (le_max_right _ _)
    simp only [sub_zero]
    rw [abs_of_pos (by positivity)]
    have h2 : (2 : ℝ) ≤ nv := by exact_mod_cast hv
    exact mul_lt_mul_of_pos_right (by linarith) p1
  obtain ⟨g, o, h1, h2, h3, h4⟩ := grid_interpolates ha hc ht hu hv (functionZ fn nu nv) self hg hr (by
    simp only [zero_mul, sub_zero, mul_zero]
    positivity)
  refine ⟨g, o, h1, h2, h3, ?_⟩
  intro w hw i j hi hj
  have := (h4 w hw i j hi hj).2
  rw [hp i j hi hj] at this
  rw [this]
  congr 3
  unfold functionZ
  rw [List.getD_eq_getElem?_getD, List.getElem?_map]
  have e : (functionGrid nu nv)[i * nv + j]? = some ⟨i / ((nu : ℝ) - 1), j / ((nv : ℝ) - 1)⟩ := by
    unfold functionGrid
    rw [List.getElem?_map, List.getElem?_range (hk i j hi hj)]
    simp only [Option.map_some, (hdm i j hj).1, (hdm i j hj).2]
  rw [e]; rfl

/-- A grid of 2 x 3 points with a step (2, 1) in the rows and (1, 3) between them. -/
noncomputable def demoPts : List (V2 ℝ) := [⟨0, 0⟩, ⟨2, 1⟩, ⟨4, 2⟩, ⟨1, 3⟩, ⟨3, 4⟩, ⟨5, 5⟩]

/-- The hypotheses of `grid_interpolates` hold for it. -/
example : ∃ g o, gridNew ⟨0, 0, 0, 0⟩ (1 / 1000000) 0 demoPts [5, 1, 4, 2, 3, 7] = .ok (g, o) ∧ g.nu = 2 ∧ g.nv = 3 ∧
    evalXY ⟨0, 0, 0, 0⟩ [o] 0 3 4 = .ok (3, 4, 3) := by
  have hg : IsGrid 2 3 ⟨0, 0⟩ ⟨1, 3⟩ ⟨2, 1⟩ demoPts := by
    refine ⟨rfl, ?_⟩
    intro i j hi hj
    have ci : i = 0 ∨ i = 1 := by omega
    have cj : j = 0 ∨ j = 1 ∨ j = 2 := by omega
    rcases ci with rfl | rfl <;> rcases cj with rfl | rfl | rfl <;> simp [pt, demoPts] <;> norm_num
  have hr : (1 / 1000000 : ℝ) * normInf ⟨2, 1⟩ < normInf ⟨(3 : ℕ) * 2 - 1, (3 : ℕ) * 1 - 3⟩ := by
    simp only [normInf]; norm_num
  obtain ⟨g, o, h1, h2, h3, h4⟩ := grid_interpolates (cs := ⟨0, 0, 0, 0⟩) le_rfl le_rfl (by norm_num) (by norm_num) (by norm_num)
    [5, 1, 4, 2, 3, 7] 0 hg hr (by norm_num)
  refine ⟨g, o, h1, h2, h3, ?_⟩
  have := (h4 [o] rfl 1 1 (by norm_num) (by norm_num)).2
  simpa [pt, demoPts] using this

end Verif.ZSurf
