import Verif.Spline.Geom

/-!
Model of the degree 2 spline of a plane, of a bilinear patch and of a line
(src/bgem/bspline/bspline_approx.py:24-90), on top of the spline model.

Points are lists of coordinates of a field of numbers; `np.array` of rows of different length (an object array or an
error) is not modelled, the theorems take rows of one length. Integer coordinates, where `dv *= overhang` raises, are
not modelled either.
-/
namespace Verif.Approx

open Verif.Spline Finset

variable {K : Type} [Field K] [LinearOrder K] [IsStrictOrderedRing K]

/-- Sum of two rows (numpy `+`). -/
def vadd (a b : List K) : List K := List.zipWith (· + ·) a b

/-- Difference of two rows (numpy `-`). -/
def vsub (a b : List K) : List K := List.zipWith (· - ·) a b

/-- A row times a number (numpy `*`). -/
def vmul (c : K) (a : List K) : List K := a.map (c * ·)

/-- `np.mean` of two rows (bspline_approx.py:57, 86). -/
def mid2 (a b : List K) : List K := (vadd a b).map (· / 2)

/-- `np.mean` of four rows (bspline_approx.py:57, called in line 62). -/
def mid4 (a b c d : List K) : List K := (vadd (vadd (vadd a b) c) d).map (· / 4)

/-- The four corners moved for the overhang (bspline_approx.py:51-54): with `dv[i] = overhang * (v[i+1] - v[i])` the corner
`i` is moved by `dv[i-1] - dv[i]`, indices modulo 4. -/
def extended (o : K) (a b c d : List K) : List K × List K × List K × List K :=
  if 0 < o then
    let d0 := vmul o (vsub b a)
    let d1 := vmul o (vsub c b)
    let d2 := vmul o (vsub d c)
    let d3 := vmul o (vsub a d)
    (vadd a (vsub d3 d0), vadd b (vsub d0 d1), vadd c (vsub d1 d2), vadd d (vsub d2 d3))
  else (a, b, c, d)

/-- The knots `3 * [0.0 - overhang] + 3 * [1.0 + overhang]` (bspline_approx.py:65, 88). -/
def endKnots (o : K) : List K := List.replicate 3 (0 - o) ++ List.replicate 3 (1 + o)

/-- `bilinear_surface` (bspline_approx.py:41-69); the assertion on the number of corners is the first match. -/
def bilinearSurface (vtxs : List (List K)) (o : K) : Except Err (Surface K) :=
  match vtxs with
  | [a, b, c, d] => do
    let (a, b, c, d) := extended o a b c d
    let poles := [[a, mid2 a d, d], [mid2 a b, mid4 a b c d, mid2 c d], [b, mid2 b c, c]]
    let basis ← Basis.init 2 (endKnots o)
    Surface.init basis basis poles false
  | _ => .error .assertionError

/-- `plane_surface` (bspline_approx.py:24-38). -/
def planeSurface (vtxs : List (List K)) (o : K) : Except Err (Surface K) :=
  match vtxs with
  | [a, b, c] => bilinearSurface [a, b, vsub (vadd b c) a, c] o
  | _ => .error .assertionError

/-- `line` (bspline_approx.py:74-90). -/
def lineCurve (vtxs : List (List K)) (o : K) : Except Err (Curve K) :=
  match vtxs with
  | [a, b] => do
    let dv := vmul o (vsub b a)
    let (a, b) := if 0 < o then (vsub a dv, vadd b dv) else (a, b)
    let basis ← Basis.init 2 (endKnots o)
    Curve.init basis [a, mid2 a b, b] false
  | _ => .error .assertionError

/-! ### The basis -/

/-- the basis of `endKnots` -/
def endBasis (o : K) : Basis K := ⟨2, endKnots o⟩

omit [LinearOrder K] [IsStrictOrderedRing K] in
theorem endKnots_eq (o : K) : endKnots o = [-o, -o, -o, 1 + o, 1 + o, 1 + o] := by
  simp [endKnots, List.replicate]

theorem endBasis_init (o : K) : Basis.init 2 (endKnots o) = .ok (endBasis o) := by
  rw [init_ok]
  · rfl
  · simp [endKnots]
  · intro i hi
    have : i = 0 ∨ i = 1 ∨ i = 2 := by omega
    rw [endKnots_eq]
    rcases this with h | h | h <;> subst h <;> rfl
  · intro i hi
    have : i = 0 ∨ i = 1 ∨ i = 2 := by omega
    rw [endKnots_eq]
    rcases this with h | h | h <;> subst h <;> rfl

theorem endBasis_valid {o : K} (ho : 0 ≤ o) : (endBasis o).Valid := by
  have h1 : -o ≤ 1 + o := by linarith
  refine ⟨?_, ?_, ?_, ?_, ?_⟩
  · show (endKnots o).Pairwise _
    rw [endKnots_eq]
    simp [h1]
  · intro i hi
    have : i = 0 ∨ i = 1 ∨ i = 2 := by have : i ≤ 2 := hi; omega
    show (endKnots o)[i]? = (endKnots o)[0]?
    rw [endKnots_eq]
    rcases this with h | h | h <;> subst h <;> rfl
  · intro i hi
    have : i = 0 ∨ i = 1 ∨ i = 2 := by have : i ≤ 2 := hi; omega
    show (endKnots o).reverse[i]? = (endKnots o).reverse[0]?
    rw [endKnots_eq]
    rcases this with h | h | h <;> subst h <;> rfl
  · show 2 * 2 + 2 ≤ (endKnots o).length
    rw [endKnots_eq]; simp
  · show (endKnots o).getD 2 0 < (endKnots o).getD ((endKnots o).length - 2 - 1) 0
    rw [endKnots_eq]
    show -o < 1 + o
    linarith

omit [IsStrictOrderedRing K] in
theorem endBasis_dom {o t : K} : (endBasis o).Dom t ↔ -o ≤ t ∧ t ≤ 1 + o := by
  unfold Basis.Dom Basis.lo Basis.hi Basis.k endBasis
  simp only [endKnots_eq]
  exact Iff.rfl

/-- the three basis functions of `endBasis`, in the parameter `s = (t + o) / (1 + 2 o)` -/
theorem endBasis_val {o t : K} (ho : 0 ≤ o) (ht : -o ≤ t ∧ t ≤ 1 + o) :
    (endBasis o).val 0 t = (1 - (t + o) / (1 + 2 * o)) ^ 2 ∧
    (endBasis o).val 1 t = 2 * ((t + o) / (1 + 2 * o)) * (1 - (t + o) / (1 + 2 * o)) ∧
    (endBasis o).val 2 t = ((t + o) / (1 + 2 * o)) ^ 2 := by
  have hv := endBasis_valid ho
  have hd := endBasis_dom.2 ht
  have hk : ∀ i, (endBasis o).k i = [-o, -o, -o, 1 + o, 1 + o, 1 + o].getD i 0 := by
    intro i; unfold Basis.k endBasis; rw [endKnots_eq]
  have hsz : (endBasis o).size = 3 := by unfold Basis.size endBasis; rw [endKnots_eq]; rfl
  have hni : (endBasis o).nIntervals = 1 := by unfold Basis.nIntervals; rw [hsz]; rfl
  obtain ⟨r, hf, h1, _⟩ := fast_deg2 (endBasis o) hv rfl (by
    rw [hsz, hk]
    exact hv.lt.trans_le' (by unfold Basis.lo; rw [hk]; exact le_refl _)) t hd
  obtain ⟨r', hf', hr, h2, h3, h4⟩ := hv.find hd
  rw [hf] at hf'
  cases hf'
  have hr0 : r = 0 := by omega
  subst hr0
  have h5 := hv.evalVec hr t
  rw [h1] at h5
  simp only [Except.ok.injEq] at h5
  have h6 : (endBasis o).degree = 2 := rfl
  rw [h6] at h5
  simp only [Basis.evalVector2, hk, List.range_succ, List.range_zero, List.nil_append, List.cons_append, List.map_cons,
    List.map_nil, List.cons.injEq, Nat.zero_add] at h5
  obtain ⟨e0, e1, e2, _⟩ := h5
  have hne : (1 + 2 * o : K) ≠ 0 := by linarith
  have q1 : (1 + o - -o : K) = 1 + 2 * o := by ring
  refine ⟨?_, ?_, ?_⟩
  · rw [← e0]; simp only [List.getD_cons_succ, List.getD_cons_zero, q1]; field_simp; ring
  · rw [← e1]; simp only [List.getD_cons_succ, List.getD_cons_zero, q1]; field_simp; ring
  · rw [← e2]; simp only [List.getD_cons_succ, List.getD_cons_zero, q1]; field_simp; ring

/-! ### Rows -/

omit [LinearOrder K] [IsStrictOrderedRing K] in
theorem getD_getElem {a : List K} {d : Nat} (h : d < a.length) : a.getD d 0 = a[d] := by
  rw [List.getD_eq_getElem?_getD, List.getElem?_eq_getElem h, Option.getD_some]

omit [LinearOrder K] [IsStrictOrderedRing K] in
theorem getD_zip {f : K → K → K} (hf : f 0 0 = 0) : ∀ {a b : List K}, a.length = b.length → ∀ d,
    (List.zipWith f a b).getD d 0 = f (a.getD d 0) (b.getD d 0)
  | [], [], _, d => by simp [hf]
  | x :: a, y :: b, h, 0 => by simp
  | x :: a, y :: b, h, d + 1 => by
    simp only [List.zipWith_cons_cons, List.getD_cons_succ]
    exact getD_zip hf (by simpa using h) d

omit [LinearOrder K] [IsStrictOrderedRing K] in
theorem getD_map0 {f : K → K} (hf : f 0 = 0) : ∀ (a : List K) (d : Nat), (a.map f).getD d 0 = f (a.getD d 0)
  | [], d => by simp [hf]
  | x :: a, 0 => by simp
  | x :: a, d + 1 => by
    simp only [List.map_cons, List.getD_cons_succ]
    exact getD_map0 hf a d

omit [LinearOrder K] [IsStrictOrderedRing K] in
theorem vadd_getD {a b : List K} (h : a.length = b.length) (d : Nat) : (vadd a b).getD d 0 = a.getD d 0 + b.getD d 0 :=
  getD_zip (by simp) h d

omit [LinearOrder K] [IsStrictOrderedRing K] in
theorem vsub_getD {a b : List K} (h : a.length = b.length) (d : Nat) : (vsub a b).getD d 0 = a.getD d 0 - b.getD d 0 :=
  getD_zip (by simp) h d

omit [LinearOrder K] [IsStrictOrderedRing K] in
theorem vmul_getD (c : K) (a : List K) (d : Nat) : (vmul c a).getD d 0 = c * a.getD d 0 := getD_map0 (by simp) a d

omit [LinearOrder K] [IsStrictOrderedRing K] in
theorem vadd_length {n : Nat} {a b : List K} (ha : a.length = n) (hb : b.length = n) : (vadd a b).length = n := by
  simp [vadd, ha, hb]

omit [LinearOrder K] [IsStrictOrderedRing K] in
theorem vsub_length {n : Nat} {a b : List K} (ha : a.length = n) (hb : b.length = n) : (vsub a b).length = n := by
  simp [vsub, ha, hb]

omit [LinearOrder K] [IsStrictOrderedRing K] in
theorem vmul_length {n : Nat} {a : List K} (c : K) (ha : a.length = n) : (vmul c a).length = n := by simp [vmul, ha]

omit [LinearOrder K] [IsStrictOrderedRing K] in
theorem mid2_length {n : Nat} {a b : List K} (ha : a.length = n) (hb : b.length = n) : (mid2 a b).length = n := by
  simp [mid2, vadd_length ha hb]

omit [LinearOrder K] [IsStrictOrderedRing K] in
theorem mid2_getD {a b : List K} (h : a.length = b.length) (d : Nat) :
    (mid2 a b).getD d 0 = (a.getD d 0 + b.getD d 0) / 2 := by
  unfold mid2; rw [getD_map0 (by simp), vadd_getD h]

omit [LinearOrder K] [IsStrictOrderedRing K] in
theorem mid4_length {n : Nat} {a b c e : List K} (ha : a.length = n) (hb : b.length = n) (hc : c.length = n)
    (he : e.length = n) : (mid4 a b c e).length = n := by
  simp [mid4, vadd_length (vadd_length (vadd_length ha hb) hc) he]

omit [LinearOrder K] [IsStrictOrderedRing K] in
theorem mid4_getD {n : Nat} {a b c e : List K} (ha : a.length = n) (hb : b.length = n) (hc : c.length = n)
    (he : e.length = n) (d : Nat) :
    (mid4 a b c e).getD d 0 = (a.getD d 0 + b.getD d 0 + c.getD d 0 + e.getD d 0) / 4 := by
  unfold mid4
  have h1 := vadd_length ha hb
  have h2 := vadd_length h1 hc
  rw [getD_map0 (by simp), vadd_getD (h2.trans he.symm), vadd_getD (h1.trans hc.symm), vadd_getD (ha.trans hb.symm)]

/-! ### The line -/

/-- C56 for `line`: the curve exists and at every parameter `t` of its domain `[-overhang, 1 + overhang]` it is the point
`x0 + t (x1 - x0)`. -/
theorem line_value {n : Nat} {a b : List K} (ha : a.length = n) (hb : b.length = n) {o : K} (ho : 0 ≤ o) :
    ∃ C, lineCurve [a, b] o = .ok C ∧ ∀ t, -o ≤ t → t ≤ 1 + o → ∀ c4 rtol, C.eval c4 rtol t =
      .ok ((List.range n).map fun d => some (a.getD d 0 + t * (b.getD d 0 - a.getD d 0))) := by
  obtain ⟨a', b', he, ha', hb', hg⟩ : ∃ a' b', (if 0 < o then (vsub a (vmul o (vsub b a)), vadd b (vmul o (vsub b a)))
      else (a, b)) = (a', b') ∧ a'.length = n ∧ b'.length = n ∧
      ∀ d, a'.getD d 0 = a.getD d 0 - o * (b.getD d 0 - a.getD d 0) ∧
        b'.getD d 0 = b.getD d 0 + o * (b.getD d 0 - a.getD d 0) := by
    have hm := vmul_length o (vsub_length hb ha)
    by_cases h0 : 0 < o
    · refine ⟨_, _, if_pos h0, vsub_length ha hm, vadd_length hb hm, fun d => ?_⟩
      rw [vsub_getD (ha.trans hm.symm), vadd_getD (hb.trans hm.symm), vmul_getD, vsub_getD (hb.trans ha.symm)]
      exact ⟨rfl, rfl⟩
    · have h0 : o = 0 := le_antisymm (not_lt.1 h0) ho
      refine ⟨a, b, if_neg (by simp [h0]), ha, hb, fun d => ?_⟩
      rw [h0]; simp
  have hi : Curve.init (endBasis o) [a', mid2 a' b', b'] false = .ok ⟨endBasis o, [a', mid2 a' b', b'], false⟩ := by
    unfold Curve.init
    have hsz : (endBasis o).size = 3 := by unfold Basis.size endBasis; rw [endKnots_eq]; rfl
    rw [if_neg (by rw [hsz]; simp), if_neg (by simp), if_neg]
    rintro ⟨r, hr, h⟩
    simp only [List.mem_cons, List.not_mem_nil, or_false] at hr
    have hm := mid2_length ha' hb'
    rcases hr with h1 | h1 | h1 <;> rw [h1] at h <;> simp_all
  refine ⟨⟨endBasis o, [a', mid2 a' b', b'], false⟩, ?_, ?_⟩
  · unfold lineCurve
    simp only [he, endBasis_init, bind, Except.bind]
    exact hi
  · intro t h1 h2 c4 rtol
    obtain ⟨r, _, hr, _, hev⟩ := Curve.eval_eq (endBasis_valid ho)
      (C := ⟨endBasis o, [a', mid2 a' b', b'], false⟩) rfl (endBasis_dom.2 ⟨h1, h2⟩) c4 rtol
    have hni : (endBasis o).nIntervals = 1 := by unfold Basis.nIntervals Basis.size endBasis; rw [endKnots_eq]; rfl
    have hr0 : r = 0 := by omega
    subst hr0
    rw [hev]
    have hdim : (⟨endBasis o, [a', mid2 a' b', b'], false⟩ : Curve K).dim = n := by simp [Curve.dim, ha']
    rw [hdim]
    congr 1
    apply List.map_congr_left
    intro d _
    obtain ⟨v0, v1, v2⟩ := endBasis_val ho ⟨h1, h2⟩
    have hdeg : (endBasis o).degree = 2 := rfl
    simp only [Bool.false_eq_true, if_false, hdeg, sum_range_succ, sum_range_zero, Nat.zero_add, v0, v1, v2, Curve.pole,
      List.getD_cons_zero, List.getD_cons_succ, mid2_getD (ha'.trans hb'.symm), (hg d).1, (hg d).2]
    have hne : (1 + 2 * o : K) ≠ 0 := by linarith
    congr 1
    field_simp
    ring

/-! ### The bilinear patch -/

/-- The bilinear interpolation of four numbers. -/
def bil (a b c d u v : K) : K := (1 - u) * (1 - v) * a + u * (1 - v) * b + u * v * c + (1 - u) * v * d

/-- C56 for `bilinear_surface`, the exact value at every parameter of the domain `[-overhang, 1 + overhang]²`: bilinear
interpolation of the corners at `(0,0), (1,0), (1,1), (0,1)`, minus a term with the twist `a - b + c - d` of the corners. -/
theorem bilinear_value {n : Nat} {a b c e : List K} (ha : a.length = n) (hb : b.length = n) (hc : c.length = n)
    (he : e.length = n) {o : K} (ho : 0 ≤ o) :
    ∃ S, bilinearSurface [a, b, c, e] o = .ok S ∧ ∀ u v, -o ≤ u → u ≤ 1 + o → -o ≤ v → v ≤ 1 + o → ∀ c4 rtol,
      S.eval c4 rtol u v = .ok ((List.range n).map fun d =>
        some (bil (a.getD d 0) (b.getD d 0) (c.getD d 0) (e.getD d 0) u v -
          (o / (1 + 2 * o)) ^ 2 * (1 - 2 * u) * (1 - 2 * v) * (a.getD d 0 - b.getD d 0 + c.getD d 0 - e.getD d 0))) := by
  obtain ⟨a', b', c', e', hx, ha', hb', hc', he', hg⟩ : ∃ a' b' c' e', extended o a b c e = (a', b', c', e') ∧
      a'.length = n ∧ b'.length = n ∧ c'.length = n ∧ e'.length = n ∧
      ∀ d, a'.getD d 0 = a.getD d 0 + o * (2 * a.getD d 0 - b.getD d 0 - e.getD d 0) ∧
        b'.getD d 0 = b.getD d 0 + o * (2 * b.getD d 0 - a.getD d 0 - c.getD d 0) ∧
        c'.getD d 0 = c.getD d 0 + o * (2 * c.getD d 0 - b.getD d 0 - e.getD d 0) ∧
        e'.getD d 0 = e.getD d 0 + o * (2 * e.getD d 0 - a.getD d 0 - c.getD d 0) := by
    have m0 := vmul_length o (vsub_length hb ha)
    have m1 := vmul_length o (vsub_length hc hb)
    have m2 := vmul_length o (vsub_length he hc)
    have m3 := vmul_length o (vsub_length ha he)
    by_cases h0 : 0 < o
    · refine ⟨_, _, _, _, if_pos h0, vadd_length ha (vsub_length m3 m0), vadd_length hb (vsub_length m0 m1),
        vadd_length hc (vsub_length m1 m2), vadd_length he (vsub_length m2 m3), fun d => ?_⟩
      rw [vadd_getD (ha.trans (vsub_length m3 m0).symm), vadd_getD (hb.trans (vsub_length m0 m1).symm),
        vadd_getD (hc.trans (vsub_length m1 m2).symm), vadd_getD (he.trans (vsub_length m2 m3).symm),
        vsub_getD (m3.trans m0.symm), vsub_getD (m0.trans m1.symm), vsub_getD (m1.trans m2.symm),
        vsub_getD (m2.trans m3.symm), vmul_getD, vmul_getD, vmul_getD, vmul_getD, vsub_getD (hb.trans ha.symm),
        vsub_getD (hc.trans hb.symm), vsub_getD (he.trans hc.symm), vsub_getD (ha.trans he.symm)]
      refine ⟨?_, ?_, ?_, ?_⟩ <;> ring
    · have h0 : o = 0 := le_antisymm (not_lt.1 h0) ho
      refine ⟨a, b, c, e, if_neg (by simp [h0]), ha, hb, hc, he, fun d => ?_⟩
      rw [h0]; simp
  have hsz : (endBasis o).size = 3 := by unfold Basis.size endBasis; rw [endKnots_eq]; rfl
  have hni : (endBasis o).nIntervals = 1 := by unfold Basis.nIntervals; rw [hsz]; rfl
  have hdeg : (endBasis o).degree = 2 := rfl
  let S : Surface K := ⟨endBasis o, endBasis o, [[a', mid2 a' e', e'], [mid2 a' b', mid4 a' b' c' e', mid2 c' e'],
    [b', mid2 b' c', c']], false⟩
  have hi : Surface.init (endBasis o) (endBasis o) S.poles false = .ok S := by
    unfold Surface.init
    rw [if_neg (by simp [S]), if_neg, if_neg (by rw [hsz]; simp [S])]
    rintro ⟨row, hr, h⟩
    have m1 := mid2_length ha' he'
    have m2 := mid2_length ha' hb'
    have m3 := mid2_length hc' he'
    have m4 := mid2_length hb' hc'
    have m5 := mid4_length ha' hb' hc' he'
    simp only [S, List.mem_cons, List.not_mem_nil, or_false] at hr
    rcases hr with h1 | h1 | h1 <;> rw [h1] at h <;> simp [S, ha', hb', hc', he', m1, m2, m3, m4, m5] at h
  refine ⟨S, ?_, ?_⟩
  · unfold bilinearSurface
    simp only [hx, endBasis_init, bind, Except.bind]
    exact hi
  · intro u v h1 h2 h3 h4 c4 rtol
    obtain ⟨ru, rv, _, _, hru, hrv, _, _, hev⟩ := Surface.eval_eq (S := S) (endBasis_valid ho) (endBasis_valid ho) rfl
      (endBasis_dom.2 ⟨h1, h2⟩) (endBasis_dom.2 ⟨h3, h4⟩) c4 rtol
    have q1 : S.ub = endBasis o := rfl
    have q2 : S.vb = endBasis o := rfl
    rw [q1] at hru hev
    rw [q2] at hrv hev
    have hr0 : ru = 0 := by omega
    have hr1 : rv = 0 := by omega
    subst hr0 hr1
    rw [hev]
    have hdim : S.dim = n := by simp [Surface.dim, S, ha']
    rw [hdim]
    congr 1
    apply List.map_congr_left
    intro d _
    obtain ⟨u0, u1, u2⟩ := endBasis_val ho ⟨h1, h2⟩
    obtain ⟨v0, v1, v2⟩ := endBasis_val ho ⟨h3, h4⟩
    obtain ⟨g0, g1, g2, g3⟩ := hg d
    simp only [hdeg, sum_range_succ, sum_range_zero, Nat.zero_add, u0, u1, u2, v0, v1, v2, Surface.pole, S,
      List.getD_cons_zero, List.getD_cons_succ, mid2_getD (ha'.trans he'.symm), mid2_getD (ha'.trans hb'.symm),
      mid2_getD (hc'.trans he'.symm), mid2_getD (hb'.trans hc'.symm), mid4_getD ha' hb' hc' he', g0, g1, g2, g3]
    generalize a.getD d 0 = x0
    generalize b.getD d 0 = x1
    generalize c.getD d 0 = x2
    generalize e.getD d 0 = x3
    have hne : (1 + 2 * o : K) ≠ 0 := by linarith
    congr 1
    unfold bil
    have hs : o = (1 + 2 * o) * (o / (1 + 2 * o)) := by field_simp
    field_simp
    ring

/-- C56 for `bilinear_surface` without overhang: at the parameters `(0,0), (1,0), (1,1), (0,1)` the surface is at the four
corners. -/
theorem bilinear_corners {n : Nat} {a b c e : List K} (ha : a.length = n) (hb : b.length = n) (hc : c.length = n)
    (he : e.length = n) : ∃ S, bilinearSurface [a, b, c, e] 0 = .ok S ∧ ∀ c4 rtol,
      S.eval c4 rtol 0 0 = .ok (a.map some) ∧ S.eval c4 rtol 1 0 = .ok (b.map some) ∧
      S.eval c4 rtol 1 1 = .ok (c.map some) ∧ S.eval c4 rtol 0 1 = .ok (e.map some) := by
  obtain ⟨S, h, hv⟩ := bilinear_value ha hb hc he (le_refl (0 : K))
  have key : ∀ {x : List K}, x.length = n → ((List.range n).map fun d => some (x.getD d 0)) = x.map some := by
    intro x hx
    apply List.ext_getElem
    · simp [hx]
    · intro i h1 h2
      have : i < x.length := by simpa using h2
      simp only [List.getElem_map, List.getElem_range]
      rw [getD_getElem this]
  refine ⟨S, h, fun c4 rtol => ⟨?_, ?_, ?_, ?_⟩⟩
  · rw [hv 0 0 (by simp) (by simp) (by simp) (by simp), ← key ha]; simp [bil]
  · rw [hv 1 0 (by simp) (by simp) (by simp) (by simp), ← key hb]; simp [bil]
  · rw [hv 1 1 (by simp) (by simp) (by simp) (by simp), ← key hc]; simp [bil]
  · rw [hv 0 1 (by simp) (by simp) (by simp) (by simp), ← key he]; simp [bil]

/-- C56 for `plane_surface`, with any overhang: the surface at `(u, v)` is `x0 + u (x1 - x0) + v (x2 - x0)`. -/
theorem plane_value {n : Nat} {a b c : List K} (ha : a.length = n) (hb : b.length = n) (hc : c.length = n) {o : K}
    (ho : 0 ≤ o) : ∃ S, planeSurface [a, b, c] o = .ok S ∧ ∀ u v, -o ≤ u → u ≤ 1 + o → -o ≤ v → v ≤ 1 + o → ∀ c4 rtol,
      S.eval c4 rtol u v = .ok ((List.range n).map fun d =>
        some (a.getD d 0 + u * (b.getD d 0 - a.getD d 0) + v * (c.getD d 0 - a.getD d 0))) := by
  have h1 := vadd_length hb hc
  obtain ⟨S, h, hv⟩ := bilinear_value ha hb (vsub_length h1 ha) hc ho
  refine ⟨S, h, fun u v u0 u1 v0 v1 c4 rtol => ?_⟩
  rw [hv u v u0 u1 v0 v1]
  congr 1
  apply List.map_congr_left
  intro d _
  rw [vsub_getD (h1.trans ha.symm), vadd_getD (hb.trans hc.symm)]
  unfold bil
  congr 1
  ring

/-- C56 fails with an overhang: the surface misses the first corner at `(0, 0)` exactly when the corners are not a
parallelogram in some coordinate. -/
theorem bilinear_overhang {n : Nat} {a b c e : List K} (ha : a.length = n) (hb : b.length = n) (hc : c.length = n)
    (he : e.length = n) {o : K} (ho : 0 < o) : ∃ S, bilinearSurface [a, b, c, e] o = .ok S ∧ ∀ c4 rtol,
      (S.eval c4 rtol 0 0 = .ok (a.map some) ↔ ∀ d < n, a.getD d 0 + c.getD d 0 = b.getD d 0 + e.getD d 0) := by
  obtain ⟨S, h, hv⟩ := bilinear_value ha hb hc he ho.le
  refine ⟨S, h, fun c4 rtol => ?_⟩
  rw [hv 0 0 (by linarith) (by linarith) (by linarith) (by linarith)]
  have hne : (o / (1 + 2 * o)) ^ 2 ≠ 0 := by positivity
  simp only [Except.ok.injEq, bil, sub_zero, mul_zero, zero_mul, add_zero, mul_one, one_mul]
  constructor
  · intro hl d hd
    have := congrArg (fun l => l[d]?) hl
    simp only [List.getElem?_map, List.getElem?_range hd, Option.map_some] at this
    rw [List.getElem?_eq_getElem (by omega : d < a.length)] at this
    simp only [Option.map_some, Option.some.injEq] at this
    rw [getD_getElem (by omega : d < a.length)] at this ⊢
    have h2 : (o / (1 + 2 * o)) ^ 2 * (a[d] - b.getD d 0 + c.getD d 0 - e.getD d 0) = 0 := by linarith
    rcases mul_eq_zero.1 h2 with h3 | h3
    · exact absurd h3 hne
    · linarith
  · intro hp
    apply List.ext_getElem
    · simp [ha]
    · intro i h1 h2
      have hi : i < n := by simpa using h1
      have := hp i hi
      simp only [List.getElem_map, List.getElem_range, Option.some.injEq]
      rw [getD_getElem (by omega : i < a.length)] at this ⊢
      have : a[i] - b.getD i 0 + c.getD i 0 - e.getD i 0 = 0 := by linarith
      rw [this, mul_zero, sub_zero]

/-- The corners of a saddle and an overhang of 1: the first corner is missed. -/
example : ∃ S, bilinearSurface [[0, 0, 0], [1, 0, 1], [1, 1, 0], [0, 1, 1]] (1 : ℚ) = .ok S ∧
    S.eval 0 0 0 0 ≠ .ok [some 0, some 0, some 0] := by
  obtain ⟨S, h, hs⟩ := bilinear_overhang (K := ℚ) (n := 3) (a := [0, 0, 0]) (b := [1, 0, 1]) (c := [1, 1, 0])
    (e := [0, 1, 1]) rfl rfl rfl rfl (o := 1) (by norm_num)
  refine ⟨S, h, fun h1 => ?_⟩
  have := (hs 0 0).1 h1 2 (by norm_num)
  norm_num [List.getD] at this

/-- A line with overhang. -/
example : ∃ C, lineCurve [[1, 2], [3, 5]] (1 / 10 : ℚ) = .ok C ∧ C.eval 0 0 0 = .ok [some 1, some 2] ∧
    C.eval 0 0 1 = .ok [some 3, some 5] := by
  obtain ⟨C, h, hs⟩ := line_value (K := ℚ) (n := 2) (a := [1, 2]) (b := [3, 5]) rfl rfl (o := 1 / 10) (by norm_num)
  refine ⟨C, h, ?_, ?_⟩
  · rw [hs 0 (by norm_num) (by norm_num)]; decide +kernel
  · rw [hs 1 (by norm_num) (by norm_num)]; decide +kernel

end Verif.Approx
