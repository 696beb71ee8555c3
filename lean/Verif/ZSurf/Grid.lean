import Verif.ZSurf.More
import Mathlib.Algebra.Order.Floor.Ring
import Mathlib.Data.Rat.Floor

/-! `GridSurface`: its two ways to evaluate Z. -/
namespace Verif.ZSurf

open Verif.Spline Finset

set_option linter.unusedSectionVars false

variable {K : Type} [Field K] [LinearOrder K] [IsStrictOrderedRing K]

/-! ### Model -/

/-- The 1D surface of `GridSurface._make_z_surface` (bspline.py:1052-1066) for the Z values `z i j` of an `nu x nv` grid. -/
def gridSurface (nu nv : Nat) (z : Nat → Nat → K) : Except Spline.Err (Surface K) :=
  match Basis.equidistant 1 (nu - 1) (0 : K) 1, Basis.equidistant 1 (nv - 1) (0 : K) 1 with
  | .ok ub, .ok vb => Surface.init ub vb ((List.range nu).map fun i => (List.range nv).map fun j => [z i j]) false
  | .error e, _ => .error e
  | _, .error e => .error e

/-- `max(0, min(n - 2, int(floor(u / step))))` with `step = 1 / (n - 1)` (bspline.py:991, 1150-1152). -/
def gridIdx [FloorRing K] (n : Nat) (u : K) : Int :=
  max 0 (min ((n : Int) - 2) ⌊u / (1 / ((n : K) - 1))⌋)

/-- `u_loc.dot(Z_mat).dot(v_loc)` (bspline.py:1155-1159). -/
def gridLocal [FloorRing K] (nu nv : Nat) (z : Nat → Nat → K) (u v : K) : K :=
  let iu := gridIdx nu u
  let iv := gridIdx nv v
  let ul := u / (1 / ((nu : K) - 1)) - (iu : K)
  let vl := v / (1 / ((nv : K) - 1)) - (iv : K)
  let zz := fun a b : Nat => z (iu.toNat + a) (iv.toNat + b)
  ((1 - ul) * zz 0 0 + ul * zz 1 0) * (1 - vl) + ((1 - ul) * zz 0 1 + ul * zz 1 1) * vl

/-- `GridSurface.z_eval_array` on one point (bspline.py:1139-1160); `o` is the `Z_Surface` object. -/
def gridZEval [FloorRing K] (nu nv : Nat) (z : Nat → Nat → K) (o : Obj K) (u v : K) : K :=
  o.zMat.1 * gridLocal nu nv z u v + o.zMat.2

/-- The Z component of `GridSurface.eval_array` on one point (bspline.py:1121-1125): `z_scale` is 1 and `z_shift` is 0 for
the whole life of the object. -/
def gridEvalZ (cs : Consts K) (w : World K) (i : Nat) (u v : K) : Except Exc K :=
  match evalPoint cs w i u v with
  | .error e => .error e
  | .ok p => .ok (p.2.2 * 1 + 0)

/-! ### Piecewise bilinear interpolation -/

theorem deg1_window [FloorRing K] (n : Nat) (hn : 0 < n) (B : Basis K) (hE : Basis.equidistant 1 n (0 : K) 1 = .ok B) (t : K)
    (ht : B.Dom t) (r : Nat) (hr : B.findInterval t = .ok r) :
    B.Valid ∧ B.degree = 1 ∧ B.size = n + 1 ∧ gridIdx (n + 1) t = r ∧
    B.val (r + 1) t = t / (1 / (((n + 1 : Nat) : K) - 1)) - r ∧ B.val r t = 1 - (t / (1 / (((n + 1 : Nat) : K) - 1)) - r) := by
  obtain ⟨B', e1, hB, hdeg, hlen, hsize, hint, hlo, hhi, hk⟩ := equidistant_valid 1 n (0 : K) 1 hn one_pos
  rw [hE] at e1; cases e1
  have hnK : (0 : K) < n := by exact_mod_cast hn
  have hk' : ∀ i, i ≤ n → B.k (i + 1) = (i : K) / n := by
    intro i hi
    have := hk i hi
    rw [add_comm 1 i] at this
    rw [this]; ring
  have hL : ∀ i, i ≤ n → B.linearPole i = (i : K) / n := by
    intro i
    induction i with
    | zero => intro _; simp [Basis.linearPole]
    | succ i ih =>
      intro hi
      rw [Basis.linearPole, ih (by omega), hdeg, hk' i (by omega)]
      have := hk' (i + 1) hi
      rw [this]
      push_cast
      ring
  obtain ⟨r', hf, hr', h1, h2, h3⟩ := hB.find ht
  rw [hr] at hf; cases hf
  have hsum := hB.window_sum h1 h2 h3 ht.2
  have hlin := linear_window B hB (by omega) hlo t ht r hr
  rw [hint] at hr' h3
  rw [hdeg] at hsum hlin h1 h2
  simp only [sum_range_succ, sum_range_zero, zero_add, add_zero] at hsum hlin
  rw [hL r (by omega), hL (r + 1) (by omega)] at hlin
  have hne : (n : K) ≠ 0 := hnK.ne'
  have hcast : (((n + 1 : Nat) : K) - 1) = n := by push_cast; ring
  have hdiv : t / (1 / (((n + 1 : Nat) : K) - 1)) = t * n := by rw [hcast]; field_simp
  have hv1 : B.val (r + 1) t = t * n - r := by
    have : B.val r t * r + B.val (r + 1) t * ((r : K) + 1) = t * n := by
      have e : B.val r t * r + B.val (r + 1) t * ((r : K) + 1) =
          (B.val r t * (r / n) + B.val (r + 1) t * (((r + 1 : Nat) : K) / n)) * n := by push_cast; field_simp
      rw [e, hlin]
    linear_combination this - (r : K) * hsum
  refine ⟨hB, hdeg, hsize, ?_, ?_, ?_⟩
  · unfold gridIdx
    rw [hdiv]
    have hlow : (r : K) ≤ t * n := by
      rw [kx_eq B (by omega), hk' r (by omega)] at h1
      exact (div_le_iff₀ hnK).1 h1
    rcases lt_or_eq_of_le ht.2 with h | h
    · have hup : t * n < (r : K) + 1 := by
        have := h2 h
        rw [kx_eq B (by omega), hk' (r + 1) (by omega), lt_div_iff₀ hnK] at this
        push_cast at this; exact this
      have : ⌊t * (n : K)⌋ = (r : Int) := by
        rw [Int.floor_eq_iff]; push_cast; exact ⟨hlow, hup⟩
      rw [this]; push_cast; omega
    · have hr1 := h3 h
      rw [hhi] at h
      have : ⌊t * (n : K)⌋ = (n : Int) := by rw [h, one_mul]; simp
      rw [this]; push_cast; omega
  · rw [hdiv, hv1]
  · rw [hdiv]; linear_combination hsum - hv1

/-- The 1D surface of a grid interpolates bilinearly in every cell. -/
theorem grid_raw [FloorRing K] (cs : Consts K) (nu nv : Nat) (hu : 2 ≤ nu) (hv : 2 ≤ nv) (z : Nat → Nat → K) :
    ∃ S, gridSurface nu nv z = .ok S ∧ S.dim = 1 ∧ S.rational = false ∧ S.ub.Valid ∧ S.vb.Valid ∧
      Surface.init S.ub S.vb S.poles false = .ok S ∧
      ∀ u v : K, 0 ≤ u → u ≤ 1 → 0 ≤ v → v ≤ 1 → zRaw cs S u v = .ok (gridLocal nu nv z u v) := by
  obtain ⟨nu, rfl⟩ : ∃ n, nu = n + 1 := ⟨nu - 1, by omega⟩
  obtain ⟨nv, rfl⟩ : ∃ n, nv = n + 1 := ⟨nv - 1, by omega⟩
  obtain ⟨ub, eu, bu, du, lu, su, iu, lou, hiu, _⟩ := equidistant_valid 1 nu (0 : K) 1 (by omega) one_pos
  obtain ⟨vb, ev, bv, dv, lv, sv, iv, lov, hiv, _⟩ := equidistant_valid 1 nv (0 : K) 1 (by omega) one_pos
  set S : Surface K := ⟨ub, vb, (List.range (nu + 1)).map fun i => (List.range (nv + 1)).map fun j => [z i j], false⟩ with hS
  have hhead : S.poles.headD [] = (List.range (nv + 1)).map fun j => [z 0 j] := by
    simp [hS, List.range_succ_eq_map]
  have hh2 : (S.poles.headD []).headD [] = [z 0 0] := by rw [hhead]; simp [List.range_succ_eq_map]
  have hdim : S.dim = 1 := by unfold Surface.dim; rw [hh2]; simp [hS]
  have hinit : Surface.init S.ub S.vb S.poles false = .ok S := by
    unfold Surface.init
    rw [if_neg, if_neg, if_neg]
    · rw [hhead]; simp [hS, su, sv]
    · rw [hh2, hhead]
      rintro ⟨row, hrow, hr⟩
      simp only [hS, List.mem_map, List.mem_range] at hrow
      obtain ⟨a, _, rfl⟩ := hrow
      rcases hr with hr | ⟨p, hp, hr⟩
      · simp at hr
      · simp only [List.mem_map, List.mem_range] at hp
        obtain ⟨b, _, rfl⟩ := hp
        simp at hr
    · rw [hhead]; simp
  refine ⟨S, ?_, hdim, rfl, bu, bv, hinit, ?_⟩
  · simp only [gridSurface, Nat.add_sub_cancel, eu, ev]; exact hinit
  · intro u v hu0 hu1 hv0 hv1
    have domu : ub.Dom u := ⟨by rw [lou]; exact hu0, by rw [hiu]; exact hu1⟩
    have domv : vb.Dom v := ⟨by rw [lov]; exact hv0, by rw [hiv]; exact hv1⟩
    obtain ⟨ru, rv, fu, fv, lru, lrv, _, _, hev⟩ := Surface.eval_eq (S := S) bu bv rfl domu domv cs.c4 cs.rtol
    simp only [hS] at fu fv lru lrv
    rw [iu] at lru
    rw [iv] at lrv
    obtain ⟨_, _, _, ku, wu1, wu0⟩ := deg1_window nu (by omega) ub eu u domu ru fu
    obtain ⟨_, _, _, kv, wv1, wv0⟩ := deg1_window nv (by omega) vb ev v domv rv fv
    have hpole : ∀ i j, i ≤ nu → j ≤ nv → S.pole i j 0 = z i j := by
      intro i j h1 h2
      have h1' : i < nu + 1 := by omega
      have h2' : j < nv + 1 := by omega
      simp [Surface.pole, hS, h1', h2', List.getD_eq_getElem?_getD]
    rw [hdim] at hev
    simp only [List.range_one, List.map_cons, List.map_nil] at hev
    simp only [zRaw, hev]
    congr 1
    simp only [gridLocal, ku, kv, Int.toNat_natCast, Int.cast_natCast]
    rw [show S.ub.degree = 1 from du, show S.vb.degree = 1 from dv]
    simp only [sum_range_succ, sum_range_zero, zero_add, add_zero, show S.ub = ub from rfl, show S.vb = vb from rfl]
    rw [hpole ru rv (by omega) (by omega), hpole (ru + 1) rv (by omega) (by omega), hpole ru (rv + 1) (by omega) (by omega),
      hpole (ru + 1) (rv + 1) (by omega) (by omega), wu1, wu0, wv1, wv0]
    ring

/-! ### C27 -/

/-- The Z transform given last. -/
def lastZ (ts : List (Option (M2 K × V2 K) × Option (K × K))) : Option (K × K) :=
  ts.foldl (fun m t => t.2.orElse fun _ => m) none

theorem transforms_state (cs : Consts K) (i : Nat) (ts : List (Option (M2 K × V2 K) × Option (K × K))) (w w' : World K)
    (hw : HeapInv cs w) (h : run cs w (ts.map fun t => .transform i t.1 t.2) = (w', none)) (o : Obj K) (hi : w[i]? = some o)
    (m : Option (K × K)) (hm : m = none → o.zMat = (1, 0) ∧ o.haveZ = false)
    (hm' : ∀ s hh, m = some (s, hh) → o.zMat = (s, hh) ∧ o.haveZ = true ∧
      ∃ zc, zRaw cs o.zs (1 / 2) (1 / 2) = .ok zc ∧ o.zMatI = (s, hh + (1 - s) * zc)) :
    ∃ o', w'[i]? = some o' ∧ o'.zs = o.zs ∧
      (ts.foldl (fun m t => t.2.orElse fun _ => m) m = none → o'.zMat = (1, 0) ∧ o'.haveZ = false) ∧
      ∀ s hh, ts.foldl (fun m t => t.2.orElse fun _ => m) m = some (s, hh) → o'.zMat = (s, hh) ∧ o'.haveZ = true ∧
        ∃ zc, zRaw cs o.zs (1 / 2) (1 / 2) = .ok zc ∧ o'.zMatI = (s, hh + (1 - s) * zc) := by
  induction ts generalizing w o m with
  | nil => cases h; exact ⟨o, hi, rfl, hm, hm'⟩
  | cons t ts ih =>
    simp only [List.map_cons, run] at h
    split at h
    · cases h
    rename_i w1 h1
    have iw1 := inv_step cs w w1 _ hw h1
    simp only [step, hi, Prod.mk.injEq] at h1
    obtain ⟨rfl, hn⟩ := h1
    have sp := transform_spec cs i o (o.transform cs i t.1 t.2).1 t.1 t.2 (hw i o hi).1 (Prod.ext rfl hn)
    obtain ⟨_, sz, _, _, _, _, z1, z2⟩ := sp
    clear hn
    have hg : (w.set i (o.transform cs i t.1 t.2).1)[i]? = some (o.transform cs i t.1 t.2).1 := by
      rw [getElem?_set' w i i o _ hi, if_pos rfl]
    generalize (o.transform cs i t.1 t.2).1 = o2 at *
    have := ih (w.set i o2) iw1 h o2 hg (t.2.orElse fun _ => m) ?_ ?_
    · obtain ⟨o', a, b, c⟩ := this
      rw [sz] at c b
      exact ⟨o', a, b, c⟩
    · intro hnone
      cases ht : t.2 with
      | none =>
        rw [ht] at hnone
        obtain ⟨a, b, c⟩ := z1 ht
        have := hm hnone
        exact ⟨a.trans this.1, c.trans this.2⟩
      | some p => rw [ht] at hnone; cases hnone
    · intro s hh hs
      cases ht : t.2 with
      | none =>
        rw [ht] at hs
        obtain ⟨a, b, c⟩ := z1 ht
        obtain ⟨x1, x2, x3⟩ := hm' s hh hs
        rw [a, b, c, sz]
        exact ⟨x1, x2, x3⟩
      | some p =>
        rw [ht] at hs
        simp only [Option.orElse_some, Option.some.injEq] at hs
        subst hs
        rw [sz]
        exact z2 s hh ht

theorem new_zMat (cs : Consts K) (self : Nat) (q : Quad K) (S : Surface K) (o : Obj K) (h : Obj.new cs self q S = .ok o) :
    o.zMat = (1, 0) := by
  unfold Obj.new at h
  split at h
  · cases h
  split at h
  · cases h
  simp only at h
  split at h
  · cases h
  · cases h; rfl

/-- C27. A grid surface (at least 2 x 2 points) is made and transformed any number of times. The two evaluations agree at
every parameter of the unit square if no Z transform was given. After the Z transform (s, h) they differ by
`(1 - s)` times the Z value of the grid at the centre of the square, at every point: `eval_array` scales about the centre,
`z_eval_array` about zero. -/
theorem grid_eval_difference [FloorRing K] (cs : Consts K) (nu nv : Nat) (hu : 2 ≤ nu) (hv : 2 ≤ nv) (z : Nat → Nat → K)
    (S : Surface K) (hS : gridSurface nu nv z = .ok S) (pre : List (Op K)) (q : Quad K)
    (ts : List (Option (M2 K × V2 K) × Option (K × K))) (w0 w : World K) (h0 : run cs [] pre = (w0, none))
    (h : run cs w0 (.new q S :: ts.map fun t => .transform w0.length t.1 t.2) = (w, none)) :
    ∃ o, w[w0.length]? = some o ∧ ∀ u v, 0 ≤ u → u ≤ 1 → 0 ≤ v → v ≤ 1 → ∃ e, gridEvalZ cs w w0.length u v = .ok e ∧
      (lastZ ts = none → gridZEval nu nv z o u v = e) ∧
      ∀ s hh, lastZ ts = some (s, hh) → e - gridZEval nu nv z o u v = (1 - s) * gridLocal nu nv z (1 / 2) (1 / 2) := by
  obtain ⟨S', e1, _, _, _, _, _, hraw⟩ := grid_raw cs nu nv hu hv z
  rw [hS] at e1; cases e1
  have i0 := inv_run cs pre [] w0 (inv_nil cs) h0
  have iw := inv_run cs _ w0 w i0 h
  simp only [run] at h
  split at h
  · cases h
  rename_i wn hn
  have inn := inv_step cs w0 wn _ i0 hn
  simp only [step] at hn
  split at hn
  · cases hn
  rename_i o ho
  cases hn
  have ns := new_spec cs _ q S o ho
  obtain ⟨o', a, b, c, d⟩ := transforms_state cs w0.length ts _ w inn h o (by simp) none
    (fun _ => ⟨new_zMat cs _ q S o ho, ns.2.2.2.2.2.2.2⟩) (fun _ _ hc => by cases hc)
  refine ⟨o', a, fun u v hu0 hu1 hv0 hv1 => ?_⟩
  rw [ns.2.1] at b d
  obtain ⟨a0, a1, a2, a3, b0, b1, b2, b3, hxy⟩ := uvToXy_form cs w iw w0.length o' a
  have hr := hraw u v hu0 hu1 hv0 hv1
  have hc := hraw (1 / 2) (1 / 2) (by norm_num) (by norm_num) (by norm_num) (by norm_num)
  have hev : gridEvalZ cs w w0.length u v = .ok (if o'.haveZ then gridLocal nu nv z u v * o'.zMatI.1 + o'.zMatI.2
      else gridLocal nu nv z u v) := by
    simp only [gridEvalZ, evalPoint, a, Obj.zEval, b, hr, hxy, mul_one, add_zero]
  refine ⟨_, hev, ?_, ?_⟩
  · intro hl
    obtain ⟨m1, m2⟩ := c hl
    simp [gridZEval, m1, m2]
  · intro s hh hl
    obtain ⟨m1, m2, zc, m3, m4⟩ := d s hh hl
    rw [hc] at m3
    cases m3
    simp only [gridZEval, m1, m2, m4, if_true]
    ring

/-- C27 is false: the two evaluations agree (at one point, or everywhere) exactly when the Z scale is 1 or the grid has the
value 0 at the centre. -/
theorem grid_eval_agree_iff [FloorRing K] (cs : Consts K) (nu nv : Nat) (hu : 2 ≤ nu) (hv : 2 ≤ nv) (z : Nat → Nat → K)
    (S : Surface K) (hS : gridSurface nu nv z = .ok S) (pre : List (Op K)) (q : Quad K)
    (ts : List (Option (M2 K × V2 K) × Option (K × K))) (w0 w : World K) (h0 : run cs [] pre = (w0, none))
    (h : run cs w0 (.new q S :: ts.map fun t => .transform w0.length t.1 t.2) = (w, none)) (s hh : K)
    (hl : lastZ ts = some (s, hh)) (u v : K) (hu0 : 0 ≤ u) (hu1 : u ≤ 1) (hv0 : 0 ≤ v) (hv1 : v ≤ 1) :
    ∃ o, w[w0.length]? = some o ∧ (gridEvalZ cs w w0.length u v = .ok (gridZEval nu nv z o u v) ↔
      s = 1 ∨ gridLocal nu nv z (1 / 2) (1 / 2) = 0) := by
  obtain ⟨o, ho, hall⟩ := grid_eval_difference cs nu nv hu hv z S hS pre q ts w0 w h0 h
  refine ⟨o, ho, ?_⟩
  obtain ⟨e, h1, _, h3⟩ := hall u v hu0 hu1 hv0 hv1
  have := h3 s hh hl
  rw [h1]
  simp only [Except.ok.injEq]
  constructor
  · intro he
    rw [he, sub_self] at this
    rcases mul_eq_zero.1 this.symm with h | h
    · left; linarith
    · exact Or.inr h
  · rintro (rfl | h)
    · rw [sub_self, zero_mul] at this; linarith
    · rw [h, mul_zero] at this; linarith

/-! ### Examples: the hypotheses of the theorems of this directory are met -/

/-- the tolerances of the code -/
def exCs : Consts ℚ := ⟨1 / 10000, 1 / 10000000000, 1 / 100000000, 1 / 100000⟩
/-- a 2 x 2 grid over the parallelogram (0,0), (4,0), (0,2), (4,2) -/
def exQuad : Quad ℚ := complete ⟨0, 2⟩ ⟨0, 0⟩ ⟨4, 0⟩
def exZ (i j : Nat) : ℚ := 1 + i + 2 * j
def exS : Surface ℚ := ⟨⟨1, [0, 0, 1, 1]⟩, ⟨1, [0, 0, 1, 1]⟩, [[[1], [3]], [[2], [4]]], false⟩
def exOps : List (Op ℚ) :=
  [.new exQuad exS, .transform 0 (some (⟨0, -1, 1, 0⟩, ⟨1, 1⟩)) (some (2, 3)), .copy 0,
   .transform 0 (some (⟨2, 0, 0, 1⟩, ⟨0, 0⟩)) none]

example : gridSurface 2 2 exZ = .ok exS := by
  have e : Basis.equidistant 1 1 (0 : ℚ) 1 = .ok ⟨1, [0, 0, 1, 1]⟩ := by decide +kernel
  simp only [gridSurface, e]
  simp [exS, exZ, Surface.init, Basis.size, List.range_succ]
  norm_num

/-- the program of `xy_uv_inverse`, `transform_affine`, `transform_z`, `copy_follows_original` -/
example : (run exCs [] exOps).2 = none ∧
    uvToXy (run exCs [] (exOps.take 1)).1 0 ⟨1, 0⟩ = .ok ⟨4, 0⟩ ∧
    uvToXy (run exCs [] (exOps.take 2)).1 0 ⟨1, 0⟩ = .ok ⟨4, 4⟩ ∧
    xyToUv (run exCs [] (exOps.take 2)).1 0 ⟨4, 4⟩ = .ok ⟨1, 0⟩ ∧
    evalPoint exCs (run exCs [] (exOps.take 3)).1 1 1 0 = .ok (4, 4, 9 / 2) ∧
    -- the copy has moved with the original
    evalPoint exCs (run exCs [] exOps).1 1 1 0 = .ok (6, 0, 9 / 2) ∧
    evalPoint exCs (run exCs [] exOps).1 0 1 0 = .ok (6, 0, 9 / 2) := by decide +kernel

/-- `copy_keeps_original_partial`: the copy is transformed, the original stays -/
example : evalPoint exCs (run exCs [] [.new exQuad exS, .copy 0, .transform 1 (some (⟨2, 0, 0, 1⟩, ⟨0, 5⟩)) (some (0, 7))]).1 0
      1 0 = .ok (4, 0, 2) ∧
    evalPoint exCs (run exCs [] [.new exQuad exS, .copy 0, .transform 1 (some (⟨2, 0, 0, 1⟩, ⟨0, 5⟩)) (some (0, 7))]).1 1
      1 0 = .ok (6, 5, 19 / 2) := by decide +kernel

/-- `singular_transform_breaks`: a projection -/
example : (step exCs (run exCs [] [.new exQuad exS]).1 (.transform 0 (some (⟨1, 0, 0, 0⟩, ⟨0, 0⟩)) none)).2 = some .linAlg ∧
    zRaw exCs exS (1 / 2) (1 / 2) = .ok (5 / 2) ∧
    (M2.cols (exQuad.q2.sub exQuad.q1) (exQuad.q0.sub exQuad.q1)).det ≠ 0 ∧ (⟨1, 0, 0, 0⟩ : M2 ℚ).det = 0 ∧
    allclose exCs exQuad.q3 ((exQuad.q0.add exQuad.q2).sub exQuad.q1) = true := by decide +kernel

/-- a bilinear surface: `xy_to_uv` raises, `transform` raises -/
example : (run exCs [] [.new ⟨⟨0, 2⟩, ⟨0, 0⟩, ⟨4, 0⟩, ⟨5, 3⟩⟩ exS]).2 = none ∧
    xyToUv (run exCs [] [.new ⟨⟨0, 2⟩, ⟨0, 0⟩, ⟨4, 0⟩, ⟨5, 3⟩⟩ exS]).1 0 ⟨1, 1⟩ = .error .assertion ∧
    (run exCs [] [.new ⟨⟨0, 2⟩, ⟨0, 0⟩, ⟨4, 0⟩, ⟨5, 3⟩⟩ exS, .transform 0 (some (⟨1, 0, 0, 1⟩, ⟨0, 0⟩)) none]).2 =
      some .attribute := by decide +kernel

/-- `aabb_encloses_partial` and `aabb_inverted`: Z scale 2, and Z scale -1 -/
example : ((run exCs [] (exOps.take 2)).1[0]?.map fun o => (o.aabb, o.bound, o.zMatI.1)) =
      some (((2, 0, 5 / 2), (4, 4, 17 / 2)), 0, 2) ∧
    ((run exCs [] [.new exQuad exS, .transform 0 none (some (-1, 0))]).1[0]?.map fun o => (o.aabb, o.zMatI.1)) =
      some (((0, 0, 4), (4, 2, 1)), (-1 : ℚ)) := by decide +kernel

/-- `full_surface_same_partial` -/
example : ∃ F, fullSurface (run exCs [] exOps).1 0 = .ok F ∧ F.eval exCs.c4 exCs.rtol 1 0 = .ok [some 6, some 0, some (9 / 2)] :=
  ⟨⟨⟨1, [0, 0, 1, 1]⟩, ⟨1, [0, 0, 1, 1]⟩, [[[-2, 0, 5 / 2], [-2, 2, 13 / 2]], [[6, 0, 9 / 2], [6, 2, 17 / 2]]], false⟩,
    by decide +kernel,    by decide +kernel⟩

/-- `grid_eval_difference`: after the Z transform (2, 3) the evaluations at (1, 0) are 9/2 and 7. -/
example : gridEvalZ exCs (run exCs [] (exOps.take 2)).1 0 1 0 = .ok (9 / 2) ∧
    ((run exCs [] (exOps.take 2)).1[0]?.map fun o => gridZEval 2 2 exZ o 1 0) = some 7 := by decide +kernel

/-- `apply_z_keeps_points` -/
example : (step exCs (run exCs [] (exOps.take 2)).1 (.applyZ 0)).2 = none ∧
    evalPoint exCs (step exCs (run exCs [] (exOps.take 2)).1 (.applyZ 0)).1 0 1 0 = .ok (4, 4, 9 / 2) ∧
    ((step exCs (run exCs [] (exOps.take 2)).1 (.applyZ 0)).1[0]?.map fun o => (o.zs.poles, o.getTransform.2)) =
      some ([[[5 / 2], [13 / 2]], [[9 / 2], [17 / 2]]], (2, 3)) := by decide +kernel

end Verif.ZSurf
