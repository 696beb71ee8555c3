import Verif.ZSurf.Props
import Mathlib.Algebra.BigOperators.Ring.Finset

/-! Copies, bounding box and the full 3D surface of a `Z_Surface`. -/
namespace Verif.ZSurf

open Verif.Spline Finset

set_option linter.unusedSectionVars false

variable {K : Type} [Field K] [LinearOrder K] [IsStrictOrderedRing K]

/-! ### C62: copies -/

/-- The operation does not work on surface `i` (reading it to make a copy is allowed). -/
def Op.Avoids (i : Nat) : Op K → Prop
  | .transform j _ _ => j ≠ i
  | .applyZ j => j ≠ i
  | _ => True

theorem step_avoids (cs : Consts K) (w : World K) (op : Op K) (i : Nat) (h : op.Avoids i) (o : Obj K) (hi : w[i]? = some o) :
    (step cs w op).1[i]? = some o := by
  have hlt : i < w.length := by
    by_contra hc
    rw [List.getElem?_eq_none (by omega)] at hi
    cases hi
  cases op with
  | new q S =>
    simp only [step]
    split
    · exact hi
    · exact getElem?_append_old w _ o i hi
  | transform j xy z =>
    simp only [Op.Avoids] at h
    simp only [step]
    split
    · exact hi
    · simp only [List.getElem?_set, if_neg h]; exact hi
  | applyZ j =>
    simp only [Op.Avoids] at h
    simp only [step]
    split
    · exact hi
    · simp only [List.getElem?_set, if_neg h]; exact hi
  | copy j =>
    simp only [step]
    split
    · exact hi
    · exact getElem?_append_old w _ o i hi

theorem run_avoids (cs : Consts K) (ops : List (Op K)) (w : World K) (i : Nat) (h : ∀ op ∈ ops, op.Avoids i) (o : Obj K)
    (hi : w[i]? = some o) : (run cs w ops).1[i]? = some o := by
  induction ops generalizing w with
  | nil => exact hi
  | cons op ops ih =>
    have h1 := step_avoids cs w op i (h op (by simp)) o hi
    simp only [run]
    split
    · rename_i w1 e hs; rw [hs] at h1; exact h1
    · rename_i w1 hs; rw [hs] at h1; exact ih w1 (fun op hop => h op (by simp [hop])) h1

/-- A surface made by the constructor always uses its own methods. -/
theorem bound_step (cs : Consts K) (w w' : World K) (op : Op K) (hw : HeapInv cs w) (h : step cs w op = (w', none)) (i : Nat)
    (o : Obj K) (hi : w[i]? = some o) (hb : o.bound = i) : ∃ o', w'[i]? = some o' ∧ o'.bound = i := by
  cases op with
  | new q S =>
    simp only [step] at h
    split at h
    · cases h
    · cases h; exact ⟨o, getElem?_append_old w _ o i hi, hb⟩
  | transform j xy z =>
    simp only [step] at h
    split at h
    · cases h
    · rename_i oj hj
      simp only [Prod.mk.injEq] at h
      obtain ⟨rfl, h2⟩ := h
      have := transform_spec cs j oj (oj.transform cs j xy z).1 xy z (hw j oj hj).1 (Prod.ext rfl h2)
      rw [getElem?_set' w j i oj _ hj]
      split
      · rename_i e; subst e; rw [hi] at hj; cases hj
        refine ⟨_, rfl, ?_⟩
        cases xy with
        | none => rw [(this.2.2.2.2.1 rfl).1, hb]
        | some Ab => exact (this.2.2.2.2.2.1 Ab.1 Ab.2 rfl).1
      · exact ⟨o, hi, hb⟩
  | applyZ j =>
    simp only [step] at h
    split at h
    · cases h
    · rename_i oj hj
      simp only [Prod.mk.injEq] at h
      obtain ⟨rfl, h2⟩ := h
      have := applyZ_spec cs oj oj.applyZ.1 (hw j oj hj).1 (Prod.ext rfl h2)
      rw [getElem?_set' w j i oj _ hj]
      split
      · rename_i e; subst e; rw [hi] at hj; cases hj; exact ⟨_, rfl, by rw [this.2.2.1, hb]⟩
      · exact ⟨o, hi, hb⟩
  | copy j =>
    simp only [step] at h
    split at h
    · cases h
    · cases h; exact ⟨o, getElem?_append_old w _ o i hi, hb⟩

theorem bound_run (cs : Consts K) (ops : List (Op K)) (w w' : World K) (hw : HeapInv cs w) (h : run cs w ops = (w', none))
    (i : Nat) (o : Obj K) (hi : w[i]? = some o) (hb : o.bound = i) : ∃ o', w'[i]? = some o' ∧ o'.bound = i := by
  induction ops generalizing w o with
  | nil => cases h; exact ⟨o, hi, hb⟩
  | cons op ops ih =>
    simp only [run] at h
    split at h
    · cases h
    · rename_i w1 h1
      obtain ⟨o1, e1, e2⟩ := bound_step cs w w1 op hw h1 i o hi hb
      exact ih w1 (inv_step cs w w1 op hw h1) h o1 e1 e2

/-- The surface made by the constructor in a program: where it is and what it uses. -/
theorem constructed (cs : Consts K) (pre mid : List (Op K)) (q : Quad K) (S : Surface K) (w0 w1 : World K)
    (h0 : run cs [] pre = (w0, none)) (h1 : run cs w0 (.new q S :: mid) = (w1, none)) :
    HeapInv cs w1 ∧ ∃ o, w1[w0.length]? = some o ∧ o.bound = w0.length ∧ o.orig = q := by
  have i0 := inv_run cs pre [] w0 (inv_nil cs) h0
  refine ⟨inv_run cs _ w0 w1 i0 h1, ?_⟩
  simp only [run] at h1
  split at h1
  · cases h1
  rename_i wn hn
  have inn := inv_step cs w0 wn _ i0 hn
  simp only [step] at hn
  split at hn
  · cases hn
  rename_i o ho
  cases hn
  obtain ⟨_, _, a3, _, a5, _⟩ := new_spec cs _ q S o ho
  obtain ⟨o1, e1, e2⟩ := orig_run cs mid _ w1 inn h1 w0.length o (by simp)
  obtain ⟨o2, f1, f2⟩ := bound_run cs mid _ w1 inn h1 w0.length o (by simp) a5
  rw [e1] at f1; cases f1
  exact ⟨o1, e1, f2, e2.trans a3⟩

/-- C62, the half that holds. Take a surface made by the constructor, copy it, and do whatever you like to the copy and to
other surfaces (with or without exceptions): every point and the bounding box of the surface stay as they were. -/
theorem copy_keeps_original_partial (cs : Consts K) (pre mid post : List (Op K)) (q : Quad K) (S : Surface K) (w0 w1 : World K)
    (h0 : run cs [] pre = (w0, none)) (h1 : run cs w0 (.new q S :: mid) = (w1, none))
    (hp : ∀ op ∈ post, op.Avoids w0.length) :
    (∀ u v, evalPoint cs (run cs w1 (.copy w0.length :: post)).1 w0.length u v = evalPoint cs w1 w0.length u v) ∧
    (run cs w1 (.copy w0.length :: post)).1[w0.length]?.map Obj.aabb = w1[w0.length]?.map Obj.aabb := by
  obtain ⟨_, o, ho, hb, _⟩ := constructed cs pre mid q S w0 w1 h0 h1
  have h2 := run_avoids cs (.copy w0.length :: post) w1 w0.length (by
    intro op hop
    rcases List.mem_cons.1 hop with rfl | hop
    · trivial
    · exact hp op hop) o ho
  constructor
  · intro u v
    simp only [evalPoint, uvToXy, h2, ho, hb]
  · rw [h2, ho]

/-- C62 is false: a copy has no XY transform of its own. After copying a surface made by the constructor and transforming
the original, the copy maps every parameter to the transformed position, although its quad (and so its bounding box) is
still that of the surface it was copied from. -/
theorem copy_follows_original (cs : Consts K) (pre mid : List (Op K)) (q : Quad K) (S : Surface K) (w0 w1 w : World K)
    (A : M2 K) (b : V2 K) (z : Option (K × K))
    (h0 : run cs [] pre = (w0, none)) (h1 : run cs w0 (.new q S :: mid) = (w1, none))
    (h2 : run cs w1 [.copy w0.length, .transform w0.length (some (A, b)) z] = (w, none)) :
    (∀ p, uvToXy w w1.length p = .ok (moved A b (q.map ⟨1 / 2, 1 / 2⟩) (q.map p))) ∧
    w[w1.length]?.map Obj.aabb = w1[w0.length]?.map Obj.aabb := by
  obtain ⟨iw, o, ho, hb, hq⟩ := constructed cs pre mid q S w0 w1 h0 h1
  have hlt : w0.length < w1.length := by
    by_contra hc
    rw [List.getElem?_eq_none (by omega)] at ho
    cases ho
  have hg : (w1 ++ [o])[w0.length]? = some o := getElem?_append_old w1 o o _ ho
  simp only [run, step, ho, hg] at h2
  split at h2
  · cases h2
  · rename_i w' hw'
    cases h2
    simp only [Prod.mk.injEq] at hw'
    obtain ⟨rfl, hn⟩ := hw'
    have sp := transform_spec cs _ o (o.transform cs w0.length (some (A, b)) z).1 (some (A, b)) z (iw _ o ho).1
      (Prod.ext rfl hn)
    obtain ⟨s1, ⟨l, s2, s3⟩, s4⟩ := sp.2.2.2.2.2.1 A b rfl
    have hl : (o.transform cs w0.length (some (A, b)) z).1.linear = true := by
      cases hc : (o.transform cs w0.length (some (A, b)) z).1.linear with
      | true => rfl
      | false => have := sp.1.none hc; rw [s2] at this; cases this
    have hlo : o.linear = true := by rw [← sp.2.2.2.1]; exact hl
    have hc : ((w1 ++ [o]).set w0.length (o.transform cs w0.length (some (A, b)) z).1)[w1.length]? = some o := by
      rw [getElem?_set' _ _ _ o _ hg, if_neg (by omega)]
      simp
    have ht : ((w1 ++ [o]).set w0.length (o.transform cs w0.length (some (A, b)) z).1)[w0.length]? =
        some (o.transform cs w0.length (some (A, b)) z).1 := by
      rw [getElem?_set' _ _ _ o _ hg, if_pos rfl]
    constructor
    · intro p
      simp only [uvToXy, hc, hb, ht, hlo, if_true, s2, s3, hq]
    · rw [hc, ho]

/-! ### C61: bounding box -/

theorem zRaw_eq (cs : Consts K) {ub vb : Basis K} {poles : List (List (List K))} {S : Surface K} (hu : ub.Valid) (hv : vb.Valid)
    (hS : Surface.init ub vb poles false = .ok S) (hd : S.dim = 1) {u v : K} (du : ub.Dom u) (dv : vb.Dom v) :
    ∃ z, zRaw cs S u v = .ok z ∧ S.eval cs.c4 cs.rtol u v = .ok [some z] ∧ colMin S.poles.flatten 0 ≤ z ∧
      z ≤ colMax S.poles.flatten 0 := by
  obtain ⟨xs, h1, h2, h3⟩ := surface_in_aabb ub vb hu hv poles S hS u v du dv cs.c4 cs.rtol
  obtain ⟨x, a, b, e1, e2, e3, e4, e5⟩ := h3 0 (by omega)
  have hx : xs = [some x] := by
    rw [hd] at h2
    match xs, h2 with
    | [y], _ => simp at e1; rw [e1]
  subst hx
  refine ⟨x, by simp [zRaw, h1], h1, ?_, ?_⟩
  · simp only [Surface.aabb, List.getElem?_map] at e2
    cases hr : (List.range (S.poles.flatten.headD []).length)[0]? with
    | none => rw [hr] at e2; cases e2
    | some n =>
      have : n = 0 := by
        have := List.getElem?_eq_some_iff.1 hr
        obtain ⟨_, h⟩ := this
        simp at h; exact h.symm
      subst this
      rw [hr] at e2
      simp only [Option.map_some, Option.some.injEq] at e2
      rw [e2]; exact e4
  · simp only [Surface.aabb, List.getElem?_map] at e3
    cases hr : (List.range (S.poles.flatten.headD []).length)[0]? with
    | none => rw [hr] at e3; cases e3
    | some n =>
      have : n = 0 := by
        have := List.getElem?_eq_some_iff.1 hr
        obtain ⟨_, h⟩ := this
        simp at h; exact h.symm
      subst this
      rw [hr] at e3
      simp only [Option.map_some, Option.some.injEq] at e3
      rw [e3]; exact e5

theorem mean4 (u v a b c d : K) (hu : 0 ≤ u) (hu1 : u ≤ 1) (hv : 0 ≤ v) (hv1 : v ≤ 1) :
    min (min (min a b) c) d ≤ (1 - u) * v * a + (1 - u) * (1 - v) * b + u * (1 - v) * c + u * v * d ∧
    (1 - u) * v * a + (1 - u) * (1 - v) * b + u * (1 - v) * c + u * v * d ≤ max (max (max a b) c) d := by
  have w0 : 0 ≤ (1 - u) * v := mul_nonneg (by linarith) hv
  have w1 : 0 ≤ (1 - u) * (1 - v) := mul_nonneg (by linarith) (by linarith)
  have w2 : 0 ≤ u * (1 - v) := mul_nonneg hu (by linarith)
  have w3 : 0 ≤ u * v := mul_nonneg hu hv
  have gen : ∀ m : K, m = (1 - u) * v * m + (1 - u) * (1 - v) * m + u * (1 - v) * m + u * v * m := fun m => by ring
  constructor
  · have m1 : min (min (min a b) c) d ≤ a := le_trans (min_le_left _ _) (le_trans (min_le_left _ _) (min_le_left _ _))
    have m2 : min (min (min a b) c) d ≤ b := le_trans (min_le_left _ _) (le_trans (min_le_left _ _) (min_le_right _ _))
    have m3 : min (min (min a b) c) d ≤ c := le_trans (min_le_left _ _) (min_le_right _ _)
    have m4 : min (min (min a b) c) d ≤ d := min_le_right _ _
    calc _ = _ := gen _
      _ ≤ _ := add_le_add (add_le_add (add_le_add (mul_le_mul_of_nonneg_left m1 w0) (mul_le_mul_of_nonneg_left m2 w1))
        (mul_le_mul_of_nonneg_left m3 w2)) (mul_le_mul_of_nonneg_left m4 w3)
  · have m1 : a ≤ max (max (max a b) c) d := le_trans (le_trans (le_max_left _ _) (le_max_left _ _)) (le_max_left _ _)
    have m2 : b ≤ max (max (max a b) c) d := le_trans (le_trans (le_max_right _ _) (le_max_left _ _)) (le_max_left _ _)
    have m3 : c ≤ max (max (max a b) c) d := le_trans (le_max_right _ _) (le_max_left _ _)
    have m4 : d ≤ max (max (max a b) c) d := le_max_right _ _
    calc _ ≤ _ := add_le_add (add_le_add (add_le_add (mul_le_mul_of_nonneg_left m1 w0) (mul_le_mul_of_nonneg_left m2 w1))
          (mul_le_mul_of_nonneg_left m3 w2)) (mul_le_mul_of_nonneg_left m4 w3)
      _ = _ := (gen _).symm

/-- C61 for surfaces with a non-negative Z scale that use their own methods (not an untransformed copy) and whose quad is
an exact parallelogram or not taken for one: every point is inside the bounding box. Missing: negative Z scale
(`aabb_inverted`), copies (`copy_follows_original`), and quads within the tolerance of a parallelogram. -/
theorem aabb_encloses_partial (cs : Consts K) (ops : List (Op K)) (w : World K) (h : run cs [] ops = (w, none)) (i : Nat)
    (o : Obj K) (hi : w[i]? = some o) (hb : o.bound = i) (hq : o.orig.Exact ∨ ¬ o.orig.IsLin cs) (hs : 0 ≤ o.zMatI.1)
    (ub vb : Basis K) (hu : ub.Valid) (hv : vb.Valid) (poles : List (List (List K)))
    (hS : Surface.init ub vb poles false = .ok o.zs) (hd : o.zs.dim = 1) (u v : K) (du : ub.Dom u) (dv : vb.Dom v)
    (hu0 : 0 ≤ u) (hu1 : u ≤ 1) (hv0 : 0 ≤ v) (hv1 : v ≤ 1) :
    ∃ x y z, evalPoint cs w i u v = .ok (x, y, z) ∧ o.aabb.1.1 ≤ x ∧ x ≤ o.aabb.2.1 ∧ o.aabb.1.2.1 ≤ y ∧ y ≤ o.aabb.2.2.1 ∧
      o.aabb.1.2.2 ≤ z ∧ z ≤ o.aabb.2.2.2 := by
  obtain ⟨ok, _⟩ := inv_run cs ops [] w (inv_nil cs) h i o hi
  obtain ⟨z, hz, _, z1, z2⟩ := zRaw_eq cs hu hv hS hd du dv
  have hxy : uvToXy w i ⟨u, v⟩ = .ok (o.quad.bilinear ⟨u, v⟩) := by
    simp only [uvToXy, hi, hb]
    cases hl : o.linear with
    | false => simp
    | true =>
      obtain ⟨l, l1, _, l3⟩ := ok.some hl
      have hex : o.orig.Exact := by
        rcases hq with hq | hq
        · exact hq
        · exact absurd (ok.lin.1 hl) hq
      simp [l1, l3 hex]
  have hzz : o.zEval cs u v = .ok (o.zMatI.1 * z + o.zMatI.2) := by
    simp only [Obj.zEval, hz]
    cases hh : o.haveZ with
    | true => simp [mul_comm]
    | false => simp [ok.zid hh]
  have mx := mean4 u v o.quad.q0.x o.quad.q1.x o.quad.q2.x o.quad.q3.x hu0 hu1 hv0 hv1
  have my := mean4 u v o.quad.q0.y o.quad.q1.y o.quad.q2.y o.quad.q3.y hu0 hu1 hv0 hv1
  refine ⟨(o.quad.bilinear ⟨u, v⟩).x, (o.quad.bilinear ⟨u, v⟩).y, o.zMatI.1 * z + o.zMatI.2, ?_, mx.1, mx.2, my.1, my.2, ?_, ?_⟩
  · simp only [evalPoint, hi, hzz, hxy]
  · simp only [Obj.aabb]
    have := mul_le_mul_of_nonneg_left z1 hs
    linarith
  · simp only [Obj.aabb]
    have := mul_le_mul_of_nonneg_left z2 hs
    linarith

/-- C61 is false for a negative Z scale: the lower corner of the box is above the upper one in Z, so that no point at all is
between them. -/
theorem aabb_inverted (o : Obj K) (hs : o.zMatI.1 < 0) (hz : colMin o.zs.poles.flatten 0 < colMax o.zs.poles.flatten 0) :
    ∀ z, ¬ (o.aabb.1.2.2 ≤ z ∧ z ≤ o.aabb.2.2.2) := by
  rintro z ⟨h1, h2⟩
  simp only [Obj.aabb] at h1 h2
  have := mul_lt_mul_of_neg_left hz hs
  linarith

/-! ### C63: the full surface -/

theorem mapM_ok' {α β : Type} (f : α → Except Exc β) (g : α → β) (l : List α) (h : ∀ a ∈ l, f a = .ok (g a)) :
    l.mapM f = .ok (l.map g) := by
  induction l with
  | nil => rfl
  | cons a as ih =>
    rw [List.mapM_cons, h a (by simp), ih (fun b hb => h b (by simp [hb]))]
    rfl

/-- Both kinds of `uv_to_xy` are bilinear functions. -/
theorem uvToXy_form (cs : Consts K) (w : World K) (hw : HeapInv cs w) (i : Nat) (o : Obj K) (hi : w[i]? = some o) :
    ∃ a0 a1 a2 a3 b0 b1 b2 b3 : K, ∀ u v, uvToXy w i ⟨u, v⟩ =
      .ok ⟨a0 + a1 * u + (a2 + a3 * u) * v, b0 + b1 * u + (b2 + b3 * u) * v⟩ := by
  obtain ⟨ok, t, h1, h2, h3⟩ := hw i o hi
  have okt := (hw _ t h1).1
  cases hl : o.linear with
  | true =>
    obtain ⟨l, hl1, _⟩ := okt.some (okt.lin.2 (h3 ▸ ok.lin.1 hl))
    refine ⟨l.shift.x, l.mux.a, l.mux.b, 0, l.shift.y, l.mux.c, l.mux.d, 0, fun u v => ?_⟩
    simp only [uvToXy, hi, h1, hl, if_true, hl1, Lin.uvToXy, M2.mulV, V2.add]
    congr 2 <;> ring
  | false =>
    refine ⟨t.quad.q1.x, t.quad.q2.x - t.quad.q1.x, t.quad.q0.x - t.quad.q1.x,
      t.quad.q3.x - t.quad.q2.x - t.quad.q0.x + t.quad.q1.x, t.quad.q1.y, t.quad.q2.y - t.quad.q1.y,
      t.quad.q0.y - t.quad.q1.y, t.quad.q3.y - t.quad.q2.y - t.quad.q0.y + t.quad.q1.y, fun u v => ?_⟩
    simp only [uvToXy, hi, h1, hl, Bool.false_eq_true, if_false, Quad.bilinear]
    congr 2 <;> ring

theorem linear_window (B : Basis K) (hB : B.Valid) (hd : 0 < B.degree) (h0 : B.lo = 0) (t : K) (ht : B.Dom t) (r : Nat)
    (hr : B.findInterval t = .ok r) :
    ∑ j ∈ range (B.degree + 1), B.val (r + j) t * B.linearPole (r + j) = t := by
  obtain ⟨r', hf, hr', h1, h2, h3⟩ := hB.find ht
  rw [hr] at hf; cases hf
  obtain ⟨vs, e1, e2⟩ := linear_poles_identity_partial B hB hd h0 t ht
  rw [hB.evalAll t] at e1
  cases e1
  rw [Basis.linearPoles, inner_range, hB.full_sum hr' h1 h2 h3 ht.2] at e2
  exact (sum_congr rfl fun j _ => mul_comm _ _).trans e2

theorem sum_affine (n : Nat) (b c : Nat → K) (t p q : K) (hs : ∑ j ∈ range n, b j = 1) (hc : ∑ j ∈ range n, b j * c j = t) :
    ∑ j ∈ range n, b j * (p + q * c j) = p + q * t := by
  have : ∀ j ∈ range n, b j * (p + q * c j) = p * b j + q * (b j * c j) := fun j _ => by ring
  rw [sum_congr rfl this, sum_add_distrib, ← mul_sum, ← mul_sum, hs, hc, mul_one]

/-- C63, when both parameter domains start at 0 (as in every surface the library makes) and both degrees are positive:
`make_full_surface` succeeds and the 3D surface has the same point as the `Z_Surface` at every parameter. Missing: domains
that do not start at 0, where `make_linear_poles` is wrong. -/
theorem full_surface_same_partial (cs : Consts K) (ops : List (Op K)) (w : World K) (h : run cs [] ops = (w, none)) (i : Nat)
    (o : Obj K) (hi : w[i]? = some o) (hu : o.zs.ub.Valid) (hv : o.zs.vb.Valid) (hdu : 0 < o.zs.ub.degree)
    (hdv : 0 < o.zs.vb.degree) (hlu : o.zs.ub.lo = 0) (hlv : o.zs.vb.lo = 0) (poles : List (List (List K)))
    (hS : Surface.init o.zs.ub o.zs.vb poles false = .ok o.zs) (hd : o.zs.dim = 1) :
    ∃ F, fullSurface w i = .ok F ∧ ∀ u v, o.zs.ub.Dom u → o.zs.vb.Dom v → ∃ x y z, evalPoint cs w i u v = .ok (x, y, z) ∧
      F.eval cs.c4 cs.rtol u v = .ok [some x, some y, some z] := by
  have iw := inv_run cs ops [] w (inv_nil cs) h
  obtain ⟨ok, _⟩ := iw i o hi
  obtain ⟨a0, a1, a2, a3, b0, b1, b2, b3, hxy⟩ := uvToXy_form cs w iw i o hi
  set ub := o.zs.ub with hub
  set vb := o.zs.vb with hvb
  have hiu := hu.nInt_eq
  have hiv := hv.nInt_eq
  have hpu := hu.nInt_pos
  have hpv := hv.nInt_pos
  set P : Nat → Nat → List K := fun iu iv =>
    [a0 + a1 * ub.linearPole iu + (a2 + a3 * ub.linearPole iu) * vb.linearPole iv,
     b0 + b1 * ub.linearPole iu + (b2 + b3 * ub.linearPole iu) * vb.linearPole iv,
     o.zMatI.2 + o.zMatI.1 * o.zs.pole iu iv 0] with hP
  set F : Surface K := ⟨ub, vb, (List.range ub.size).map fun iu => (List.range vb.size).map (P iu), false⟩ with hF
  have hz : ∀ x : K, (if o.haveZ = true then x * o.zMatI.1 + o.zMatI.2 else x) = o.zMatI.2 + o.zMatI.1 * x := by
    intro x
    cases hh : o.haveZ with
    | true => simp only [if_true]; ring
    | false => simp [ok.zid hh]
  have hpole : ∀ iu iv d, iu < ub.size → iv < vb.size → F.pole iu iv d = (P iu iv).getD d 0 := by
    intro iu iv d h1 h2
    simp [Surface.pole, hF, h1, h2, List.getD_eq_getElem?_getD]
  have hhead : (F.poles.headD []).headD [] = P 0 0 ∧ (F.poles.headD []).length = vb.size := by
    obtain ⟨n, hn⟩ : ∃ n, ub.size = n + 1 := ⟨ub.size - 1, by omega⟩
    obtain ⟨m, hm⟩ : ∃ m, vb.size = m + 1 := ⟨vb.size - 1, by omega⟩
    simp [hF, hn, hm, List.range_succ_eq_map]
  have hdim : F.dim = 3 := by
    unfold Surface.dim
    rw [hhead.1]
    simp [hF, hP]
  have hfull : fullSurface w i = .ok F := by
    unfold fullSurface
    simp only [hi, hxy, hz, ← hub, ← hvb]
    rw [mapM_ok' _ (fun iu => (List.range vb.size).map (P iu))]
    swap
    · intro iu _
      exact mapM_ok' _ _ _ fun iv _ => rfl
    simp only
    have hinit : Surface.init ub vb F.poles false = .ok F := by
      unfold Surface.init
      rw [if_neg, if_neg, if_neg]
      · rw [hhead.2]
        simp [hF]
      · rintro ⟨row, hrow, hr⟩
        rw [hhead.1, hhead.2] at hr
        simp only [hF, List.mem_map, List.mem_range] at hrow
        obtain ⟨iu, _, rfl⟩ := hrow
        rcases hr with hr | ⟨p, hp, hr⟩
        · simp at hr
        · simp only [List.mem_map, List.mem_range] at hp
          obtain ⟨iv, _, rfl⟩ := hp
          simp [hP] at hr
      · intro hc
        have := hhead.2
        rw [hc] at this
        simp at this
        omega
    simp only [hF] at hinit ⊢
    rw [hinit]
  refine ⟨F, hfull, fun u v du dv => ?_⟩
  obtain ⟨ru, rv, fu, fv, lu, lv, su, sv, hev⟩ := Surface.eval_eq (S := F) hu hv rfl du dv cs.c4 cs.rtol
  obtain ⟨ru', rv', fu', fv', _, _, _, _, hevz⟩ := Surface.eval_eq (S := o.zs) hu hv ok.rat du dv cs.c4 cs.rtol
  simp only [hF] at fu fv lu lv su sv
  rw [← hub, fu] at fu'
  rw [← hvb, fv] at fv'
  cases fu'
  cases fv'
  have wu := linear_window ub hu hdu hlu u du ru fu
  have wv := linear_window vb hv hdv hlv v dv rv fv
  obtain ⟨z, hz1, hz2, _⟩ := zRaw_eq cs hu hv hS hd du dv
  rw [hz2, hd] at hevz
  simp only [List.range_one, List.map_cons, List.map_nil, Except.ok.injEq, List.cons.injEq, Option.some.injEq, and_true] at hevz
  refine ⟨a0 + a1 * u + (a2 + a3 * u) * v, b0 + b1 * u + (b2 + b3 * u) * v, o.zMatI.2 + o.zMatI.1 * z, ?_, ?_⟩
  · simp only [evalPoint, hi, Obj.zEval, hz1, hxy, hz]
  · rw [hev, hdim]
    have hbil : ∀ (d : Nat) (c0 c1 c2 c3 : K), (∀ iu iv, (P iu iv).getD d 0 =
        c0 + c1 * ub.linearPole iu + (c2 + c3 * ub.linearPole iu) * vb.linearPole iv) →
        ∑ j ∈ range (F.vb.degree + 1), F.vb.val (rv + j) v * ∑ i ∈ range (F.ub.degree + 1), F.ub.val (ru + i) u *
          F.pole (ru + i) (rv + j) d = c0 + c1 * u + (c2 + c3 * u) * v := by
      intro d c0 c1 c2 c3 hc
      rw [← sum_affine _ (fun j => vb.val (rv + j) v) (fun j => vb.linearPole (rv + j)) v _ _ sv wv]
      refine sum_congr rfl fun j hj => ?_
      have hj' := mem_range.1 hj
      simp only [hF] at hj' ⊢
      congr 1
      have e : c0 + c1 * u + (c2 + c3 * u) * vb.linearPole (rv + j) =
          (c0 + c2 * vb.linearPole (rv + j)) + (c1 + c3 * vb.linearPole (rv + j)) * u := by ring
      rw [e, ← sum_affine _ (fun i => ub.val (ru + i) u) (fun i => ub.linearPole (ru + i)) u _ _ su wu]
      refine sum_congr rfl fun i hi => ?_
      have hi' := mem_range.1 hi
      have := hpole (ru + i) (rv + j) d (by omega) (by omega)
      simp only [hF] at this
      rw [this, hc]
      ring
    have hzs : ∑ j ∈ range (F.vb.degree + 1), F.vb.val (rv + j) v * ∑ i ∈ range (F.ub.degree + 1), F.ub.val (ru + i) u *
          F.pole (ru + i) (rv + j) 2 = o.zMatI.2 + o.zMatI.1 * z := by
      rw [hevz, ← sum_affine _ (fun j => vb.val (rv + j) v) (fun j => ∑ i ∈ range (ub.degree + 1), ub.val (ru + i) u *
        o.zs.pole (ru + i) (rv + j) 0) _ _ _ sv rfl]
      refine sum_congr rfl fun j hj => ?_
      have hj' := mem_range.1 hj
      simp only [hF] at hj' ⊢
      congr 1
      rw [← sum_affine _ (fun i => ub.val (ru + i) u) (fun i => o.zs.pole (ru + i) (rv + j) 0) _ _ _ su rfl]
      refine sum_congr rfl fun i hi => ?_
      have hi' := mem_range.1 hi
      have := hpole (ru + i) (rv + j) 2 (by omega) (by omega)
      simp only [hF] at this
      rw [this]
      simp [hP]
    have r3 : List.range 3 = [0, 1, 2] := rfl
    rw [r3]
    simp only [List.map_cons, List.map_nil]
    rw [hbil 0 a0 a1 a2 a3 (by intro iu iv; simp [hP]), hbil 1 b0 b1 b2 b3 (by intro iu iv; simp [hP]), hzs]

/-! ### C64: moving the Z transform into the poles -/

/-- `get_transform` (bspline.py:786-791). -/
def Obj.getTransform (o : Obj K) : (M2 K × V2 K) × (K × K) := (o.xyMat, o.zMat)

/-- C64. `apply_z_transform` succeeds and changes no point of the surface (nor of any other surface); the surface has no Z
transform left, but `get_transform` still reports the old one. -/
theorem apply_z_keeps_points (cs : Consts K) (ops : List (Op K)) (w : World K) (h : run cs [] ops = (w, none)) (i : Nat)
    (o : Obj K) (hi : w[i]? = some o) (hu : o.zs.ub.Valid) (hv : o.zs.vb.Valid) (poles : List (List (List K)))
    (hS : Surface.init o.zs.ub o.zs.vb poles false = .ok o.zs) (hd : o.zs.dim = 1) :
    ∃ w' o', step cs w (.applyZ i) = (w', none) ∧ w'[i]? = some o' ∧ o'.haveZ = false ∧ o'.zMatI = (1, 0) ∧
      o'.getTransform = o.getTransform ∧
      ∀ u v, o.zs.ub.Dom u → o.zs.vb.Dom v → ∃ p, evalPoint cs w i u v = .ok p ∧ evalPoint cs w' i u v = .ok p ∧
        ∀ j, j ≠ i → evalPoint cs w' j u v = evalPoint cs w j u v := by
  have iw := inv_run cs ops [] w (inv_nil cs) h
  obtain ⟨ok, _⟩ := iw i o hi
  have hpoles : poles = o.zs.poles := by rw [(Surface.init_spec hS).1]
  have hcopy : o.zs.deepCopy = .ok o.zs := by unfold Surface.deepCopy; rw [← hpoles]; exact hS
  -- the transform keeps `uv_to_xy` of everybody
  have key : ∀ o' : Obj K, o'.bound = o.bound → o'.linear = o.linear → o'.lin = o.lin → o'.quad = o.quad →
      ∀ j p, uvToXy (w.set i o') j p = uvToXy w j p := by
    intro o' k1 k2 k3 k4 j p
    have hget : ∀ k : Nat, (w.set i o')[k]? = if k = i then some o' else w[k]? := fun k => getElem?_set' w i k o o' hi
    have inner : ∀ (a : Bool) (k : Nat), (match (w.set i o')[k]? with
        | none => Except.error Exc.noObject
        | some t => if a = true then (match t.lin with | none => .error .attribute | some l => .ok (l.uvToXy p))
          else .ok (t.quad.bilinear p)) = (match w[k]? with
        | none => Except.error Exc.noObject
        | some t => if a = true then (match t.lin with | none => .error .attribute | some l => .ok (l.uvToXy p))
          else .ok (t.quad.bilinear p)) := by
      intro a k
      rw [hget]
      by_cases e : k = i
      · subst e; rw [if_pos rfl, hi]; simp only [k3, k4]
      · rw [if_neg e]
    unfold uvToXy
    rw [hget j]
    by_cases e : j = i
    · subst e; rw [if_pos rfl, hi]; simp only [k1, k2]; exact inner _ _
    · rw [if_neg e]
      cases w[j]? with
      | none => rfl
      | some oj => exact inner _ _
  have hoth : ∀ o' : Obj K, (∀ j p, uvToXy (w.set i o') j p = uvToXy w j p) → ∀ u v j, j ≠ i →
      evalPoint cs (w.set i o') j u v = evalPoint cs w j u v := by
    intro o' hk u v j hj
    unfold evalPoint
    rw [getElem?_set' w i j o o' hi, if_neg hj, hk]
  obtain ⟨a0, a1, a2, a3, b0, b1, b2, b3, hxy⟩ := uvToXy_form cs w iw i o hi
  cases hh : o.haveZ with
  | false =>
    have hstep : step cs w (.applyZ i) = (w.set i o, none) := by simp [step, hi, Obj.applyZ, hh]
    have hk := key o rfl rfl rfl rfl
    refine ⟨_, o, hstep, by rw [getElem?_set' w i i o o hi, if_pos rfl], hh, ok.zid hh, rfl, fun u v du dv => ?_⟩
    obtain ⟨z, hz1, _⟩ := zRaw_eq cs hu hv hS hd du dv
    refine ⟨(a0 + a1 * u + (a2 + a3 * u) * v, b0 + b1 * u + (b2 + b3 * u) * v, z), ?_, ?_, hoth o hk u v⟩
    · simp [evalPoint, hi, Obj.zEval, hz1, hxy, hh]
    · simp [evalPoint, getElem?_set' w i i o o hi, Obj.zEval, hz1, hxy, hh, hk]
  | true =>
    set o' : Obj K := { o with zs := scalePoles o.zs o.zMatI.1 o.zMatI.2, zMatI := (1, 0), haveZ := false } with ho'
    have hstep : step cs w (.applyZ i) = (w.set i o', none) := by
      simp only [step, hi, Obj.applyZ, hh, if_true, hcopy, ho']
    have hk := key o' rfl rfl rfl rfl
    have hget : (w.set i o')[i]? = some o' := by rw [getElem?_set' w i i o o' hi, if_pos rfl]
    refine ⟨_, o', hstep, hget, rfl, rfl, rfl, fun u v du dv => ?_⟩
    obtain ⟨z, hz1, hz2, _⟩ := zRaw_eq cs hu hv hS hd du dv
    refine ⟨(a0 + a1 * u + (a2 + a3 * u) * v, b0 + b1 * u + (b2 + b3 * u) * v, z * o.zMatI.1 + o.zMatI.2), ?_, ?_,
      hoth o' hk u v⟩
    · simp [evalPoint, hi, Obj.zEval, hz1, hxy, hh]
    · -- the scaled surface
      have hrows := (Surface.init_spec hS).2
      rw [hpoles] at hrows
      have hd1 : ((o.zs.poles.headD []).headD []).length = 1 := by
        have := hd
        unfold Surface.dim at this
        rw [ok.rat] at this
        simpa using this
      obtain ⟨ru, rv, fu, fv, lu, lv, su, sv, hev⟩ := Surface.eval_eq (S := o.zs) hu hv ok.rat du dv cs.c4 cs.rtol
      obtain ⟨ru', rv', fu', fv', _, _, _, _, hevz⟩ := Surface.eval_eq (S := o'.zs) hu hv ok.rat du dv cs.c4 cs.rtol
      have e1 : o'.zs.ub = o.zs.ub := rfl
      have e2 : o'.zs.vb = o.zs.vb := rfl
      rw [e1] at fu'
      rw [e2] at fv'
      rw [fu] at fu'; cases fu'
      rw [fv] at fv'; cases fv'
      have hiu := hu.nInt_eq
      have hiv := hv.nInt_eq
      have hpole : ∀ a b, a < o.zs.ub.size → b < o.zs.vb.size →
          o'.zs.pole a b 0 = o.zMatI.2 + o.zMatI.1 * o.zs.pole a b 0 := by
        intro a b ha hb
        have ha' : a < o.zs.poles.length := by rw [hrows.1]; exact ha
        obtain ⟨r1, r2⟩ := hrows.2 _ (List.getElem_mem ha')
        have hb' : b < o.zs.poles[a].length := by rw [r1]; exact hb
        have r3 := r2 _ (List.getElem_mem hb')
        rw [hd1] at r3
        simp only [Surface.pole, ho', scalePoles, List.getD_eq_getElem?_getD, List.getElem?_map,
          List.getElem?_eq_getElem ha', Option.map_some, Option.getD_some, List.getElem?_eq_getElem hb',
          List.getElem?_eq_getElem (show 0 < o.zs.poles[a][b].length by omega)]
        ring
      have hdim : o'.zs.dim = 1 := by
        unfold Surface.dim
        have : o'.zs.rational = false := ok.rat
        rw [this]
        have hne : o.zs.poles ≠ [] := by intro hc; rw [hc] at hd1; simp at hd1
        obtain ⟨row, rest, he⟩ := List.exists_cons_of_ne_nil hne
        rw [he] at hd1
        simp only [List.headD_cons] at hd1
        have hne2 : row ≠ [] := by intro hc; rw [hc] at hd1; simp at hd1
        obtain ⟨p, ps, he2⟩ := List.exists_cons_of_ne_nil hne2
        subst he2
        simp only [List.headD_cons] at hd1
        simp [ho', scalePoles, he, hd1]
      rw [hd] at hev
      rw [hdim] at hevz
      rw [hz2] at hev
      simp only [List.range_one, List.map_cons, List.map_nil, Except.ok.injEq, List.cons.injEq, Option.some.injEq,
        and_true] at hev
      have hsum : ∑ j ∈ range (o'.zs.vb.degree + 1), o'.zs.vb.val (rv + j) v * ∑ i ∈ range (o'.zs.ub.degree + 1),
          o'.zs.ub.val (ru + i) u * o'.zs.pole (ru + i) (rv + j) 0 = o.zMatI.2 + o.zMatI.1 * z := by
        rw [hev, e1, e2, ← sum_affine _ (fun j => o.zs.vb.val (rv + j) v) (fun j => ∑ i ∈ range (o.zs.ub.degree + 1),
          o.zs.ub.val (ru + i) u * o.zs.pole (ru + i) (rv + j) 0) _ _ _ sv rfl]
        refine sum_congr rfl fun j hj => ?_
        have hj' := mem_range.1 hj
        congr 1
        rw [← sum_affine _ (fun i => o.zs.ub.val (ru + i) u) (fun i => o.zs.pole (ru + i) (rv + j) 0) _ _ _ su rfl]
        refine sum_congr rfl fun i hi => ?_
        have hi' := mem_range.1 hi
        rw [hpole (ru + i) (rv + j) (by omega) (by omega)]
      simp only [List.range_one, List.map_cons, List.map_nil, hsum] at hevz
      have hraw : zRaw cs o'.zs u v = .ok (o.zMatI.2 + o.zMatI.1 * z) := by simp [zRaw, hevz]
      have hz0 : o'.haveZ = false := rfl
      simp only [evalPoint, hget, Obj.zEval, hraw, hz0, Bool.false_eq_true, if_false, hk, hxy]
      congr 3
      ring

end Verif.ZSurf
