import Mathlib.Data.List.GetD
import Verif.Spline.Geom
import Verif.Brep.Build
import Verif.Brep.TextModel

/-!
Curves and surfaces of the BREP writer made from B-splines: the checks of their constructors, what the written record means, and
the check that a vertex lies on the curve or surface it is attached to.
-/
namespace Verif.Brep

variable {K : Type} [Field K] [LinearOrder K]

/-- `Curve3D.__init__` (brep_writer.py:165-187) for `n = 3` and `Curve2D.__init__` (221-243) for `n = 2`: `check_matrix` accepts
poles of the length `n`, one more if the curve is rational, else ParamError; `check_knots` raises AssertionError. The poles are
taken to be a list of lists of numbers, so that only their lengths are checked. -/
def Curve.make (n : Nat) (poles : List (List K)) (knots : List (K × Nat)) (rational : Bool) (degree : Nat) :
    Except Err (Curve K) :=
  if ¬ ∀ p ∈ poles, p.length = n + rational.toNat then .error .exception
  else if ¬ checkKnots degree (knots.map fun p => (p.1, (p.2 : Int))) poles.length then .error .assertion
  else .ok ⟨poles, knots, rational, degree⟩

/-- `Surface.__init__` (brep_writer.py:288-324), with the same simplification as `Curve.make`. The first row of poles is `poles[0]`. -/
def Surf.make (poles : List (List (List K))) (uKnots vKnots : List (K × Nat)) (rational : Bool) (degree : Nat × Nat) :
    Except Err (Surf K) :=
  if ¬ ∀ r ∈ poles, ∀ p ∈ r, p.length = 3 + rational.toNat then .error .exception
  else if poles.headD [] = [] then .error .assertion
  else if ¬ ∀ r ∈ poles, r.length = (poles.headD []).length then .error .assertion
  else if ¬ checkKnots degree.1 (uKnots.map fun p => (p.1, (p.2 : Int))) poles.length then .error .assertion
  else if ¬ checkKnots degree.2 (vKnots.map fun p => (p.1, (p.2 : Int))) (poles.headD []).length then .error .assertion
  else .ok ⟨poles, uKnots, vKnots, rational, degree⟩

/-- `curve_from_bs` (brep_writer.py:143-158): the class is chosen by the dimension. The attribute `_bs_curve` is the argument. -/
def curveFromBs (C : Spline.Curve K) : Except Err (Curve K) :=
  if C.dim = 2 then Curve.make 2 C.poles C.basis.packKnots C.rational C.basis.degree
  else if C.dim = 3 then Curve.make 3 C.poles C.basis.packKnots C.rational C.basis.degree
  else .error .assertion

/-- `surface_from_bs` (brep_writer.py:272-281). -/
def surfFromBs (S : Spline.Surface K) : Except Err (Surf K) :=
  Surf.make S.poles S.ub.packKnots S.vb.packKnots S.rational (S.ub.degree, S.vb.degree)

/-- The curve meant by a curve record of a file: the B-spline with these knots and poles, built by `SplineBasis.make_from_packed_knots`
(bspline.py:52-57) and `Curve.__init__` (360-389). -/
def Curve.meaning (c : Curve K) : Except Spline.Err (Spline.Curve K) := do
  let B ← Spline.Basis.fromPacked c.degree c.knots
  Spline.Curve.init B c.poles c.rational

/-- The surface meant by a surface record of a file (bspline.py:52-57, 487-517). -/
def Surf.meaning (s : Surf K) : Except Spline.Err (Spline.Surface K) := do
  let ub ← Spline.Basis.fromPacked s.degree.1 s.uKnots
  let vb ← Spline.Basis.fromPacked s.degree.2 s.vKnots
  Spline.Surface.init ub vb s.poles s.rational

omit [Field K] in
theorem init_fields {degree : Nat} {knots : List K} {B : Spline.Basis K} (hB : Spline.Basis.init degree knots = .ok B) :
    B.knots = knots ∧ B.degree = degree := by
  unfold Spline.Basis.init at hB
  cases hf : (List.range degree).forM (Spline.checkEnd knots) with
  | error e => rw [hf] at hB; simp [bind, Except.bind] at hB
  | ok u =>
    rw [hf] at hB
    simp only [bind, Except.bind] at hB
    split at hB
    · simp at hB
    · cases hB; exact ⟨rfl, rfl⟩

variable [IsStrictOrderedRing K]

theorem unpack_packKnots {degree : Nat} {knots : List K} {B : Spline.Basis K} (hB : Spline.Basis.init degree knots = .ok B) :
    (B.packKnots.flatMap fun p => List.replicate p.2 p.1) = B.knots := by
  unfold Spline.Basis.packKnots
  rw [Spline.packLoop_unpack]
  simp

theorem checkKnots_pack {degree : Nat} {knots : List K} {B : Spline.Basis K} (hB : Spline.Basis.init degree knots = .ok B)
    {n : Nat} (hn : n = B.size) (h0 : 0 < n) :
    checkKnots B.degree (B.packKnots.map fun p => (p.1, (p.2 : Int))) n = true := by
  rw [check_knots_count, unpack_packKnots hB]
  unfold Spline.Basis.size at hn
  omega

omit [Field K] [LinearOrder K] [IsStrictOrderedRing K] in
theorem curve_init_fields {B : Spline.Basis K} {poles : List (List K)} {rational : Bool} {C : Spline.Curve K}
    (h : Spline.Curve.init B poles rational = .ok C) :
    C = ⟨B, poles, rational⟩ ∧ poles.length = B.size ∧ poles ≠ [] ∧ ∀ r ∈ poles, r.length = (poles.headD []).length := by
  unfold Spline.Curve.init at h
  split at h
  · cases h
  · rename_i h1
    split at h
    · cases h
    · rename_i h2
      split at h
      · cases h
      · rename_i h3
        cases h
        refine ⟨rfl, not_not.1 h1, h2, fun r hr => ?_⟩
        by_contra hne
        exact h3 ⟨r, hr, hne⟩

/-- Every B-spline curve in the plane or in space is accepted by the BREP writer. The record has poles of the right length, and
read from the file it means the very same curve: the same knots, the same poles. -/
theorem curve_from_bs {degree : Nat} {knots : List K} {B : Spline.Basis K} (hB : Spline.Basis.init degree knots = .ok B)
    {poles : List (List K)} {rational : Bool} {C : Spline.Curve K} (hC : Spline.Curve.init B poles rational = .ok C)
    (hw : rational = true → ∀ p ∈ poles, p ≠ []) (hd : C.dim = 2 ∨ C.dim = 3) :
    ∃ c, curveFromBs C = .ok c ∧ c.Fits C.dim ∧ c.meaning = .ok C := by
  obtain ⟨rfl, hlen, hne, hrows⟩ := curve_init_fields hC
  have h0 : 0 < poles.length := List.length_pos_iff.2 hne
  have hk := checkKnots_pack hB hlen h0
  have hfit : ∀ p ∈ poles, p.length = (⟨B, poles, rational⟩ : Spline.Curve K).dim + rational.toNat := by
    intro p hp
    have h1 := hrows p hp
    simp only [Spline.Curve.dim]
    cases rational with
    | false => simpa using h1
    | true =>
      have := List.length_pos_iff.2 (hw rfl p hp)
      simp only [if_true, Bool.toNat_true]
      omega
  refine ⟨⟨poles, B.packKnots, rational, B.degree⟩, ?_, hfit, ?_⟩
  · unfold curveFromBs
    rcases hd with hd | hd
    · rw [if_pos hd]
      rw [hd] at hfit
      unfold Curve.make
      rw [if_neg (not_not.2 hfit), if_neg (not_not.2 hk)]
    · rw [if_neg (by omega), if_pos hd]
      rw [hd] at hfit
      unfold Curve.make
      rw [if_neg (not_not.2 hfit), if_neg (not_not.2 hk)]
  · unfold Curve.meaning
    simp only
    rw [(init_fields hB).2, Spline.unpack_pack degree knots B hB]
    exact hC

/-- A curve of any other dimension raises AssertionError. -/
theorem curve_from_bs_dim {C : Spline.Curve K} (h2 : C.dim ≠ 2) (h3 : C.dim ≠ 3) : curveFromBs C = .error .assertion := by
  unfold curveFromBs
  rw [if_neg h2, if_neg h3]

omit [Field K] [LinearOrder K] [IsStrictOrderedRing K] in
theorem surface_init_fields {ub vb : Spline.Basis K} {poles : List (List (List K))} {rational : Bool} {S : Spline.Surface K}
    (h : Spline.Surface.init ub vb poles rational = .ok S) :
    S = ⟨ub, vb, poles, rational⟩ ∧ poles.headD [] ≠ [] ∧ poles.length = ub.size ∧ (poles.headD []).length = vb.size ∧
      ∀ r ∈ poles, r.length = (poles.headD []).length ∧ ∀ p ∈ r, p.length = ((poles.headD []).headD []).length := by
  unfold Spline.Surface.init at h
  split at h
  · cases h
  · rename_i h1
    split at h
    · cases h
    · rename_i h2
      split at h
      · cases h
      · rename_i h3
        cases h
        simp only [not_or, not_not] at h3
        refine ⟨rfl, h1, h3.1, h3.2, fun r hr => ⟨?_, fun p hp => ?_⟩⟩
        · by_contra hne
          exact h2 ⟨r, hr, Or.inl hne⟩
        · by_contra hne
          exact h2 ⟨r, hr, Or.inr ⟨p, hp, hne⟩⟩

/-- Every B-spline surface in space is accepted by the BREP writer, and its record read from the file means the very same
surface. -/
theorem surface_from_bs {du dv : Nat} {ku kv : List K} {ub vb : Spline.Basis K} (hu : Spline.Basis.init du ku = .ok ub)
    (hv : Spline.Basis.init dv kv = .ok vb) {poles : List (List (List K))} {rational : Bool} {S : Spline.Surface K}
    (hS : Spline.Surface.init ub vb poles rational = .ok S) (hd : S.dim = 3) :
    ∃ s, surfFromBs S = .ok s ∧ s.Fits ∧ s.meaning = .ok S := by
  obtain ⟨rfl, hne, hlu, hlv, hrows⟩ := surface_init_fields hS
  have h0 : 0 < (poles.headD []).length := List.length_pos_iff.2 hne
  have h1 : 0 < poles.length := by
    rcases poles with _ | ⟨r, rs⟩
    · exact absurd rfl hne
    · simp
  have hku := checkKnots_pack hu hlu h1
  have hkv := checkKnots_pack hv hlv h0
  have hfit : ∀ r ∈ poles, ∀ p ∈ r, p.length = 3 + rational.toNat := by
    intro r hr p hp
    have h2 := (hrows r hr).2 p hp
    simp only [Spline.Surface.dim] at hd
    cases rational with
    | false => simp only [Bool.false_eq_true, if_false, Bool.toNat_false] at hd ⊢; omega
    | true => simp only [if_true, Bool.toNat_true] at hd ⊢; omega
  refine ⟨⟨poles, ub.packKnots, vb.packKnots, rational, (ub.degree, vb.degree)⟩, ?_, fun r hr => ⟨(hrows r hr).1, hfit r hr⟩, ?_⟩
  · unfold surfFromBs Surf.make
    rw [if_neg (not_not.2 hfit), if_neg hne, if_neg (not_not.2 fun r hr => (hrows r hr).1), if_neg (not_not.2 hku),
      if_neg (not_not.2 hkv)]
  · unfold Surf.meaning
    simp only
    rw [(init_fields hu).2, (init_fields hv).2, Spline.unpack_pack du ku ub hu]
    simp only [bind, Except.bind]
    rw [Spline.unpack_pack dv kv vb hv]
    exact hS

/-- A surface of any other dimension is refused by `check_matrix`. -/
theorem surface_from_bs_dim {du dv : Nat} {ku kv : List K} {ub vb : Spline.Basis K} (_hu : Spline.Basis.init du ku = .ok ub)
    (_hv : Spline.Basis.init dv kv = .ok vb) {poles : List (List (List K))} {rational : Bool} {S : Spline.Surface K}
    (hS : Spline.Surface.init ub vb poles rational = .ok S) (hd : S.dim ≠ 3) : surfFromBs S = .error .exception := by
  obtain ⟨rfl, hne, hlu, hlv, hrows⟩ := surface_init_fields hS
  unfold surfFromBs Surf.make
  rw [if_pos]
  intro hall
  apply hd
  rcases poles with _ | ⟨r, rs⟩
  · exact absurd rfl hne
  · rcases r with _ | ⟨p, ps⟩
    · exact absurd rfl hne
    · have := hall _ List.mem_cons_self p List.mem_cons_self
      simp only [Spline.Surface.dim, List.headD_cons]
      cases rational <;> simp at this ⊢ <;> omega

/-! ### The check that a vertex lies on its curve -/

/-- `np.allclose(a, b, rtol, atol)` for lists of equal length; a component of `b` that is `nan` is `none`. -/
def allclose (atol rtol : K) : List K → List (Option K) → Bool
  | a :: as, some b :: bs => decide (|a - b| ≤ atol + rtol * |b|) && allclose atol rtol as bs
  | [], [] => true
  | _, _ => false

/-- Exceptions of the B-spline code seen by the BREP writer. -/
def fromSpline {A : Type} : Except Spline.Err A → Except Err A
  | .ok a => .ok a
  | .error .assertionError => .error .assertion
  | .error .indexError => .error .index
  | .error .valueError => .error .exception

/-- The constants: `c4` and `rt` of `SplineBasis.check`, `atol = 1e-8` and `rtol = 1e-3` of `np.allclose`. -/
structure Tols (K : Type) where
  c4 : K
  rt : K
  atol : K
  rtol : K

/-- `Curve3D._eval_check` (brep_writer.py:189-193); `C` is the attribute `_bs_curve`, if there is one. -/
def evalCheck3 (T : Tols K) (C : Option (Spline.Curve K)) (t : K) (point : List K) : Except Err Unit :=
  match C with
  | none => .ok ()
  | some C => do
    let q ← fromSpline (C.eval T.c4 T.rt t)
    if allclose T.atol T.rtol point q then .ok () else .error .exception

/-- `Surface._eval_check` (brep_writer.py:326-330). -/
def evalCheckS (T : Tols K) (S : Option (Spline.Surface K)) (u v : K) (point : List K) : Except Err Unit :=
  match S with
  | none => .ok ()
  | some S => do
    let q ← fromSpline (S.eval T.c4 T.rt u v)
    if allclose T.atol T.rtol point q then .ok () else .error .exception

/-- `Curve2D._eval_check` (brep_writer.py:245-248). Unpacking `u, v` of a list of another length raises ValueError; a coordinate
that is `nan` fails in the check of the knots (`AssertionError` of `find_knot_interval` or IndexError), taken as IndexError. -/
def evalCheck2 (T : Tols K) (C : Option (Spline.Curve K)) (S : Option (Spline.Surface K)) (t : K) (point : List K) :
    Except Err Unit :=
  match C with
  | none => .ok ()
  | some C => do
    match ← fromSpline (C.eval T.c4 T.rt t) with
    | [some u, some v] => evalCheckS T S u v point
    | [_, _] => if S.isSome then .error .index else .ok ()
    | _ => .error .exception

/-- `Edge.attach_to_3d_curve` (brep_writer.py:884-895) for an edge with the end points `p0`, `p1`: the new item of `repr`. -/
def attach3 (T : Tols K) (C : Option (Spline.Curve K)) (curve loc : Nat) (t0 t1 : K) (p0 p1 : List K) : Except Err (Repr K) := do
  evalCheck3 T C t0 p0
  evalCheck3 T C t1 p1
  .ok (.c3 t0 t1 curve loc)

/-- `Edge.attach_to_2d_curve` (brep_writer.py:897-910). -/
def attach2 (T : Tols K) (C : Option (Spline.Curve K)) (S : Option (Spline.Surface K)) (curve surf loc : Nat) (t0 t1 : K)
    (p0 p1 : List K) : Except Err (Repr K) := do
  evalCheck2 T C S t0 p0
  evalCheck2 T C S t1 p1
  .ok (.c2 t0 t1 curve surf loc)

omit [Field K] [LinearOrder K] [IsStrictOrderedRing K] in
theorem bind_ok_unit {A : Type} (f : Unit → Except Err A) : ((Except.ok () : Except Err Unit) >>= f) = f () := rfl

omit [IsStrictOrderedRing K] in
theorem allclose_iff (atol rtol : K) (p : List K) (q : List (Option K)) :
    allclose atol rtol p q = true ↔ p.length = q.length ∧ ∀ (i : Nat) a o, p[i]? = some a → q[i]? = some o →
      ∃ b, o = some b ∧ |a - b| ≤ atol + rtol * |b| := by
  induction p generalizing q with
  | nil => cases q <;> simp [allclose]
  | cons a as ih =>
    rcases q with _ | ⟨_ | b, bs⟩
    · simp [allclose]
    · simp only [allclose, Bool.false_eq_true, false_iff]
      rintro ⟨_, h⟩
      obtain ⟨b, hb, _⟩ := h 0 a none rfl rfl
      cases hb
    · simp only [allclose, Bool.and_eq_true, decide_eq_true_eq, ih, List.length_cons, Nat.add_right_cancel_iff]
      constructor
      · rintro ⟨h0, hl, h⟩
        refine ⟨hl, fun i => ?_⟩
        cases i with
        | zero =>
          intro a' o ha ho
          simp only [List.getElem?_cons_zero, Option.some.injEq] at ha ho
          subst ha ho
          exact ⟨b, rfl, h0⟩
        | succ i => simpa using h i
      · rintro ⟨hl, h⟩
        refine ⟨?_, hl, fun i a' o ha ho => h (i + 1) a' o (by simpa using ha) (by simpa using ho)⟩
        obtain ⟨b', hb, h0⟩ := h 0 a (some b) rfl rfl
        cases hb
        exact h0

theorem evalCheck3_ok (T : Tols K) (C : Option (Spline.Curve K)) (t : K) (p : List K) :
    evalCheck3 T C t p = .ok () ↔ ∀ D, C = some D → ∃ q, D.eval T.c4 T.rt t = .ok q ∧ allclose T.atol T.rtol p q = true := by
  rcases C with _ | D
  · simp [evalCheck3]
  · simp only [evalCheck3, Option.some.injEq, forall_eq', bind, Except.bind]
    rcases h : D.eval T.c4 T.rt t with e | q
    · cases e <;> simp [fromSpline]
    · simp only [fromSpline, Except.ok.injEq, exists_eq_left']
      split <;> simp_all

/-- An edge is attached to a curve in space exactly if the curve was not made from a B-spline, or if the curve can be evaluated
at both ends of the range and every coordinate of the vertices agrees with the curve within `1e-8 + 1e-3 |coordinate|`. -/
theorem attach3_iff (T : Tols K) (C : Option (Spline.Curve K)) (curve loc : Nat) (t0 t1 : K) (p0 p1 : List K) (r : Repr K) :
    attach3 T C curve loc t0 t1 p0 p1 = .ok r ↔ r = .c3 t0 t1 curve loc ∧ ∀ D, C = some D →
      ∀ tp ∈ [(t0, p0), (t1, p1)], ∃ q, D.eval T.c4 T.rt tp.1 = .ok q ∧ tp.2.length = q.length ∧
        ∀ (i : Nat) a o, tp.2[i]? = some a → q[i]? = some o → ∃ b, o = some b ∧ |a - b| ≤ T.atol + T.rtol * |b| := by
  have key : attach3 T C curve loc t0 t1 p0 p1 = .ok r ↔
      r = .c3 t0 t1 curve loc ∧ evalCheck3 T C t0 p0 = .ok () ∧ evalCheck3 T C t1 p1 = .ok () := by
    unfold attach3
    simp only [bind, Except.bind]
    rcases evalCheck3 T C t0 p0 with e | u
    · simp
    · rcases evalCheck3 T C t1 p1 with e | u'
      · simp
      · simp [eq_comm]
  rw [key, evalCheck3_ok, evalCheck3_ok]
  simp only [allclose_iff, List.mem_cons, List.not_mem_nil, or_false, forall_eq_or_imp, forall_eq]
  constructor
  · rintro ⟨h, h0, h1⟩
    exact ⟨h, fun D hD => ⟨h0 D hD, h1 D hD⟩⟩
  · rintro ⟨h, h01⟩
    exact ⟨h, fun D hD => (h01 D hD).1, fun D hD => (h01 D hD).2⟩

/-- An edge between the first and the last pole of a curve is attached to it over its whole domain. -/
theorem attach3_ends (T : Tols K) (ha : 0 ≤ T.atol) (hr : 0 ≤ T.rtol) (B : Spline.Basis K) (hB : B.Valid)
    (hm : B.k B.degree < B.k (B.degree + 1)) (poles : List (List K)) (C : Spline.Curve K)
    (hC : Spline.Curve.init B poles false = .ok C) (curve loc : Nat) :
    attach3 T (some C) curve loc B.lo B.hi (poles.getD 0 []) (poles.getD (B.size - 1) []) =
      .ok (.c3 B.lo B.hi curve loc) := by
  obtain ⟨h0, h1⟩ := Spline.curve_ends B hB poles C hC T.c4 T.rt
  obtain ⟨rfl, hlen, hne, hrows⟩ := curve_init_fields hC
  have hpos : 0 < poles.length := List.length_pos_iff.2 hne
  have hd : ∀ i < poles.length, (poles.getD i []).length = (⟨B, poles, false⟩ : Spline.Curve K).dim := by
    intro i hi
    have := hrows (poles.getD i []) (by rw [List.getD_eq_getElem _ _ hi]; exact List.getElem_mem hi)
    simpa [Spline.Curve.dim] using this
  have close : ∀ i < poles.length, allclose T.atol T.rtol (poles.getD i [])
      ((List.range (⟨B, poles, false⟩ : Spline.Curve K).dim).map fun d =>
        some ((⟨B, poles, false⟩ : Spline.Curve K).pole i d)) = true := by
    intro i hi
    rw [allclose_iff]
    refine ⟨by rw [hd i hi]; simp, fun j a o h h' => ?_⟩
    obtain ⟨hj, e⟩ := List.getElem?_eq_some_iff.1 h
    rw [List.getElem?_map, List.getElem?_range (by rw [← hd i hi]; exact hj)] at h'
    simp only [Option.map_some, Option.some.injEq] at h'
    refine ⟨_, h'.symm, ?_⟩
    have e2 : (⟨B, poles, false⟩ : Spline.Curve K).pole i j = a := by
      unfold Spline.Curve.pole
      simp only
      rw [List.getD_eq_getElem _ _ hj]
      exact e
    rw [e2, sub_self, abs_zero]
    have := mul_nonneg hr (abs_nonneg a)
    linarith
  unfold attach3
  rw [(evalCheck3_ok _ _ _ _).2, bind_ok_unit, (evalCheck3_ok _ _ _ _).2, bind_ok_unit]
  · rintro D ⟨⟩
    exact ⟨_, h1, close _ (by omega)⟩
  · rintro D ⟨⟩
    exact ⟨_, h0 hm, close _ hpos⟩

theorem far_close {rtol : K} (hr : 0 < rtol) {atol : K} (ha : 0 ≤ atol) (L : List (K × K)) :
    ∃ s0, ∀ s ≥ s0, ∀ ab ∈ L, |ab.1 - ab.2| ≤ atol + rtol * |ab.2 + s| := by
  induction L with
  | nil => exact ⟨0, by simp⟩
  | cons x L ih =>
    obtain ⟨s0, h0⟩ := ih
    refine ⟨max s0 (|x.1 - x.2| / rtol + |x.2|), fun s hs ab hab => ?_⟩
    rcases List.mem_cons.1 hab with rfl | hab
    · have h1 := (le_max_right s0 (|ab.1 - ab.2| / rtol + |ab.2|)).trans hs
      have h2 : |ab.1 - ab.2| / rtol ≤ |ab.2 + s| := by
        have := neg_abs_le ab.2
        exact le_trans (by linarith) (le_abs_self _)
      rw [div_le_iff₀' hr] at h2
      linarith
    · exact h0 s ((le_max_left _ _).trans hs) ab hab

/-- The check of the ends depends on where the model lies: whatever the edge and the curve are, however far from each other, when
both are moved far enough from the origin the edge is attached to the curve. -/
theorem attach3_drift (T : Tols K) (ha : 0 ≤ T.atol) (hr : 0 < T.rtol) (B : Spline.Basis K) (hB : B.Valid)
    (hm : B.k B.degree < B.k (B.degree + 1)) (poles : List (List K)) (C : Spline.Curve K)
    (hC : Spline.Curve.init B poles false = .ok C) (curve loc : Nat) (p0 p1 : List K) (h0 : p0.length = C.dim)
    (h1 : p1.length = C.dim) :
    ∃ s0, ∀ s ≥ s0, ∃ D, Spline.Curve.init B (poles.map fun p => p.map (· + s)) false = .ok D ∧
      attach3 T (some D) curve loc B.lo B.hi (p0.map (· + s)) (p1.map (· + s)) = .ok (.c3 B.lo B.hi curve loc) := by
  obtain ⟨rfl, hlen, hne, hrows⟩ := curve_init_fields hC
  have hpos : 0 < poles.length := List.length_pos_iff.2 hne
  have hhead : ∀ s : K, ((poles.map fun p => p.map (· + s)).headD []).length = (poles.headD []).length := by
    intro s
    rcases poles with _ | ⟨r, rs⟩ <;> simp
  have hinit : ∀ s : K, Spline.Curve.init B (poles.map fun p => p.map (· + s)) false =
      .ok ⟨B, poles.map fun p => p.map (· + s), false⟩ := by
    intro s
    unfold Spline.Curve.init
    rw [if_neg (by simpa using hlen), if_neg (by simpa using hne), if_neg]
    rintro ⟨r, hr, hne⟩
    obtain ⟨p, hp, rfl⟩ := List.mem_map.1 hr
    apply hne
    rw [hhead, List.length_map]
    exact hrows p hp
  have hdim : ∀ s : K, (⟨B, poles.map fun p => p.map (· + s), false⟩ : Spline.Curve K).dim = (poles.headD []).length := by
    intro s
    simp only [Spline.Curve.dim, hhead, Bool.false_eq_true, if_false, Nat.sub_zero]
  have hdim0 : (⟨B, poles, false⟩ : Spline.Curve K).dim = (poles.headD []).length := by
    simp [Spline.Curve.dim]
  rw [hdim0] at h0 h1
  have hpole : ∀ (s : K) i d, i < poles.length → d < (poles.headD []).length →
      (⟨B, poles.map fun p => p.map (· + s), false⟩ : Spline.Curve K).pole i d = (poles.getD i []).getD d 0 + s := by
    intro s i d hi hd
    have hl : d < poles[i].length := by rw [hrows _ (List.getElem_mem hi)]; exact hd
    unfold Spline.Curve.pole
    simp only
    have a1 : (poles.map fun p => p.map (· + s)).getD i [] = poles[i].map (· + s) := by
      rw [List.getD_eq_getElem _ _ (by simpa using hi), List.getElem_map]
    have a2 : poles.getD i [] = poles[i] := List.getD_eq_getElem _ _ hi
    rw [a1, a2, List.getD_eq_getElem _ _ (by simpa using hl), List.getD_eq_getElem _ _ hl, List.getElem_map]
  let L : List (K × K) := (List.range (poles.headD []).length).flatMap fun d =>
    [(p0.getD d 0, (poles.getD 0 []).getD d 0), (p1.getD d 0, (poles.getD (B.size - 1) []).getD d 0)]
  obtain ⟨s0, hs0⟩ := far_close hr ha L
  refine ⟨s0, fun s hs => ⟨_, hinit s, ?_⟩⟩
  obtain ⟨e0, e1⟩ := Spline.curve_ends B hB _ _ (hinit s) T.c4 T.rt
  have close : ∀ (p : List K) i, i < poles.length → p.length = (poles.headD []).length →
      (∀ d < (poles.headD []).length, (p.getD d 0, (poles.getD i []).getD d 0) ∈ L) →
      allclose T.atol T.rtol (p.map (· + s))
        ((List.range (⟨B, poles.map fun p => p.map (· + s), false⟩ : Spline.Curve K).dim).map fun d =>
          some ((⟨B, poles.map fun p => p.map (· + s), false⟩ : Spline.Curve K).pole i d)) = true := by
    intro p i hi hp hmem
    rw [hdim, allclose_iff]
    refine ⟨by simp [hp], fun j a o h h' => ?_⟩
    rw [List.getElem?_map, Option.map_eq_some_iff] at h
    obtain ⟨a, h, rfl⟩ := h
    obtain ⟨hj, e⟩ := List.getElem?_eq_some_iff.1 h
    have hj' := hj
    rw [hp] at hj'
    rw [List.getElem?_map, List.getElem?_range hj'] at h'
    simp only [Option.map_some, Option.some.injEq] at h'
    refine ⟨_, h'.symm, ?_⟩
    rw [hpole s i j hi hj', add_sub_add_right_eq_sub]
    have := hs0 s hs _ (hmem j hj')
    rw [List.getD_eq_getElem _ _ hj, e] at this
    exact this
  unfold attach3
  rw [(evalCheck3_ok _ _ _ _).2, bind_ok_unit, (evalCheck3_ok _ _ _ _).2, bind_ok_unit]
  · rintro D ⟨⟩
    exact ⟨_, e1, close p1 _ (by omega) h1 fun d hd =>
      List.mem_flatMap.2 ⟨d, List.mem_range.2 hd, List.mem_cons_of_mem _ (List.mem_singleton.2 rfl)⟩⟩
  · rintro D ⟨⟩
    exact ⟨_, e0 hm, close p0 _ hpos h0 fun d hd =>
      List.mem_flatMap.2 ⟨d, List.mem_range.2 hd, List.mem_cons_self⟩⟩

/-! ### A concrete curve and surface -/

/-- A parabola in the plane. -/
def parabola : Spline.Curve ℚ := ⟨⟨2, [0, 0, 0, 1, 1, 1]⟩, [[0, 0], [1, 2], [2, 0]], false⟩

example : Spline.Basis.init 2 ([0, 0, 0, 1, 1, 1] : List ℚ) = .ok parabola.basis := by decide +kernel
example : Spline.Curve.init parabola.basis parabola.poles false = .ok parabola ∧ parabola.dim = 2 := by decide +kernel
example : curveFromBs parabola = .ok ⟨[[0, 0], [1, 2], [2, 0]], [(0, 3), (1, 3)], false, 2⟩ := by decide +kernel

/-- A vertex off a curve by one is refused near the origin and accepted far from it. -/
example : attach3 ⟨1 / 10000, 1 / 1000, 0, 1 / 1000⟩ (some ⟨⟨1, [0, 0, 1, 1]⟩, [[(0 : ℚ), 0, 0], [1, 0, 0]], false⟩) 1 0 0 1
      [0, 1, 0] [1, 1, 0] = .error .exception ∧
    attach3 ⟨1 / 10000, 1 / 1000, 0, 1 / 1000⟩
      (some ⟨⟨1, [0, 0, 1, 1]⟩, [[(1000 : ℚ), 1000, 1000], [1001, 1000, 1000]], false⟩) 1 0 0 1
      [1000, 1001, 1000] [1001, 1001, 1000] = .ok (.c3 0 1 1 0) := by
  decide +kernel

end Verif.Brep
