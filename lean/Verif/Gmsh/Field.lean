import Mathlib.Algebra.Order.Field.Basic
import Mathlib.Algebra.Order.Group.Abs
import Verif.Gmsh.Ops

/-!
Model of `src/bgem/gmsh/field.py`. A field is known by the option settings recorded for it. The meaning of the `Box` field is
taken from its docstring (field.py:98-104).
-/
namespace Verif.Gmsh.Field
open M

variable {K : Type}

/-- Recorded calls of `setNumber` and `setNumbers` for one field, by the name of the option. -/
inductive Set (K : Type) where
  | number (opt : String) (x : K)
  | flag (opt : String)
  | numbers (opt : String) (l : List Nat)
  deriving DecidableEq, Repr

/-- `threshold` (field.py:45-72), for the arguments as they are given; the number of the field is `field`. -/
def threshold (field : K) (lower : K × K) (upper : Option (K × K)) (sigmoid : Bool) : List (Set K) :=
  [.number "IField" field, .number "DistMin" lower.1, .number "LcMin" lower.2] ++
  (match upper with
    | some _ => [.number "DistMax" lower.1, .number "LcMax" lower.2]
    | none => [.flag "StopAtDistMax"]) ++
  if sigmoid then [.flag "Sigmoid"] else []

/-- The lower bound is honoured; the upper bound is never used: the settings are the same for all upper bounds, and they are the
upper bound exactly if it equals the lower one. -/
theorem threshold_upper_ignored (field : K) (lower upper upper' : K × K) (sigmoid : Bool) :
    threshold field lower (some upper) sigmoid = threshold field lower (some upper') sigmoid ∧
    ((Set.number "DistMax" upper.1 ∈ threshold field lower (some upper) sigmoid ∧
      Set.number "LcMax" upper.2 ∈ threshold field lower (some upper) sigmoid) ↔ upper = lower) ∧
    Set.number "DistMin" lower.1 ∈ threshold field lower (some upper) sigmoid ∧
    Set.number "LcMin" lower.2 ∈ threshold field lower (some upper) sigmoid := by
  refine ⟨rfl, ⟨fun ⟨h1, h2⟩ => ?_, ?_⟩, ?_, ?_⟩
  · have e1 : upper.1 = lower.1 := by cases sigmoid <;> simpa [threshold] using h1
    have e2 : upper.2 = lower.2 := by cases sigmoid <;> simpa [threshold] using h2
    exact Prod.ext e1 e2
  · rintro rfl
    cases sigmoid <;> simp [threshold]
  · simp [threshold]
  · simp [threshold]

/-- A field with the mesh step 1 up to the distance 2 and 5 from the distance 10: the upper bound is set to the lower one. -/
example : threshold (7 : ℤ) (2, 1) (some (10, 5)) false =
    [.number "IField" 7, .number "DistMin" 2, .number "LcMin" 1, .number "DistMax" 2, .number "LcMax" 1] := by decide

/-- `box` (field.py:97-114). -/
def box (pmin pmax : K × K × K) (vin vout : K) : List (Set K) :=
  [.number "VIn" vin, .number "VOut" vout, .number "XMax" pmax.1, .number "XMin" pmin.1, .number "YMax" pmax.2.1,
    .number "YMin" pmin.2.1, .number "ZMax" pmax.2.2, .number "ZMin" pmin.2.2]

/-- `constant` (field.py:117-122); `big` is the default `1e300` of `v_out`. -/
def constant [Neg K] (big value radius : K) : List (Set K) := box (-radius, -radius, -radius) (radius, radius, radius) value big

/-- The value of a number option, the last setting counts. -/
def get (opt : String) : List (Set K) → Option K
  | [] => none
  | x :: l => match get opt l with
    | some y => some y
    | none => match x with
      | .number o y => if o = opt then some y else none
      | _ => none

/-- `v` is the value at `(x, y, z)` of a `Box` field with the settings `l`: `VIn` inside and `VOut` outside of the box. -/
def BoxValue [LinearOrder K] (l : List (Set K)) (x y z v : K) : Prop :=
  ∃ a1 b1 a2 b2 a3 b3 vi vo, get "XMin" l = some a1 ∧ get "XMax" l = some b1 ∧ get "YMin" l = some a2 ∧ get "YMax" l = some b2 ∧
    get "ZMin" l = some a3 ∧ get "ZMax" l = some b3 ∧ get "VIn" l = some vi ∧ get "VOut" l = some vo ∧
    v = if a1 ≤ x ∧ x ≤ b1 ∧ a2 ≤ y ∧ y ≤ b2 ∧ a3 ≤ z ∧ z ≤ b3 then vi else vo

/-- The value of `box` is `v_in` between the points and `v_out` elsewhere. -/
theorem box_value [LinearOrder K] (p q : K × K × K) (vin vout x y z v : K) : BoxValue (box p q vin vout) x y z v ↔
    v = if (p.1 ≤ x ∧ x ≤ q.1) ∧ (p.2.1 ≤ y ∧ y ≤ q.2.1) ∧ (p.2.2 ≤ z ∧ z ≤ q.2.2) then vin else vout := by
  have h : ∀ o, get o (box p q vin vout) = if o = "ZMin" then some p.2.2 else if o = "ZMax" then some q.2.2 else
      if o = "YMin" then some p.2.1 else if o = "YMax" then some q.2.1 else if o = "XMin" then some p.1 else
      if o = "XMax" then some q.1 else if o = "VOut" then some vout else if o = "VIn" then some vin else none := by
    intro o
    simp only [box, get, eq_comm (b := o)]
    repeat' split
    all_goals first | rfl | simp_all
  unfold BoxValue
  simp only [h]
  constructor
  · rintro ⟨a1, b1, a2, b2, a3, b3, vi, vo, h1, h2, h3, h4, h5, h6, h7, h8, rfl⟩
    simp at h1 h2 h3 h4 h5 h6 h7 h8
    subst h1 h2 h3 h4 h5 h6 h7 h8
    simp only [and_assoc]
  · rintro rfl
    refine ⟨p.1, q.1, p.2.1, q.2.1, p.2.2, q.2.2, vin, vout, ?_⟩
    simp [and_assoc]

/-- The value of `constant` is the given value on the whole ball with the radius (and on the cube around). -/
theorem constant_value [Field K] [LinearOrder K] [IsStrictOrderedRing K] (big value radius x y z v : K)
    (hx : |x| ≤ radius) (hy : |y| ≤ radius) (hz : |z| ≤ radius) :
    BoxValue (constant big value radius) x y z v ↔ v = value := by
  unfold constant
  rw [box_value, if_pos ⟨abs_le.1 hx, abs_le.1 hy, abs_le.1 hz⟩]

/-- The group with the boundary, if it is added (field.py:134-136). -/
def withBoundary (g : Nat) : Option (Option (List DimTag)) → M Nat
  | none => pure g
  | some res => do
    let b ← getBoundary g res
    group [g, b]

/-- `restrict` (field.py:124-144) with at least one object set, without the synchronization and with the result of `getBoundary`;
the settings are returned. -/
def restrict (field : K) (objs : List Nat) (bnd : Option (Option (List DimTag))) : M (List (Set K)) := do
  let g ← group objs
  let g' ← withBoundary g bnd
  let sets ← splitByDimension g'
  let bs ← each load sets
  match bs.map fun b => b.dts.map Prod.snd with
  | [p, e, f, v] => pure [.number "IField" field, .numbers "VerticesList" p, .numbers "EdgesList" e, .numbers "FacesList" f,
      .numbers "RegionsList" v]
  | _ => fail .invalid

/-- The tags of the entities of a dimension. -/
def tagsOf (d : Nat) (dts : List DimTag) : List Nat := (dts.filter fun t => t.1 = d).map Prod.snd

/-- If `restrict` returns, the field is restricted exactly to the entities of the object sets, and of the boundary if it is
added; every list has the tags of its dimension. -/
theorem restrict_lists {s s' : St} (h : Reach s) {objs : List Nat} {bs : List Obj} (hv : Valid s objs bs) (field : K)
    {bnd : Option (Option (List DimTag))} {l : List (Set K)} (hs : restrict field objs bnd s = (.ok l, s')) :
    ∃ extra, (bnd = none ∧ extra = [] ∨ bnd = some (some extra)) ∧
      l = [.number "IField" field, .numbers "VerticesList" (tagsOf 0 (bs.flatMap Obj.dts ++ extra)),
        .numbers "EdgesList" (tagsOf 1 (bs.flatMap Obj.dts ++ extra)), .numbers "FacesList" (tagsOf 2 (bs.flatMap Obj.dts ++ extra)),
        .numbers "RegionsList" (tagsOf 3 (bs.flatMap Obj.dts ++ extra))] := by
  obtain ⟨g, s1, bg, g1, g2, g3, _, _, _⟩ := group_concat h.inv hv
  have hR1 : Reach s1 := by
    have := Reach.step (o := .group objs) h trivial
    rwa [step, g1] at this
  unfold restrict at hs
  rw [bind_of g1] at hs
  -- the last part for a valid object
  have tail : ∀ {s2 : St} {o : Nat} {b : Obj}, Reach s2 → s2.obj o = some b → (splitByDimension o >>= fun sets => each load sets >>=
      fun bs => match bs.map fun b => b.dts.map Prod.snd with
      | [p, e, f, v] => pure [Set.number "IField" field, .numbers "VerticesList" p, .numbers "EdgesList" e, .numbers "FacesList" f,
          .numbers "RegionsList" v]
      | _ => fail .invalid) s2 = (.ok l, s') →
      l = [.number "IField" field, .numbers "VerticesList" (tagsOf 0 b.dts), .numbers "EdgesList" (tagsOf 1 b.dts),
        .numbers "FacesList" (tagsOf 2 b.dts), .numbers "RegionsList" (tagsOf 3 b.dts)] := by
    intro s2 o b hR hb ht
    obtain ⟨sets, s3, t1, t2⟩ := bind_ok.1 ht
    obtain ⟨p1, _, _⟩ := (split_by_dimension_partition hR hb).2 sets s3 t1
    have hmap : ∀ d, ((b.pairs.filter fun p => p.1.1 = d).map Prod.fst).map Prod.snd = tagsOf d b.dts := by
      intro d
      have : b.pairs.map Prod.fst = b.dts := List.map_fst_zip (hR.inv.len o b hb).ge
      rw [tagsOf, ← this, List.filter_map]
      rfl
    have hvl : Valid s3 sets ([0, 1, 2, 3].map fun d => (⟨(b.pairs.filter fun p => p.1.1 = d).map Prod.fst,
        (b.pairs.filter fun p => p.1.1 = d).map Prod.snd⟩ : Obj)) := by
      rw [Valid, List.forall₂_map_right_iff]
      exact p1
    rw [bind_of (each_load hvl)] at t2
    simp only [List.map_cons, List.map_nil, hmap] at t2
    cases t2
    rfl
  cases bnd with
  | none =>
    refine ⟨[], Or.inl ⟨rfl, rfl⟩, ?_⟩
    rw [List.append_nil, ← g3]
    exact tail hR1 g2 ((bind_of (show withBoundary g none s1 = (.ok g, s1) from rfl)).symm.trans hs)
  | some res =>
    obtain ⟨g', s3, t1, t2⟩ := bind_ok.1 hs
    rw [withBoundary] at t1
    obtain ⟨bn, s2, t3, t4⟩ := bind_ok.1 t1
    have hR2 : Reach s2 := by
      have := Reach.step (o := .getBoundary g res) hR1 trivial
      rwa [step, t3] at this
    obtain ⟨tags, rfl, rfl, rfl⟩ := get_boundary_ok t3
    have hlt := hR1.lt g2
    have hv2 : Valid (put s1 ⟨tags, tags.map fun t => firstId + t.1⟩) [g, s1.nobj]
        [bg, ⟨tags, tags.map fun t => firstId + t.1⟩] := by
      refine .cons ?_ (.cons (Function.update_self ..) .nil)
      rw [← g2]
      exact (put_alloc s1 _).old g hlt
    obtain ⟨g4, s4, bg4, q1, q2, q3, _, _, _⟩ := group_concat hR2.inv hv2
    have hR4 : Reach s4 := by
      have := Reach.step (o := .group [g, s1.nobj]) hR2 trivial
      rwa [step, q1] at this
    rw [q1] at t4
    cases t4
    refine ⟨tags, Or.inr rfl, ?_⟩
    have := tail hR4 q2 t2
    rw [q3] at this
    simpa [g3] using this

end Verif.Gmsh.Field
