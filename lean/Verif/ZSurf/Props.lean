import Verif.ZSurf.Model
import Verif.Spline.Geom
import Mathlib.Tactic.LinearCombination
import Mathlib.Tactic.FieldSimp

/-! Property theorems about `Z_Surface`: coordinate maps, transforms, copies, bounding box, full surface. -/
namespace Verif.ZSurf

open Verif.Spline Finset

set_option linter.unusedSectionVars false

variable {K : Type} [Field K] [LinearOrder K] [IsStrictOrderedRing K]

/-! ### Specification -/

/-- The quad is taken for a parallelogram by the code: the fourth point is near to the completion of the other three. -/
def Quad.IsLin (cs : Consts K) (q : Quad K) : Prop := allclose cs q.q3 ((q.q0.add q.q2).sub q.q1) = true

/-- The quad is a parallelogram. -/
def Quad.Exact (q : Quad K) : Prop := q.q3 = (q.q0.add q.q2).sub q.q1

/-- The affine map that takes (0,1), (0,0), (1,0) to the first three points of the quad. -/
def Quad.map (q : Quad K) (p : V2 K) : V2 K :=
  ⟨q.q1.x + p.x * (q.q2.x - q.q1.x) + p.y * (q.q0.x - q.q1.x),
   q.q1.y + p.x * (q.q2.y - q.q1.y) + p.y * (q.q0.y - q.q1.y)⟩

/-- Move `q` by the linear map `A` about the centre `c`, then by `b`. -/
def moved (A : M2 K) (b c q : V2 K) : V2 K :=
  ⟨A.a * (q.x - c.x) + A.b * (q.y - c.y) + b.x + c.x, A.c * (q.x - c.x) + A.d * (q.y - c.y) + b.y + c.y⟩

/-! ### Small algebra -/

theorem inv_spec {m mi : M2 K} (h : m.inv = some mi) (p : V2 K) :
    m.mulV (mi.mulV p) = p ∧ mi.mulV (m.mulV p) = p := by
  unfold M2.inv at h
  split at h
  · cases h
  · rename_i hd
    cases h
    obtain ⟨a, b, c, d⟩ := m
    obtain ⟨x, y⟩ := p
    simp only [M2.det] at hd
    have he : (a * d - b * c) * (a * d - b * c)⁻¹ = 1 := mul_inv_cancel₀ hd
    simp only [M2.mulV, M2.det, V2.mk.injEq, div_eq_mul_inv]
    refine ⟨⟨?_, ?_⟩, ⟨?_, ?_⟩⟩
    · linear_combination x * he
    · linear_combination y * he
    · linear_combination x * he
    · linear_combination y * he

theorem affine_eq (A : M2 K) (b c q : V2 K) : affine A b c q = moved A b c q := by
  simp only [affine, moved, M2.mulV, V2.sub, V2.add]

/-! ### What `transform` does -/

/-- State of an object after operations that did not raise. -/
structure Obj.Ok (cs : Consts K) (o : Obj K) : Prop where
  rat : o.zs.rational = false
  lin : o.linear = true ↔ o.orig.IsLin cs
  some : o.linear = true → ∃ l, o.lin = some l ∧ (∀ p, l.mux.mulV (l.mxu.mulV p) = p ∧ l.mxu.mulV (l.mux.mulV p) = p) ∧
    (o.orig.Exact → ∀ p, l.uvToXy p = o.quad.bilinear p)
  none : o.linear = false → o.lin = none
  zid : o.haveZ = false → o.zMatI = (1, 0)

theorem resetXY_spec (cs : Consts K) (self : Nat) (o o' : Obj K) (q : Quad K) (h : o.resetXY cs self q = (o', none)) :
    o'.zs = o.zs ∧ o'.orig = o.orig ∧ o'.quad = q ∧ o'.bound = self ∧ (o'.linear = true ↔ q.IsLin cs) ∧
    (q.IsLin cs → ∃ mi, (M2.cols (q.q2.sub q.q1) (q.q0.sub q.q1)).inv = some mi ∧
      o'.lin = some ⟨q.q1, M2.cols (q.q2.sub q.q1) (q.q0.sub q.q1), mi⟩) ∧ (¬ q.IsLin cs → o'.lin = o.lin) ∧
    o'.zMat = o.zMat ∧ o'.zMatI = o.zMatI ∧ o'.haveZ = o.haveZ := by
  unfold Obj.resetXY at h
  simp only at h
  split at h
  · rename_i hl
    split at h
    · cases h
    · rename_i mi hmi
      cases h
      exact ⟨rfl, rfl, rfl, rfl, by simpa [Quad.IsLin] using hl, fun _ => ⟨mi, hmi, rfl⟩, fun hn => absurd hl hn, rfl, rfl,
        rfl⟩
  · rename_i hl
    cases h
    exact ⟨rfl, rfl, rfl, rfl, by simpa [Quad.IsLin] using hl, fun hn => absurd hn hl, fun _ => rfl, rfl, rfl, rfl⟩

theorem new_spec (cs : Consts K) (self : Nat) (q : Quad K) (S : Surface K) (o : Obj K)
    (h : Obj.new cs self q S = .ok o) :
    o.Ok cs ∧ o.zs = S ∧ o.orig = q ∧ o.quad = q ∧ o.bound = self ∧ S.rational = false ∧ S.dim = 1 ∧ o.haveZ = false := by
  unfold Obj.new at h
  split at h
  · cases h
  rename_i hrat
  split at h
  · cases h
  rename_i hdim
  simp only at h
  split at h
  · cases h
  · rename_i o' hr
    cases h
    obtain ⟨h1, h2, h3, h4, h5, h6, h7, h8, h9, h10⟩ := resetXY_spec cs self _ o' q hr
    simp only at h1 h7
    refine ⟨⟨?_, ?_, ?_, ?_, ?_⟩, ?_, ?_, ?_, ?_, by simpa using hrat, by simpa using hdim, rfl⟩
    · simpa [Obj.resetZ, h1] using hrat
    · simp only [Obj.resetZ, h3, h5]
    · intro hl
      obtain ⟨mi, hm1, hm2⟩ := h6 (h5.1 hl)
      refine ⟨_, hm2, inv_spec hm1, ?_⟩
      intro he p
      simp only [Obj.resetZ, h3, Quad.Exact] at he ⊢
      simp only [Lin.uvToXy, M2.cols, M2.mulV, V2.sub, V2.add, Quad.bilinear, V2.mk.injEq, he]
      constructor <;> ring
    · intro hl
      simp only [Obj.resetZ] at hl ⊢
      refine h7 fun hn => ?_
      rw [h5.2 hn] at hl; cases hl
    · intro _; rfl
    · exact h1
    · exact h3
    · exact h3
    · exact h4

/-- What a successful XY transform leaves behind. -/
theorem transformXY_spec (cs : Consts K) (self : Nat) (o o' : Obj K) (A : M2 K) (b : V2 K) (ho : o.Ok cs)
    (h : o.transformXY cs self A b = (o', none)) :
    o'.Ok cs ∧ o'.zs = o.zs ∧ o'.orig = o.orig ∧ o'.bound = self ∧ o'.linear = true ∧ o'.zMat = o.zMat ∧
    o'.zMatI = o.zMatI ∧ o'.haveZ = o.haveZ ∧
    (∃ l, o'.lin = some l ∧ ∀ p, l.uvToXy p = moved A b (o.orig.map ⟨1 / 2, 1 / 2⟩) (o.orig.map p)) ∧
    o'.quad = ⟨moved A b (o.orig.map ⟨1 / 2, 1 / 2⟩) o.orig.q0, moved A b (o.orig.map ⟨1 / 2, 1 / 2⟩) o.orig.q1,
      moved A b (o.orig.map ⟨1 / 2, 1 / 2⟩) o.orig.q2, moved A b (o.orig.map ⟨1 / 2, 1 / 2⟩) o.orig.q3⟩ := by
  unfold Obj.transformXY at h
  split at h
  · cases h
  rename_i o1 hr
  obtain ⟨h1, h2, h3, h4, h5, h6, h7, h8, h9, h10⟩ := resetXY_spec cs self _ o1 _ hr
  by_cases hl : o.orig.IsLin cs
  swap
  · -- bilinear: no matrices
    exfalso
    have hn : o1.lin = none := by
      rw [h7 hl]
      refine ho.none ?_
      cases hc : o.linear with
      | false => rfl
      | true => exact absurd (ho.lin.1 hc) hl
    split at h
    · cases h
    · cases h
    · simp only [hn] at h
      cases h
  · obtain ⟨mi, hm1, hm2⟩ := h6 hl
    have hlin : o1.linear = true := h5.2 hl
    split at h
    · cases h
    · cases h
    · rename_i zc c hz hc
      simp only [Obj.ownCenterXY, hlin, if_true, hm2] at hc
      cases hc
      simp only [hm2] at h
      split at h
      · cases h
      · rename_i mi2 hmi2
        cases h
        have hmap : ∀ p, (⟨o.orig.q1, M2.cols (o.orig.q2.sub o.orig.q1) (o.orig.q0.sub o.orig.q1), mi⟩ : Lin K).uvToXy p =
            o.orig.map p := by
          intro p
          simp only [Lin.uvToXy, M2.cols, M2.mulV, V2.sub, V2.add, Quad.map, V2.mk.injEq]
          constructor <;> ring
        have key : ∀ p, (⟨(b.add (A.mulV (o.orig.q1.sub ((⟨o.orig.q1, M2.cols (o.orig.q2.sub o.orig.q1)
            (o.orig.q0.sub o.orig.q1), mi⟩ : Lin K).uvToXy ⟨1 / 2, 1 / 2⟩)))).add ((⟨o.orig.q1, M2.cols (o.orig.q2.sub o.orig.q1)
            (o.orig.q0.sub o.orig.q1), mi⟩ : Lin K).uvToXy ⟨1 / 2, 1 / 2⟩),
            A.mul (M2.cols (o.orig.q2.sub o.orig.q1) (o.orig.q0.sub o.orig.q1)), mi2⟩ : Lin K).uvToXy p =
            moved A b (o.orig.map ⟨1 / 2, 1 / 2⟩) (o.orig.map p) := by
          intro p
          rw [hmap]
          simp only [Lin.uvToXy, M2.cols, M2.mulV, M2.mul, V2.sub, V2.add, Quad.map, moved, V2.mk.injEq]
          constructor <;> ring
        refine ⟨⟨?_, ?_, ?_, ?_, ?_⟩, h1, h2, h4, hlin, h8, h9, h10, ⟨_, rfl, key⟩, ?_⟩
        · rw [h1]; exact ho.rat
        · simp only [h2, h5]
        · intro _
          refine ⟨_, rfl, inv_spec hmi2, ?_⟩
          intro he p
          rw [key]
          simp only [h2, Quad.Exact] at he
          simp only [affine_eq, h3, hmap]
          simp only [moved, Quad.map, Quad.bilinear, V2.mk.injEq, he, V2.add, V2.sub]
          constructor <;> ring
        · intro hf; simp only [hlin] at hf; cases hf
        · intro hf; simp only [h10] at hf; simp only [h9]; exact ho.zid hf
        · simp only [affine_eq, h3, hmap]

theorem transformZ_spec (cs : Consts K) (o o' : Obj K) (s h : K) (ho : o.Ok cs) (hh : o.transformZ cs s h = (o', none)) :
    o'.Ok cs ∧ o'.zs = o.zs ∧ o'.orig = o.orig ∧ o'.bound = o.bound ∧ o'.linear = o.linear ∧ o'.lin = o.lin ∧
    o'.quad = o.quad ∧ o'.zMat = (s, h) ∧ o'.haveZ = true ∧
    ∃ zc, zRaw cs o.zs (1 / 2) (1 / 2) = .ok zc ∧ o'.zMatI = (s, h + (1 - s) * zc) := by
  unfold Obj.transformZ at hh
  simp only at hh
  split at hh
  · cases hh
  · rename_i zc hz
    cases hh
    exact ⟨⟨ho.rat, ho.lin, ho.some, ho.none, fun hf => by cases hf⟩, rfl, rfl, rfl, rfl, rfl, rfl, rfl, rfl, zc, hz, rfl⟩

/-- Summary for `transform`. -/
theorem transform_spec (cs : Consts K) (self : Nat) (o o' : Obj K) (xy : Option (M2 K × V2 K)) (z : Option (K × K))
    (ho : o.Ok cs) (h : o.transform cs self xy z = (o', none)) :
    o'.Ok cs ∧ o'.zs = o.zs ∧ o'.orig = o.orig ∧ o'.linear = o.linear ∧
    (xy = none → o'.bound = o.bound ∧ o'.lin = o.lin ∧ o'.quad = o.quad) ∧
    (∀ A b, xy = some (A, b) → o'.bound = self ∧
      (∃ l, o'.lin = some l ∧ ∀ p, l.uvToXy p = moved A b (o.orig.map ⟨1 / 2, 1 / 2⟩) (o.orig.map p)) ∧
      o'.quad = ⟨moved A b (o.orig.map ⟨1 / 2, 1 / 2⟩) o.orig.q0, moved A b (o.orig.map ⟨1 / 2, 1 / 2⟩) o.orig.q1,
        moved A b (o.orig.map ⟨1 / 2, 1 / 2⟩) o.orig.q2, moved A b (o.orig.map ⟨1 / 2, 1 / 2⟩) o.orig.q3⟩) ∧
    (z = none → o'.zMat = o.zMat ∧ o'.zMatI = o.zMatI ∧ o'.haveZ = o.haveZ) ∧
    (∀ s hh, z = some (s, hh) → o'.zMat = (s, hh) ∧ o'.haveZ = true ∧
      ∃ zc, zRaw cs o.zs (1 / 2) (1 / 2) = .ok zc ∧ o'.zMatI = (s, hh + (1 - s) * zc)) := by
  have hlinear : ∀ {o' : Obj K}, o'.Ok cs → o'.orig = o.orig → o'.linear = o.linear := by
    intro o' h1 h2
    have := h1.lin.trans (h2 ▸ ho.lin.symm)
    cases h3 : o.linear <;> cases h4 : o'.linear <;> simp_all
  unfold Obj.transform at h
  cases xy with
  | none =>
    cases z with
    | none =>
      cases h
      refine ⟨ho, rfl, rfl, rfl, fun _ => ⟨rfl, rfl, rfl⟩, fun _ _ h => (by cases h), fun _ => ⟨rfl, rfl, rfl⟩, fun _ _ h => by cases h⟩
    | some sh =>
      obtain ⟨s, hh⟩ := sh
      obtain ⟨a1, a2, a3, a4, a5, a6, a7, a8, a9, a10⟩ := transformZ_spec cs o o' s hh ho h
      refine ⟨a1, a2, a3, a5, fun _ => ⟨a4, a6, a7⟩, fun _ _ h => (by cases h), fun h => (by cases h), ?_⟩
      intro s' h' e
      cases e
      exact ⟨a8, a9, a10⟩
  | some Ab =>
    obtain ⟨A, b⟩ := Ab
    simp only at h
    split at h
    · cases h
    · rename_i o1 h1
      obtain ⟨b1, b2, b3, b4, b5, b6, b7, b8, b9, b10⟩ := transformXY_spec cs self o o1 A b ho h1
      cases z with
      | none =>
        cases h
        refine ⟨b1, b2, b3, hlinear b1 b3, fun h => (by cases h), ?_, fun _ => ⟨b6, b7, b8⟩, fun _ _ h => by cases h⟩
        intro A' b' e
        cases e
        exact ⟨b4, b9, b10⟩
      | some sh =>
        obtain ⟨s, hh⟩ := sh
        obtain ⟨a1, a2, a3, a4, a5, a6, a7, a8, a9, a10⟩ := transformZ_spec cs o1 o' s hh b1 h
        refine ⟨a1, a2.trans b2, a3.trans b3, hlinear a1 (a3.trans b3), fun h => (by cases h), ?_, fun h => (by cases h), ?_⟩
        · intro A' b' e
          cases e
          exact ⟨a4.trans b4, a6 ▸ b9, a7 ▸ b10⟩
        · intro s' h' e
          cases e
          exact ⟨a8, a9, by rw [← b2]; exact a10⟩

theorem applyZ_spec (cs : Consts K) (o o' : Obj K) (ho : o.Ok cs) (h : o.applyZ = (o', none)) :
    o'.Ok cs ∧ o'.orig = o.orig ∧ o'.bound = o.bound ∧ o'.linear = o.linear ∧ o'.lin = o.lin ∧ o'.quad = o.quad ∧
    o'.haveZ = false ∧ o'.zMat = o.zMat := by
  unfold Obj.applyZ at h
  split at h
  · split at h
    · cases h
    · rename_i S hS
      cases h
      refine ⟨⟨?_, ho.lin, ho.some, ho.none, fun _ => rfl⟩, rfl, rfl, rfl, rfl, rfl, rfl, rfl⟩
      have := (Surface.init_spec hS).1
      simp [scalePoles, this]
  · cases h
    rename_i hz
    exact ⟨ho, rfl, rfl, rfl, rfl, rfl, by simpa using hz, rfl⟩

/-! ### Invariant of the heap -/

/-- Every object is fine, and the object whose methods it uses has the same kind of map and uses its own methods. -/
def HeapInv (cs : Consts K) (w : World K) : Prop :=
  ∀ (i : Nat) (o : Obj K), w[i]? = some o → o.Ok cs ∧ ∃ t : Obj K, w[o.bound]? = some t ∧ t.bound = o.bound ∧ t.orig = o.orig

theorem getElem?_set' (w : World K) (i j : Nat) (o o' : Obj K) (hi : w[i]? = some o) :
    (w.set i o')[j]? = if j = i then some o' else w[j]? := by
  rw [List.getElem?_set]
  have : i < w.length := by
    by_contra hc
    rw [List.getElem?_eq_none (by omega)] at hi
    cases hi
  by_cases h : j = i
  · subst h; simp [this]
  · rw [if_neg (by omega), if_neg h]

/-- Replacing an object by one with the same original quad that uses its old methods, or its own. -/
theorem inv_set (cs : Consts K) (w : World K) (hw : HeapInv cs w) (i : Nat) (o o' : Obj K) (hi : w[i]? = some o)
    (h1 : o'.Ok cs) (h2 : o'.orig = o.orig) (h3 : o'.bound = o.bound ∨ o'.bound = i) : HeapInv cs (w.set i o') := by
  intro j oj hj
  rw [getElem?_set' w i j o o' hi] at hj
  have key : ∀ (k : Nat) (t : Obj K), w[k]? = some t → t.bound = k → ∃ t' : Obj K, (w.set i o')[k]? = some t' ∧ t'.bound = k ∧ t'.orig = t.orig := by
    intro k t hk hb
    by_cases e : k = i
    · subst e
      rw [hi] at hk
      cases hk
      refine ⟨o', by rw [getElem?_set' w k k o o' hi, if_pos rfl], ?_, h2⟩
      rcases h3 with h3 | h3
      · rw [h3, hb]
      · exact h3
    · exact ⟨t, by rw [getElem?_set' w i k o o' hi, if_neg e, hk], hb, rfl⟩
  split at hj
  · rename_i e
    cases hj
    refine ⟨h1, ?_⟩
    rcases h3 with h3 | h3
    · obtain ⟨_, t, ht1, ht2, ht3⟩ := hw i o hi
      obtain ⟨t', a, b, c⟩ := key _ t ht1 ht2
      exact ⟨t', by rw [h3]; exact a, by rw [h3]; exact b, by rw [c, ht3, h2]⟩
    · exact ⟨o', by rw [h3, getElem?_set' w i i o o' hi, if_pos rfl], rfl, rfl⟩
  · obtain ⟨ok, t, ht1, ht2, ht3⟩ := hw j oj hj
    obtain ⟨t', a, b, c⟩ := key _ t ht1 ht2
    exact ⟨ok, t', a, b, c.trans ht3⟩

theorem getElem?_append' (w : World K) (o : Obj K) (j : Nat) (oj : Obj K) (h : (w ++ [o])[j]? = some oj) :
    w[j]? = some oj ∨ (j = w.length ∧ oj = o) := by
  by_cases hj : j < w.length
  · rw [List.getElem?_append_left hj] at h; exact Or.inl h
  · rw [List.getElem?_append_right (by omega)] at h
    right
    by_cases e : j - w.length = 0
    · rw [e] at h; simp at h; exact ⟨by omega, h.symm⟩
    · rw [List.getElem?_eq_none (by simp; omega)] at h; cases h

theorem getElem?_append_old (w : World K) (o t : Obj K) (j : Nat) (h : w[j]? = some t) : (w ++ [o])[j]? = some t := by
  have : j < w.length := by
    by_contra hc
    rw [List.getElem?_eq_none (by omega)] at h
    cases h
  rw [List.getElem?_append_left this, h]

theorem inv_step (cs : Consts K) (w w' : World K) (op : Op K) (hw : HeapInv cs w) (h : step cs w op = (w', none)) : HeapInv cs w' := by
  cases op with
  | new q S =>
    simp only [step] at h
    split at h
    · cases h
    · rename_i o ho
      cases h
      obtain ⟨a1, a2, a3, a4, a5, _⟩ := new_spec cs _ q S o ho
      intro j oj hj
      rcases getElem?_append' w o j oj hj with hj | ⟨rfl, rfl⟩
      · obtain ⟨ok, t, h1, h2, h3⟩ := hw j oj hj
        exact ⟨ok, t, getElem?_append_old w o t _ h1, h2, h3⟩
      · exact ⟨a1, oj, by rw [a5]; simp, rfl, rfl⟩
  | transform i xy z =>
    simp only [step] at h
    split at h
    · cases h
    · rename_i o ho
      simp only [Prod.mk.injEq] at h
      obtain ⟨rfl, h2⟩ := h
      obtain ⟨a1, a2, a3, a4, a5, a6, _⟩ := transform_spec cs i o (o.transform cs i xy z).1 xy z (hw i o ho).1
        (Prod.ext rfl h2)
      refine inv_set cs w hw i o _ ho a1 a3 ?_
      cases xy with
      | none => exact Or.inl (a5 rfl).1
      | some Ab => exact Or.inr (a6 Ab.1 Ab.2 rfl).1
  | applyZ i =>
    simp only [step] at h
    split at h
    · cases h
    · rename_i o ho
      simp only [Prod.mk.injEq] at h
      obtain ⟨rfl, h2⟩ := h
      obtain ⟨a1, a2, a3, _⟩ := applyZ_spec cs o o.applyZ.1 (hw i o ho).1 (Prod.ext rfl h2)
      exact inv_set cs w hw i o _ ho a1 a2 (Or.inl a3)
  | copy i =>
    simp only [step] at h
    split at h
    · cases h
    · rename_i o ho
      cases h
      intro j oj hj
      rcases getElem?_append' w o j oj hj with hj | ⟨rfl, rfl⟩
      · obtain ⟨ok, t, h1, h2, h3⟩ := hw j oj hj
        exact ⟨ok, t, getElem?_append_old w o t _ h1, h2, h3⟩
      · obtain ⟨ok, t, h1, h2, h3⟩ := hw i oj ho
        exact ⟨ok, t, getElem?_append_old w _ t _ h1, h2, h3⟩

theorem inv_run (cs : Consts K) (ops : List (Op K)) (w w' : World K) (hw : HeapInv cs w) (h : run cs w ops = (w', none)) :
    HeapInv cs w' := by
  induction ops generalizing w with
  | nil => cases h; exact hw
  | cons op ops ih =>
    simp only [run] at h
    split at h
    · cases h
    · rename_i w1 h1
      exact ih w1 (inv_step cs w w1 op hw h1) h

theorem inv_nil (cs : Consts K) : HeapInv cs ([] : World K) := by
  intro i o h; simp at h

/-- C26. After every program of constructions, transforms, z-pole updates and copies that runs without exception, and for
every surface alive: if its quad counts as a parallelogram, `uv_to_xy` and `xy_to_uv` are defined everywhere and inverse to
each other; otherwise `xy_to_uv` always raises (it is not implemented). -/
theorem xy_uv_inverse (cs : Consts K) (ops : List (Op K)) (w : World K) (h : run cs [] ops = (w, none)) (i : Nat) (o : Obj K)
    (hi : w[i]? = some o) :
    (o.orig.IsLin cs → (∀ p, ∃ q, uvToXy w i p = .ok q ∧ xyToUv w i q = .ok p) ∧
      (∀ q, ∃ p, xyToUv w i q = .ok p ∧ uvToXy w i p = .ok q)) ∧
    (¬ o.orig.IsLin cs → (∀ p, ∃ q, uvToXy w i p = .ok q) ∧ ∀ q, xyToUv w i q = .error .assertion) := by
  obtain ⟨ok, t, h1, h2, h3⟩ := inv_run cs ops [] w (inv_nil cs) h i o hi
  have okt := (inv_run cs ops [] w (inv_nil cs) h _ t h1).1
  constructor
  · intro hl
    have hol := ok.lin.2 hl
    obtain ⟨l, hl1, hl2, _⟩ := okt.some (okt.lin.2 (h3 ▸ hl))
    simp only [uvToXy, xyToUv, hi, h1, hol, if_true, hl1]
    constructor
    · intro p
      refine ⟨_, rfl, ?_⟩
      congr 1
      have e : (l.uvToXy p).sub l.shift = l.mux.mulV p := by
        simp only [Lin.uvToXy, V2.add, V2.sub, M2.mulV, V2.mk.injEq]
        constructor <;> ring
      rw [Lin.xyToUv, e, (hl2 p).2]
    · intro q
      refine ⟨_, rfl, ?_⟩
      congr 1
      rw [Lin.uvToXy, Lin.xyToUv, (hl2 _).1]
      simp [V2.add, V2.sub]
  · intro hl
    have hol : o.linear = false := by
      cases hc : o.linear with
      | false => rfl
      | true => exact absurd (ok.lin.1 hc) hl
    constructor
    · intro p; simp [uvToXy, hi, h1, hol]
    · intro q; simp [xyToUv, hi, h1, hol]

/-- The original quad of a surface never changes. -/
theorem orig_step (cs : Consts K) (w w' : World K) (op : Op K) (hw : HeapInv cs w) (h : step cs w op = (w', none)) (i : Nat)
    (o : Obj K) (hi : w[i]? = some o) : ∃ o', w'[i]? = some o' ∧ o'.orig = o.orig := by
  cases op with
  | new q S =>
    simp only [step] at h
    split at h
    · cases h
    · cases h; exact ⟨o, getElem?_append_old w _ o i hi, rfl⟩
  | transform j xy z =>
    simp only [step] at h
    split at h
    · cases h
    · rename_i oj hj
      simp only [Prod.mk.injEq] at h
      obtain ⟨rfl, h2⟩ := h
      have := transform_spec cs j oj (oj.transform cs j xy z).1 xy z (hw j oj hj).1 (Prod.ext rfl h2)
      rw [getElem?_set' w j i oj _ hj]
      split
      · rename_i e; subst e; rw [hi] at hj; cases hj; exact ⟨_, rfl, this.2.2.1⟩
      · exact ⟨o, hi, rfl⟩
  | applyZ j =>
    simp only [step] at h
    split at h
    · cases h
    · rename_i oj hj
      simp only [Prod.mk.injEq] at h
      obtain ⟨rfl, h2⟩ := h
      have := applyZ_spec cs oj oj.applyZ.1 (hw j oj hj).1 (Prod.ext rfl h2)
      rw [getElem?_set' w j i oj _ hj]
      split
      · rename_i e; subst e; rw [hi] at hj; cases hj; exact ⟨_, rfl, this.2.1⟩
      · exact ⟨o, hi, rfl⟩
  | copy j =>
    simp only [step] at h
    split at h
    · cases h
    · cases h; exact ⟨o, getElem?_append_old w _ o i hi, rfl⟩

theorem orig_run (cs : Consts K) (ops : List (Op K)) (w w' : World K) (hw : HeapInv cs w) (h : run cs w ops = (w', none)) (i : Nat)
    (o : Obj K) (hi : w[i]? = some o) : ∃ o', w'[i]? = some o' ∧ o'.orig = o.orig := by
  induction ops generalizing w o with
  | nil => cases h; exact ⟨o, hi, rfl⟩
  | cons op ops ih =>
    simp only [run] at h
    split at h
    · cases h
    · rename_i w1 h1
      obtain ⟨o1, e1, e2⟩ := orig_step cs w w1 op hw h1 i o hi
      obtain ⟨o2, e3, e4⟩ := ih w1 (inv_step cs w w1 op hw h1) h o1 e1
      exact ⟨o2, e3, e4.trans e2⟩

/-- C26, transforms. Whatever happened before, `transform(A, b)` on a surface made from the quad `q` gives the map of the
quad moved by `A` about its centre and then by `b`: transforms do not accumulate, evaluation commutes with the affine map,
and the stored quad moves with it. -/
theorem transform_affine (cs : Consts K) (pre post : List (Op K)) (q : Quad K) (S : Surface K) (A : M2 K) (b : V2 K)
    (z : Option (K × K)) (w0 w1 w : World K) (h0 : run cs [] pre = (w0, none))
    (h1 : run cs w0 (.new q S :: post) = (w1, none)) (h2 : step cs w1 (.transform w0.length (some (A, b)) z) = (w, none)) :
    (∀ p, uvToXy w w0.length p = .ok (moved A b (q.map ⟨1 / 2, 1 / 2⟩) (q.map p))) ∧
    ∃ o, w[w0.length]? = some o ∧ o.quad = ⟨moved A b (q.map ⟨1 / 2, 1 / 2⟩) q.q0, moved A b (q.map ⟨1 / 2, 1 / 2⟩) q.q1,
      moved A b (q.map ⟨1 / 2, 1 / 2⟩) q.q2, moved A b (q.map ⟨1 / 2, 1 / 2⟩) q.q3⟩ := by
  have i0 := inv_run cs pre [] w0 (inv_nil cs) h0
  have i1 := inv_run cs _ w0 w1 i0 h1
  simp only [run] at h1
  split at h1
  · cases h1
  rename_i wn hn
  have inn := inv_step cs w0 wn _ i0 hn
  simp only [step] at hn
  split at hn
  · cases hn
  rename_i o ho
  cases hn
  obtain ⟨_, _, a3, _⟩ := new_spec cs _ q S o ho
  obtain ⟨o1, e1, e2⟩ := orig_run cs post _ w1 inn h1 w0.length o (by simp)
  rw [a3] at e2
  simp only [step, e1, Prod.mk.injEq] at h2
  obtain ⟨rfl, h2⟩ := h2
  have sp := transform_spec cs _ o1 (o1.transform cs w0.length (some (A, b)) z).1 (some (A, b)) z (i1 _ o1 e1).1
    (Prod.ext rfl h2)
  obtain ⟨s1, ⟨l, s2, s3⟩, s4⟩ := sp.2.2.2.2.2.1 A b rfl
  have hget : (w1.set w0.length (o1.transform cs w0.length (some (A, b)) z).1)[w0.length]? =
      some (o1.transform cs w0.length (some (A, b)) z).1 := by rw [getElem?_set' w1 _ _ o1 _ e1, if_pos rfl]
  have hl : (o1.transform cs w0.length (some (A, b)) z).1.linear = true := by
    cases hc : (o1.transform cs w0.length (some (A, b)) z).1.linear with
    | true => rfl
    | false => have := sp.1.none hc; rw [s2] at this; cases this
  constructor
  · intro p
    simp only [uvToXy, hget, s1, hl, if_true, s2, s3, e2]
  · exact ⟨_, hget, by rw [s4, e2]⟩

/-- C26, transforms of Z: after `transform(.., (s, h))` the Z value is scaled by `s` about the Z value of the centre and
shifted by `h`, whatever transforms came before. -/
theorem transform_z (cs : Consts K) (ops : List (Op K)) (w w' : World K) (h0 : run cs [] ops = (w, none)) (i : Nat) (o : Obj K)
    (hi : w[i]? = some o) (xy : Option (M2 K × V2 K)) (s h : K) (h1 : step cs w (.transform i xy (some (s, h))) = (w', none)) :
    ∃ o' zc, w'[i]? = some o' ∧ zRaw cs o.zs (1 / 2) (1 / 2) = .ok zc ∧
      ∀ u v z, zRaw cs o.zs u v = .ok z → o'.zEval cs u v = .ok (s * (z - zc) + h + zc) := by
  have i0 := inv_run cs ops [] w (inv_nil cs) h0
  simp only [step, hi, Prod.mk.injEq] at h1
  obtain ⟨rfl, h2⟩ := h1
  have sp := transform_spec cs _ o _ xy (some (s, h)) (i0 i o hi).1 (Prod.ext rfl h2)
  obtain ⟨t1, t2, zc, t3, t4⟩ := sp.2.2.2.2.2.2.2 s h rfl
  refine ⟨_, zc, by rw [getElem?_set' w i i o _ hi, if_pos rfl], t3, ?_⟩
  intro u v z hz
  simp only [Obj.zEval, sp.2.1, hz, t2, if_true, t4]
  congr 1
  ring

/-- A singular matrix kills some nonzero vector. -/
theorem exists_kernel (m : M2 K) (h : m.det = 0) : ∃ p : V2 K, p ≠ ⟨0, 0⟩ ∧ m.mulV p = ⟨0, 0⟩ := by
  obtain ⟨a, b, c, d⟩ := m
  simp only [M2.det] at h
  by_cases h1 : a = 0 ∧ b = 0
  · obtain ⟨rfl, rfl⟩ := h1
    by_cases h2 : c = 0 ∧ d = 0
    · obtain ⟨rfl, rfl⟩ := h2
      exact ⟨⟨1, 0⟩, by simp, by simp [M2.mulV]⟩
    · refine ⟨⟨-d, c⟩, ?_, ?_⟩
      · simp only [ne_eq, V2.mk.injEq, neg_eq_zero]; tauto
      · simp only [M2.mulV, V2.mk.injEq]; constructor <;> ring
  · refine ⟨⟨-b, a⟩, ?_, ?_⟩
    · simp only [ne_eq, V2.mk.injEq, neg_eq_zero]; tauto
    · simp only [M2.mulV, V2.mk.injEq]
      constructor
      · ring
      · linear_combination h

/-- C26 does not survive an exception: when `transform` is called with a singular matrix on a linear surface it raises
`LinAlgError`, and leaves the surface with `uv_to_xy` already changed to the singular map while `xy_to_uv` still uses the
matrix of the untransformed quad, so that the two are no longer inverse. -/
theorem singular_transform_breaks (cs : Consts K) (ops : List (Op K)) (w : World K) (h0 : run cs [] ops = (w, none)) (i : Nat)
    (o : Obj K) (hi : w[i]? = some o) (hl : o.orig.IsLin cs)
    (hinv : (M2.cols (o.orig.q2.sub o.orig.q1) (o.orig.q0.sub o.orig.q1)).det ≠ 0) (zc : K)
    (hz : zRaw cs o.zs (1 / 2) (1 / 2) = .ok zc) (A : M2 K) (b : V2 K) (hA : A.det = 0) (z : Option (K × K)) :
    ∃ w', step cs w (.transform i (some (A, b)) z) = (w', some .linAlg) ∧
      (∀ p, uvToXy w' i p = .ok (moved A b (o.orig.map ⟨1 / 2, 1 / 2⟩) (o.orig.map p))) ∧
      ∃ p q r, uvToXy w' i p = .ok q ∧ xyToUv w' i q = .ok r ∧ r ≠ p := by
  have ok := (inv_run cs ops [] w (inv_nil cs) h0 i o hi).1
  obtain ⟨mi, hmi⟩ : ∃ mi, (M2.cols (o.orig.q2.sub o.orig.q1) (o.orig.q0.sub o.orig.q1)).inv = some mi := by
    unfold M2.inv; rw [if_neg hinv]; exact ⟨_, rfl⟩
  have hdet : (A.mul (M2.cols (o.orig.q2.sub o.orig.q1) (o.orig.q0.sub o.orig.q1))).det = 0 := by
    have : (A.mul (M2.cols (o.orig.q2.sub o.orig.q1) (o.orig.q0.sub o.orig.q1))).det =
        A.det * (M2.cols (o.orig.q2.sub o.orig.q1) (o.orig.q0.sub o.orig.q1)).det := by
      simp only [M2.det, M2.mul]; ring
    rw [this, hA, zero_mul]
  have hsing : (A.mul (M2.cols (o.orig.q2.sub o.orig.q1) (o.orig.q0.sub o.orig.q1))).inv = none := by
    unfold M2.inv; rw [if_pos hdet]
  obtain ⟨p, hp, hker⟩ := exists_kernel _ hdet
  have hl' : allclose cs o.orig.q3 ((o.orig.q0.add o.orig.q2).sub o.orig.q1) = true := hl
  have hstep : step cs w (.transform i (some (A, b)) z) = (w.set i
      { o with
        xyMat := (A, b)
        quad := o.orig
        linear := true
        bound := i
        lin := some ⟨(b.add (A.mulV (o.orig.q1.sub ((⟨o.orig.q1, M2.cols (o.orig.q2.sub o.orig.q1)
            (o.orig.q0.sub o.orig.q1), mi⟩ : Lin K).uvToXy ⟨1 / 2, 1 / 2⟩)))).add ((⟨o.orig.q1, M2.cols (o.orig.q2.sub
            o.orig.q1) (o.orig.q0.sub o.orig.q1), mi⟩ : Lin K).uvToXy ⟨1 / 2, 1 / 2⟩),
          A.mul (M2.cols (o.orig.q2.sub o.orig.q1) (o.orig.q0.sub o.orig.q1)), mi⟩ }, some .linAlg) := by
    simp only [step, hi, Obj.transform, Obj.transformXY, Obj.resetXY, hl', if_true, hmi, hz, Obj.ownCenterXY, hsing]
  have hmap : ∀ p, (⟨o.orig.q1, M2.cols (o.orig.q2.sub o.orig.q1) (o.orig.q0.sub o.orig.q1), mi⟩ : Lin K).uvToXy p =
      o.orig.map p := by
    intro p
    simp only [Lin.uvToXy, M2.cols, M2.mulV, V2.sub, V2.add, Quad.map, V2.mk.injEq]
    constructor <;> ring
  refine ⟨_, hstep, ?_, p, ?_⟩
  · intro p
    simp only [uvToXy, getElem?_set' w i _ o _ hi, if_true]
    congr 1
    rw [hmap]
    simp only [Lin.uvToXy, M2.cols, M2.mulV, M2.mul, V2.sub, V2.add, Quad.map, moved, V2.mk.injEq]
    constructor <;> ring
  · simp only [uvToXy, xyToUv, getElem?_set' w i _ o _ hi, if_true]
    refine ⟨_, _, rfl, rfl, ?_⟩
    have e : ∀ l : Lin K, (l.uvToXy p).sub l.shift = l.mux.mulV p := by
      intro l
      simp only [Lin.uvToXy, V2.add, V2.sub, M2.mulV, V2.mk.injEq]
      constructor <;> ring
    rw [Lin.xyToUv, e, hker]
    intro hc
    apply hp
    rw [← hc]
    simp [M2.mulV]

end Verif.ZSurf
