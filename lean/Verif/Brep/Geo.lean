import Mathlib.Data.List.GetD
import Mathlib.Tactic.FieldSimp
import Mathlib.Tactic.IntervalCases
import Mathlib.Tactic.LinearCombination
import Mathlib.Tactic.Ring
import Verif.Brep.Demo

/-!
The geometry that `write_model` adds to shapes without geometry: straight edges, and surfaces of triangles and quadrilaterals
on which the edges lie.
-/
namespace Verif.Brep

variable {K : Type} [Field K]

/-- Quadratic Bézier polynomial: the B-spline of degree two with knots 0 and 1 of multiplicity three. -/
def bez (t p q r : K) : K := (1 - t) ^ 2 * p + 2 * t * (1 - t) * q + t ^ 2 * r

/-- The curve is a non-rational quadratic B-spline over [0, 1] and its value at `t` is `f t`, for the coordinates below `n`. -/
def Traces (n : Nat) (C : Curve K) (f : K → Nat → K) : Prop :=
  ∃ a b c, C = ⟨[a, b, c], [(0, 3), (1, 3)], false, 2⟩ ∧
    ∀ t, ∀ j < n, bez t (a.getD j 0) (b.getD j 0) (c.getD j 0) = f t j

/-- The surface is a non-rational biquadratic B-spline over the unit square and its value at `(u, v)` is `f u v`. -/
def Spans (S : Surf K) (f : K → K → Nat → K) : Prop :=
  ∃ a0 a1 a2 b0 b1 b2 c0 c1 c2,
    S = ⟨[[a0, a1, a2], [b0, b1, b2], [c0, c1, c2]], [(0, 3), (1, 3)], [(0, 3), (1, 3)], false, (2, 2)⟩ ∧
    ∀ u v, ∀ j < 3, bez u (bez v (a0.getD j 0) (a1.getD j 0) (a2.getD j 0)) (bez v (b0.getD j 0) (b1.getD j 0) (b2.getD j 0))
      (bez v (c0.getD j 0) (c1.getD j 0) (c2.getD j 0)) = f u v j

/-- The segment from `p` to `q`. -/
def seg (p q : List K) (t : K) (j : Nat) : K := (1 - t) * p.getD j 0 + t * q.getD j 0

/-- The curve `C` in the parameters of the surface `S` runs along the segment from `p` to `q`. -/
def OnSeg (S : Surf K) (C : Curve K) (p q : List K) : Prop :=
  ∃ F G, Spans S F ∧ Traces 2 C G ∧ ∀ t, ∀ j < 3, F (G t 0) (G t 1) j = seg p q t j

theorem line_traces (h2 : (2 : K) ≠ 0) {a b : List K} {n : Nat} (ha : a.length = n) (hb : b.length = n) :
    Traces n (lineOf a b) (seg a b) := by
  refine ⟨_, _, _, rfl, fun t j hj => ?_⟩
  have : (List.zipWith (fun x y => (x + y) / 2) a b).getD j 0 = (a.getD j 0 + b.getD j 0) / 2 := by
    rw [List.getD_eq_getElem _ _ (by simp [ha, hb, hj]), List.getD_eq_getElem _ _ (by omega),
      List.getD_eq_getElem _ _ (by omega), List.getElem_zipWith]
  rw [this, bez, seg]
  field_simp
  ring

theorem list3 {a : List K} (h : a.length = 3) : ∃ x y z, a = [x, y, z] := by
  match a, h with
  | [x, y, z], _ => exact ⟨x, y, z, rfl⟩

/-- The bilinear interpolation of four points. -/
def bil (a b c d : List K) (u v : K) (j : Nat) : K :=
  (1 - u) * (1 - v) * a.getD j 0 + u * (1 - v) * b.getD j 0 + u * v * c.getD j 0 + (1 - u) * v * d.getD j 0

theorem bilinear_spans (h2 : (2 : K) ≠ 0) {a b c d : List K} (ha : a.length = 3) (hb : b.length = 3) (hc : c.length = 3)
    (hd : d.length = 3) : Spans (bilinear a b c d) (bil a b c d) := by
  obtain ⟨a0, a1, a2, rfl⟩ := list3 ha
  obtain ⟨b0, b1, b2, rfl⟩ := list3 hb
  obtain ⟨c0, c1, c2, rfl⟩ := list3 hc
  obtain ⟨d0, d1, d2, rfl⟩ := list3 hd
  refine ⟨_, _, _, _, _, _, _, _, _, rfl, fun u v j hj => ?_⟩
  have h4 : (4 : K) ≠ 0 := by
    rw [show (4 : K) = 2 * 2 by norm_num]; exact mul_ne_zero h2 h2
  have key : ∀ a b c d : K, bez u (bez v a ((a + d) / 2) d) (bez v ((a + b) / 2) ((a + b + c + d) / 4) ((c + d) / 2))
      (bez v b ((b + c) / 2) c) = (1 - u) * (1 - v) * a + u * (1 - v) * b + u * v * c + (1 - u) * v * d := by
    intro a b c d
    have e4 : (a + b + c + d) / 4 = ((a + b) / 2 + (c + d) / 2) / 2 := by field_simp; ring
    rw [e4]
    simp only [bez]
    field_simp
    ring
  interval_cases j
  · have := key a0 b0 c0 d0
    simpa [meanOf, bil] using this
  · have := key a1 b1 c1 d1
    simpa [meanOf, bil] using this
  · have := key a2 b2 c2 d2
    simpa [meanOf, bil] using this

/-! ### The edges of a face on its surface -/

/-- The edges of the face have 2D curves on its surface that run along the segments between their vertices. -/
def HasSurf (g : Graph K) (s : St K) (x : Nat) : Prop :=
  ∃ f, f < s.nS ∧ s.repr x = [.sf f 0] ∧ ∀ w ∈ g.childs x, ∀ e ∈ g.childs w.shape, ∃ r r' c, g.childs e.shape = [r, r'] ∧
    c < s.n2 ∧ .c2 0 1 c f 0 ∈ s.repr e.shape ∧ OnSeg (s.sf f) (s.c2 c) (g.point r.shape) (g.point r'.shape)

/-- The face is bounded by three or four edges that lead around different vertices with three coordinates. -/
def Good (g : Graph K) (x : Nat) : Prop :=
  ∃ vs, Around g x vs ∧ vs.Nodup ∧ (vs.length = 3 ∨ vs.length = 4) ∧ ∀ v ∈ vs, (g.point v).length = 3

/-- The edge has a 3D curve that is the segment between its vertices. -/
def HasLine (g : Graph K) (s : St K) (x : Nat) : Prop :=
  ∃ r r' c, g.childs x = [r, r'] ∧ c < s.n3 ∧ .c3 0 1 c 0 ∈ s.repr x ∧
    ∀ n, (g.point r.shape).length = n → (g.point r'.shape).length = n →
      Traces n (s.c3 c) (seg (g.point r.shape) (g.point r'.shape))

theorem attachAll_spec {g : Graph K} {surf : Nat} {uv : List (Nat × List K)} (es : List Nat) : ∀ {s s' : St K},
    attachAll g surf uv es s = .ok s' → ∀ e ∈ es, ∃ r r' l a b c, g.childs e = r :: r' :: l ∧
      lastOf uv (idOf s r.shape) = some a ∧ lastOf uv (idOf s r'.shape) = some b ∧ c < s'.n2 ∧
      .c2 0 1 c surf 0 ∈ s'.repr e ∧ s'.c2 c = lineOf a b := by
  induction es with
  | nil => intro s s' _ e he; cases he
  | cons e es ih =>
    intro s s' h x hx
    simp only [attachAll] at h
    split at h
    · rename_i v0 v1 l hv
      split at h
      · rename_i a b ha hb
        rcases List.mem_cons.1 hx with rfl | hx
        · have hk := keep_attachAll _ h
          obtain ⟨r, l1, hc, rfl, hl1⟩ := List.map_eq_cons_iff.1 hv
          obtain ⟨r', l2, rfl, rfl, -⟩ := List.map_eq_cons_iff.1 hl1
          refine ⟨r, r', l2, a, b, s.n2, hc, ha, hb, ?_, ?_, ?_⟩
          · exact lt_of_lt_of_le (Nat.lt_succ_self _) hk.n2
          · exact (hk.repr x).subset (by simp [attach])
          · rw [hk.c2 s.n2 (Nat.lt_succ_self _)]; simp [attach]
        · exact ih h x hx
      · cases h
    · cases h

theorem putDict_keeps {d : List (Nat × Nat)} {k a : Nat} {p : Nat × Nat} (h : p ∈ d) (hp : p.1 = k → p.2 = a) :
    p ∈ putDict d k a := by
  unfold putDict
  split
  · refine List.mem_map.2 ⟨p, h, ?_⟩
    split
    · rename_i hk; rw [← hk, ← hp hk]
    · rfl
  · exact List.mem_append_left _ h

theorem putDict_new (d : List (Nat × Nat)) (k a : Nat) : (k, a) ∈ putDict d k a := by
  unfold putDict
  split
  · rename_i h
    rw [List.any_eq_true] at h
    obtain ⟨p, hp, hk⟩ := h
    exact List.mem_map.2 ⟨p, hp, by rw [if_pos (by simpa using hk)]⟩
  · simp

theorem edges_listed {s : St K} (l : List Ref)
    (hinj : ∀ e ∈ l, ∀ e' ∈ l, idOf s e.shape = idOf s e'.shape → e.shape = e'.shape) :
    ∀ e ∈ l, (idOf s e.shape, e.shape) ∈ l.foldl (fun d e => putDict d (idOf s e.shape) e.shape) [] := by
  have stay : ∀ e ∈ l, ∀ m : List Ref, (∀ x ∈ m, x ∈ l) → ∀ d' : List (Nat × Nat), (idOf s e.shape, e.shape) ∈ d' →
      (idOf s e.shape, e.shape) ∈ m.foldl (fun d e => putDict d (idOf s e.shape) e.shape) d' := by
    intro e he m
    induction m with
    | nil => intro _ d' h; exact h
    | cons x m ih =>
      intro hm d' h
      rw [List.foldl_cons]
      exact ih (fun y hy => hm y (by simp [hy])) _ (putDict_keeps h fun hk => hinj e he x (hm x (by simp)) hk)
  have gen : ∀ m : List Ref, (∀ x ∈ m, x ∈ l) → ∀ d : List (Nat × Nat), ∀ e ∈ m,
      (idOf s e.shape, e.shape) ∈ m.foldl (fun d e => putDict d (idOf s e.shape) e.shape) d := by
    intro m
    induction m with
    | nil => intro _ d e he; cases he
    | cons x m ih =>
      intro hm d e he
      rw [List.foldl_cons]
      rcases List.mem_cons.1 he with rfl | he
      · exact stay e (hm e (by simp)) m (fun y hy => hm y (by simp [hy])) _ (putDict_new _ _ _)
      · exact ih (fun y hy => hm y (by simp [hy])) _ e he
  exact gen l (fun x hx => hx) []

theorem tab_inj {t : Tab} (ht : t.Ok) (hz : ∀ x, t.ids x ≠ some 0) {x y : Nat} (hx : (t.ids x).isSome) (hy : (t.ids y).isSome)
    (h : (t.ids x).getD 0 = (t.ids y).getD 0) : x = y := by
  obtain ⟨a, ha⟩ := Option.isSome_iff_exists.1 hx
  obtain ⟨b, hb⟩ := Option.isSome_iff_exists.1 hy
  rw [ha, hb] at h
  simp only [Option.getD_some] at h
  subst h
  cases a with
  | zero => exact absurd ha (hz x)
  | succ a =>
    have h1 := (ht x a).1 ha
    have h2 := (ht y a).1 hb
    rw [h1] at h2
    exact Option.some.inj h2

theorem around_mem {g : Graph K} {x : Nat} {vs : List Nat} (h : Around g x vs) {e : Ref} (he : e ∈ faceEdges g x) :
    ∃ p ∈ vs.zip (vs.rotate 1), Leads g e p.1 p.2 := by
  unfold Around at h
  unfold faceEdges at he
  generalize (g.childs x).flatMap (fun w => g.childs w.shape) = l at h he
  generalize vs.zip (vs.rotate 1) = m at h ⊢
  induction h with
  | nil => cases he
  | cons h _ ih =>
    rcases List.mem_cons.1 he with rfl | he
    · exact ⟨_, by simp, h⟩
    · obtain ⟨p, hp, hl⟩ := ih he
      exact ⟨p, by simp [hp], hl⟩

theorem lastOf_eq {α : Type} {d : List (Nat × α)} (hd : (d.map Prod.fst).Nodup) {k : Nat} {a : α} (h : (k, a) ∈ d) :
    lastOf d k = some a := by
  induction d with
  | nil => cases h
  | cons p d ih =>
    rw [List.map_cons, List.nodup_cons] at hd
    unfold lastOf at ih ⊢
    rw [List.reverse_cons, List.find?_append]
    rcases List.mem_cons.1 h with rfl | h
    · have : (d.reverse.find? fun q => q.1 == (k, a).1) = none := by
        rw [List.find?_eq_none]
        intro q hq hk
        refine hd.1 (List.mem_map.2 ⟨q, by simpa using hq, by simpa using hk⟩)
      rw [this]
      simp
    · have := ih hd.2 h
      rcases hf : d.reverse.find? fun q => q.1 == k with _ | q
      · rw [hf] at this; cases this
      · rw [hf] at this; simpa [hf] using this

/-- Two corners with their parameters: the edge between them lies on the surface. -/
theorem seg_on_bilinear (h2 : (2 : K) ≠ 0) {a b c d p q : List K} (ha : a.length = 3) (hb : b.length = 3) (hc : c.length = 3)
    (hd : d.length = 3) {x y z w : K}
    (h : ∀ t, ∀ j < 3, bil a b c d ((1 - t) * x + t * z) ((1 - t) * y + t * w) j = seg p q t j) :
    OnSeg (bilinear a b c d) (lineOf [x, y] [z, w]) p q :=
  ⟨_, _, bilinear_spans h2 ha hb hc hd, line_traces h2 (n := 2) rfl rfl, fun t j hj => by
    rw [← h t j hj]
    simp [seg]⟩

theorem surface_geo (h2 : (2 : K) ≠ 0) {g : Graph K} {i : Nat} {s s' : St K} (hinv : StInv g s) (hnum : num s i)
    (hni : i ∉ (faceEdges g i).map Ref.shape) (hg : Good g i) (h : implicitSurface g i s = .ok s') : HasSurf g s' i := by
  have hrep := surface_repr hni h
  obtain ⟨vs, har, hnd, hlen, hpt⟩ := hg
  have hv := around_vtxs har
  -- all shapes below are numbered
  have kid : ∀ x, num s x → ∀ r ∈ g.childs x, num s r.shape := by
    intro x hx r hr
    obtain ⟨k, hk⟩ := Option.isSome_iff_exists.1 hx
    obtain ⟨⟨j, -, hj⟩, -⟩ := hinv.kids x k hk r hr
    simp [num, hj]
  have hen : ∀ e ∈ faceEdges g i, num s e.shape := by
    intro e he
    obtain ⟨w, hw, he⟩ := List.mem_flatMap.1 he
    exact kid _ (kid _ hnum w hw) e he
  have inj : ∀ x y, num s x → num s y → idOf s x = idOf s y → x = y := fun x y hx hy h =>
    tab_inj hinv.okT hinv.nzT hx hy h
  have hlist := (edges_listed (s := s) (faceEdges g i) (fun e he e' he' h => inj _ _ (hen e he) (hen e' he') h))
  -- vertices are numbered
  have hvn : ∀ v ∈ vs, num s v := by
    intro v hvm
    have : v ∈ faceVtxs g i := by
      rw [hv]
      obtain ⟨p, hp, rfl⟩ : ∃ p ∈ vs.zip (vs.rotate 1), p.1 = v := by
        have : (vs.zip (vs.rotate 1)).map Prod.fst = vs := by
          rw [List.map_fst_zip]; simp
        rw [← this] at hvm
        obtain ⟨p, hp, rfl⟩ := List.mem_map.1 hvm
        exact ⟨p, hp, rfl⟩
      exact List.mem_flatMap.2 ⟨p, hp, by simp⟩
    obtain ⟨e, he, hve⟩ := List.mem_flatMap.1 this
    have : v ∈ (g.childs e.shape).map Ref.shape := by
      split at hve
      · simpa using hve
      · exact hve
    obtain ⟨r, hr, rfl⟩ := List.mem_map.1 this
    exact kid _ (hen e he) r hr
  -- from the edges to the goal
  have fin : ∀ (uv : List (Nat × List K)) (S : Surf K) (s1 : St K),
      attachAll g s.nS uv (((faceEdges g i).foldl (fun d e => putDict d (idOf s e.shape) e.shape) []).map Prod.snd) s1 = .ok s' →
      s1.tT = s.tT → s1.nS = s.nS + 1 → s1.sf s.nS = S →
      (∀ p ∈ vs.zip (vs.rotate 1), ∃ a b, lastOf uv (idOf s p.1) = some a ∧ lastOf uv (idOf s p.2) = some b ∧
        OnSeg S (lineOf a b) (g.point p.1) (g.point p.2) ∧ OnSeg S (lineOf b a) (g.point p.2) (g.point p.1)) →
      HasSurf g s' i := by
    intro uv S s1 hat ht hnS hS hp
    have hk := keep_attachAll _ hat
    refine ⟨s.nS, ?_, hrep, fun w hw e he => ?_⟩
    · have := hk.nS; omega
    have hef : e ∈ faceEdges g i := List.mem_flatMap.2 ⟨w, hw, he⟩
    have hmem : e.shape ∈ ((faceEdges g i).foldl (fun d e => putDict d (idOf s e.shape) e.shape) []).map Prod.snd :=
      List.mem_map.2 ⟨_, hlist e hef, rfl⟩
    obtain ⟨r0, r0', l, a, b, c, hc0, ha, hb, hcn, hcr, hcl⟩ := attachAll_spec _ hat e.shape hmem
    obtain ⟨p, hpm, r, r', hc, hld⟩ := around_mem har hef
    rw [hc] at hc0
    simp only [List.cons.injEq] at hc0
    obtain ⟨rfl, rfl, -⟩ := hc0
    have hid : ∀ v, idOf s1 v = idOf s v := by intro v; simp [idOf, ht]
    rw [hid] at ha hb
    obtain ⟨a', b', ha', hb', ho, ho'⟩ := hp p hpm
    have hsf : s'.sf s.nS = S := by rw [hk.sf s.nS (by omega), hS]
    refine ⟨r, r', c, hc, hcn, hcr, ?_⟩
    rw [hsf, hcl]
    rcases hld with ⟨-, h1, h2⟩ | ⟨-, h1, h2⟩
    · rw [h1, ha'] at ha
      rw [h2, hb'] at hb
      cases ha; cases hb
      rw [h1, h2]; exact ho
    · rw [h1, hb'] at ha
      rw [h2, ha'] at hb
      cases ha; cases hb
      rw [h1, h2]; exact ho'
  rcases hlen with hlen | hlen
  · obtain ⟨a, b, c, rfl⟩ : ∃ a b c, vs = [a, b, c] := by
      match vs, hlen with
      | [a, b, c], _ => exact ⟨a, b, c, rfl⟩
    simp only [List.rotate_cons_succ, List.rotate_zero, List.cons_append, List.nil_append, List.zip_cons_cons,
      List.zip_nil_left, List.flatMap_cons, List.flatMap_nil] at hv
    simp only [implicitSurface, hv, List.map_cons, List.map_nil, List.drop_succ_cons, List.drop_zero, List.take_succ_cons,
      List.take_zero, List.cons_append, List.nil_append, odds, evens, ne_eq, not_true_eq_false, if_false] at h
    simp only [List.mem_cons, List.not_mem_nil, or_false, forall_eq_or_imp, forall_eq] at hpt hvn
    simp only [List.nodup_cons, List.mem_cons, List.not_mem_nil, or_false, not_or, not_false_eq_true, List.nodup_nil,
      and_true] at hnd
    have hids : ([(idOf s b, ([0, 0] : List K)), (idOf s c, [1, 0]), (idOf s a, [0, 1])].map Prod.fst).Nodup := by
      simp only [List.map_cons, List.map_nil, List.nodup_cons, List.mem_cons, List.not_mem_nil, or_false, not_or,
        not_false_eq_true, List.nodup_nil, and_true]
      exact ⟨⟨fun h => hnd.2 (inj _ _ hvn.2.1 hvn.2.2 h), fun h => hnd.1.1 (inj _ _ hvn.2.1 hvn.1 h).symm⟩,
        fun h => hnd.1.2 (inj _ _ hvn.2.2 hvn.1 h).symm⟩
    have la := lastOf_eq hids (k := idOf s a) (a := [0, 1]) (by simp)
    have lb := lastOf_eq hids (k := idOf s b) (a := [0, 0]) (by simp)
    have lc := lastOf_eq hids (k := idOf s c) (a := [1, 0]) (by simp)
    refine fin _ (plane (g.point b) (g.point c) (g.point a)) _ h rfl rfl (by simp) ?_
    have l4 : (List.zipWith (· - ·) (List.zipWith (· + ·) (g.point c) (g.point a)) (g.point b)).length = 3 := by
      simp [hpt.1, hpt.2.1, hpt.2.2]
    have e4 : ∀ j < 3, (List.zipWith (· - ·) (List.zipWith (· + ·) (g.point c) (g.point a)) (g.point b)).getD j 0 =
        (g.point c).getD j 0 + (g.point a).getD j 0 - (g.point b).getD j 0 := by
      intro j hj
      have := hpt.1
      have := hpt.2.1
      have := hpt.2.2
      rw [List.getD_eq_getElem _ _ (by omega), List.getD_eq_getElem _ _ (by omega), List.getD_eq_getElem _ _ (by omega),
        List.getD_eq_getElem _ _ (by omega)]
      simp
    simp only [List.rotate_cons_succ, List.rotate_zero, List.cons_append, List.nil_append, List.zip_cons_cons,
      List.zip_nil_left, List.mem_cons, List.not_mem_nil, or_false, forall_eq_or_imp, forall_eq]
    refine ⟨⟨_, _, la, lb, ?_, ?_⟩, ⟨_, _, lb, lc, ?_, ?_⟩, ⟨_, _, lc, la, ?_, ?_⟩⟩ <;>
    · refine seg_on_bilinear h2 hpt.2.1 hpt.2.2 l4 hpt.1 fun t j hj => ?_
      rw [bil, e4 j hj, seg]
      ring
  · obtain ⟨a, b, c, d, rfl⟩ : ∃ a b c d, vs = [a, b, c, d] := by
      match vs, hlen with
      | [a, b, c, d], _ => exact ⟨a, b, c, d, rfl⟩
    simp only [List.rotate_cons_succ, List.rotate_zero, List.cons_append, List.nil_append, List.zip_cons_cons,
      List.zip_nil_left, List.flatMap_cons, List.flatMap_nil] at hv
    simp only [implicitSurface, hv, List.map_cons, List.map_nil, List.drop_succ_cons, List.drop_zero, List.take_succ_cons,
      List.take_zero, List.cons_append, List.nil_append, odds, evens, ne_eq, not_true_eq_false, if_false] at h
    simp only [List.mem_cons, List.not_mem_nil, or_false, forall_eq_or_imp, forall_eq] at hpt hvn
    simp only [List.nodup_cons, List.mem_cons, List.not_mem_nil, or_false, not_or, not_false_eq_true, List.nodup_nil,
      and_true] at hnd
    have hids : ([(idOf s b, ([0, 0] : List K)), (idOf s c, [1, 0]), (idOf s d, [1, 1]), (idOf s a, [0, 1])].map
        Prod.fst).Nodup := by
      simp only [List.map_cons, List.map_nil, List.nodup_cons, List.mem_cons, List.not_mem_nil, or_false, not_or,
        not_false_eq_true, List.nodup_nil, and_true]
      exact ⟨⟨fun h => hnd.2.1.1 (inj _ _ hvn.2.1 hvn.2.2.1 h), fun h => hnd.2.1.2 (inj _ _ hvn.2.1 hvn.2.2.2 h),
        fun h => hnd.1.1 (inj _ _ hvn.2.1 hvn.1 h).symm⟩,
        ⟨fun h => hnd.2.2 (inj _ _ hvn.2.2.1 hvn.2.2.2 h), fun h => hnd.1.2.1 (inj _ _ hvn.2.2.1 hvn.1 h).symm⟩,
        fun h => hnd.1.2.2 (inj _ _ hvn.2.2.2 hvn.1 h).symm⟩
    have la := lastOf_eq hids (k := idOf s a) (a := [0, 1]) (by simp)
    have lb := lastOf_eq hids (k := idOf s b) (a := [0, 0]) (by simp)
    have lc := lastOf_eq hids (k := idOf s c) (a := [1, 0]) (by simp)
    have ld := lastOf_eq hids (k := idOf s d) (a := [1, 1]) (by simp)
    refine fin _ (bilinear (g.point b) (g.point c) (g.point d) (g.point a)) _ h rfl rfl (by simp) ?_
    simp only [List.rotate_cons_succ, List.rotate_zero, List.cons_append, List.nil_append, List.zip_cons_cons,
      List.zip_nil_left, List.mem_cons, List.not_mem_nil, or_false, forall_eq_or_imp, forall_eq]
    refine ⟨⟨_, _, la, lb, ?_, ?_⟩, ⟨_, _, lb, lc, ?_, ?_⟩, ⟨_, _, lc, ld, ?_, ?_⟩, ⟨_, _, ld, la, ?_, ?_⟩⟩ <;>
    · refine seg_on_bilinear h2 hpt.2.1 hpt.2.2.1 hpt.2.2.2 hpt.1 fun t j hj => ?_
      rw [bil, seg]
      ring

/-! ### The search adds this geometry -/

/-- What a part of the search does to the geometry. -/
structure Geo (g : Graph K) (s s' : St K) : Prop where
  keep : Keep s s'
  mono : ∀ x, num s x → num s' x
  edge : ∀ x, g.kind x = .edge → s.repr x = [] → num s' x → ¬ num s x → HasLine g s' x
  late : ∀ x, g.kind x = .edge → ¬ num s' x → s'.repr x = s.repr x
  face : ∀ x, g.kind x = .face → Good g x → s'.repr x ≠ s.repr x → s.repr x = [] ∧ HasSurf g s' x

theorem HasLine.keep {g : Graph K} {s s' : St K} {x : Nat} (h : HasLine g s x) (hk : Keep s s') : HasLine g s' x := by
  obtain ⟨r, r', c, h1, h2, h3, h4⟩ := h
  refine ⟨r, r', c, h1, lt_of_lt_of_le h2 hk.n3, (hk.repr x).subset h3, ?_⟩
  rw [hk.c3 c h2]; exact h4

theorem HasSurf.keep {g : Graph K} {s s' : St K} {x : Nat} (h : HasSurf g s x) (hk : Keep s s') (hr : s'.repr x = s.repr x) :
    HasSurf g s' x := by
  obtain ⟨f, h1, h2, h3⟩ := h
  refine ⟨f, lt_of_lt_of_le h1 hk.nS, hr.trans h2, fun w hw e he => ?_⟩
  obtain ⟨r, r', c, h4, h5, h6, h7⟩ := h3 w hw e he
  refine ⟨r, r', c, h4, lt_of_lt_of_le h5 hk.n2, (hk.repr _).subset h6, ?_⟩
  rw [hk.sf f h1, hk.c2 c h5]; exact h7

theorem Geo.refl (g : Graph K) (s : St K) : Geo g s s :=
  ⟨.refl s, fun _ h => h, fun _ _ _ h h' => absurd h h', fun _ _ _ => rfl, fun _ _ _ h => absurd rfl h⟩

theorem Geo.trans {g : Graph K} {a b c : St K} (h : Geo g a b) (h' : Geo g b c) : Geo g a c where
  keep := h.keep.trans h'.keep
  mono x hx := h'.mono x (h.mono x hx)
  edge x hk he hc ha := by
    by_cases hb : num b x
    · exact (h.edge x hk he hb ha).keep h'.keep
    · exact h'.edge x hk ((h.late x hk hb).trans he) hc hb
  late x hk hc := (h'.late x hk hc).trans (h.late x hk fun hb => hc (h'.mono x hb))
  face x hk hg hne := by
    by_cases hb : b.repr x = a.repr x
    · have := h'.face x hk hg (by rw [hb]; exact hne)
      exact ⟨hb ▸ this.1, this.2⟩
    · obtain ⟨h1, h2⟩ := h.face x hk hg hb
      refine ⟨h1, ?_⟩
      by_cases hc : c.repr x = b.repr x
      · exact h2.keep h'.keep hc
      · obtain ⟨f, -, h3, -⟩ := h2
        rw [(h'.face x hk hg hc).1] at h3
        cases h3

/-- Steps that leave the representations and the geometry alone. -/
theorem Geo.of_eq {g : Graph K} {s s' : St K} (hk : Keep s s') (hr : s'.repr = s.repr) (ht : s'.tT = s.tT) : Geo g s s' :=
  ⟨hk, fun x h => by simpa [num, ht] using h, fun x _ _ h h' => absurd (by simpa [num, ht] using h) h',
    fun x _ _ => by rw [hr], fun x _ _ h => absurd (by rw [hr]) h⟩

theorem geo_vis {g : Graph K} (hl : LocsOk g.locs) (s : St K) (l : Nat) : Geo g s (visitLoc g s l) :=
  .of_eq ⟨le_rfl, le_rfl, le_rfl, fun _ _ => rfl, fun _ _ => rfl, fun _ _ => rfl, fun _ => List.prefix_refl _⟩ rfl rfl

theorem keep_reprs {g : Graph K} (rs : List (Repr K)) : ∀ s : St K, Keep s (rs.foldl (reprDfs g) s) := by
  induction rs with
  | nil => intro s; exact .refl s
  | cons r rs ih =>
    intro s
    refine Keep.trans ?_ (ih _)
    cases r <;> exact ⟨le_rfl, le_rfl, le_rfl, fun _ _ => rfl, fun _ _ => rfl, fun _ _ => rfl, fun _ => List.prefix_refl _⟩

theorem geo_reprs {g : Graph K} (hl : LocsOk g.locs) (rs : List (Repr K)) (s : St K) : Geo g s (rs.foldl (reprDfs g) s) :=
  .of_eq (keep_reprs rs s) (vis_reprs hl rs s).1.repr (vis_reprs hl rs s).1.tT

theorem geo_loop {g : Graph K} {α : Type} {f : α → St K → Except Err (St K)} (l : List α)
    (hf : ∀ a ∈ l, ∀ s s', StInv g s → f a s = .ok s' → StInv g s' ∧ Geo g s s') :
    ∀ s s', StInv g s → loop f l s = .ok s' → StInv g s' ∧ Geo g s s' := by
  induction l with
  | nil => intro s s' hi h; cases h; exact ⟨hi, .refl g s⟩
  | cons a l ih =>
    intro s s' hi h
    simp only [loop] at h
    split at h
    · rename_i s1 h1
      obtain ⟨i1, g1⟩ := hf a (by simp) _ _ hi h1
      obtain ⟨i2, g2⟩ := ih (fun b hb => hf b (by simp [hb])) _ _ i1 h
      exact ⟨i2, g1.trans g2⟩
    · cases h

theorem curve_line (h2 : (2 : K) ≠ 0) {g : Graph K} {i : Nat} {s s' : St K} (h : implicitCurve g i s = .ok s') :
    HasLine g s' i := by
  unfold implicitCurve at h
  split at h
  · rename_i a b hab
    cases h
    obtain ⟨r, l1, hc, rfl, hl1⟩ := List.map_eq_cons_iff.1 hab
    obtain ⟨r', l2, rfl, rfl, hl2⟩ := List.map_eq_cons_iff.1 hl1
    rw [List.map_eq_nil_iff] at hl2
    subst hl2
    refine ⟨r, r', s.n3, hc, Nat.lt_succ_self _, by simp, fun n hn hn' => ?_⟩
    simp only [Function.update_self]
    exact line_traces h2 hn hn'
  · cases h

theorem dfs_geo (h2 : (2 : K) ≠ 0) {g : Graph K} (hl : LocsOk g.locs) (hk : KindsOk g) (f : Nat) : ∀ i (s s' : St K),
    StInv g s → dfs g f i s = .ok s' → StInv g s' ∧ Geo g s s' := by
  have hE : ∀ (s : St K), ∀ x, num s x → x ∉ (Set.univ : Set Nat) → Done g s x := fun s x _ h => absurd trivial h
  induction f with
  | zero => intro i s s' _ h; cases h
  | succ f ih =>
    intro i s s' hi h
    refine ⟨(dfs_spec hl hk (f + 1) i s s' Set.univ hi (hE s) h).1, ?_⟩
    have hsp := dfs_spec (g := g) hl hk f
    simp only [dfs] at h
    split at h
    · cases h
    · rename_i s1 h1
      obtain ⟨i1, -, n1, -, -⟩ := base_spec hl hk hsp (E := Set.univ) hi (hE s) h1
      -- the first part, up to the number of the shape itself
      have hb : (num s i ∧ s1 = s) ∨ (¬ num s i ∧ ∃ s2, Geo g s s2 ∧ ¬ num s2 i ∧ s1 = { s2 with tT := s2.tT.push i }) := by
        unfold shapeBase at h1
        split at h1
        · rename_i hn; cases h1; exact Or.inl ⟨hn, rfl⟩
        · rename_i hn
          split at h1
          · cases h1
          · rename_i s2 hl2
            cases h1
            refine Or.inr ⟨hn, s2, ?_, ?_, rfl⟩
            · refine (geo_loop _ (fun r _ a b ia hab => ?_) _ _ hi hl2).2
              have v := vis_loc hl a r.loc
              obtain ⟨ib, gb⟩ := ih _ _ _ (v.1.inv ia) hab
              exact ⟨ib, (geo_vis hl a r.loc).trans gb⟩
            · intro hc
              obtain ⟨-, -, -, a4, -⟩ := loop_kids hl hsp (E := Set.univ) _ s s2 hi (hE s) hl2
              rcases a4 i hc with x | ⟨r, hr', x⟩
              · exact hn x
              · have := reach_rank hk x
                have := hk.rank hr'
                omega
      -- pushing a shape that is not an edge
      have hpush : ∀ s2 : St K, g.kind i ≠ .edge → Geo g s2 { s2 with tT := s2.tT.push i } := by
        intro s2 hne
        refine ⟨⟨le_rfl, le_rfl, le_rfl, fun _ _ => rfl, fun _ _ => rfl, fun _ _ => rfl, fun _ => List.prefix_refl _⟩,
          fun x hx => ?_, fun x hkx _ hx hx' => ?_, fun _ _ _ => rfl, fun _ _ _ h => absurd rfl h⟩
        · simp only [num, Tab.push_ids]
          split
          · rfl
          · exact hx
        · simp only [num, Tab.push_ids] at hx
          split at hx
          · rename_i hxi; subst hxi; exact absurd hkx hne
          · exact absurd hx hx'
      have hbase : g.kind i ≠ .edge → Geo g s s1 := by
        intro hne
        rcases hb with ⟨-, rfl⟩ | ⟨-, s2, g2, -, rfl⟩
        · exact .refl g _
        · exact g2.trans (hpush s2 hne)
      unfold shapePost at h
      split at h
      · rename_i hki
        unfold edgePost at h
        split at h
        · cases h
        · rename_i s3 h3
          cases h
          refine Geo.trans ?_ (geo_reprs hl _ s3)
          have hcurve : ∀ {a b : St K}, a.repr i = [] → implicitCurve g i a = .ok b →
              Keep a b ∧ b.tT = a.tT ∧ HasLine g b i ∧ ∀ x, x ≠ i → b.repr x = a.repr x := by
            intro a b he hab
            have at' := att_curve hab
            exact ⟨keep_curve hab, at'.1.tT, curve_line h2 hab, fun x hx => at'.1.repr x (by simpa using hx)⟩
          rcases hb with ⟨hn, rfl⟩ | ⟨hn, s2, g2, hn2, rfl⟩
          · split at h3
            · rename_i he
              obtain ⟨k1, k2, k3, k4⟩ := hcurve he h3
              refine ⟨k1, fun x hx => by simpa [num, k2] using hx, fun x _ _ hx hx' => absurd (by simpa [num, k2] using hx) hx',
                fun x hkx hx => k4 x ?_, fun x hkx _ hne => absurd (k4 x ?_) hne⟩
              · rintro rfl; exact hx (by simpa [num, k2] using hn)
              · rintro rfl; rw [hki] at hkx; cases hkx
            · cases h3; exact .refl g _
          · refine g2.trans ?_
            have key : ∀ s3 : St K, Keep s2 s3 → s3.tT = s2.tT.push i → (s2.repr i = [] → HasLine g s3 i) →
                (∀ x, x ≠ i → s3.repr x = s2.repr x) → Geo g s2 s3 := by
              intro s3 k1 k2 k3 k4
              refine ⟨k1, fun x hx => ?_, fun x hkx he hx hx' => ?_, fun x hkx hx => k4 x ?_,
                fun x hkx _ hne => absurd (k4 x ?_) hne⟩
              · simp only [num, k2, Tab.push_ids]
                split
                · rfl
                · exact hx
              · by_cases hxi : x = i
                · subst hxi; exact k3 he
                · simp only [num, k2, Tab.push_ids, if_neg hxi] at hx
                  exact absurd hx hx'
              · rintro rfl
                apply hx
                simp [num, k2, Tab.push_ids]
              · rintro rfl; rw [hki] at hkx; cases hkx
            split at h3
            · rename_i he
              obtain ⟨k1, k2, k3, k4⟩ := hcurve he h3
              refine key s3 ⟨k1.n2, k1.n3, k1.nS, k1.c2, k1.c3, k1.sf, k1.repr⟩ k2 (fun _ => k3) k4
            · rename_i he
              cases h3
              exact key _ ⟨le_rfl, le_rfl, le_rfl, fun _ _ => rfl, fun _ _ => rfl, fun _ _ => rfl,
                fun _ => List.prefix_refl _⟩ rfl (fun h => absurd h he) fun _ _ => rfl
      · rename_i hki
        refine (hbase (by rw [hki]; simp)).trans ?_
        split at h
        · cases h
        · rename_i s2 h2'
          unfold facePost at h2'
          split at h2'
          · cases h2'
          · rename_i s3 h3
            split at h2'
            · rename_i fc lc hf
              cases h2'
              have hni : i ∉ (faceEdges g i).map Ref.shape := by
                intro hc
                obtain ⟨e, he, hei⟩ := List.mem_map.1 hc
                exact faceEdges_kind hk hki he (hei ▸ hki)
              have hS : StInv g s3 ∧ Geo g s1 s3 := by
                split at h3
                · rename_i he
                  have ha := att_surface h3
                  refine ⟨ha.inv i1, keep_surface he h3, fun x hx => by simpa [num, ha.tT] using hx,
                    fun x _ _ hx hx' => absurd (by simpa [num, ha.tT] using hx) hx', fun x hkx hx => ?_,
                    fun x hkx hg hne => ?_⟩
                  · refine ha.repr x ?_
                    simp only [List.mem_cons, not_or]
                    refine ⟨?_, fun hm => hx ?_⟩
                    · rintro rfl; rw [hki] at hkx; cases hkx
                    · obtain ⟨e, hef, rfl⟩ := List.mem_map.1 hm
                      have kid : ∀ x, num s1 x → ∀ r ∈ g.childs x, num s1 r.shape := by
                        intro x hx r hr
                        obtain ⟨k, hk⟩ := Option.isSome_iff_exists.1 hx
                        obtain ⟨⟨j, -, hj⟩, -⟩ := i1.kids x k hk r hr
                        simp [num, hj]
                      obtain ⟨w, hw, hew⟩ := List.mem_flatMap.1 hef
                      have := kid _ (kid _ n1 w hw) e hew
                      simpa [num, ha.tT] using this
                  · by_cases hxi : x = i
                    · subst hxi
                      exact ⟨he, surface_geo h2 i1 n1 hni hg h3⟩
                    · refine absurd (ha.repr x ?_) hne
                      simp only [List.mem_cons, not_or]
                      refine ⟨hxi, fun hm => ?_⟩
                      obtain ⟨e, hef, rfl⟩ := List.mem_map.1 hm
                      exact faceEdges_kind hk hki hef hkx
                · cases h3; exact ⟨i1, .refl g _⟩
              have v1 := vis_sf (g := g) s3 fc
              have v2 := vis_loc hl { s3 with tS := s3.tS.visit fc } lc
              have gv : Geo g s3 (visitLoc g { s3 with tS := s3.tS.visit fc } lc) :=
                .of_eq ⟨le_rfl, le_rfl, le_rfl, fun _ _ => rfl, fun _ _ => rfl, fun _ _ => rfl, fun _ => List.prefix_refl _⟩
                  rfl rfl
              refine hS.2.trans (gv.trans ?_)
              exact (geo_loop _ (fun r _ a b ia hab => ih _ _ _ ia hab) _ _ (v2.1.inv (v1.inv hS.1)) h).2
            · cases h2'
      · rename_i hki
        cases h
        exact (hbase (by rw [hki]; simp)).trans (geo_reprs hl _ s1)
      · rename_i hn1 _ _
        cases h
        exact hbase fun hc => hn1 hc

/-- `write_model` adds straight edges and matching surfaces. For every model not written before:
* an edge without representations gets a 3D curve that is the segment between its two vertices;
* a face without a surface that is bounded by three or four edges around different vertices gets a surface, and each of its
  edges gets a 2D curve over [0, 1] on that surface along which the surface runs straight from the first to the second vertex of
  the edge.
The records of the file name these curves and surfaces by `file_consistent`. -/
theorem implicit_geometry (h2 : (2 : K) ≠ 0) {g : Graph K} (hl : LocsOk g.locs) (hk : KindsOk g) {root loc : Nat} {s s' : St K}
    {file : File K} (hf : Fresh s) (h : writeModel g root loc s = .ok (file, s')) :
    (∀ x, Reach g root x → g.kind x = .edge → s.repr x = [] → HasLine g s' x) ∧
    ∀ x, Reach g root x → g.kind x = .face → s.repr x = [] → Good g x → HasSurf g s' x := by
  obtain ⟨s1, h1, h⟩ := bind_ok h
  obtain ⟨locs, hA, h⟩ := bind_ok h
  obtain ⟨shapes, hB, h⟩ := bind_ok h
  cases h
  obtain ⟨-, hn, hd, -⟩ := index_spec hl hk hf h1
  unfold indexAll at h1
  split at h1
  · cases h1
  · rename_i s2 hd2
    cases h1
    obtain ⟨-, hg⟩ := dfs_geo h2 hl hk 8 root _ _ (fresh_inv hf) hd2
    have hg := hg.trans (geo_vis hl s2 loc)
    refine ⟨fun x hx hkx he => ?_, fun x hx hkx he hgood => ?_⟩
    · exact hg.edge x hkx he ((hn x).2 hx) (by simp [num, clearGroups, hf.T])
    · have hdx := hd x ((hn x).2 hx)
      unfold Done at hdx
      rw [hkx] at hdx
      obtain ⟨f, l, hr, -⟩ := hdx
      refine (hg.face x hkx hgood ?_).2
      show (visitLoc g s2 loc).repr x ≠ s.repr x
      rw [hr, he]
      simp

theorem demo_good : Good demo 7 := ⟨[0, 1, 2], demo_around, by decide, Or.inl rfl, by decide⟩

/-- The hypotheses are met by the triangle of the demo model. -/
example : ∃ file s', writeModel demo 8 1 demoSt = .ok (file, s') ∧ HasSurf demo s' 7 ∧ HasLine demo s' 3 := by
  obtain ⟨file, s', h⟩ := write_succeeds demo_locs demo_kinds 8 1 demo_fresh demo_ready
  have hg := implicit_geometry (by norm_num) demo_locs demo_kinds demo_fresh h
  have h7 : Reach demo 8 7 := .single ⟨⟨7, 1, 1⟩, by decide, rfl⟩
  have h3 : Reach demo 8 3 := .single ⟨⟨3, 3, 0⟩, by decide, rfl⟩
  exact ⟨file, s', h, hg.2 7 h7 rfl rfl demo_good, hg.1 3 h3 rfl rfl⟩

end Verif.Brep
