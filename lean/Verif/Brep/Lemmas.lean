import Mathlib.Data.List.Nodup
import Mathlib.Logic.Relation
import Mathlib.Data.Set.Basic
import Verif.Brep.Model

/-!
Invariants of the numbering.
-/
namespace Verif.Brep

variable {K : Type} [Field K]

/-! ### Tables -/

/-- The objects with the numbers 1, 2, … are the list. -/
def Tab.Ok (t : Tab) : Prop := ∀ x k, t.ids x = some (k + 1) ↔ t.list[k]? = some x

/-- Numbers are kept, the list is extended. -/
def Tab.Le (t t' : Tab) : Prop := (∀ x k, t.ids x = some k → t'.ids x = some k) ∧ t.list <+: t'.list

theorem Tab.Le.refl (t : Tab) : t.Le t := ⟨fun _ _ h => h, List.prefix_refl _⟩

theorem Tab.Le.trans {a b c : Tab} (h : a.Le b) (h' : b.Le c) : a.Le c :=
  ⟨fun x k hx => h'.1 x k (h.1 x k hx), h.2.trans h'.2⟩

theorem Tab.Le.some {a b : Tab} (h : a.Le b) {x : Nat} (hx : (a.ids x).isSome) : (b.ids x).isSome := by
  obtain ⟨k, hk⟩ := Option.isSome_iff_exists.mp hx
  rw [h.1 x k hk]; rfl

theorem Tab.push_ids (t : Tab) (x y : Nat) : (t.push x).ids y = if y = x then some (t.list.length + 1) else t.ids y := by
  simp only [Tab.push, Function.update_apply]

theorem Tab.Ok.push {t : Tab} (h : t.Ok) {x : Nat} (hx : t.ids x = none) : (t.push x).Ok := by
  intro y k
  rw [Tab.push_ids]
  show _ ↔ (t.list ++ [x])[k]? = some y
  by_cases hy : y = x
  · subst hy
    rw [if_pos rfl]
    constructor
    · intro e
      have : k = t.list.length := by simpa using e.symm
      subst this; simp
    · intro e
      rcases Nat.lt_trichotomy k t.list.length with hk | hk | hk
      · rw [List.getElem?_append_left hk] at e
        rw [(h y k).2 e] at hx; cases hx
      · rw [hk]
      · rw [List.getElem?_eq_none (by simp; omega)] at e; cases e
  · rw [if_neg hy, h y k]
    rcases Nat.lt_trichotomy k t.list.length with hk | hk | hk
    · rw [List.getElem?_append_left hk]
    · subst hk
      simp [Ne.symm hy]
    · rw [List.getElem?_eq_none (by omega), List.getElem?_eq_none (by simp; omega)]

theorem Tab.le_push {t : Tab} {x : Nat} (hx : t.ids x = none) : t.Le (t.push x) := by
  refine ⟨fun y k hy => ?_, List.prefix_append _ _⟩
  rw [Tab.push_ids, if_neg]
  · exact hy
  · rintro rfl; rw [hx] at hy; cases hy

theorem Tab.visit_cases (t : Tab) (x : Nat) :
    ((t.ids x).isSome ∧ t.visit x = t) ∨ (t.ids x = none ∧ t.visit x = t.push x) := by
  rcases h : t.ids x with _ | k
  · exact Or.inr ⟨rfl, by simp [Tab.visit, h]⟩
  · exact Or.inl ⟨rfl, by simp [Tab.visit, h]⟩

theorem Tab.Ok.visit {t : Tab} (h : t.Ok) (x : Nat) : (t.visit x).Ok := by
  rcases t.visit_cases x with ⟨-, e⟩ | ⟨hx, e⟩ <;> rw [e]
  · exact h
  · exact h.push hx

theorem Tab.le_visit (t : Tab) (x : Nat) : t.Le (t.visit x) := by
  rcases t.visit_cases x with ⟨-, e⟩ | ⟨hx, e⟩ <;> rw [e]
  · exact .refl t
  · exact Tab.le_push hx

theorem Tab.visit_some (t : Tab) (x : Nat) : ((t.visit x).ids x).isSome := by
  rcases t.visit_cases x with ⟨h, e⟩ | ⟨-, e⟩ <;> rw [e]
  · exact h
  · rw [Tab.push_ids, if_pos rfl]; rfl

theorem Tab.visit_zero {t : Tab} {x y : Nat} (h : (t.visit x).ids y = some 0) : t.ids y = some 0 := by
  rcases t.visit_cases x with ⟨-, e⟩ | ⟨-, e⟩ <;> rw [e] at h
  · exact h
  · rw [Tab.push_ids] at h
    by_cases hy : y = x
    · rw [if_pos hy] at h; simp at h
    · rwa [if_neg hy] at h

theorem Tab.Ok.bound {t : Tab} (h : t.Ok) {x k : Nat} (hx : t.ids x = some k) : k ≤ t.list.length := by
  cases k with
  | zero => omega
  | succ k =>
    have := (h x k).1 hx
    by_contra hc
    rw [List.getElem?_eq_none (by omega)] at this; cases this

theorem Tab.Ok.nodup {t : Tab} (h : t.Ok) : t.list.Nodup := by
  rw [List.nodup_iff_getElem?_ne_getElem?]
  intro i j hij hj e
  have hx := List.getElem?_eq_getElem hj
  have h2 := (h _ j).2 hx
  have h1 := (h _ i).2 (e.trans hx)
  rw [h1] at h2
  simp only [Option.some.injEq] at h2
  omega

/-! ### Locations -/

/-- Components of a composed location are older. -/
def LocsOk (locs : Nat → Loc K) : Prop := ∀ l ps, locs l = .composed ps → ∀ p ∈ ps, p.1 < l

/-- Components of a numbered location have smaller numbers. -/
def LocInv (locs : Nat → Loc K) (t : Tab) : Prop :=
  ∀ l ps k, locs l = .composed ps → t.ids l = some k → k ≠ 0 → ∀ p ∈ ps, ∃ j, t.ids p.1 = some j ∧ j < k

/-- Invariant of the table of locations. -/
structure LInv (locs : Nat → Loc K) (t : Tab) : Prop where
  ok : t.Ok
  zero : t.ids 0 = some 0
  only : ∀ x, t.ids x = some 0 → x = 0
  comp : LocInv locs t

omit [Field K] in
theorem LInv.visit {locs : Nat → Loc K} {t : Tab} (h : LInv locs t) {l : Nat}
    (hl : t.ids l = none → ∀ ps, locs l = .composed ps → ∀ p ∈ ps, (t.ids p.1).isSome) : LInv locs (t.visit l) where
  ok := h.ok.visit l
  zero := (t.le_visit l).1 _ _ h.zero
  only x hx := h.only x (Tab.visit_zero hx)
  comp := by
    rcases t.visit_cases l with ⟨-, e⟩ | ⟨hn, e⟩ <;> rw [e]
    · exact h.comp
    · intro x ps k hx hk hk0 p hp
      rw [Tab.push_ids] at hk
      by_cases hxl : x = l
      · subst hxl
        rw [if_pos rfl] at hk
        obtain ⟨j, hj⟩ := Option.isSome_iff_exists.mp (hl hn ps hx p hp)
        refine ⟨j, (Tab.le_push hn).1 _ _ hj, ?_⟩
        have := h.ok.bound hj
        simp only [Option.some.injEq] at hk
        omega
      · rw [if_neg hxl] at hk
        obtain ⟨j, hj, hjk⟩ := h.comp x ps k hx hk hk0 p hp
        exact ⟨j, (Tab.le_push hn).1 _ _ hj, hjk⟩

omit [Field K] in
theorem locDfs_spec {locs : Nat → Loc K} (hl : LocsOk locs) (f : Nat) : ∀ (l : Nat) (t : Tab), l < f → LInv locs t →
    LInv locs (locDfs locs f l t) ∧ t.Le (locDfs locs f l t) ∧ ((locDfs locs f l t).ids l).isSome := by
  induction f with
  | zero => intro l t h; omega
  | succ f ih =>
    intro l t hlf hi
    simp only [locDfs]
    rcases hc : locs l with m | ps
    · exact ⟨hi.visit (by intro _ ps h; rw [hc] at h; cases h), t.le_visit l, t.visit_some l⟩
    · have key : ∀ (qs : List (Nat × Int)) (t : Tab), LInv locs t → (∀ q ∈ qs, q.1 < l) →
          LInv locs (qs.foldl (fun t p => locDfs locs f p.1 t) t) ∧ t.Le (qs.foldl (fun t p => locDfs locs f p.1 t) t) ∧
          ∀ q ∈ qs, ((qs.foldl (fun t p => locDfs locs f p.1 t) t).ids q.1).isSome := by
        intro qs
        induction qs with
        | nil => intro t h _; exact ⟨h, .refl t, by simp⟩
        | cons q qs ihq =>
          intro t h hq
          obtain ⟨a1, a2, a3⟩ := ih q.1 t (by have := hq q (by simp); omega) h
          obtain ⟨b1, b2, b3⟩ := ihq _ a1 fun x hx => hq x (by simp [hx])
          refine ⟨b1, a2.trans b2, fun x hx => ?_⟩
          rcases List.mem_cons.mp hx with rfl | hx
          · exact b2.some a3
          · exact b3 x hx
      obtain ⟨c1, c2, c3⟩ := key ps t hi (hl l ps hc)
      refine ⟨c1.visit ?_, c2.trans (Tab.le_visit _ l), Tab.visit_some _ l⟩
      intro _ ps' h p hp
      rw [hc] at h; cases h
      exact c3 p hp

/-! ### States -/

/-- The shape is numbered. -/
def num (s : St K) (x : Nat) : Prop := (s.tT.ids x).isSome

/-- Invariant of the tables. -/
structure StInv (g : Graph K) (s : St K) : Prop where
  locs : LInv g.locs s.tL
  ok2 : s.t2.Ok
  ok3 : s.t3.Ok
  okS : s.tS.Ok
  okT : s.tT.Ok
  nz2 : ∀ x, s.t2.ids x ≠ some 0
  nz3 : ∀ x, s.t3.ids x ≠ some 0
  nzS : ∀ x, s.tS.ids x ≠ some 0
  nzT : ∀ x, s.tT.ids x ≠ some 0
  kids : ∀ x k, s.tT.ids x = some k → ∀ r ∈ g.childs x,
    (∃ j, j < k ∧ s.tT.ids r.shape = some j) ∧ (s.tL.ids r.loc).isSome

/-- All tables grow. -/
structure Grow (s s' : St K) : Prop where
  L : s.tL.Le s'.tL
  c2 : s.t2.Le s'.t2
  c3 : s.t3.Le s'.t3
  S : s.tS.Le s'.tS
  T : s.tT.Le s'.tT

omit [Field K] in
theorem Grow.refl (s : St K) : Grow s s := ⟨.refl _, .refl _, .refl _, .refl _, .refl _⟩

omit [Field K] in
theorem Grow.trans {a b c : St K} (h : Grow a b) (h' : Grow b c) : Grow a c :=
  ⟨h.L.trans h'.L, h.c2.trans h'.c2, h.c3.trans h'.c3, h.S.trans h'.S, h.T.trans h'.T⟩

/-- The geometry of a representation is numbered. -/
def reprNum (s : St K) : Repr K → Prop
  | .c2 _ _ c f l => (s.t2.ids c).isSome ∧ (s.tS.ids f).isSome ∧ (s.tL.ids l).isSome
  | .c3 _ _ c l => (s.t3.ids c).isSome ∧ (s.tL.ids l).isSome
  | .sf _ _ => True

/-- The shape can be written: its geometry is numbered. -/
def Done (g : Graph K) (s : St K) (x : Nat) : Prop :=
  match g.kind x with
  | .edge => s.repr x ≠ [] ∧ ∀ r ∈ s.repr x, reprNum s r
  | .face => ∃ f l, s.repr x = [.sf f l] ∧ (s.tS.ids f).isSome ∧ (s.tL.ids l).isSome
  | .vertex => ∀ r ∈ s.repr x, reprNum s r
  | _ => True

omit [Field K] in
theorem reprNum_mono {s s' : St K} (h : Grow s s') {r : Repr K} (hr : reprNum s r) : reprNum s' r := by
  cases r with
  | c2 => exact ⟨h.c2.some hr.1, h.S.some hr.2.1, h.L.some hr.2.2⟩
  | c3 => exact ⟨h.c3.some hr.1, h.L.some hr.2⟩
  | sf => trivial

omit [Field K] in
theorem done_mono {g : Graph K} {s s' : St K} (h : Grow s s') {x : Nat} (hr : s'.repr x = s.repr x) (hd : Done g s x) :
    Done g s' x := by
  unfold Done at hd ⊢
  rw [hr]
  split at hd
  · exact ⟨hd.1, fun r h1 => reprNum_mono h (hd.2 r h1)⟩
  · obtain ⟨f, l, h1, h2, h3⟩ := hd
    exact ⟨f, l, h1, h.S.some h2, h.L.some h3⟩
  · exact fun r h1 => reprNum_mono h (hd r h1)
  · trivial

omit [Field K] in
theorem StInv.of_eq {g : Graph K} {s s' : St K} (h : StInv g s) (h1 : s'.tL = s.tL) (h2 : s'.t2 = s.t2) (h3 : s'.t3 = s.t3)
    (h4 : s'.tS = s.tS) (h5 : s'.tT = s.tT) : StInv g s' := by
  obtain ⟨a1, a2, a3, a4, a5, a6, a7, a8, a9, a10⟩ := h
  constructor <;> simp only [h1, h2, h3, h4, h5] <;> assumption

omit [Field K] in
theorem Grow.of_eq {s s' : St K} (h1 : s'.tL = s.tL) (h2 : s'.t2 = s.t2) (h3 : s'.t3 = s.t3) (h4 : s'.tS = s.tS)
    (h5 : s'.tT = s.tT) : Grow s s' := by
  constructor <;> simp only [h1, h2, h3, h4, h5] <;> exact .refl _

/-- What visiting geometry does: the tables of geometry grow, the rest stays. -/
structure Vis (g : Graph K) (s s' : St K) : Prop where
  inv : StInv g s → StInv g s'
  grow : StInv g s → Grow s s'
  repr : s'.repr = s.repr
  tT : s'.tT = s.tT

omit [Field K] in
theorem Vis.refl (g : Graph K) (s : St K) : Vis g s s := ⟨id, fun _ => .refl s, rfl, rfl⟩

omit [Field K] in
theorem Vis.trans {g : Graph K} {a b c : St K} (h : Vis g a b) (h' : Vis g b c) : Vis g a c :=
  ⟨fun i => h'.inv (h.inv i), fun i => (h.grow i).trans (h'.grow (h.inv i)), h'.repr.trans h.repr, h'.tT.trans h.tT⟩

omit [Field K] in
theorem vis_loc {g : Graph K} (hl : LocsOk g.locs) (s : St K) (l : Nat) :
    Vis g s (visitLoc g s l) ∧ (StInv g s → ((visitLoc g s l).tL.ids l).isSome) := by
  refine ⟨⟨fun h => ?_, fun h => ?_, rfl, rfl⟩, fun h => ?_⟩
  · have := locDfs_spec hl (l + 1) l s.tL (by omega) h.locs
    exact ⟨this.1, h.ok2, h.ok3, h.okS, h.okT, h.nz2, h.nz3, h.nzS, h.nzT, fun x k hx r hr =>
      ⟨(h.kids x k hx r hr).1, this.2.1.some (h.kids x k hx r hr).2⟩⟩
  · exact ⟨(locDfs_spec hl (l + 1) l s.tL (by omega) h.locs).2.1, .refl _, .refl _, .refl _, .refl _⟩
  · exact (locDfs_spec hl (l + 1) l s.tL (by omega) h.locs).2.2

omit [Field K] in
theorem vis_c2 {g : Graph K} (s : St K) (c : Nat) : Vis g s { s with t2 := s.t2.visit c } :=
  ⟨fun h => { h with
      ok2 := h.ok2.visit c
      nz2 := fun x hx => h.nz2 x (Tab.visit_zero hx) },
    fun _ => ⟨.refl _, Tab.le_visit _ _, .refl _, .refl _, .refl _⟩, rfl, rfl⟩

omit [Field K] in
theorem vis_c3 {g : Graph K} (s : St K) (c : Nat) : Vis g s { s with t3 := s.t3.visit c } :=
  ⟨fun h => { h with
      ok3 := h.ok3.visit c
      nz3 := fun x hx => h.nz3 x (Tab.visit_zero hx) },
    fun _ => ⟨.refl _, .refl _, Tab.le_visit _ _, .refl _, .refl _⟩, rfl, rfl⟩

omit [Field K] in
theorem vis_sf {g : Graph K} (s : St K) (c : Nat) : Vis g s { s with tS := s.tS.visit c } :=
  ⟨fun h => { h with
      okS := h.okS.visit c
      nzS := fun x hx => h.nzS x (Tab.visit_zero hx) },
    fun _ => ⟨.refl _, .refl _, .refl _, Tab.le_visit _ _, .refl _⟩, rfl, rfl⟩

omit [Field K] in
theorem vis_repr {g : Graph K} (hl : LocsOk g.locs) (s : St K) (r : Repr K) :
    Vis g s (reprDfs g s r) ∧ (StInv g s → reprNum (reprDfs g s r) r) := by
  cases r with
  | sf => exact ⟨.refl g s, fun _ => trivial⟩
  | c3 t0 t1 c l =>
    have a := vis_c3 (g := g) s c
    have b := vis_loc hl { s with t3 := s.t3.visit c } l
    exact ⟨a.trans b.1, fun h => ⟨(b.1.grow (a.inv h)).c3.some (Tab.visit_some _ _), b.2 (a.inv h)⟩⟩
  | c2 t0 t1 c f l =>
    have a := vis_c2 (g := g) s c
    have a' := vis_sf (g := g) { s with t2 := s.t2.visit c } f
    have b := vis_loc hl { s with t2 := s.t2.visit c, tS := s.tS.visit f } l
    refine ⟨(a.trans a').trans b.1, fun h => ?_⟩
    have gr := b.1.grow (a'.inv (a.inv h))
    exact ⟨gr.c2.some (Tab.visit_some _ _), gr.S.some (Tab.visit_some _ _), b.2 (a'.inv (a.inv h))⟩

omit [Field K] in
theorem vis_reprs {g : Graph K} (hl : LocsOk g.locs) (rs : List (Repr K)) : ∀ s : St K,
    Vis g s (rs.foldl (reprDfs g) s) ∧ (StInv g s → ∀ r ∈ rs, reprNum (rs.foldl (reprDfs g) s) r) := by
  induction rs with
  | nil => intro s; exact ⟨.refl g s, by simp⟩
  | cons r rs ih =>
    intro s
    have a := vis_repr hl s r
    have b := ih (reprDfs g s r)
    refine ⟨a.1.trans b.1, fun h x hx => ?_⟩
    rcases List.mem_cons.mp hx with rfl | hx
    · exact reprNum_mono (b.1.grow (a.1.inv h)) (a.2 h)
    · exact b.2 (a.1.inv h) x hx

/-- What building implicit geometry does: no table changes, representations change for the given shapes only. -/
structure Att (es : List Nat) (s s' : St K) : Prop where
  tL : s'.tL = s.tL
  t2 : s'.t2 = s.t2
  t3 : s'.t3 = s.t3
  tS : s'.tS = s.tS
  tT : s'.tT = s.tT
  repr : ∀ x, x ∉ es → s'.repr x = s.repr x

omit [Field K] in
theorem Att.inv {g : Graph K} {es : List Nat} {s s' : St K} (h : Att es s s') (hi : StInv g s) : StInv g s' :=
  hi.of_eq h.tL h.t2 h.t3 h.tS h.tT

omit [Field K] in
theorem Att.grow {es : List Nat} {s s' : St K} (h : Att es s s') : Grow s s' := .of_eq h.tL h.t2 h.t3 h.tS h.tT

theorem att_curve {g : Graph K} {i : Nat} {s s' : St K} (h : implicitCurve g i s = .ok s') :
    Att [i] s s' ∧ s'.repr i ≠ [] := by
  unfold implicitCurve at h
  split at h
  · cases h
    refine ⟨⟨rfl, rfl, rfl, rfl, rfl, fun x hx => ?_⟩, ?_⟩
    · simp only [List.mem_singleton] at hx
      simp [Function.update_of_ne hx]
    · simp
  · cases h

theorem att_all {g : Graph K} {surf : Nat} {uv : List (Nat × List K)} (es : List Nat) : ∀ {s s' : St K},
    attachAll g surf uv es s = .ok s' → Att es s s' := by
  induction es with
  | nil => intro s s' h; cases h; exact ⟨rfl, rfl, rfl, rfl, rfl, fun _ _ => rfl⟩
  | cons e es ih =>
    intro s s' h
    simp only [attachAll] at h
    split at h
    · split at h
      · obtain ⟨a1, a2, a3, a4, a5, a6⟩ := ih h
        refine ⟨a1, a2, a3, a4, a5, fun x hx => ?_⟩
        simp only [List.mem_cons, not_or] at hx
        rw [a6 x hx.2]
        simp [attach, Function.update_of_ne hx.1]
      · cases h
    · cases h

theorem putDict_mem {d : List (Nat × Nat)} {k a x : Nat} (h : x ∈ (putDict d k a).map Prod.snd) :
    x = a ∨ x ∈ d.map Prod.snd := by
  unfold putDict at h
  split at h
  · simp only [List.map_map, List.mem_map, Function.comp_apply] at h
    obtain ⟨p, hp, rfl⟩ := h
    split
    · exact Or.inl rfl
    · exact Or.inr (List.mem_map.2 ⟨p, hp, rfl⟩)
  · simp only [List.map_append, List.mem_append, List.map_cons, List.map_nil, List.mem_singleton] at h
    exact h.symm

omit [Field K] in
theorem edgesDict_mem {s : St K} (l : List Ref) : ∀ (d : List (Nat × Nat)) (x : Nat),
    x ∈ (l.foldl (fun d e => putDict d (idOf s e.shape) e.shape) d).map Prod.snd →
      x ∈ d.map Prod.snd ∨ x ∈ l.map Ref.shape := by
  induction l with
  | nil => intro d x h; exact Or.inl h
  | cons e l ih =>
    intro d x h
    rcases ih _ x h with h | h
    · rcases putDict_mem h with rfl | h
      · right; simp
      · exact Or.inl h
    · right; simp only [List.map_cons, List.mem_cons]; exact Or.inr h

theorem att_surface {g : Graph K} {i : Nat} {s s' : St K} (h : implicitSurface g i s = .ok s') :
    Att (i :: (faceEdges g i).map Ref.shape) s s' := by
  unfold implicitSurface at h
  simp only at h
  split at h
  · cases h
  · have key : ∀ (s1 : St K) (es : List Nat), (∀ x ∈ es, x ∈ (faceEdges g i).map Ref.shape) → Att [i] s s1 → Att es s1 s' →
        Att (i :: (faceEdges g i).map Ref.shape) s s' := by
      intro s1 es hes h1 h2
      refine ⟨h2.tL.trans h1.tL, h2.t2.trans h1.t2, h2.t3.trans h1.t3, h2.tS.trans h1.tS, h2.tT.trans h1.tT, fun x hx => ?_⟩
      simp only [List.mem_cons, not_or] at hx
      rw [h2.repr x fun hc => hx.2 (hes x hc), h1.repr x (by simpa using hx.1)]
    have hes : ∀ x ∈ ((faceEdges g i).foldl (fun d e => putDict d (idOf s e.shape) e.shape) []).map Prod.snd,
        x ∈ (faceEdges g i).map Ref.shape := by
      intro x hx
      rcases edgesDict_mem _ _ x hx with h | h
      · simp at h
      · exact h
    split at h
    · have ha := att_all _ h
      refine key _ _ hes ?_ ha
      refine ⟨rfl, rfl, rfl, rfl, rfl, fun x hx => ?_⟩
      simp only [List.mem_singleton] at hx
      simp [Function.update_of_ne hx]
    · have ha := att_all _ h
      refine key _ _ hes ?_ ha
      refine ⟨rfl, rfl, rfl, rfl, rfl, fun x hx => ?_⟩
      simp only [List.mem_singleton] at hx
      simp [Function.update_of_ne hx]
    · cases h

/-! ### The search -/

/-- `x` is `i` or is reached from it by child references. -/
def Reach (g : Graph K) : Nat → Nat → Prop := Relation.ReflTransGen fun a b => ∃ r ∈ g.childs a, r.shape = b

/-- Depth of a shape class. -/
def Kind.rank : Kind → Nat
  | .vertex => 0
  | .edge => 1
  | .wire => 2
  | .face => 3
  | .shell => 4
  | .solid => 5
  | .compSolid => 6
  | .compound => 7

/-- Children have the classes allowed by `sub_types`: guaranteed by `append` (brep_writer.py:570-580). -/
def KindsOk (g : Graph K) : Prop := ∀ x, ∀ r ∈ g.childs x, g.kind r.shape ∈ (g.kind x).allows

theorem rank_lt {a b : Kind} (h : b ∈ a.allows) : b.rank < a.rank := by
  cases a <;> cases b <;> simp [Kind.allows, Kind.rank] at h ⊢

omit [Field K] in
theorem KindsOk.rank {g : Graph K} (h : KindsOk g) {x : Nat} {r : Ref} (hr : r ∈ g.childs x) :
    (g.kind r.shape).rank < (g.kind x).rank := rank_lt (h x r hr)

omit [Field K] in
theorem reach_rank {g : Graph K} (h : KindsOk g) {a b : Nat} (hr : Reach g a b) : (g.kind b).rank ≤ (g.kind a).rank := by
  induction hr with
  | refl => exact le_rfl
  | tail _ hs ih =>
    obtain ⟨r, hr, rfl⟩ := hs
    exact (h.rank hr).le.trans ih

omit [Field K] in
theorem faceEdges_reach {g : Graph K} {i : Nat} {e : Ref} (he : e ∈ faceEdges g i) :
    ∃ w ∈ g.childs i, e ∈ g.childs w.shape ∧ Reach g i e.shape := by
  obtain ⟨w, hw, he⟩ := List.mem_flatMap.1 he
  exact ⟨w, hw, he, Relation.ReflTransGen.trans (.single ⟨w, hw, rfl⟩) (.single ⟨e, he, rfl⟩)⟩

/-- Correctness of a function that searches from a shape. The shapes of `E` may be unfinished. -/
def Spec (g : Graph K) (rec : Nat → St K → Except Err (St K)) : Prop :=
  ∀ (i : Nat) (s s' : St K) (E : Set Nat), StInv g s → (∀ x, num s x → x ∉ E → Done g s x) → rec i s = .ok s' →
    StInv g s' ∧ Grow s s' ∧ num s' i ∧ (∀ x, num s' x → num s x ∨ Reach g i x) ∧
      ∀ x, num s' x → (x ∉ E ∨ x = i) → Done g s' x

omit [Field K] in
theorem loop_kids {g : Graph K} (hl : LocsOk g.locs) {rec : Nat → St K → Except Err (St K)} (hr : Spec g rec) {E : Set Nat}
    (l : List Ref) : ∀ (s s' : St K), StInv g s → (∀ x, num s x → x ∉ E → Done g s x) →
      loop (fun (r : Ref) s => rec r.shape (visitLoc g s r.loc)) l s = .ok s' →
      StInv g s' ∧ Grow s s' ∧ (∀ r ∈ l, num s' r.shape ∧ (s'.tL.ids r.loc).isSome) ∧
        (∀ x, num s' x → num s x ∨ ∃ r ∈ l, Reach g r.shape x) ∧ ∀ x, num s' x → x ∉ E → Done g s' x := by
  induction l with
  | nil => intro s s' hi hd h; cases h; exact ⟨hi, .refl s, by simp, fun x hx => Or.inl hx, hd⟩
  | cons r l ih =>
    intro s s' hi hd h
    simp only [loop] at h
    split at h
    · rename_i s1 h1
      have v := vis_loc hl s r.loc
      have hi0 := v.1.inv hi
      have hd0 : ∀ x, num (visitLoc g s r.loc) x → x ∉ E → Done g (visitLoc g s r.loc) x := fun x hx hxE =>
        done_mono (v.1.grow hi) rfl (hd x hx hxE)
      obtain ⟨a1, a2, a3, a4, a5⟩ := hr _ _ _ E hi0 hd0 h1
      obtain ⟨b1, b2, b3, b4, b5⟩ := ih s1 s' a1 (fun x hx hxE => a5 x hx (Or.inl hxE)) h
      refine ⟨b1, ((v.1.grow hi).trans a2).trans b2, ?_, ?_, b5⟩
      · intro r' hr'
        rcases List.mem_cons.1 hr' with rfl | hr'
        · exact ⟨b2.T.some a3, b2.L.some (a2.L.some (v.2 hi))⟩
        · exact b3 r' hr'
      · intro x hx
        rcases b4 x hx with hx | ⟨r', hr', hx⟩
        · rcases a4 x hx with hx | hx
          · exact Or.inl hx
          · exact Or.inr ⟨r, by simp, hx⟩
        · exact Or.inr ⟨r', by simp [hr'], hx⟩
    · cases h

omit [Field K] in
theorem base_spec {g : Graph K} (hl : LocsOk g.locs) (hk : KindsOk g) {rec : Nat → St K → Except Err (St K)}
    (hr : Spec g rec) {E : Set Nat} {i : Nat} {s s' : St K} (hi : StInv g s) (hd : ∀ x, num s x → x ∉ E → Done g s x)
    (h : shapeBase g rec i s = .ok s') :
    StInv g s' ∧ Grow s s' ∧ num s' i ∧ (∀ x, num s' x → num s x ∨ Reach g i x) ∧
      ∀ x, num s' x → x ∉ E → x ≠ i → Done g s' x := by
  unfold shapeBase at h
  split at h
  · rename_i hn
    cases h
    exact ⟨hi, .refl s, hn, fun x hx => Or.inl hx, fun x hx hE _ => hd x hx hE⟩
  · rename_i hn
    split at h
    · cases h
    · rename_i s1 h1
      cases h
      obtain ⟨a1, a2, a3, a4, a5⟩ := loop_kids hl hr (E := E) _ s s1 hi hd h1
      have hni : s1.tT.ids i = none := by
        by_contra hc
        rcases a4 i (Option.isSome_iff_ne_none.2 hc) with x | ⟨r, hr', x⟩
        · exact hn x
        · have := reach_rank hk x
          have := hk.rank hr'
          omega
      have hle := Tab.le_push hni
      refine ⟨?_, a2.trans ⟨.refl _, .refl _, .refl _, .refl _, hle⟩, ?_, ?_, ?_⟩
      · refine { a1 with
          okT := a1.okT.push hni
          nzT := fun x hx => ?_
          kids := fun x k hx r hr' => ?_ }
        · simp only [Tab.push_ids] at hx
          by_cases hxi : x = i
          · rw [if_pos hxi] at hx; simp at hx
          · rw [if_neg hxi] at hx; exact a1.nzT x hx
        · simp only [Tab.push_ids] at hx
          by_cases hxi : x = i
          · subst hxi
            rw [if_pos rfl] at hx
            obtain ⟨y1, y2⟩ := a3 r hr'
            obtain ⟨j, hj⟩ := Option.isSome_iff_exists.mp y1
            refine ⟨⟨j, ?_, hle.1 _ _ hj⟩, y2⟩
            have := a1.okT.bound hj
            simp only [Option.some.injEq] at hx
            omega
          · rw [if_neg hxi] at hx
            obtain ⟨⟨j, y1, y2⟩, y3⟩ := a1.kids x k hx r hr'
            exact ⟨⟨j, y1, hle.1 _ _ y2⟩, y3⟩
      · simp [num, Tab.push_ids]
      · intro x hx
        simp only [num, Tab.push_ids] at hx
        by_cases hxi : x = i
        · subst hxi; exact Or.inr .refl
        · rw [if_neg hxi] at hx
          rcases a4 x hx with hx | ⟨r, hr', hx⟩
          · exact Or.inl hx
          · exact Or.inr (Relation.ReflTransGen.trans (.single ⟨r, hr', rfl⟩) hx)
      · intro x hx hE hxi
        simp only [num, Tab.push_ids, if_neg hxi] at hx
        exact done_mono (s := s1) (s' := { s1 with tT := s1.tT.push i }) ⟨.refl _, .refl _, .refl _, .refl _, hle⟩ rfl
          (a5 x hx hE)

/-- Result of the second part of the search. -/
def PostOk (g : Graph K) (E : Set Nat) (i : Nat) (s s' : St K) : Prop :=
  StInv g s' ∧ Grow s s' ∧ (∀ x, num s' x → num s x ∨ Reach g i x) ∧ ∀ x, num s' x → (x ∉ E ∨ x = i) → Done g s' x

theorem edge_spec {g : Graph K} (hl : LocsOk g.locs) {E : Set Nat} {i : Nat} (hki : g.kind i = .edge) {s s' : St K}
    (hi : StInv g s) (hd : ∀ x, num s x → x ∉ E → x ≠ i → Done g s x) (h : edgePost g i s = .ok s') : PostOk g E i s s' := by
  have fin : ∀ s1 : St K, Att [i] s s1 → s1.repr i ≠ [] → s' = (s1.repr i).foldl (reprDfs g) s1 → PostOk g E i s s' := by
    intro s1 ha hne he
    subst he
    have v := vis_reprs hl (s1.repr i) s1
    have i1 := ha.inv hi
    have gr := ha.grow.trans (v.1.grow i1)
    refine ⟨v.1.inv i1, gr, fun x hx => Or.inl ?_, fun x hx hE => ?_⟩
    · simp only [num, v.1.tT, ha.tT] at hx; exact hx
    · by_cases hxi : x = i
      · subst hxi
        simp only [Done, hki]
        rw [v.1.repr]
        exact ⟨hne, v.2 i1⟩
      · simp only [num, v.1.tT, ha.tT] at hx
        refine done_mono gr ?_ (hd x hx (hE.resolve_right hxi) hxi)
        rw [v.1.repr, ha.repr x (by simpa using hxi)]
  unfold edgePost at h
  split at h
  · cases h
  · rename_i s1 h1
    cases h
    split at h1
    · obtain ⟨a, b⟩ := att_curve h1
      exact fin s1 a b rfl
    · rename_i hne
      cases h1
      exact fin s ⟨rfl, rfl, rfl, rfl, rfl, fun _ _ => rfl⟩ hne rfl

theorem loop_edges {g : Graph K} {rec : Nat → St K → Except Err (St K)} (hr : Spec g rec) {E : Set Nat}
    (l : List Ref) : ∀ (s s' : St K), StInv g s → (∀ x, num s x → x ∉ E → x ∉ l.map Ref.shape → Done g s x) →
      loop (fun (r : Ref) s => rec r.shape s) l s = .ok s' →
      StInv g s' ∧ Grow s s' ∧ (∀ x, num s' x → num s x ∨ ∃ r ∈ l, Reach g r.shape x) ∧
        ∀ x, num s' x → x ∉ E → Done g s' x := by
  induction l with
  | nil => intro s s' hi hd h; cases h; exact ⟨hi, .refl s, fun x hx => Or.inl hx, fun x hx hE => hd x hx hE (by simp)⟩
  | cons r l ih =>
    intro s s' hi hd h
    simp only [loop] at h
    split at h
    · rename_i s1 h1
      obtain ⟨a1, a2, a3, a4, a5⟩ := hr _ _ _ (E ∪ {x | x ∈ (r :: l).map Ref.shape}) hi
        (fun x hx hE => hd x hx (fun hc => hE (Or.inl hc)) fun hc => hE (Or.inr hc)) h1
      obtain ⟨b1, b2, b4, b5⟩ := ih s1 s' a1 (fun x hx hE hm => a5 x hx (by
        by_cases hxr : x = r.shape
        · exact Or.inr hxr
        · left
          rintro (hc | hc)
          · exact hE hc
          · simp only [Set.mem_setOf_eq, List.map_cons, List.mem_cons] at hc
            exact hc.elim hxr hm)) h
      refine ⟨b1, a2.trans b2, ?_, b5⟩
      intro x hx
      rcases b4 x hx with hx | ⟨r', hr', hx⟩
      · rcases a4 x hx with hx | hx
        · exact Or.inl hx
        · exact Or.inr ⟨r, by simp, hx⟩
      · exact Or.inr ⟨r', by simp [hr'], hx⟩
    · cases h

theorem face_spec {g : Graph K} (hl : LocsOk g.locs) (hk : KindsOk g) {rec : Nat → St K → Except Err (St K)}
    (hr : Spec g rec) {E : Set Nat} {i : Nat} (hki : g.kind i = .face) {s s1 s' : St K} (hi : StInv g s)
    (hd : ∀ x, num s x → x ∉ E → x ≠ i → Done g s x) (h1 : facePost g i s = .ok s1)
    (h : loop (fun (r : Ref) s => rec r.shape s) (faceEdges g i) s1 = .ok s') : PostOk g E i s s' := by
  have hni : i ∉ (faceEdges g i).map Ref.shape := by
    intro hc
    obtain ⟨e, he, hei⟩ := List.mem_map.1 hc
    obtain ⟨w, hw, he', -⟩ := faceEdges_reach he
    have a := hk.rank hw
    have b := hk.rank he'
    rw [hei] at b
    omega
  have post : StInv g s1 ∧ Grow s s1 ∧ s1.tT = s.tT ∧ Done g s1 i ∧
      ∀ x, x ∉ i :: (faceEdges g i).map Ref.shape → s1.repr x = s.repr x := by
    have fin : ∀ s2 : St K, Att (i :: (faceEdges g i).map Ref.shape) s s2 →
        (match s2.repr i with
          | [.sf f l] => .ok (visitLoc g { s2 with tS := s2.tS.visit f } l)
          | _ => .error .assertion : Except Err (St K)) = .ok s1 → StInv g s1 ∧ Grow s s1 ∧ s1.tT = s.tT ∧ Done g s1 i ∧
        ∀ x, x ∉ i :: (faceEdges g i).map Ref.shape → s1.repr x = s.repr x := by
      intro s2 ha h
      split at h
      · rename_i f l hf
        cases h
        have i2 := ha.inv hi
        have v1 := vis_sf (g := g) s2 f
        have v2 := vis_loc hl { s2 with tS := s2.tS.visit f } l
        have v := v1.trans v2.1
        refine ⟨v.inv i2, ha.grow.trans (v.grow i2), v.tT.trans ha.tT, ?_, fun x hx => ?_⟩
        · simp only [Done, hki]
          refine ⟨f, l, ?_, (v2.1.grow (v1.inv i2)).S.some (Tab.visit_some _ _), v2.2 (v1.inv i2)⟩
          rw [v.repr]; exact hf
        · rw [v.repr]; exact ha.repr x hx
      · cases h
    unfold facePost at h1
    split at h1
    · cases h1
    · rename_i s2 h2
      split at h2
      · exact fin s2 (att_surface h2) h1
      · cases h2
        exact fin s ⟨rfl, rfl, rfl, rfl, rfl, fun _ _ => rfl⟩ h1
  obtain ⟨p1, p2, p3, p4, p5⟩ := post
  have hd1 : ∀ x, num s1 x → x ∉ E \ {i} → x ∉ (faceEdges g i).map Ref.shape → Done g s1 x := by
    intro x hx hE hm
    by_cases hxi : x = i
    · subst hxi; exact p4
    · refine done_mono p2 (p5 x (by simp only [List.mem_cons, not_or]; exact ⟨hxi, hm⟩)) (hd x ?_ (fun hc => hE ⟨hc, hxi⟩) hxi)
      simp only [num, p3] at hx; exact hx
  obtain ⟨a1, a2, a3, a4⟩ := loop_edges hr _ s1 s' p1 hd1 h
  refine ⟨a1, p2.trans a2, fun x hx => ?_, fun x hx hE => a4 x hx ?_⟩
  · rcases a3 x hx with hx | ⟨r, hr', hx⟩
    · simp only [num, p3] at hx; exact Or.inl hx
    · exact Or.inr ((faceEdges_reach hr').choose_spec.2.2.trans hx)
  · rintro ⟨h1, h2⟩
    exact hE.elim (fun h => h h1) h2

theorem post_spec {g : Graph K} (hl : LocsOk g.locs) (hk : KindsOk g) {rec : Nat → St K → Except Err (St K)}
    (hr : Spec g rec) {E : Set Nat} {i : Nat} {s s' : St K} (hi : StInv g s)
    (hd : ∀ x, num s x → x ∉ E → x ≠ i → Done g s x) (h : shapePost g rec i s = .ok s') : PostOk g E i s s' := by
  unfold shapePost at h
  split at h
  · rename_i hki; exact edge_spec hl hki hi hd h
  · rename_i hki
    split at h
    · cases h
    · rename_i s1 h1; exact face_spec hl hk hr hki hi hd h1 h
  · rename_i hki
    cases h
    have v := vis_reprs hl (s.repr i) s
    refine ⟨v.1.inv hi, v.1.grow hi, fun x hx => Or.inl ?_, fun x hx hE => ?_⟩
    · simp only [num, v.1.tT] at hx; exact hx
    · by_cases hxi : x = i
      · subst hxi; simp only [Done, hki]; rw [v.1.repr]; exact v.2 hi
      · simp only [num, v.1.tT] at hx
        exact done_mono (v.1.grow hi) (by rw [v.1.repr]) (hd x hx (hE.resolve_right hxi) hxi)
  · rename_i h1 h2 h3
    cases h
    refine ⟨hi, .refl s, fun x hx => Or.inl hx, fun x hx hE => ?_⟩
    by_cases hxi : x = i
    · subst hxi; simp [Done]
    · exact hd x hx (hE.resolve_right hxi) hxi

theorem dfs_spec {g : Graph K} (hl : LocsOk g.locs) (hk : KindsOk g) (f : Nat) : Spec g (dfs g f) := by
  induction f with
  | zero => intro i s s' E _ _ h; cases h
  | succ f ih =>
    intro i s s' E hi hd h
    simp only [dfs] at h
    split at h
    · cases h
    · rename_i s1 h1
      obtain ⟨a1, a2, a3, a4, a5⟩ := base_spec hl hk ih hi hd h1
      obtain ⟨b1, b2, b3, b4⟩ := post_spec hl hk ih (E := E) a1 a5 h
      refine ⟨b1, a2.trans b2, b2.T.some a3, fun x hx => ?_, b4⟩
      rcases b3 x hx with hx | hx
      · exact a4 x hx
      · exact Or.inr hx

end Verif.Brep
