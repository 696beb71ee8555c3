import Mathlib.Data.List.Forall2
import Mathlib.Data.List.Rotate
import Mathlib.Tactic.Linarith
import Verif.Brep.Props

/-!
`write_model` keeps the given geometry, writes no unused geometry, and succeeds on well formed models.
-/
namespace Verif.Brep

variable {K : Type} [Field K]

/-! ### Induction over the steps of the search -/

/-- A reflexive and transitive relation that holds for the steps of the search from shapes satisfying `P`. -/
structure Steps (g : Graph K) (P : Nat → Prop) (R : St K → St K → Prop) : Prop where
  refl : ∀ s, R s s
  trans : ∀ a b c, R a b → R b c → R a c
  down : ∀ i, P i → ∀ r ∈ g.childs i, P r.shape
  loc : ∀ i, P i → ∀ r ∈ g.childs i, ∀ s, R s (visitLoc g s r.loc)
  push : ∀ i, P i → ∀ s, R s { s with tT := s.tT.push i }
  repr : ∀ i, P i → g.kind i = .edge ∨ g.kind i = .vertex → ∀ s, ∀ r ∈ s.repr i, R s (reprDfs g s r)
  face : ∀ i, P i → g.kind i = .face → ∀ s f l, s.repr i = [.sf f l] → R s (visitLoc g { s with tS := s.tS.visit f } l)
  curve : ∀ i, P i → g.kind i = .edge → ∀ s s', s.repr i = [] → implicitCurve g i s = .ok s' → R s s'
  surf : ∀ i, P i → g.kind i = .face → ∀ s s', s.repr i = [] → implicitSurface g i s = .ok s' → R s s'

omit [Field K] in
theorem steps_loop {P : Nat → Prop} {R : St K → St K → Prop} (hrefl : ∀ s, R s s)
    (htrans : ∀ a b c, R a b → R b c → R a c) {α : Type} {f : α → St K → Except Err (St K)} (l : List α)
    (hf : ∀ a ∈ l, ∀ s s', f a s = .ok s' → R s s') : ∀ s s', loop f l s = .ok s' → R s s' := by
  induction l with
  | nil => intro s s' h; cases h; exact hrefl s
  | cons a l ih =>
    intro s s' h
    simp only [loop] at h
    split at h
    · rename_i s1 h1
      exact htrans _ _ _ (hf a (by simp) _ _ h1) (ih (fun b hb => hf b (by simp [hb])) _ _ h)
    · cases h

omit [Field K] in
theorem reprDfs_repr (g : Graph K) (s : St K) (r : Repr K) : (reprDfs g s r).repr = s.repr := by
  cases r <;> rfl

theorem steps_reprs {g : Graph K} {P : Nat → Prop} {R : St K → St K → Prop} (h : Steps g P R) {i : Nat} (hi : P i)
    (hk : g.kind i = .edge ∨ g.kind i = .vertex) (rs : List (Repr K)) : ∀ s, (∀ r ∈ rs, r ∈ s.repr i) →
      R s (rs.foldl (reprDfs g) s) := by
  induction rs with
  | nil => intro s _; exact h.refl s
  | cons r rs ih =>
    intro s hs
    refine h.trans _ _ _ (h.repr i hi hk s r (hs r (by simp))) (ih _ ?_)
    intro r' hr'
    rw [reprDfs_repr]
    exact hs r' (by simp [hr'])

theorem steps_dfs {g : Graph K} {P : Nat → Prop} {R : St K → St K → Prop} (h : Steps g P R) (f : Nat) :
    ∀ i, P i → ∀ s s', dfs g f i s = .ok s' → R s s' := by
  induction f with
  | zero => intro i _ s s' h; cases h
  | succ f ih =>
    intro i hi s s' hd
    simp only [dfs] at hd
    split at hd
    · cases hd
    · rename_i s1 h1
      refine h.trans _ s1 _ ?_ ?_
      · unfold shapeBase at h1
        split at h1
        · cases h1; exact h.refl s
        · split at h1
          · cases h1
          · rename_i s2 h2
            cases h1
            refine h.trans _ s2 _ (steps_loop (P := P) h.refl h.trans _ ?_ _ _ h2) (h.push i hi s2)
            intro r hr a b hab
            exact h.trans _ _ _ (h.loc i hi r hr a) (ih _ (h.down i hi r hr) _ _ hab)
      · unfold shapePost at hd
        split at hd
        · rename_i hki
          unfold edgePost at hd
          split at hd
          · cases hd
          · rename_i s2 h2
            cases hd
            refine h.trans _ s2 _ ?_ (steps_reprs h hi (Or.inl hki) _ s2 fun r hr => hr)
            split at h2
            · rename_i he; exact h.curve i hi hki _ _ he h2
            · cases h2; exact h.refl _
        · rename_i hki
          split at hd
          · cases hd
          · rename_i s2 h2
            refine h.trans _ s2 _ ?_ (steps_loop (P := P) h.refl h.trans _ ?_ _ _ hd)
            · unfold facePost at h2
              split at h2
              · cases h2
              · rename_i s3 h3
                split at h2
                · rename_i fc l hf
                  cases h2
                  refine h.trans _ s3 _ ?_ (h.face i hi hki s3 fc l hf)
                  split at h3
                  · rename_i he; exact h.surf i hi hki _ _ he h3
                  · cases h3; exact h.refl _
                · cases h2
            · intro r hr a b hab
              obtain ⟨w, hw, hr'⟩ := List.mem_flatMap.1 hr
              exact ih _ (h.down _ (h.down i hi w hw) r hr') _ _ hab
        · rename_i hki
          cases hd
          exact steps_reprs h hi (Or.inr hki) _ s1 fun r hr => hr
        · cases hd; exact h.refl _

/-! ### Geometry given by the caller is kept -/

/-- Existing geometry and representations are kept: new objects and new representations are only added. -/
structure Keep (s s' : St K) : Prop where
  n2 : s.n2 ≤ s'.n2
  n3 : s.n3 ≤ s'.n3
  nS : s.nS ≤ s'.nS
  c2 : ∀ c, c < s.n2 → s'.c2 c = s.c2 c
  c3 : ∀ c, c < s.n3 → s'.c3 c = s.c3 c
  sf : ∀ c, c < s.nS → s'.sf c = s.sf c
  repr : ∀ x, s.repr x <+: s'.repr x

omit [Field K] in
theorem Keep.refl (s : St K) : Keep s s :=
  ⟨le_rfl, le_rfl, le_rfl, fun _ _ => rfl, fun _ _ => rfl, fun _ _ => rfl, fun _ => List.prefix_refl _⟩

omit [Field K] in
theorem Keep.trans {a b c : St K} (h : Keep a b) (h' : Keep b c) : Keep a c :=
  ⟨h.n2.trans h'.n2, h.n3.trans h'.n3, h.nS.trans h'.nS,
    fun x hx => (h'.c2 x (lt_of_lt_of_le hx h.n2)).trans (h.c2 x hx),
    fun x hx => (h'.c3 x (lt_of_lt_of_le hx h.n3)).trans (h.c3 x hx),
    fun x hx => (h'.sf x (lt_of_lt_of_le hx h.nS)).trans (h.sf x hx),
    fun x => (h.repr x).trans (h'.repr x)⟩

theorem keep_attachAll {g : Graph K} {surf : Nat} {uv : List (Nat × List K)} (es : List Nat) : ∀ {s s' : St K},
    attachAll g surf uv es s = .ok s' → Keep s s' := by
  induction es with
  | nil => intro s s' h; cases h; exact .refl s
  | cons e es ih =>
    intro s s' h
    simp only [attachAll] at h
    split at h
    · split at h
      · refine Keep.trans ?_ (ih h)
        refine ⟨Nat.le_succ _, le_rfl, le_rfl, fun c hc => ?_, fun _ _ => rfl, fun _ _ => rfl, fun x => ?_⟩
        · simp [attach, Function.update_of_ne (Nat.ne_of_lt hc)]
        · by_cases hx : x = e
          · subst hx; simp [attach]
          · simp [attach, Function.update_of_ne hx]
      · cases h
    · cases h

theorem keep_surface {g : Graph K} {i : Nat} {s s' : St K} (he : s.repr i = []) (h : implicitSurface g i s = .ok s') :
    Keep s s' := by
  unfold implicitSurface at h
  simp only at h
  split at h
  · cases h
  · have key : ∀ (S : Surf K), Keep s { s with
        sf := Function.update s.sf s.nS S
        nS := s.nS + 1
        repr := Function.update s.repr i [.sf s.nS 0] } := by
      intro S
      refine ⟨le_rfl, le_rfl, Nat.le_succ _, fun _ _ => rfl, fun _ _ => rfl, fun c hc => ?_, fun x => ?_⟩
      · simp [Function.update_of_ne (Nat.ne_of_lt hc)]
      · by_cases hx : x = i
        · subst hx; simp [he]
        · simp [Function.update_of_ne hx]
    split at h
    · exact (key _).trans (keep_attachAll _ h)
    · exact (key _).trans (keep_attachAll _ h)
    · cases h

theorem keep_curve {g : Graph K} {i : Nat} {s s' : St K} (h : implicitCurve g i s = .ok s') : Keep s s' := by
  unfold implicitCurve at h
  split at h
  · cases h
    refine ⟨le_rfl, Nat.le_succ _, le_rfl, fun _ _ => rfl, fun c hc => ?_, fun _ _ => rfl, fun x => ?_⟩
    · simp [Function.update_of_ne (Nat.ne_of_lt hc)]
    · by_cases hx : x = i
      · subst hx; simp
      · simp [Function.update_of_ne hx]
  · cases h

theorem keep_steps (g : Graph K) : Steps g (fun _ => True) Keep where
  refl := .refl
  trans _ _ _ := .trans
  down _ _ _ _ := trivial
  loc _ _ _ _ s := ⟨le_rfl, le_rfl, le_rfl, fun _ _ => rfl, fun _ _ => rfl, fun _ _ => rfl, fun _ => List.prefix_refl _⟩
  push _ _ s := ⟨le_rfl, le_rfl, le_rfl, fun _ _ => rfl, fun _ _ => rfl, fun _ _ => rfl, fun _ => List.prefix_refl _⟩
  repr _ _ _ s r _ := by
    cases r <;> exact ⟨le_rfl, le_rfl, le_rfl, fun _ _ => rfl, fun _ _ => rfl, fun _ _ => rfl, fun _ => List.prefix_refl _⟩
  face _ _ _ s f l _ :=
    ⟨le_rfl, le_rfl, le_rfl, fun _ _ => rfl, fun _ _ => rfl, fun _ _ => rfl, fun _ => List.prefix_refl _⟩
  curve _ _ _ _ _ _ h := keep_curve h
  surf _ _ _ _ _ he h := keep_surface he h

/-- `write_model` keeps the geometry given by the caller: the representations a shape has before are its first
representations in the file, the poles, knots and degrees of the curves and surfaces are unchanged. -/
theorem geometry_kept {g : Graph K} {root loc : Nat} {s s' : St K} {file : File K}
    (h : writeModel g root loc s = .ok (file, s')) : Keep s s' := by
  obtain ⟨s1, h1, h⟩ := bind_ok h
  obtain ⟨locs, h2, h⟩ := bind_ok h
  obtain ⟨shapes, h3, h⟩ := bind_ok h
  cases h
  unfold indexAll at h1
  split at h1
  · cases h1
  · rename_i s2 hd
    cases h1
    have := steps_dfs (keep_steps g) 8 root trivial _ _ hd
    exact ⟨this.n2, this.n3, this.nS, this.c2, this.c3, this.sf, this.repr⟩

/-! ### Only used geometry is written -/

/-- Every numbered curve and surface belongs to a representation of a shape satisfying `P`. -/
structure Used (P : Nat → Prop) (s : St K) : Prop where
  c2 : ∀ c, (s.t2.ids c).isSome → ∃ x t0 t1 f l, P x ∧ .c2 t0 t1 c f l ∈ s.repr x
  c3 : ∀ c, (s.t3.ids c).isSome → ∃ x t0 t1 l, P x ∧ .c3 t0 t1 c l ∈ s.repr x
  sf : ∀ f, (s.tS.ids f).isSome → ∃ x, P x ∧ ((∃ l, .sf f l ∈ s.repr x) ∨ ∃ t0 t1 c l, .c2 t0 t1 c f l ∈ s.repr x)

omit [Field K] in
theorem Used.keep {P : Nat → Prop} {s s' : St K} (h : Used P s) (hr : ∀ x, s.repr x <+: s'.repr x) (h2 : s'.t2 = s.t2)
    (h3 : s'.t3 = s.t3) (hS : s'.tS = s.tS) : Used P s' := by
  constructor
  · intro c hc
    rw [h2] at hc
    obtain ⟨x, t0, t1, f, l, hP, hm⟩ := h.c2 c hc
    exact ⟨x, t0, t1, f, l, hP, (hr x).subset hm⟩
  · intro c hc
    rw [h3] at hc
    obtain ⟨x, t0, t1, l, hP, hm⟩ := h.c3 c hc
    exact ⟨x, t0, t1, l, hP, (hr x).subset hm⟩
  · intro f hf
    rw [hS] at hf
    obtain ⟨x, hP, hm⟩ := h.sf f hf
    refine ⟨x, hP, ?_⟩
    rcases hm with ⟨l, hm⟩ | ⟨t0, t1, c, l, hm⟩
    · exact Or.inl ⟨l, (hr x).subset hm⟩
    · exact Or.inr ⟨t0, t1, c, l, (hr x).subset hm⟩

theorem visit_new {t : Tab} {x y : Nat} (h : ((t.visit x).ids y).isSome) : (t.ids y).isSome ∨ y = x := by
  rcases t.visit_cases x with ⟨-, e⟩ | ⟨-, e⟩ <;> rw [e] at h
  · exact Or.inl h
  · rw [Tab.push_ids] at h
    by_cases hy : y = x
    · exact Or.inr hy
    · rw [if_neg hy] at h; exact Or.inl h

theorem used_steps (g : Graph K) (root : Nat) : Steps g (Reach g root) fun s s' => Used (Reach g root) s → Used (Reach g root) s' where
  refl _ h := h
  trans _ _ _ h h' hu := h' (h hu)
  down i hi r hr := hi.tail ⟨r, hr, rfl⟩
  loc _ _ _ _ s h := h.keep (fun _ => List.prefix_refl _) rfl rfl rfl
  push _ _ s h := h.keep (fun _ => List.prefix_refl _) rfl rfl rfl
  repr i hi _ s r hr h := by
    cases r with
    | sf f l => exact h
    | c3 t0 t1 c l =>
      refine ⟨h.c2, fun c' hc => ?_, h.sf⟩
      rcases visit_new hc with hc | rfl
      · exact h.c3 c' hc
      · exact ⟨i, t0, t1, l, hi, hr⟩
    | c2 t0 t1 c f l =>
      refine ⟨fun c' hc => ?_, h.c3, fun f' hf => ?_⟩
      · rcases visit_new hc with hc | rfl
        · exact h.c2 c' hc
        · exact ⟨i, t0, t1, f, l, hi, hr⟩
      · rcases visit_new hf with hf | rfl
        · exact h.sf f' hf
        · exact ⟨i, hi, Or.inr ⟨t0, t1, c, l, hr⟩⟩
  face i hi _ s f l hf h := by
    refine ⟨h.c2, h.c3, fun f' hf' => ?_⟩
    rcases visit_new hf' with hf' | rfl
    · exact h.sf f' hf'
    · exact ⟨i, hi, Or.inl ⟨l, by show _ ∈ s.repr i; rw [hf]; simp⟩⟩
  curve i _ _ s s' _ he h := by
    have a := (att_curve he).1
    exact h.keep (keep_curve he).repr a.t2 a.t3 a.tS
  surf i _ _ s s' he hs h := by
    have a := att_surface hs
    exact h.keep (keep_surface he hs).repr a.t2 a.t3 a.tS

/-- Every curve and surface in the file is used by a representation of a shape of the model. -/
theorem no_unused_geometry {g : Graph K} (hl : LocsOk g.locs) (hk : KindsOk g) {root loc : Nat} {s s' : St K} {file : File K}
    (hf : Fresh s) (h : writeModel g root loc s = .ok (file, s')) :
    (∀ c ∈ file.c2, ∃ x t0 t1 i f l, Reach g root x ∧ .c2 t0 t1 i f l ∈ s'.repr x ∧ c = s'.c2 i) ∧
    (∀ c ∈ file.c3, ∃ x t0 t1 i l, Reach g root x ∧ .c3 t0 t1 i l ∈ s'.repr x ∧ c = s'.c3 i) ∧
    ∀ c ∈ file.sf, ∃ x f, Reach g root x ∧ c = s'.sf f ∧
      ((∃ l, .sf f l ∈ s'.repr x) ∨ ∃ t0 t1 i l, .c2 t0 t1 i f l ∈ s'.repr x) := by
  obtain ⟨s1, h1, h⟩ := bind_ok h
  obtain ⟨locs, h2, h⟩ := bind_ok h
  obtain ⟨shapes, h3, h⟩ := bind_ok h
  cases h
  have hu : Used (Reach g root) s1 := by
    unfold indexAll at h1
    split at h1
    · cases h1
    · rename_i s2 hd
      cases h1
      refine (steps_dfs (used_steps g root) 8 root .refl _ _ hd ?_).keep (fun _ => List.prefix_refl _) rfl rfl rfl
      constructor
      · intro c hc; simp [clearGroups, hf.c2] at hc
      · intro c hc; simp [clearGroups, hf.c3] at hc
      · intro c hc; simp [clearGroups, hf.S] at hc
  obtain ⟨hi, -⟩ := index_spec hl hk hf h1
  have mem : ∀ {t : Tab}, t.Ok → ∀ x ∈ t.list, (t.ids x).isSome := by
    intro t ht x hx
    obtain ⟨p, hp⟩ := List.mem_iff_getElem?.1 hx
    rw [(ht x p).2 hp]; rfl
  refine ⟨?_, ?_, ?_⟩
  · intro c hc
    obtain ⟨i, hm, rfl⟩ := List.mem_map.1 hc
    obtain ⟨x, t0, t1, f, l, hP, hm⟩ := hu.c2 i (mem hi.ok2 i hm)
    exact ⟨x, t0, t1, i, f, l, hP, hm, rfl⟩
  · intro c hc
    obtain ⟨i, hm, rfl⟩ := List.mem_map.1 hc
    obtain ⟨x, t0, t1, l, hP, hm⟩ := hu.c3 i (mem hi.ok3 i hm)
    exact ⟨x, t0, t1, i, l, hP, hm, rfl⟩
  · intro c hc
    obtain ⟨f, hm, rfl⟩ := List.mem_map.1 hc
    obtain ⟨x, hP, hm⟩ := hu.sf f (mem hi.okS f hm)
    exact ⟨x, f, hP, rfl, hm⟩

/-! ### Success -/

/-- The reference `e` to an edge, with its orientation, leads from the vertex `a` to the vertex `b`. -/
def Leads (g : Graph K) (e : Ref) (a b : Nat) : Prop :=
  ∃ r r', g.childs e.shape = [r, r'] ∧
    ((e.orient ≠ 2 ∧ r.shape = a ∧ r'.shape = b) ∨ (e.orient = 2 ∧ r.shape = b ∧ r'.shape = a))

/-- The edges of the wires of the face lead around the vertices `vs`. -/
def Around (g : Graph K) (x : Nat) (vs : List Nat) : Prop :=
  List.Forall₂ (fun e (p : Nat × Nat) => Leads g e p.1 p.2) ((g.childs x).flatMap fun w => g.childs w.shape)
    (vs.zip (vs.rotate 1))

/-- The boundary of a face is a triangle or a quadrilateral whose edges follow each other. -/
def Ring (g : Graph K) (x : Nat) : Prop :=
  (∀ r ∈ g.childs x, g.kind r.shape = .wire) ∧ ((∃ a b c, Around g x [a, b, c]) ∨ ∃ a b c d, Around g x [a, b, c, d])

omit [Field K] in
theorem around_vtxs {g : Graph K} {x : Nat} {vs : List Nat} (h : Around g x vs) :
    faceVtxs g x = (vs.zip (vs.rotate 1)).flatMap fun p => [p.1, p.2] := by
  unfold Around at h
  unfold faceVtxs faceEdges
  generalize (g.childs x).flatMap (fun w => g.childs w.shape) = l at h ⊢
  generalize vs.zip (vs.rotate 1) = m at h ⊢
  induction h with
  | nil => rfl
  | cons h _ ih =>
    obtain ⟨r, r', hc, ⟨ho, h1, h2⟩ | ⟨ho, h1, h2⟩⟩ := h
    · simp only [List.flatMap_cons, if_neg ho, hc, ih, List.map_cons, List.map_nil, h1, h2]
    · simp [List.flatMap_cons, ho, hc, ih, h1, h2]

/-- Edges have two vertices; faces have a surface, or a boundary from which it can be made. -/
structure Ready (g : Graph K) (root : Nat) (s : St K) : Prop where
  edge : ∀ x, Reach g root x → g.kind x = .edge → ∃ r r', g.childs x = [r, r']
  face : ∀ x, Reach g root x → g.kind x = .face → (s.repr x = [] ∧ Ring g x) ∨ ∃ f l, s.repr x = [.sf f l]

omit [Field K] in
theorem Ready.of_repr {g : Graph K} {root : Nat} {s s' : St K} (h : Ready g root s)
    (hr : ∀ x, g.kind x = .face → s'.repr x = s.repr x) : Ready g root s' :=
  ⟨h.edge, fun x hx hk => by rw [hr x hk]; exact h.face x hx hk⟩

omit [Field K] in
theorem faceEdges_kind {g : Graph K} (hk : KindsOk g) {i : Nat} (hi : g.kind i = .face) {e : Ref} (he : e ∈ faceEdges g i) :
    g.kind e.shape ≠ .face := by
  obtain ⟨w, hw, he⟩ := List.mem_flatMap.1 he
  intro hc
  have a := hk.rank hw
  have b := hk.rank he
  rw [hi] at a
  rw [hc] at b
  simp only [Kind.rank] at a b
  omega

theorem surface_repr {g : Graph K} {i : Nat} {s s' : St K} (hn : i ∉ (faceEdges g i).map Ref.shape)
    (h : implicitSurface g i s = .ok s') : s'.repr i = [.sf s.nS 0] := by
  have hes : i ∉ ((faceEdges g i).foldl (fun d e => putDict d (idOf s e.shape) e.shape) []).map Prod.snd := by
    intro hx
    rcases edgesDict_mem _ _ i hx with h | h
    · simp at h
    · exact hn h
  unfold implicitSurface at h
  simp only at h
  split at h
  · cases h
  · split at h
    · rw [(att_all _ h).repr i hes]; simp
    · rw [(att_all _ h).repr i hes]; simp
    · cases h

theorem ready_steps {g : Graph K} (hk : KindsOk g) (root : Nat) :
    Steps g (Reach g root) fun s s' => Ready g root s → Ready g root s' where
  refl _ h := h
  trans _ _ _ h h' hu := h' (h hu)
  down i hi r hr := hi.tail ⟨r, hr, rfl⟩
  loc _ _ _ _ s h := h.of_repr fun _ _ => rfl
  push _ _ s h := h.of_repr fun _ _ => rfl
  repr i hi _ s r hr h := h.of_repr fun _ _ => by rw [reprDfs_repr]
  face i hi _ s f l hf h := h.of_repr fun _ _ => rfl
  curve i _ hki s s' _ he h := by
    refine h.of_repr fun x hx => (att_curve he).1.repr x ?_
    simp only [List.mem_singleton]
    rintro rfl
    rw [hki] at hx; cases hx
  surf i hi hki s s' he hs h := by
    refine ⟨h.edge, fun x hx hkx => ?_⟩
    have hni : ∀ y, g.kind y = .face → y ∉ (faceEdges g i).map Ref.shape := by
      intro y hy hc
      obtain ⟨e, he, rfl⟩ := List.mem_map.1 hc
      exact faceEdges_kind hk hki he hy
    by_cases hxi : x = i
    · subst hxi
      exact Or.inr ⟨s.nS, 0, surface_repr (hni x hkx) hs⟩
    · rw [(att_surface hs).repr x (by simp only [List.mem_cons, not_or]; exact ⟨hxi, hni x hkx⟩)]
      exact h.face x hx hkx

theorem lastOf_some {α : Type} {d : List (Nat × α)} {k : Nat} (h : k ∈ d.map Prod.fst) : ∃ a, lastOf d k = some a := by
  obtain ⟨p, hp, rfl⟩ := List.mem_map.1 h
  unfold lastOf
  have : ((d.reverse.find? fun q => q.1 == p.1)).isSome := by
    rw [List.find?_isSome]
    exact ⟨p, by simpa using hp, by simp⟩
  obtain ⟨q, hq⟩ := Option.isSome_iff_exists.1 this
  exact ⟨q.2, by rw [hq]; rfl⟩

theorem attachAll_total {g : Graph K} {surf : Nat} {uv : List (Nat × List K)} {t : Tab} (es : List Nat)
    (h : ∀ e ∈ es, ∃ r r', g.childs e = [r, r'] ∧ (t.ids r.shape).getD 0 ∈ uv.map Prod.fst ∧
      (t.ids r'.shape).getD 0 ∈ uv.map Prod.fst) : ∀ s : St K, s.tT = t → ∃ s', attachAll g surf uv es s = .ok s' := by
  induction es with
  | nil => intro s _; exact ⟨s, rfl⟩
  | cons e es ih =>
    intro s ht
    obtain ⟨r, r', hc, h0, h1⟩ := h e (by simp)
    obtain ⟨a, ha⟩ := lastOf_some h0
    obtain ⟨b, hb⟩ := lastOf_some h1
    obtain ⟨s', hs'⟩ := ih (fun e he => h e (by simp [he])) (attach s e surf a b) (by simp [attach, ht])
    refine ⟨s', ?_⟩
    subst ht
    simp only [attachAll, hc, List.map_cons, List.map_nil, idOf]
    rw [ha, hb]
    exact hs'

theorem surface_total {g : Graph K} (hk : KindsOk g) {root i : Nat} {s : St K} (hi : Reach g root i)
    (hki : g.kind i = .face) (hr : Ready g root s) (hg : Ring g i) : ∃ s', implicitSurface g i s = .ok s' := by
  have hedge : ∀ e ∈ ((faceEdges g i).foldl (fun d e => putDict d (idOf s e.shape) e.shape) []).map Prod.snd,
      ∃ r r', g.childs e = [r, r'] ∧ r.shape ∈ faceVtxs g i ∧ r'.shape ∈ faceVtxs g i := by
    intro e he
    rcases edgesDict_mem _ _ e he with h | h
    · simp at h
    · obtain ⟨er, her, rfl⟩ := List.mem_map.1 h
      obtain ⟨w, hw, hew, hre⟩ := faceEdges_reach her
      have hkw := hg.1 w hw
      have hke : g.kind er.shape = .edge := by
        have := hk _ _ hew
        rw [hkw] at this
        simpa [Kind.allows] using this
      obtain ⟨r, r', hc⟩ := hr.edge _ (hi.trans hre) hke
      have hm : ∀ v ∈ (g.childs er.shape).map Ref.shape, v ∈ faceVtxs g i := by
        intro v hv
        refine List.mem_flatMap.2 ⟨er, her, ?_⟩
        split
        · simpa using hv
        · exact hv
      exact ⟨r, r', hc, hm _ (by simp [hc]), hm _ (by simp [hc])⟩
  have hsub : ∀ (vs : List Nat) (uv : List (Nat × List K)) (s1 : St K), s1.tT = s.tT → (∀ v ∈ faceVtxs g i, v ∈ vs) →
      uv.map Prod.fst = vs.map (fun v => idOf s v) → ∃ s', attachAll g s.nS uv
        (((faceEdges g i).foldl (fun d e => putDict d (idOf s e.shape) e.shape) []).map Prod.snd) s1 = .ok s' := by
    intro vs uv s1 ht hvs huv
    refine attachAll_total (t := s.tT) _ ?_ s1 ht
    intro e he
    obtain ⟨r, r', hc, h0, h1⟩ := hedge e he
    refine ⟨r, r', hc, ?_, ?_⟩ <;> rw [huv]
    · exact List.mem_map.2 ⟨_, hvs _ h0, rfl⟩
    · exact List.mem_map.2 ⟨_, hvs _ h1, rfl⟩
  rcases hg.2 with ⟨a, b, c, hv⟩ | ⟨a, b, c, d, hv⟩
  · replace hv := around_vtxs hv
    simp only [List.rotate_cons_succ, List.rotate_zero, List.cons_append, List.nil_append, List.zip_cons_cons, List.zip_nil_left,
      List.flatMap_cons, List.flatMap_nil] at hv
    simp only [implicitSurface, hv, List.map_cons, List.map_nil, List.drop_succ_cons, List.drop_zero, List.take_succ_cons,
      List.take_zero, List.cons_append, List.nil_append, odds, evens, ne_eq, not_true_eq_false, if_false]
    exact hsub [b, c, a] _ _ rfl (by rw [hv]; intro v; simp; tauto) (by simp)
  · replace hv := around_vtxs hv
    simp only [List.rotate_cons_succ, List.rotate_zero, List.cons_append, List.nil_append, List.zip_cons_cons, List.zip_nil_left,
      List.flatMap_cons, List.flatMap_nil] at hv
    simp only [implicitSurface, hv, List.map_cons, List.map_nil, List.drop_succ_cons, List.drop_zero, List.take_succ_cons,
      List.take_zero, List.cons_append, List.nil_append, odds, evens, ne_eq, not_true_eq_false, if_false]
    exact hsub [b, c, d, a] _ _ rfl (by rw [hv]; intro v; simp; tauto) (by simp)

omit [Field K] in
theorem loop_total {Q : St K → Prop} {α : Type} {f : α → St K → Except Err (St K)} (l : List α)
    (hf : ∀ a ∈ l, ∀ s, Q s → ∃ s', f a s = .ok s' ∧ Q s') : ∀ s, Q s → ∃ s', loop f l s = .ok s' ∧ Q s' := by
  induction l with
  | nil => intro s h; exact ⟨s, rfl, h⟩
  | cons a l ih =>
    intro s h
    obtain ⟨s1, h1, q1⟩ := hf a (by simp) s h
    obtain ⟨s2, h2, q2⟩ := ih (fun b hb => hf b (by simp [hb])) s1 q1
    exact ⟨s2, by simp only [loop, h1]; exact h2, q2⟩

theorem dfs_total {g : Graph K} (hk : KindsOk g) (root : Nat) (f : Nat) : ∀ i s, (g.kind i).rank < f → Reach g root i →
    Ready g root s → ∃ s', dfs g f i s = .ok s' ∧ Ready g root s' := by
  induction f with
  | zero => intro i s h; omega
  | succ f ih =>
    intro i s hf hi hr
    suffices h : ∃ s', dfs g (f + 1) i s = .ok s' by
      obtain ⟨s', h⟩ := h
      exact ⟨s', h, steps_dfs (ready_steps hk root) _ i hi _ _ h hr⟩
    have hb : ∃ s1, shapeBase g (dfs g f) i s = .ok s1 ∧ Ready g root s1 := by
      unfold shapeBase
      split
      · exact ⟨s, rfl, hr⟩
      · obtain ⟨s1, h1, q1⟩ := loop_total (Q := Ready g root)
          (f := fun (r : Ref) s => dfs g f r.shape (visitLoc g s r.loc)) (g.childs i)
          (fun r hr' s hs => ih r.shape _ (by have := hk.rank hr'; omega) (hi.tail ⟨r, hr', rfl⟩)
            (hs.of_repr fun _ _ => rfl)) s hr
        rw [h1]
        exact ⟨_, rfl, q1.of_repr fun _ _ => rfl⟩
    obtain ⟨s1, h1, q1⟩ := hb
    simp only [dfs, h1]
    unfold shapePost
    cases hki : g.kind i
    case edge =>
      simp only
      unfold edgePost
      by_cases he : s1.repr i = []
      · rw [if_pos he]
        obtain ⟨r, r', hc⟩ := q1.edge i hi hki
        simp only [implicitCurve, hc, List.map_cons, List.map_nil]
        exact ⟨_, rfl⟩
      · rw [if_neg he]; exact ⟨_, rfl⟩
    case face =>
      simp only
      have hfp : ∃ s2, facePost g i s1 = .ok s2 ∧ Ready g root s2 := by
        unfold facePost
        rcases q1.face i hi hki with ⟨he, hg⟩ | ⟨f, l, he⟩
        · rw [if_pos he]
          obtain ⟨s2, h2⟩ := surface_total hk hi hki q1 hg
          have q2 := (ready_steps hk root).surf i hi hki _ _ he h2 q1
          have hni : i ∉ (faceEdges g i).map Ref.shape := by
            intro hc
            obtain ⟨e, he, hei⟩ := List.mem_map.1 hc
            rw [← hei] at hki
            exact faceEdges_kind hk (hei ▸ hki) he hki
          rw [h2]
          simp only [surface_repr hni h2]
          exact ⟨_, rfl, q2.of_repr fun _ _ => rfl⟩
        · rw [if_neg (by rw [he]; simp)]
          simp only [he]
          exact ⟨_, rfl, q1.of_repr fun _ _ => rfl⟩
      obtain ⟨s2, h2, q2⟩ := hfp
      simp only [h2]
      obtain ⟨s3, h3, -⟩ := loop_total (Q := Ready g root) (f := fun (r : Ref) s => dfs g f r.shape s) (faceEdges g i)
        (fun r hr' s hs => by
          obtain ⟨w, hw, hrw, hre⟩ := faceEdges_reach hr'
          have a := hk.rank hw
          have b := hk.rank hrw
          exact ih r.shape s (by omega) (hi.trans hre) hs) s2 q2
      exact ⟨s3, h3⟩
    all_goals exact ⟨_, rfl⟩

omit [Field K] in
theorem rank_lt_eight (k : Kind) : k.rank < 8 := by cases k <;> simp [Kind.rank]

theorem ok_bind {α β : Type} {m : Except Err α} {f : α → Except Err β} {a : α} (h : m = .ok a) : (m >>= f) = f a := by
  rw [h]; rfl

theorem attr_total {t : Tab} {x : Nat} (h : (t.ids x).isSome) : ∃ k, attr t x = .ok k := by
  obtain ⟨k, hk⟩ := Option.isSome_iff_exists.1 h
  exact ⟨k, by simp [attr, hk]⟩

/-- `write_model` succeeds on every model in which edges have two vertices and faces have a surface or a boundary made of
three or four edges that follow each other. -/
theorem write_succeeds {g : Graph K} (hl : LocsOk g.locs) (hk : KindsOk g) (root loc : Nat) {s : St K} (hf : Fresh s)
    (hr : Ready g root s) : ∃ file s', writeModel g root loc s = .ok (file, s') := by
  obtain ⟨s0, h0, q0⟩ := dfs_total hk root 8 root (clearGroups s) (rank_lt_eight _) .refl (hr.of_repr fun _ _ => rfl)
  have h1 : indexAll g root loc s = .ok (visitLoc g s0 loc) := by simp only [indexAll, h0]
  obtain ⟨hi, hn, hd, -⟩ := index_spec hl hk hf h1
  generalize visitLoc g s0 loc = s1 at h1 hi hn hd
  have mem : ∀ {t : Tab}, t.Ok → ∀ x ∈ t.list, ∃ k, t.ids x = some (k + 1) := by
    intro t ht x hx
    obtain ⟨p, hp⟩ := List.mem_iff_getElem?.1 hx
    exact ⟨p, (ht x p).2 hp⟩
  obtain ⟨locs, h2⟩ : ∃ m, s1.tL.list.mapM (writeLoc g { s1 with tT := flip s1.tT }) = .ok m := by
    refine mapM_total _ fun l hlm => ?_
    obtain ⟨k, hkl⟩ := mem hi.locs.ok l hlm
    rcases hc : g.locs l with m | ps <;> simp only [writeLoc, hc]
    · exact ⟨_, rfl⟩
    · obtain ⟨m, hm⟩ := mapM_total (f := fun (p : Nat × Int) => do
          let k ← attr s1.tL p.1
          pure (k, p.2)) ps (fun p hp => by
        obtain ⟨j, hj, -⟩ := hi.locs.comp l ps (k + 1) hc hkl (by omega) p hp
        exact ⟨(j, p.2), by simp only [attr, hj]; rfl⟩)
      exact ⟨.composed m, by rw [hm]; rfl⟩
  obtain ⟨shapes, h3⟩ : ∃ m, s1.tT.list.mapM (writeShape g { s1 with tT := flip s1.tT }) = .ok m := by
    refine mapM_total _ fun x hx => ?_
    obtain ⟨k, hkx⟩ := mem hi.okT x hx
    obtain ⟨sub, hsub⟩ : ∃ sub, writeSub g { s1 with tT := flip s1.tT } x = .ok sub := by
      have hdx := hd x (by simp [num, hkx])
      unfold Done at hdx
      cases hkx' : g.kind x <;> simp only [hkx'] at hdx <;> simp only [writeSub, hkx']
      case edge =>
        rw [if_neg hdx.1]
        obtain ⟨m, hm⟩ := mapM_total (f := writeRepr { s1 with tT := flip s1.tT }) (s1.repr x) (fun r hr => by
          have hnr := hdx.2 r hr
          cases r with
          | sf f l => exact ⟨_, rfl⟩
          | c3 t0 t1 c l =>
            obtain ⟨a, ha⟩ := attr_total hnr.1
            obtain ⟨b, hb⟩ := attr_total hnr.2
            exact ⟨.c3 t0 t1 a b, by simp only [writeRepr, ha, hb]; rfl⟩
          | c2 t0 t1 c f l =>
            obtain ⟨a, ha⟩ := attr_total hnr.1
            obtain ⟨b, hb⟩ := attr_total hnr.2.1
            obtain ⟨d, hd⟩ := attr_total hnr.2.2
            exact ⟨.c2 t0 t1 a b d, by simp only [writeRepr, ha, hb, hd]; rfl⟩)
        exact ⟨.edge m, by rw [hm]; rfl⟩
      case face =>
        obtain ⟨f, l, he, h4, h5⟩ := hdx
        obtain ⟨a, ha⟩ := attr_total h4
        obtain ⟨b, hb⟩ := attr_total h5
        exact ⟨.face a b, by simp only [he, ha, hb]; rfl⟩
      all_goals exact ⟨_, rfl⟩
    obtain ⟨ch, hch⟩ : ∃ ch, (g.childs x).mapM (writeRef { s1 with tT := flip s1.tT }) = .ok ch := by
      refine mapM_total _ fun r hr => ?_
      obtain ⟨⟨j, -, hj⟩, hlr⟩ := hi.kids x _ hkx r hr
      obtain ⟨a, ha⟩ := attr_total (flip_some (t := s1.tT) (x := r.shape) (by rw [hj]; rfl))
      obtain ⟨b, hb⟩ := attr_total hlr
      exact ⟨⟨a, r.orient, b⟩, by simp only [writeRef, ha, hb]; rfl⟩
    exact ⟨⟨g.kind x, sub, g.flags x, ch⟩, by simp only [writeShape, hsub, hch]; rfl⟩
  exact ⟨⟨locs, s1.t2.list.map s1.c2, s1.t3.list.map s1.c3, s1.tS.list.map s1.sf, shapes, ⟨1, 1, 0⟩⟩,
    { s1 with tT := flip s1.tT }, (ok_bind h1).trans ((ok_bind h2).trans ((ok_bind h3).trans rfl))⟩

end Verif.Brep
