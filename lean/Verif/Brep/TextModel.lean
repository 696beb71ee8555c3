import Verif.Brep.TextProps
import Mathlib.Data.Rat.Lemmas

/-! The text that `write_model` writes for an object graph is read back. -/
namespace Verif.Brep

variable {K : Type}

/-! ### Compound solids -/

/-- The reader fails on the words, whatever follows. -/
def Bad {α : Type} (r : Rd α) (ws : List Word) : Prop := ∀ l, r (ws ++ l) = none

theorem Bad.first {α β : Type} {r : Rd α} {f : α → Rd β} {u v : List Word} (h : Bad r u) : Bad (r >>= f) (u ++ v) := by
  intro l
  change Rd.bind r f _ = _
  rw [Rd.bind, List.append_assoc, h]

theorem Bad.then {α β : Type} {r : Rd α} {f : α → Rd β} {u v : List Word} {a : α} (h : Reads r u a) (h' : Bad (f a) v) :
    Bad (r >>= f) (u ++ v) := by
  intro l
  change Rd.bind r f _ = _
  rw [Rd.bind, List.append_assoc, h]
  exact h' l

theorem Bad.cons {α β : Type} {r : Rd α} {f : α → Rd β} {w : Word} {v : List Word} {a : α} (h : Reads r [w] a) (h' : Bad (f a) v) :
    Bad (r >>= f) (w :: v) := Bad.then h h'

theorem bad_shape (F : Fmt K) {s : TShp K} (hc : s.kind = .compSolid) : Bad (rdShape F) (shapeWords F s) := by
  have : Bad (Rd.word kindValue) [s.kind.name] := by
    rw [hc]
    intro l
    rfl
  have e : shapeWords F s = [s.kind.name] ++ (subWords F s.sub ++ [s.flags.flatMap nat] ++ s.childs.flatMap refWords ++ ["*".toList]) := by
    simp only [shapeWords, List.append_assoc, List.cons_append, List.nil_append]
  rw [e]
  exact this.first

theorem bad_rep {α : Type} {r : Rd α} {t : α → List Word} {P : α → Prop} (l : List α) (h : ∀ a ∈ l, ¬ P a → Reads r (t a) a)
    (hP : ∀ a ∈ l, P a → Bad r (t a)) (hex : ∃ a ∈ l, P a) : Bad (rdRep r l.length) (l.flatMap t) := by
  induction l with
  | nil => obtain ⟨a, ha, _⟩ := hex; cases ha
  | cons a l ih =>
    rw [List.flatMap_cons]
    by_cases ha : P a
    · exact (hP a (by simp) ha).first
    · have := Bad.first (v := []) (f := fun l => (pure (a :: l) : Rd (List α)))
        (ih (fun b hb => h b (by simp [hb])) (fun b hb => hP b (by simp [hb])) (by
          obtain ⟨b, hb, hb'⟩ := hex
          rcases List.mem_cons.1 hb with rfl | hb
          · exact absurd hb' ha
          · exact ⟨b, hb, hb'⟩))
      rw [List.append_nil] at this
      exact Bad.then (h a (by simp) ha) this

/-- A file with a compound solid is not read: its name is written "Cs", the format has "CS". -/
theorem compSolid_unreadable (F : Fmt K) {f : TFile K} (h : f.Fits) (hc : ∃ s ∈ f.shapes, s.kind = .compSolid) :
    readText F (fileText F f) = none := by
  have hw := file_words F f fun s hs hh => by
    have := (h.shapes s hs).flags.1
    rw [hh] at this
    cases this
  have hG : Bad (rdFile F) (fileWords F f) := by
    rw [fileWords_eq]
    unfold rdFile
    refine Bad.cons (reads_this _) <| .cons (reads_this _) <| .cons (reads_this _) <| .cons (reads_this _) <| .cons (reads_this _) <|
      .cons (reads_this _) <| .then (reads_section _ _ fun l hl => reads_loc F (h.locs l hl)) <|
      .then (reads_section _ _ fun l hl => reads_curve F (h.c2 l hl)) <| .then (reads_section _ _ fun l hl => reads_curve F (h.c3 l hl)) <|
      .then (reads_section _ [] (by simp)) <| .then (reads_section _ [] (by simp)) <|
      .then (reads_section _ _ fun l hl => reads_surf F (h.sf l hl)) <| .then (reads_section _ [] (by simp)) <| Bad.first ?_
    exact Bad.cons (reads_this _) <| .cons (reads_nat _) <|
      bad_rep f.shapes (P := fun s => s.kind = .compSolid) (fun s hs hk => reads_shape F (h.shapes s hs) hk) (fun s _ hk => bad_shape F hk) hc
  have := hG []
  rw [List.append_nil] at this
  rw [readText, hw, this]

/-! ### Texts of object graphs -/

/-- Attributes of a shape that are written but do not enter the numbering: tolerance, restriction flag of a face, flags of an edge
(brep_writer.py:742-743, 857-859, 984). -/
structure Extra (K : Type) where
  tol : K
  restriction : Nat
  edgeFlags : Nat × Nat × Nat

def dress (x : Extra K) : SubRec K → TSub K
  | .none => .none
  | .vertex p => .vertex x.tol p
  | .edge rs => .edge x.tol x.edgeFlags.1 x.edgeFlags.2.1 x.edgeFlags.2.2 rs
  | .face f l => .face x.restriction x.tol f l

/-- The records with the attributes of the shapes. -/
def textFile (x : Nat → Extra K) (s : St K) (file : File K) : TFile K :=
  ⟨file.locs, file.c2, file.c3, file.sf,
    List.zipWith (fun i r => ⟨r.kind, dress (x i) r.sub, r.flags, r.childs⟩) s.tT.list file.shapes⟩

/-- What the constructors check (brep_writer.py:78, 478, 528, 977): points have three coordinates (for other shapes the value is not used), seven flags,
orientations 1 to 4, matrices 3 times 4; and no component of a composed location is the identity. -/
structure Graph.Fits (g : Graph K) : Prop where
  point : ∀ i, (g.point i).length = 3
  flags : ∀ i, (g.flags i).length = 7 ∧ ∀ f ∈ g.flags i, f ≤ 1
  orient : ∀ i, ∀ r ∈ g.childs i, 1 ≤ r.orient ∧ r.orient ≤ 4
  elem : ∀ l m, g.locs l = .elem m → m.length = 3 ∧ ∀ r ∈ m, r.length = 4
  comp : ∀ l ps, g.locs l = .composed ps → ∀ p ∈ ps, p.1 ≠ 0

/-- What the constructors of curves and surfaces check (brep_writer.py:178-181, 233-237, 304-316), and edges have no surface as representation. -/
structure St.Fits (g : Graph K) (s : St K) : Prop where
  c2 : ∀ c, (s.c2 c).Fits 2
  c3 : ∀ c, (s.c3 c).Fits 3
  sf : ∀ c, (s.sf c).Fits
  repr : ∀ i, g.kind i = .edge → ∀ r ∈ s.repr i, ∀ f l, r ≠ .sf f l

theorem forall₂_mem' {α β : Type} {R : α → β → Prop} {l : List α} {m : List β} (h : List.Forall₂ R l m) {b : β} (hb : b ∈ m) :
    ∃ a ∈ l, R a b := by
  induction h with
  | nil => cases hb
  | cons hab _ ih =>
    rcases List.mem_cons.1 hb with rfl | hb
    · exact ⟨_, by simp, hab⟩
    · obtain ⟨a, ha, h⟩ := ih hb
      exact ⟨a, by simp [ha], h⟩

section
variable [Field K]

theorem line_fits {a b : List K} {n : Nat} (ha : a.length = n) (hb : b.length = n) : (lineOf a b).Fits n := by
  intro p hp
  simp only [lineOf, List.mem_cons, List.not_mem_nil, or_false] at hp
  rcases hp with rfl | rfl | rfl <;> simp [lineOf, ha, hb]

theorem mean_length {l : List (List K)} (hl : l ≠ []) {n : Nat} (h : ∀ p ∈ l, p.length = n) : (meanOf l).length = n := by
  cases l with
  | nil => exact absurd rfl hl
  | cons p ps =>
    simp only [meanOf, List.length_map]
    have : ∀ (ps : List (List K)) (p : List K), p.length = n → (∀ q ∈ ps, q.length = n) →
        (ps.foldl (List.zipWith (· + ·)) p).length = n := by
      intro ps
      induction ps with
      | nil => intro p hp _; exact hp
      | cons q ps ih =>
        intro p hp hq
        refine ih _ ?_ fun r hr => hq r (by simp [hr])
        simp [hp, hq q (by simp)]
    exact this ps p (h p (by simp)) fun q hq => h q (by simp [hq])

theorem bilinear_fits {a b c d : List K} (ha : a.length = 3) (hb : b.length = 3) (hc : c.length = 3) (hd : d.length = 3) :
    (bilinear a b c d).Fits := by
  have m2 : ∀ {p q : List K}, p.length = 3 → q.length = 3 → (meanOf [p, q]).length = 3 := fun hp hq =>
    mean_length (by simp) (by simp [hp, hq])
  have m4 : (meanOf [a, b, c, d]).length = 3 := mean_length (by simp) (by simp [ha, hb, hc, hd])
  intro r hr
  simp only [bilinear, List.mem_cons, List.not_mem_nil, or_false] at hr
  rcases hr with rfl | rfl | rfl <;> simp [bilinear, ha, hb, hc, hd, m2, m4]

theorem plane_fits {a b c : List K} (ha : a.length = 3) (hb : b.length = 3) (hc : c.length = 3) : (plane a b c).Fits :=
  bilinear_fits ha hb (by simp [ha, hb, hc]) hc

theorem attach_fits {g : Graph K} {s : St K} (h : s.Fits g) (e surf : Nat) {a b : List K} (ha : a.length = 2) (hb : b.length = 2) :
    (attach s e surf a b).Fits g where
  c2 c := by
    simp only [attach, Function.update_apply]
    split
    · exact line_fits ha hb
    · exact h.c2 c
  c3 := h.c3
  sf := h.sf
  repr i hi r hr f l := by
    simp only [attach, Function.update_apply] at hr
    split at hr
    · next hie =>
      subst hie
      rcases List.mem_append.1 hr with hr | hr
      · exact h.repr i hi r hr f l
      · rw [List.mem_singleton.1 hr]
        intro hh
        cases hh
    · exact h.repr i hi r hr f l

theorem lastOf_mem {α : Type} {d : List (Nat × α)} {k : Nat} {a : α} (h : lastOf d k = some a) : ∃ j, (j, a) ∈ d := by
  unfold lastOf at h
  obtain ⟨p, hp, rfl⟩ := Option.map_eq_some_iff.1 h
  exact ⟨p.1, List.mem_reverse.1 (List.mem_of_find?_eq_some hp)⟩

theorem attachAll_fits {g : Graph K} {surf : Nat} {uv : List (Nat × List K)} (huv : ∀ p ∈ uv, p.2.length = 2) (es : List Nat) :
    ∀ {s s' : St K}, attachAll g surf uv es s = .ok s' → s.Fits g → s'.Fits g := by
  induction es with
  | nil => intro s s' h hs; cases h; exact hs
  | cons e es ih =>
    intro s s' h hs
    simp only [attachAll] at h
    split at h
    · split at h
      · next a b ha hb =>
        obtain ⟨_, ha⟩ := lastOf_mem ha
        obtain ⟨_, hb⟩ := lastOf_mem hb
        exact ih h (attach_fits hs e surf (huv _ ha) (huv _ hb))
      · cases h
    · cases h

theorem surface_fits {g : Graph K} (hg : g.Fits) {i : Nat} {s s' : St K} (hi : g.kind i = .face) (h : implicitSurface g i s = .ok s')
    (hs : s.Fits g) : s'.Fits g := by
  unfold implicitSurface at h
  simp only at h
  split at h
  · cases h
  · have key : ∀ (S : Surf K), S.Fits → St.Fits g { s with
        sf := Function.update s.sf s.nS S
        nS := s.nS + 1
        repr := Function.update s.repr i [.sf s.nS 0] } := by
      intro S hS
      refine ⟨hs.c2, hs.c3, fun c => ?_, fun j hj => ?_⟩
      · simp only [Function.update_apply]
        split
        · exact hS
        · exact hs.sf c
      · have : j ≠ i := by rintro rfl; rw [hi] at hj; cases hj
        simp only [Function.update_of_ne this]
        exact hs.repr j hj
    split at h
    · exact attachAll_fits (by simp) _ h (key _ (plane_fits (hg.point _) (hg.point _) (hg.point _)))
    · exact attachAll_fits (by simp) _ h (key _ (bilinear_fits (hg.point _) (hg.point _) (hg.point _) (hg.point _)))
    · cases h

theorem curve_fits {g : Graph K} (hg : g.Fits) {i : Nat} {s s' : St K} (h : implicitCurve g i s = .ok s') (hs : s.Fits g) :
    s'.Fits g := by
  unfold implicitCurve at h
  split at h
  · next a b hab =>
    have hl : ∀ p ∈ [a, b], p.length = 3 := by
      rw [← hab]
      intro p hp
      obtain ⟨r, _, rfl⟩ := List.mem_map.1 hp
      exact hg.point _
    cases h
    refine ⟨hs.c2, fun c => ?_, hs.sf, fun j hj r hr f l => ?_⟩
    · simp only [Function.update_apply]
      split
      · exact line_fits (hl a (by simp)) (hl b (by simp))
      · exact hs.c3 c
    · simp only [Function.update_apply] at hr
      split at hr
      · next hji =>
        subst hji
        rcases List.mem_append.1 hr with hr | hr
        · exact hs.repr j hj r hr f l
        · rw [List.mem_singleton.1 hr]
          intro hh
          cases hh
      · exact hs.repr j hj r hr f l
  · cases h

theorem fits_steps {g : Graph K} (hg : g.Fits) : Steps g (fun _ => True) fun s s' => s.Fits g → s'.Fits g where
  refl _ h := h
  trans _ _ _ h h' hs := h' (h hs)
  down _ _ _ _ := trivial
  loc _ _ _ _ s h := ⟨h.c2, h.c3, h.sf, h.repr⟩
  push _ _ s h := ⟨h.c2, h.c3, h.sf, h.repr⟩
  repr _ _ _ s r _ h := by cases r <;> exact ⟨h.c2, h.c3, h.sf, h.repr⟩
  face _ _ _ s f l _ h := ⟨h.c2, h.c3, h.sf, h.repr⟩
  curve _ _ _ _ _ _ h hs := curve_fits hg h hs
  surf _ _ hk _ _ _ h hs := surface_fits hg hk h hs

theorem written_fits {g : Graph K} (hl : LocsOk g.locs) (hk : KindsOk g) (hg : g.Fits) (x : Nat → Extra K) {root loc : Nat}
    {s s' : St K} {file : File K} (hf : Fresh s) (hs : s.Fits g) (h : writeModel g root loc s = .ok (file, s')) :
    (textFile x s' file).Fits ∧ ∀ r ∈ (textFile x s' file).shapes, ∃ i, Reach g root i ∧ r.kind = g.kind i := by
  obtain ⟨s1, h1, h⟩ := bind_ok h
  obtain ⟨locs, h2, h⟩ := bind_ok h
  obtain ⟨shapes, h3, h⟩ := bind_ok h
  cases h
  obtain ⟨hi, hn, _, _⟩ := index_spec hl hk hf h1
  have hs1 : s1.Fits g := by
    unfold indexAll at h1
    split at h1
    · cases h1
    · rename_i s2 hd
      cases h1
      have := steps_dfs (fits_steps hg) 8 root trivial _ _ hd ⟨hs.c2, hs.c3, hs.sf, hs.repr⟩
      exact ⟨this.c2, this.c3, this.sf, this.repr⟩
  have f3 := mapM_forall _ h3
  have f2 := mapM_forall _ h2
  have hsh : ∀ r ∈ (textFile x { s1 with tT := flip s1.tT }
      ⟨locs, s1.t2.list.map s1.c2, s1.t3.list.map s1.c3, s1.tS.list.map s1.sf, shapes, ⟨1, 1, 0⟩⟩).shapes,
      ∃ i ∈ s1.tT.list, ∃ rec, writeShape g { s1 with tT := flip s1.tT } i = .ok rec ∧
        r = ⟨rec.kind, dress (x i) rec.sub, rec.flags, rec.childs⟩ := by
    intro r hr
    have key : ∀ (L : List Nat) (M : List (ShpRec K)), List.Forall₂ (fun i rec => writeShape g { s1 with tT := flip s1.tT } i = .ok rec) L M →
        ∀ r ∈ List.zipWith (fun i (r : ShpRec K) => (⟨r.kind, dress (x i) r.sub, r.flags, r.childs⟩ : TShp K)) L M,
        ∃ i ∈ L, ∃ rec, writeShape g { s1 with tT := flip s1.tT } i = .ok rec ∧
        r = ⟨rec.kind, dress (x i) rec.sub, rec.flags, rec.childs⟩ := by
      intro L M hLM
      induction hLM with
      | nil => intro r hr; cases hr
      | cons hab _ ih =>
        intro r hr
        rw [List.zipWith_cons_cons] at hr
        rcases List.mem_cons.1 hr with rfl | hr
        · exact ⟨_, by simp, _, hab, rfl⟩
        · obtain ⟨i, hi, h⟩ := ih r hr
          exact ⟨i, by simp [hi], h⟩
    exact key _ _ f3 r hr
  have hwr : ∀ {i : Nat} {rec : ShpRec K}, writeShape g { s1 with tT := flip s1.tT } i = .ok rec →
      rec.kind = g.kind i ∧ rec.flags = g.flags i ∧ (∀ r ∈ rec.childs, 1 ≤ r.orient ∧ r.orient ≤ 4) ∧
        (dress (x i) rec.sub).Fits rec.kind := by
    intro i rec hrec
    obtain ⟨sub, e1, hrec⟩ := bind_ok hrec
    obtain ⟨ch, e2, hrec⟩ := bind_ok hrec
    cases hrec
    refine ⟨rfl, rfl, fun r hr => ?_, ?_⟩
    · obtain ⟨c, hc, hcr⟩ := forall₂_mem' (mapM_forall _ e2) hr
      obtain ⟨a, _, hcr⟩ := bind_ok hcr
      obtain ⟨b, _, hcr⟩ := bind_ok hcr
      cases hcr
      exact hg.orient i c hc
    · dsimp only
      unfold writeSub at e1
      split at e1
      · next hki =>
        cases e1
        rw [hki]
        exact hg.point i
      · next hki =>
        split at e1
        · cases e1
        · obtain ⟨l, e3, e1⟩ := bind_ok e1
          cases e1
          rw [hki]
          intro r hr f l hh
          obtain ⟨c, hc, hcr⟩ := forall₂_mem' (mapM_forall _ e3) hr
          subst hh
          cases c with
          | c2 =>
            obtain ⟨_, _, hcr⟩ := bind_ok hcr
            obtain ⟨_, _, hcr⟩ := bind_ok hcr
            obtain ⟨_, _, hcr⟩ := bind_ok hcr
            cases hcr
          | c3 =>
            obtain ⟨_, _, hcr⟩ := bind_ok hcr
            obtain ⟨_, _, hcr⟩ := bind_ok hcr
            cases hcr
          | sf f' l' => exact hs1.repr i hki _ hc f' l' rfl
      · next hki =>
        split at e1
        · obtain ⟨_, _, e1⟩ := bind_ok e1
          obtain ⟨_, _, e1⟩ := bind_ok e1
          cases e1
          rw [hki]
          trivial
        · cases e1
      · next h1 h2 h3 =>
        cases e1
        cases hk : g.kind i <;> first | trivial | contradiction
  refine ⟨⟨fun l hlm => ?_, ?_, ?_, ?_, fun r hr => ?_⟩, fun r hr => ?_⟩
  · obtain ⟨a, ha, hal⟩ := forall₂_mem' f2 hlm
    unfold writeLoc at hal
    split at hal
    · next m hm =>
      cases hal
      exact hg.elem a m hm
    · next ps hps =>
      obtain ⟨qs, e1, hal⟩ := bind_ok hal
      cases hal
      intro p hp
      obtain ⟨c, hc, hcr⟩ := forall₂_mem' (mapM_forall _ e1) hp
      obtain ⟨k, e2, hcr⟩ := bind_ok hcr
      cases hcr
      intro hz
      rcases namesLoc_of hi.locs (attr_ok e2) with ⟨_, h0⟩ | ⟨p, hp', _⟩
      · exact hg.comp a ps hps c hc h0
      · dsimp only at hz
        omega
  · intro c hc
    obtain ⟨a, _, rfl⟩ := List.mem_map.1 hc
    exact hs1.c2 a
  · intro c hc
    obtain ⟨a, _, rfl⟩ := List.mem_map.1 hc
    exact hs1.c3 a
  · intro c hc
    obtain ⟨a, _, rfl⟩ := List.mem_map.1 hc
    exact hs1.sf a
  · obtain ⟨i, _, rec, hrec, rfl⟩ := hsh r hr
    obtain ⟨k1, k2, k3, k4⟩ := hwr hrec
    exact ⟨k4, by rw [k2]; exact hg.flags i, k3⟩
  · obtain ⟨i, hil, rec, hrec, rfl⟩ := hsh r hr
    refine ⟨i, (hn i).1 ?_, (hwr hrec).1⟩
    obtain ⟨p, hp⟩ := List.mem_iff_getElem?.1 hil
    simp [num, (hi.okT i p).2 hp]

/-- The text that `write_model` writes is read back as exactly the records of `file_consistent`, with the reference to the last shape,
if no compound solid is written. -/
theorem model_read_back (F : Fmt K) {g : Graph K} (hl : LocsOk g.locs) (hk : KindsOk g) (hg : g.Fits) (x : Nat → Extra K) {root loc : Nat}
    {s s' : St K} {file : File K} (hf : Fresh s) (hs : s.Fits g) (h : writeModel g root loc s = .ok (file, s'))
    (hc : ∀ i, Reach g root i → g.kind i ≠ .compSolid) :
    readText F (fileText F (textFile x s' file)) = some (textFile x s' file, file.root) := by
  obtain ⟨h1, h2⟩ := written_fits hl hk hg x hf hs h
  have : file.root = ⟨1, 1, 0⟩ := by
    obtain ⟨s1, _, h⟩ := bind_ok h
    obtain ⟨locs, _, h⟩ := bind_ok h
    obtain ⟨shapes, _, h⟩ := bind_ok h
    cases h
    rfl
  rw [this]
  refine text_read_back F h1 fun r hr hh => ?_
  obtain ⟨i, hi, hki⟩ := h2 r hr
  exact hc i hi (hki.symm.trans hh)

end

/-! ### Cases -/

/-- Rational numbers as fractions. -/
def ratFmt : Fmt ℚ where
  text q := int q.num ++ '/' :: nat q.den
  value w :=
    match intValue (w.takeWhile (· != '/')), natValue ((w.dropWhile (· != '/')).drop 1) with
    | some n, some d => some ((n : ℚ) / d)
    | _, _ => none
  ne q := by simp
  nb q c hc := by
    rcases List.mem_append.1 hc with hc | hc
    · exact int_nb _ c hc
    · rcases List.mem_cons.1 hc with rfl | hc
      · rfl
      · exact nat_nb _ c hc
  back q := by
    have h : ∀ c ∈ int q.num, (c != '/') = true := by
      intro c hc
      have key : ∀ n, ∀ c ∈ nat n, (c != '/') = true := by
        intro n c hc
        have h := Nat.isDigit_of_mem_toDigits (by decide) (by decide) hc
        rw [bne_iff_ne]
        rintro rfl
        simp at h
      cases hn : q.num with
      | ofNat n => rw [hn] at hc; exact key n c hc
      | negSucc n =>
        rw [hn] at hc
        rcases List.mem_cons.1 hc with rfl | hc
        · rfl
        · exact key _ c hc
    have e1 : (int q.num ++ '/' :: nat q.den).takeWhile (· != '/') = int q.num := by
      rw [List.takeWhile_append_of_pos h]
      simp
    have e2 : (int q.num ++ '/' :: nat q.den).dropWhile (· != '/') = '/' :: nat q.den := by
      rw [List.dropWhile_append_of_pos h]
      simp
    rw [e1, e2]
    simp only [List.drop_succ_cons, List.drop_zero, intValue_int, natValue_nat]
    exact congrArg some (Rat.num_div_den q)

theorem demo_graph_fits : demo.Fits where
  point i := by
    simp only [demo]
    split <;> rfl
  flags i := by
    simp only [demo]
    decide
  orient i := by
    by_cases hx : i < 10
    · revert i
      decide
    · have : demo.childs i = [] := by
        simp only [demo]
        split <;> first | omega | rfl
      rw [this]
      simp
  elem l m h := by
    simp only [demo] at h
    split at h
    · cases h
    · cases h
      decide
  comp l ps h := by
    simp only [demo] at h
    split at h
    · cases h
      decide
    · cases h

theorem demo_fits : demoSt.Fits demo where
  c2 c p hp := by cases hp
  c3 c p hp := by cases hp
  sf c p hp := by cases hp
  repr i _ r hr := by cases hr

theorem demo_no_compSolid (i : Nat) : demo.kind i ≠ .compSolid := by
  simp only [demo]
  split <;> decide

/-- `model_read_back` applies to the triangle. -/
example (x : Nat → Extra ℚ) : ∃ file s', writeModel demo 8 1 demoSt = .ok (file, s') ∧
    readText ratFmt (fileText ratFmt (textFile x s' file)) = some (textFile x s' file, file.root) := by
  obtain ⟨file, s', h⟩ := write_succeeds demo_locs demo_kinds 8 1 demo_fresh demo_ready
  exact ⟨file, s', h, model_read_back ratFmt demo_locs demo_kinds demo_graph_fits x demo_fresh demo_fits h fun i _ => demo_no_compSolid i⟩

/-- The text of a curve. -/
example : curveText ratFmt (lineOf [0, 1] [1, -1]) = "7 0 0  2 3 2  0/1 1/1  1/2 0/1  1/1 -1/1  0/1 3  1/1 3 \n".toList := by
  decide +kernel

/-- A file with a compound solid without children. -/
example : readText ratFmt (fileText ratFmt ⟨[], [], [], [], [⟨.compSolid, .none, [0, 1, 0, 1, 0, 0, 0], []⟩]⟩) = none :=
  compSolid_unreadable ratFmt ⟨by simp, by simp, by simp, by simp, by
    intro s hs
    rw [List.mem_singleton.1 hs]
    exact ⟨trivial, by decide, by simp⟩⟩ ⟨_, List.mem_singleton.2 rfl, rfl⟩

end Verif.Brep
