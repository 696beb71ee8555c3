import Mathlib.Data.List.Forall2
import Verif.Brep.Lemmas

/-!
Properties of `write_model`: the file is consistent.
-/
namespace Verif.Brep

variable {K : Type} [Field K]

/-! ### Notions of the file format -/

/-- No object has an id, except the identity location: no model using the objects was written or printed yet. -/
structure Fresh (s : St K) : Prop where
  L : ∀ x, s.tL.ids x = if x = 0 then some 0 else none
  c2 : ∀ x, s.t2.ids x = none
  c3 : ∀ x, s.t3.ids x = none
  S : ∀ x, s.tS.ids x = none
  T : ∀ x, s.tT.ids x = none

/-- Geometry is numbered from one in the order of the file. -/
def Names (L : List Nat) (k x : Nat) : Prop := ∃ p, k = p + 1 ∧ L[p]? = some x

/-- Locations too, zero is the identity. -/
def NamesLoc (L : List Nat) (k x : Nat) : Prop := (k = 0 ∧ x = 0) ∨ Names L k x

/-- Shapes are numbered from one in the opposite order. -/
def NamesShp (L : List Nat) (k x : Nat) : Prop := ∃ p, p + k = L.length ∧ L[p]? = some x

/-- The objects whose records make up the sections of a file. -/
structure Order where
  locs : List Nat
  c2 : List Nat
  c3 : List Nat
  sf : List Nat
  shapes : List Nat

/-- A representation and its line in the file. -/
def ReprNames (o : Order) : Repr K → Repr K → Prop
  | .c2 t0 t1 c f l, .c2 t0' t1' c' f' l' =>
    t0' = t0 ∧ t1' = t1 ∧ Names o.c2 c' c ∧ Names o.sf f' f ∧ NamesLoc o.locs l' l
  | .c3 t0 t1 c l, .c3 t0' t1' c' l' => t0' = t0 ∧ t1' = t1 ∧ Names o.c3 c' c ∧ NamesLoc o.locs l' l
  | .sf f l, .sf f' l' => f' = f ∧ l' = l
  | _, _ => False

/-- The part of the record that depends on the class is right. -/
def SubNames (g : Graph K) (o : Order) (reprs : List (Repr K)) (x : Nat) (sub : SubRec K) : Prop :=
  match g.kind x with
  | .vertex => sub = .vertex (g.point x)
  | .edge => ∃ l, sub = .edge l ∧ l ≠ [] ∧ List.Forall₂ (ReprNames o) reprs l
  | .face => ∃ f l f' l', reprs = [.sf f l] ∧ sub = .face f' l' ∧ Names o.sf f' f ∧ NamesLoc o.locs l' l
  | _ => sub = .none

/-- A child reference in the record at position `p` is right: it names the child, which has an earlier record. -/
def RefNames (o : Order) (p : Nat) (r c : Ref) : Prop :=
  c.orient = r.orient ∧ NamesLoc o.locs c.loc r.loc ∧ NamesShp o.shapes c.shape r.shape ∧ o.shapes.length < c.shape + p

/-- A shape record is right. -/
def ShpNames (g : Graph K) (o : Order) (reprs : Nat → List (Repr K)) (p x : Nat) (rec : ShpRec K) : Prop :=
  rec.kind = g.kind x ∧ rec.flags = g.flags x ∧ SubNames g o (reprs x) x rec.sub ∧
    List.Forall₂ (RefNames o p) (g.childs x) rec.childs

/-- A location record is right. -/
def LocNames (g : Graph K) (o : Order) (p x : Nat) (rec : LocRec K) : Prop :=
  match g.locs x with
  | .elem m => rec = .elem m
  | .composed ps => ∃ qs, rec = .composed qs ∧
      List.Forall₂ (fun (a b : Nat × Int) => b.2 = a.2 ∧ NamesLoc o.locs b.1 a.1 ∧ b.1 < p + 1) ps qs

/-! ### Reading the tables -/

theorem mapM_forall {α β : Type} {f : α → Except Err β} (l : List α) : ∀ {m : List β}, l.mapM f = .ok m →
    List.Forall₂ (fun a b => f a = .ok b) l m := by
  induction l with
  | nil => intro m h; simp only [List.mapM_nil] at h; cases h; exact .nil
  | cons a l ih =>
    intro m h
    rw [List.mapM_cons] at h
    rcases ha : f a with e | b
    · rw [ha] at h; cases h
    · rw [ha] at h
      rcases hl : l.mapM f with e | bs
      · rw [hl] at h; cases h
      · rw [hl] at h; cases h
        exact .cons ha (ih hl)

theorem mapM_total {α β : Type} {f : α → Except Err β} (l : List α) (h : ∀ a ∈ l, ∃ b, f a = .ok b) :
    ∃ m, l.mapM f = .ok m := by
  induction l with
  | nil => exact ⟨[], rfl⟩
  | cons a l ih =>
    obtain ⟨b, hb⟩ := h a (by simp)
    obtain ⟨m, hm⟩ := ih fun x hx => h x (by simp [hx])
    exact ⟨b :: m, by rw [List.mapM_cons, hb, hm]; rfl⟩

theorem forall₂_mem {α β : Type} {R S : α → β → Prop} {l : List α} {m : List β} (h : List.Forall₂ R l m)
    (hs : ∀ a b, a ∈ l → R a b → S a b) : List.Forall₂ S l m := by
  induction h with
  | nil => exact .nil
  | cons hab _ ih => exact .cons (hs _ _ (by simp) hab) (ih fun a b ha => hs a b (by simp [ha]))

theorem forall₂_get {α β : Type} {R : α → β → Prop} {l : List α} {m : List β} (h : List.Forall₂ R l m) :
    ∀ {p : Nat} {a : α} {b : β}, l[p]? = some a → m[p]? = some b → R a b := by
  induction h with
  | nil => intro p a b ha; simp at ha
  | cons hab _ ih =>
    intro p a b ha hb
    cases p with
    | zero => simp only [List.getElem?_cons_zero, Option.some.injEq] at ha hb; subst ha; subst hb; exact hab
    | succ p => simp only [List.getElem?_cons_succ] at ha hb; exact ih ha hb

theorem attr_ok {t : Tab} {x k : Nat} (h : attr t x = .ok k) : t.ids x = some k := by
  unfold attr at h
  split at h
  · cases h; assumption
  · cases h

theorem names_of {t : Tab} (h : t.Ok) (hz : ∀ x, t.ids x ≠ some 0) {x k : Nat} (hx : t.ids x = some k) :
    Names t.list k x := by
  cases k with
  | zero => exact absurd hx (hz x)
  | succ k => exact ⟨k, rfl, (h x k).1 hx⟩

omit [Field K] in
theorem namesLoc_of {locs : Nat → Loc K} {t : Tab} (h : LInv locs t) {x k : Nat} (hx : t.ids x = some k) :
    NamesLoc t.list k x := by
  cases k with
  | zero => exact Or.inl ⟨rfl, h.only x hx⟩
  | succ k => exact Or.inr ⟨k, rfl, (h.ok x k).1 hx⟩

theorem flip_ids {t : Tab} (h : t.Ok) (hz : ∀ x, t.ids x ≠ some 0) {x m : Nat} (hx : (flip t).ids x = some m) :
    ∃ k, t.ids x = some (k + 1) ∧ m + k = t.list.length ∧ t.list[k]? = some x := by
  simp only [flip] at hx
  split at hx
  · obtain ⟨k, hk, hm⟩ := Option.map_eq_some_iff.1 hx
    cases k with
    | zero => exact absurd hk (hz x)
    | succ k =>
      have hb := h.bound hk
      exact ⟨k, hk, by omega, (h x k).1 hk⟩
  · rename_i hn
    cases m with
    | zero => exact absurd hx (hz x)
    | succ k => exact absurd (List.mem_of_getElem? ((h x k).1 hx)) hn

theorem flip_some {t : Tab} {x : Nat} (hx : (t.ids x).isSome) : ((flip t).ids x).isSome := by
  simp only [flip]
  split
  · simpa using hx
  · exact hx

/-- Order of the objects in a state. -/
def orderOf (s : St K) : Order := ⟨s.tL.list, s.t2.list, s.t3.list, s.tS.list, s.tT.list⟩

omit [Field K] in
theorem writeRepr_names {g : Graph K} {s : St K} (hi : StInv g s) {r r' : Repr K} (t : Tab)
    (h : writeRepr { s with tT := t } r = .ok r') : ReprNames (orderOf s) r r' := by
  cases r with
  | c2 t0 t1 c f l =>
    simp only [writeRepr] at h
    rcases h1 : attr s.t2 c with e | c' <;> rw [h1] at h
    · cases h
    rcases h2 : attr s.tS f with e | f' <;> rw [h2] at h
    · cases h
    rcases h3 : attr s.tL l with e | l' <;> rw [h3] at h
    · cases h
    cases h
    exact ⟨rfl, rfl, names_of hi.ok2 hi.nz2 (attr_ok h1), names_of hi.okS hi.nzS (attr_ok h2), namesLoc_of hi.locs (attr_ok h3)⟩
  | c3 t0 t1 c l =>
    simp only [writeRepr] at h
    rcases h1 : attr s.t3 c with e | c' <;> rw [h1] at h
    · cases h
    rcases h3 : attr s.tL l with e | l' <;> rw [h3] at h
    · cases h
    cases h
    exact ⟨rfl, rfl, names_of hi.ok3 hi.nz3 (attr_ok h1), namesLoc_of hi.locs (attr_ok h3)⟩
  | sf f l => simp only [writeRepr] at h; cases h; exact ⟨rfl, rfl⟩

theorem bind_ok {α β : Type} {m : Except Err α} {f : α → Except Err β} {b : β} (h : (m >>= f) = .ok b) :
    ∃ a, m = .ok a ∧ f a = .ok b := by
  cases m with
  | error e => cases h
  | ok a => exact ⟨a, rfl, h⟩

omit [Field K] in
theorem writeSub_names {g : Graph K} {s : St K} (hi : StInv g s) {x : Nat} {sub : SubRec K} (t : Tab)
    (h : writeSub g { s with tT := t } x = .ok sub) : SubNames g (orderOf s) (s.repr x) x sub := by
  cases hk : g.kind x <;> simp only [writeSub, hk] at h <;> simp only [SubNames, hk]
  case vertex => cases h; rfl
  case edge =>
    split at h
    · cases h
    · rename_i hne
      obtain ⟨l, h1, h⟩ := bind_ok h
      cases h
      have hf := mapM_forall _ h1
      refine ⟨l, rfl, ?_, hf.imp fun a b hab => writeRepr_names hi t hab⟩
      rintro rfl
      cases hf' : s.repr x with
      | nil => exact hne hf'
      | cons a l => rw [hf'] at hf; cases hf
  case face =>
    split at h
    · rename_i f l hf
      obtain ⟨f', h1, h⟩ := bind_ok h
      obtain ⟨l', h2, h⟩ := bind_ok h
      cases h
      exact ⟨f, l, f', l', hf, rfl, names_of hi.okS hi.nzS (attr_ok h1), namesLoc_of hi.locs (attr_ok h2)⟩
    · cases h
  all_goals cases h; rfl

omit [Field K] in
theorem writeRef_names {g : Graph K} {s : St K} (hi : StInv g s) {x p : Nat} (hx : s.tT.ids x = some (p + 1)) {r c : Ref}
    (hr : r ∈ g.childs x) (h : writeRef { s with tT := flip s.tT } r = .ok c) : RefNames (orderOf s) p r c := by
  unfold writeRef at h
  rcases h1 : attr (flip s.tT) r.shape with e | a <;> rw [h1] at h
  · cases h
  rcases h2 : attr s.tL r.loc with e | b <;> rw [h2] at h
  · cases h
  cases h
  obtain ⟨k, hk, hm, hl⟩ := flip_ids hi.okT hi.nzT (attr_ok h1)
  obtain ⟨⟨j, hj, hj'⟩, -⟩ := hi.kids x _ hx r hr
  rw [hk] at hj'
  cases hj'
  refine ⟨rfl, namesLoc_of hi.locs (attr_ok h2), ⟨k, by simp only [orderOf]; omega, hl⟩, ?_⟩
  simp only [orderOf]
  omega

omit [Field K] in
theorem writeShape_names {g : Graph K} {s : St K} (hi : StInv g s) {x p : Nat} (hx : s.tT.list[p]? = some x) {rec : ShpRec K}
    (h : writeShape g { s with tT := flip s.tT } x = .ok rec) : ShpNames g (orderOf s) s.repr p x rec := by
  obtain ⟨sub, h1, h⟩ := bind_ok h
  obtain ⟨ch, h2, h⟩ := bind_ok h
  cases h
  refine ⟨rfl, rfl, writeSub_names hi _ h1, ?_⟩
  have hf := mapM_forall _ h2
  have hp := (hi.okT x p).2 hx
  exact forall₂_mem hf fun r c hr h => writeRef_names hi hp hr h

omit [Field K] in
theorem writeLoc_names {g : Graph K} {s : St K} (hi : StInv g s) {x p : Nat} (hx : s.tL.list[p]? = some x) {rec : LocRec K}
    (t : Tab) (h : writeLoc g { s with tT := t } x = .ok rec) : LocNames g (orderOf s) p x rec := by
  rcases hk : g.locs x with m | ps <;> simp only [writeLoc, hk] at h <;> simp only [LocNames, hk]
  · cases h; rfl
  · obtain ⟨qs, h1, h⟩ := bind_ok h
    cases h
    refine ⟨qs, rfl, forall₂_mem (mapM_forall _ h1) ?_⟩
    intro a b ha hab
    obtain ⟨k, h2, hab⟩ := bind_ok hab
    cases hab
    have hk' := attr_ok h2
    refine ⟨rfl, namesLoc_of hi.locs hk', ?_⟩
    obtain ⟨j, hj, hjk⟩ := hi.locs.comp x ps (p + 1) hk ((hi.locs.ok x p).2 hx) (by omega) a ha
    have : some k = some j := hk'.symm.trans hj
    cases this
    exact hjk

/-! ### The file -/

omit [Field K] in
theorem fresh_inv {g : Graph K} {s : St K} (h : Fresh s) : StInv g (clearGroups s) := by
  have ok : ∀ f : Nat → Option Nat, (∀ x, f x = none) → Tab.Ok ⟨f, []⟩ := by
    intro f hf x k; simp [hf]
  refine ⟨⟨?_, ?_, ?_, ?_⟩, ok _ h.c2, ok _ h.c3, ok _ h.S, ok _ h.T, ?_, ?_, ?_, ?_, ?_⟩
  · intro x k
    simp only [clearGroups, h.L]
    by_cases hx : x = 0 <;> simp [hx]
  · simp [clearGroups, h.L]
  · intro x hx
    simp only [clearGroups, h.L] at hx
    by_contra hc
    rw [if_neg hc] at hx
    cases hx
  · intro l ps k _ hk h0
    simp only [clearGroups, h.L] at hk
    by_cases hx : l = 0
    · rw [if_pos hx] at hk; cases hk; exact absurd rfl h0
    · rw [if_neg hx] at hk; cases hk
  · intro x; simp [clearGroups, h.c2]
  · intro x; simp [clearGroups, h.c3]
  · intro x; simp [clearGroups, h.S]
  · intro x; simp [clearGroups, h.T]
  · intro x k hx; simp [clearGroups, h.T] at hx

omit [Field K] in
theorem reach_num {g : Graph K} {s : St K} (hi : StInv g s) {a b : Nat} (h : Reach g a b) {k : Nat}
    (ha : s.tT.ids a = some k) : ∃ j, s.tT.ids b = some j ∧ (j < k ∨ b = a) := by
  induction h with
  | refl => exact ⟨k, ha, Or.inr rfl⟩
  | tail _ hs ih =>
    obtain ⟨r, hr, rfl⟩ := hs
    obtain ⟨j, hj, hjk⟩ := ih
    obtain ⟨⟨i, hi1, hi2⟩, -⟩ := hi.kids _ j hj r hr
    refine ⟨i, hi2, Or.inl ?_⟩
    rcases hjk with h | h
    · omega
    · rw [h, ha] at hj; cases hj; exact hi1

/-- What is known after numbering. -/
theorem index_spec {g : Graph K} (hl : LocsOk g.locs) (hk : KindsOk g) {root loc : Nat} {s s' : St K} (hf : Fresh s)
    (h : indexAll g root loc s = .ok s') :
    StInv g s' ∧ (∀ x, num s' x ↔ Reach g root x) ∧ (∀ x, num s' x → Done g s' x) ∧ s'.tT.list.getLast? = some root := by
  unfold indexAll at h
  split at h
  · cases h
  · rename_i s1 h1
    cases h
    obtain ⟨a1, a2, a3, a4, a5⟩ := dfs_spec hl hk 8 root _ _ ∅ (fresh_inv hf)
      (fun x hx => by simp [num, clearGroups, hf.T] at hx) h1
    have v := vis_loc hl s1 loc
    have hn : ∀ x, num s1 x ↔ Reach g root x := by
      intro x
      constructor
      · intro hx
        rcases a4 x hx with hx | hx
        · simp [num, clearGroups, hf.T] at hx
        · exact hx
      · intro hx
        obtain ⟨k, hk⟩ := Option.isSome_iff_exists.1 a3
        obtain ⟨j, hj, -⟩ := reach_num a1 hx hk
        exact Option.isSome_iff_exists.2 ⟨j, hj⟩
    refine ⟨v.1.inv a1, hn, fun x hx => done_mono (v.1.grow a1) rfl (a5 x hx (Or.inl (by simp))), ?_⟩
    show s1.tT.list.getLast? = some root
    obtain ⟨k, hk⟩ := Option.isSome_iff_exists.1 a3
    have hne : s1.tT.list ≠ [] := by
      intro hc
      have := a1.okT.bound hk
      rw [hc] at this
      simp only [List.length_nil, Nat.le_zero] at this
      subst this
      exact a1.nzT _ hk
    have hpos := List.length_pos_iff.2 hne
    rw [List.getLast?_eq_getElem?]
    obtain ⟨y, hy⟩ : ∃ y, s1.tT.list[s1.tT.list.length - 1]? = some y := ⟨_, List.getElem?_eq_getElem (by omega)⟩
    have hy1 := (a1.okT y _).2 hy
    obtain ⟨j, hj, hjk⟩ := reach_num a1 ((hn y).1 (by simp [num, hy1])) hk
    rw [hy1] at hj
    cases hj
    rcases hjk with h | h
    · have := a1.okT.bound hk; omega
    · rw [hy, h]

/-- The file is consistent. Let no shape or geometry object have been numbered before. Then there is an order of the objects
such that

* no object is listed twice, the identity location is not listed, and the shapes listed are exactly those reachable from the written shape, which is the last one
  and so has the number 1 that the last line of the file names;
* each section of the file consists of the records of the objects listed for it, in that order;
* each shape record names exactly the children of the shape, with their orientations and locations, by the numbers under
  which they are found in the file, and children precede their parents;
* the records of edges and faces name exactly the curves, surfaces and locations of the shape by the numbers under which they
  are found in the file;
* a composed location names locations that precede it. -/
theorem file_consistent {g : Graph K} (hl : LocsOk g.locs) (hk : KindsOk g) {root loc : Nat} {s s' : St K} {file : File K}
    (hf : Fresh s) (h : writeModel g root loc s = .ok (file, s')) :
    ∃ o : Order, 0 ∉ o.locs ∧ o.locs.Nodup ∧ o.c2.Nodup ∧ o.c3.Nodup ∧ o.sf.Nodup ∧ o.shapes.Nodup ∧
      (∀ x, x ∈ o.shapes ↔ Reach g root x) ∧
      NamesShp o.shapes file.root.shape root ∧
      file.c2 = o.c2.map s'.c2 ∧ file.c3 = o.c3.map s'.c3 ∧ file.sf = o.sf.map s'.sf ∧
      file.shapes.length = o.shapes.length ∧ file.locs.length = o.locs.length ∧
      (∀ p x rec, o.shapes[p]? = some x → file.shapes[p]? = some rec → ShpNames g o s'.repr p x rec) ∧
      ∀ p x rec, o.locs[p]? = some x → file.locs[p]? = some rec → LocNames g o p x rec := by
  obtain ⟨s1, h1, h⟩ := bind_ok h
  obtain ⟨locs, h2, h⟩ := bind_ok h
  obtain ⟨shapes, h3, h⟩ := bind_ok h
  cases h
  obtain ⟨hi, hn, hd, hr⟩ := index_spec hl hk hf h1
  have f3 := mapM_forall _ h3
  have f2 := mapM_forall _ h2
  have h0 : 0 ∉ s1.tL.list := by
    intro hc
    obtain ⟨p, hp⟩ := List.mem_iff_getElem?.1 hc
    have := hi.locs.zero.symm.trans ((hi.locs.ok 0 p).2 hp)
    simp at this
  refine ⟨orderOf s1, h0, hi.locs.ok.nodup, hi.ok2.nodup, hi.ok3.nodup, hi.okS.nodup, hi.okT.nodup, ?_, ?_, rfl, rfl, rfl,
    f3.length_eq.symm, f2.length_eq.symm, ?_, ?_⟩
  · intro x
    rw [← hn x]
    constructor
    · intro hx
      obtain ⟨p, hp⟩ := List.mem_iff_getElem?.1 hx
      simp [num, (hi.okT x p).2 hp]
    · intro hx
      obtain ⟨k, hk⟩ := Option.isSome_iff_exists.1 hx
      cases k with
      | zero => exact absurd hk (hi.nzT x)
      | succ k => exact List.mem_of_getElem? ((hi.okT x k).1 hk)
  · rw [List.getLast?_eq_getElem?] at hr
    have hpos : s1.tT.list.length ≠ 0 := by
      intro hc
      rw [List.length_eq_zero_iff.1 hc] at hr
      simp at hr
    exact ⟨s1.tT.list.length - 1, by simp only [orderOf]; omega, hr⟩
  · intro p x rec hx hrec
    exact writeShape_names hi hx (forall₂_get f3 hx hrec)
  · intro p x rec hx hrec
    exact writeLoc_names hi hx _ (forall₂_get f2 hx hrec)

end Verif.Brep
