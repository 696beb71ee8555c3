import Mathlib.Algebra.Ring.Parity
import Mathlib.Algebra.BigOperators.Group.List.Basic
import Mathlib.Data.List.Count
import Mathlib.Data.List.Forall2
import Verif.Brep.Model

/-!
Constructors of the BREP writer: closed wires, faces, validators, and the text of composed locations.
-/
namespace Verif.Brep

/-! ### Wires -/

/-- First loop of `_set_closed` (brep_writer.py:710-714): the keys of `vtx_set` and the attributes `n_edges`. -/
def countLoop : List Nat → List Nat × (Nat → Nat) → List Nat × (Nat → Nat)
  | [], s => s
  | v :: vs, (keys, n) => countLoop vs (if v ∈ keys then keys else keys ++ [v], Function.update n v (n v + 1))

/-- Second loop of `_set_closed` (brep_writer.py:715-719). -/
def parityLoop : List Nat → Bool × (Nat → Nat) → Bool × (Nat → Nat)
  | [], s => s
  | v :: vs, (closed, n) => parityLoop vs (if n v % 2 ≠ 0 then false else closed, Function.update n v 0)

/-- `Wire._set_closed` (brep_writer.py:705-720): `ends` are the vertices of the edges, `n` the attributes `n_edges` of the
vertices. -/
def setClosed (ends : Nat → List Nat) (edges : List Nat) (n : Nat → Nat) : Bool × (Nat → Nat) :=
  let s := countLoop (edges.flatMap ends) ([], n)
  parityLoop s.1 (true, s.2)

/-- Construction of several wires, one after the other. -/
def buildWires (ends : Nat → List Nat) : List (List Nat) → (Nat → Nat) → List Bool × (Nat → Nat)
  | [], n => ([], n)
  | w :: ws, n =>
    let a := setClosed ends w n
    let b := buildWires ends ws a.2
    (a.1 :: b.1, b.2)

theorem countLoop_spec (vs : List Nat) : ∀ (keys : List Nat) (n : Nat → Nat),
    (∀ v, v ∈ (countLoop vs (keys, n)).1 ↔ v ∈ keys ∨ v ∈ vs) ∧
    (∀ v, (countLoop vs (keys, n)).2 v = n v + vs.count v) ∧ (keys.Nodup → (countLoop vs (keys, n)).1.Nodup) := by
  induction vs with
  | nil => intro keys n; simp [countLoop]
  | cons a vs ih =>
    intro keys n
    obtain ⟨h1, h2, h3⟩ := ih (if a ∈ keys then keys else keys ++ [a]) (Function.update n a (n a + 1))
    refine ⟨fun v => ?_, fun v => ?_, fun hn => ?_⟩
    · simp only [countLoop]
      rw [h1]
      split
      · rename_i h
        simp only [List.mem_cons]
        constructor
        · rintro (h | h)
          · exact Or.inl h
          · exact Or.inr (Or.inr h)
        · rintro (h' | rfl | h')
          · exact Or.inl h'
          · exact Or.inl h
          · exact Or.inr h'
      · simp [or_assoc]
    · simp only [countLoop]
      rw [h2, Function.update_apply, List.count_cons]
      by_cases h : v = a
      · subst h; simp; omega
      · simp [h, Ne.symm h]
    · simp only [countLoop]
      apply h3
      split
      · exact hn
      · rename_i h
        exact List.nodup_append.2 ⟨hn, by simp, by rintro x hx y hy rfl; simp at hy; subst hy; exact h hx⟩

theorem parityLoop_spec (vs : List Nat) : ∀ (c : Bool) (n : Nat → Nat), vs.Nodup →
    ((parityLoop vs (c, n)).1 = true ↔ c = true ∧ ∀ v ∈ vs, n v % 2 = 0) ∧
    ∀ v, (parityLoop vs (c, n)).2 v = if v ∈ vs then 0 else n v := by
  induction vs with
  | nil => intro c n _; simp [parityLoop]
  | cons a vs ih =>
    intro c n hnd
    rw [List.nodup_cons] at hnd
    obtain ⟨h1, h2⟩ := ih (if n a % 2 ≠ 0 then false else c) (Function.update n a 0) hnd.2
    have hu : ∀ v ∈ vs, Function.update n a 0 v = n v := by
      intro v hv
      rw [Function.update_of_ne]
      rintro rfl
      exact hnd.1 hv
    refine ⟨?_, fun v => ?_⟩
    · simp only [parityLoop]
      rw [h1]
      constructor
      · rintro ⟨h, h'⟩
        split at h
        · cases h
        · rename_i h0
          refine ⟨h, fun v hv => ?_⟩
          rcases List.mem_cons.1 hv with rfl | hv
          · simpa using h0
          · rw [← hu v hv]; exact h' v hv
      · rintro ⟨h, h'⟩
        have h0 := h' a (by simp)
        refine ⟨by simp [h0, h], fun v hv => ?_⟩
        rw [hu v hv]; exact h' v (by simp [hv])
    · simp only [parityLoop]
      rw [h2, Function.update_apply]
      by_cases h : v = a
      · subst h; simp
      · simp [h]

theorem setClosed_spec (ends : Nat → List Nat) (edges : List Nat) (n : Nat → Nat) (hn : ∀ v, n v = 0) :
    ((setClosed ends edges n).1 = true ↔ ∀ v, Even ((edges.flatMap ends).count v)) ∧
      ∀ v, (setClosed ends edges n).2 v = 0 := by
  obtain ⟨h1, h2, h3⟩ := countLoop_spec (edges.flatMap ends) [] n
  obtain ⟨h4, h5⟩ := parityLoop_spec (countLoop (edges.flatMap ends) ([], n)).1 true
    (countLoop (edges.flatMap ends) ([], n)).2 (h3 (by simp))
  refine ⟨?_, fun v => ?_⟩
  · refine h4.trans ?_
    simp only [h1, h2, hn, Nat.zero_add, true_and, List.not_mem_nil, false_or]
    constructor
    · intro h v
      by_cases hv : v ∈ edges.flatMap ends
      · exact Nat.even_iff.2 (h v hv)
      · rw [List.count_eq_zero.2 hv]; exact Even.zero
    · intro h v _
      exact Nat.even_iff.1 (h v)
  · refine (h5 v).trans ?_
    split
    · rfl
    · rename_i hv
      rw [h2, hn, Nat.zero_add]
      rw [h1] at hv
      simp only [List.not_mem_nil, false_or] at hv
      exact List.count_eq_zero.2 hv

/-- However many wires are built from shared edges and vertices, each is flagged closed exactly when every vertex occurs an even
number of times in its edges, and the counters of the vertices are zero afterwards. -/
theorem wires_closed_iff_even (ends : Nat → List Nat) (ws : List (List Nat)) (n : Nat → Nat) (hn : ∀ v, n v = 0) :
    List.Forall₂ (fun w (c : Bool) => c = true ↔ ∀ v, Even ((w.flatMap ends).count v)) ws (buildWires ends ws n).1 ∧
      ∀ v, (buildWires ends ws n).2 v = 0 := by
  induction ws generalizing n with
  | nil => exact ⟨.nil, hn⟩
  | cons w ws ih =>
    obtain ⟨h1, h2⟩ := setClosed_spec ends w n hn
    obtain ⟨h3, h4⟩ := ih (setClosed ends w n).2 h2
    exact ⟨.cons h1 h3, h4⟩

/-- Edge `2 * a` joins `a` and `a + 1`. -/
example : (buildWires (fun e => [e, (e + 1) % 3]) [[0, 1, 2], [0, 1], [], [0, 0]] fun _ => 0).1 = [true, false, true, true] := by
  decide

/-- `Wire` with later `append` (brep_writer.py:570-580, 697-703): the edges and the flag. -/
structure WireSt where
  edges : List Nat
  closed : Bool

/-- `Wire(edges)` (brep_writer.py:698-703) for vertices with zero counters. -/
def WireSt.new (ends : Nat → List Nat) (edges : List Nat) : WireSt := ⟨edges, (setClosed ends edges fun _ => 0).1⟩

/-- `wire.append(edge)` (brep_writer.py:570-580). -/
def WireSt.append (w : WireSt) (e : Nat) : WireSt := ⟨w.edges ++ [e], w.closed⟩

/-- The flag is not kept up to date: after appending an edge with different ends to a closed wire it is still set, although the
wire has become open. -/
theorem append_keeps_closed (ends : Nat → List Nat) (edges : List Nat) (e a b : Nat) (he : ends e = [a, b]) (hab : a ≠ b)
    (hc : (WireSt.new ends edges).closed = true) :
    ((WireSt.new ends edges).append e).closed = true ∧
      ¬ ∀ v, Even ((((WireSt.new ends edges).append e).edges.flatMap ends).count v) := by
  refine ⟨hc, fun h => ?_⟩
  have h0 := ((setClosed_spec ends edges (fun _ => 0) fun _ => rfl).1.1 hc) a
  have h1 := h a
  simp only [WireSt.new, WireSt.append, List.flatMap_append, List.count_append, List.flatMap_cons, List.flatMap_nil, he] at h1
  rw [Nat.even_iff] at h0 h1
  simp [List.count_cons, Ne.symm hab] at h1
  omega

example : (WireSt.new (fun e => [e, (e + 1) % 3]) [0, 1, 2]).closed = true := by decide

/-- Even parity is weaker than being a loop: two separate loops in one wire, or an edge used twice, are flagged closed. -/
example : (setClosed (fun e => [2 * (e / 2), 2 * (e / 2) + 1]) [0, 1, 2, 3] fun _ => 0).1 = true := by decide

/-! ### Faces -/

/-- Children of a new face: the given wires, or one new wire made of the given edges. -/
inductive FaceKids where
  | wires (refs : List Ref)
  | newWire (edges : List Ref)
  deriving DecidableEq

/-- `Face.__init__` (brep_writer.py:734-763) for a list of references: `closed` are the flags of existing wires. `assertion` is
an `AssertionError`, `exception` a `ParamError` or `Exception`. -/
def mkFace (kind : Nat → Kind) (closed : Nat → Bool) (ends : Nat → List Nat) (refs : List Ref) : Except Err FaceKids :=
  match refs with
  | [] => .error .assertion
  | r :: rs =>
    if ¬ ((r :: rs).all fun r => decide (kind r.shape ∈ Kind.allows .face)) then .error .exception
    else if ¬ ((r :: rs).all fun q => decide (kind q.shape = kind r.shape)) then .error .assertion
    else if kind r.shape = .edge then
      if (setClosed ends ((r :: rs).map Ref.shape) fun _ => 0).1 then .ok (.newWire (r :: rs)) else .error .exception
    else if (r :: rs).all fun q => closed q.shape then .ok (.wires (r :: rs)) else .error .exception

/-- A face is made exactly from a non-empty list of wires flagged closed, or from a non-empty list of edges in which every vertex
occurs an even number of times; in the second case the edges become the children of one new wire. -/
theorem face_accepts_iff (kind : Nat → Kind) (closed : Nat → Bool) (ends : Nat → List Nat) (refs : List Ref) (k : FaceKids) :
    mkFace kind closed ends refs = .ok k ↔ refs ≠ [] ∧
      ((k = .wires refs ∧ ∀ r ∈ refs, kind r.shape = .wire ∧ closed r.shape = true) ∨
       (k = .newWire refs ∧ (∀ r ∈ refs, kind r.shape = .edge) ∧
          ∀ v, Even ((refs.flatMap fun r => ends r.shape).count v))) := by
  have hfm : ∀ l : List Ref, (l.map Ref.shape).flatMap ends = l.flatMap fun r => ends r.shape := by
    intro l; rw [List.flatMap_map]
  cases refs with
  | nil => simp [mkFace]
  | cons r rs =>
    simp only [mkFace]
    split
    · rename_i h
      simp only [reduceCtorEq, false_iff, not_and, not_or]
      intro _
      refine ⟨fun _ hc => h ?_, fun _ hc _ => absurd ?_ h⟩
      · simp only [List.all_eq_true, decide_eq_true_eq]
        intro q hq
        rw [(hc q hq).1]; simp [Kind.allows]
      · simp only [List.all_eq_true, decide_eq_true_eq]
        intro q hq
        rw [hc q hq]; simp [Kind.allows]
    · rename_i h
      simp only [List.all_eq_true, decide_eq_true_eq, not_not] at h
      split
      · rename_i h'
        simp only [reduceCtorEq, false_iff, not_and, not_or]
        intro _
        refine ⟨fun _ hc => h' ?_, fun _ hc _ => absurd ?_ h'⟩
        · simp only [List.all_eq_true, decide_eq_true_eq]
          intro q hq
          rw [(hc q hq).1, (hc r (by simp)).1]
        · simp only [List.all_eq_true, decide_eq_true_eq]
          intro q hq
          rw [hc q hq, hc r (by simp)]
      · rename_i h'
        simp only [List.all_eq_true, decide_eq_true_eq, not_not] at h'
        split
        · rename_i he
          have hall : ∀ q ∈ r :: rs, kind q.shape = .edge := fun q hq => (h' q hq).trans he
          have hs := (setClosed_spec ends ((r :: rs).map Ref.shape) (fun _ => 0) fun _ => rfl).1
          rw [hfm] at hs
          split
          · rename_i hc
            constructor
            · intro hk
              cases hk
              exact ⟨by simp, Or.inr ⟨rfl, hall, hs.1 hc⟩⟩
            · rintro ⟨-, ⟨-, h2⟩ | ⟨h1, -⟩⟩
              · have := (h2 r (by simp)).1
                rw [he] at this; cases this
              · rw [h1]
          · rename_i hc
            simp only [reduceCtorEq, false_iff, not_and, not_or]
            intro _
            refine ⟨fun _ h2 => ?_, fun _ _ h2 => hc (hs.2 h2)⟩
            have := (h2 r (by simp)).1
            rw [he] at this; cases this
        · rename_i he
          have hw : kind r.shape = .wire := by
            have := h r (by simp)
            simp only [Kind.allows, List.mem_cons, List.not_mem_nil, or_false] at this
            exact this.resolve_right he
          split
          · rename_i hc
            simp only [List.all_eq_true] at hc
            constructor
            · intro hk
              cases hk
              exact ⟨by simp, Or.inl ⟨rfl, fun q hq => ⟨(h' q hq).trans hw, hc q hq⟩⟩⟩
            · rintro ⟨-, ⟨h1, -⟩ | ⟨-, h2, -⟩⟩
              · rw [h1]
              · exact absurd (h2 r (by simp)) he
          · rename_i hc
            simp only [List.all_eq_true] at hc
            simp only [reduceCtorEq, false_iff, not_and, not_or]
            intro _
            exact ⟨fun _ h2 => hc fun q hq => (h2 q hq).2, fun _ h2 _ => he (h2 r (by simp))⟩

/-- A wire without edges is flagged closed, so a face can be made from it. -/
theorem face_of_empty_wire (kind : Nat → Kind) (ends : Nat → List Nat) (w : Ref) (hw : kind w.shape = .wire) :
    mkFace kind (fun _ => (setClosed ends [] fun _ => 0).1) ends [w] = .ok (.wires [w]) :=
  (face_accepts_iff _ _ _ _ _).2 ⟨by simp, Or.inl ⟨rfl, fun r hr => by
    rw [List.mem_singleton] at hr; subst hr; exact ⟨hw, rfl⟩⟩⟩

example : mkFace (fun _ => .edge) (fun _ => false) (fun e => [e, (e + 1) % 3]) [⟨0, 1, 0⟩, ⟨1, 1, 0⟩, ⟨2, 1, 0⟩] =
    .ok (.newWire [⟨0, 1, 0⟩, ⟨1, 1, 0⟩, ⟨2, 1, 0⟩]) := by decide

/-! ### Edges -/

/-- Orientations of the `ShapeRef` objects written by `Edge.__init__` (brep_writer.py:861-866) for two existing references `a`
and `b`: `true` is `Orient.Forward`, `false` is `Orient.Reversed`. -/
def mkEdge (o : Nat → Bool) (e : Nat × Nat) : Nat → Bool := Function.update (Function.update o e.1 true) e.2 false

/-- Whatever edges are built, in any order: if no reference object is used both as a first and as a second vertex, every edge
has its first vertex forward and its second vertex reversed. -/
theorem edges_oriented (es : List (Nat × Nat)) (h : ∀ e ∈ es, ∀ e' ∈ es, e.1 ≠ e'.2) (o : Nat → Bool) :
    ∀ e ∈ es, es.foldl mkEdge o e.1 = true ∧ es.foldl mkEdge o e.2 = false := by
  have key : ∀ (l : List (Nat × Nat)) (o : Nat → Bool) (x : Nat) (c : Bool),
      (∀ e ∈ l, (c = true → x ≠ e.2) ∧ (c = false → x ≠ e.1)) →
      (o x = c ∨ ∃ e ∈ l, (if c then e.1 else e.2) = x) → l.foldl mkEdge o x = c := by
    intro l
    induction l with
    | nil =>
      rintro o x c - (h | ⟨e, h, -⟩)
      · exact h
      · cases h
    | cons e l ih =>
      intro o x c hx hc
      rw [List.foldl_cons]
      refine ih _ _ _ (fun e' he' => hx e' (by simp [he'])) ?_
      have hxe := hx e (by simp)
      rcases hc with hc | ⟨e', he', hc⟩
      · left
        simp only [mkEdge, Function.update_apply]
        cases c
        · rw [if_neg (hxe.2 rfl), hc]; simp
        · rw [if_neg (hxe.1 rfl), hc]; simp
      · rcases List.mem_cons.1 he' with rfl | he'
        · left
          simp only [mkEdge, Function.update_apply]
          cases c
          · simp only [Bool.false_eq_true, if_false] at hc
            rw [if_pos hc.symm]
          · simp only [if_true] at hc
            rw [if_neg (hxe.1 rfl), if_pos hc.symm]
        · exact Or.inr ⟨e', he', hc⟩
  intro e he
  refine ⟨key es o e.1 true (fun e' he' => ⟨fun _ => h e he e' he', fun h => by cases h⟩) (Or.inr ⟨e, he, rfl⟩),
    key es o e.2 false (fun e' he' => ⟨(fun h => by cases h), fun _ => (h e' he' e he).symm⟩) (Or.inr ⟨e, he, rfl⟩)⟩

example : let es := [(0, 1), (0, 2), (3, 1)]
    (∀ e ∈ es, ∀ e' ∈ es, e.1 ≠ e'.2) := by decide

/-- A reference object that is the first vertex of an existing edge and is reused as the second vertex of a new one is turned in
the old edge too: both vertices of the old edge end up reversed. -/
theorem shared_ref_turned (es : List (Nat × Nat)) (h : ∀ e ∈ es, ∀ e' ∈ es, e.1 ≠ e'.2) (o : Nat → Bool) (e : Nat × Nat)
    (he : e ∈ es) (a : Nat) (ha : a ≠ e.2) :
    (es ++ [(a, e.1)]).foldl mkEdge o e.1 = false ∧ (es ++ [(a, e.1)]).foldl mkEdge o e.2 = false := by
  have h2 := (edges_oriented es h o e he).2
  rw [List.foldl_append]
  simp only [List.foldl_cons, List.foldl_nil, mkEdge, Function.update_apply]
  refine ⟨by simp, ?_⟩
  rw [if_neg (h e he e he).symm, if_neg (Ne.symm ha)]
  exact h2

/-! ### Validators -/

/-- A Python value as `check_matrix` sees it: something without `__len__`, or a sequence. -/
inductive Val (A : Type) where
  | leaf (a : A)
  | seq (items : List (Val A))

mutual
/-- `check_matrix` (brep_writer.py:21-55): the resulting shape, or `none` for `ParamError`. A dimension `None` is
`none`. `ok` tells whether a leaf is an instance of the allowed types; sequences are not. -/
def checkMatrix {A : Type} (ok : A → Bool) : List (Option Nat) → Val A → Option (List (Option Nat))
  | [], .leaf a => if ok a then some [] else none
  | [], .seq _ => none
  | _ :: _, .leaf _ => none
  | d :: ds, .seq items =>
    if items.length ≠ d.getD items.length then none
    else (checkItems ok ds items).map fun ds => some (d.getD items.length) :: ds
/-- Loop over the items (brep_writer.py:48-51). -/
def checkItems {A : Type} (ok : A → Bool) : List (Option Nat) → List (Val A) → Option (List (Option Nat))
  | ds, [] => some ds
  | ds, v :: vs =>
    match checkMatrix ok ds v with
    | none => none
    | some ds => checkItems ok ds vs
end

/-- The value is a matrix with the dimensions `ds` and allowed elements. -/
inductive HasShape {A : Type} (ok : A → Bool) : List Nat → Val A → Prop
  | leaf {a : A} : ok a = true → HasShape ok [] (.leaf a)
  | seq {d : Nat} {ds : List Nat} {items : List (Val A)} : items.length = d → (∀ v ∈ items, HasShape ok ds v) →
      HasShape ok (d :: ds) (.seq items)

/-- The dimensions `ds` agree with the requested ones. -/
def Fits (sh : List (Option Nat)) (ds : List Nat) : Prop := List.Forall₂ (fun (o : Option Nat) d => ∀ k, o = some k → k = d) sh ds

theorem fits_exists (sh : List (Option Nat)) : ∃ ds, Fits sh ds := by
  induction sh with
  | nil => exact ⟨[], .nil⟩
  | cons o sh ih =>
    obtain ⟨ds, h⟩ := ih
    exact ⟨o.getD 0 :: ds, .cons (by intro k hk; rw [hk]; rfl) h⟩


mutual
theorem checkMatrix_spec {A : Type} (ok : A → Bool) (sh : List (Option Nat)) (v : Val A) :
    match checkMatrix ok sh v with
    | some sh' => ∀ ds, Fits sh' ds ↔ Fits sh ds ∧ HasShape ok ds v
    | none => ∀ ds, Fits sh ds → ¬ HasShape ok ds v := by
  match sh, v with
  | [], .leaf a =>
    simp only [checkMatrix]
    by_cases h : ok a = true
    · rw [if_pos h]
      intro ds
      constructor
      · intro hf; cases hf; exact ⟨.nil, .leaf h⟩
      · exact fun hf => hf.1
    · rw [if_neg h]
      intro ds hf hs
      cases hs with
      | leaf h' => exact h h'
  | [], .seq items =>
    simp only [checkMatrix]
    intro ds hf hs
    cases hf
    cases hs
  | d :: ds, .leaf a =>
    simp only [checkMatrix]
    intro ds' hf hs
    cases hf
    cases hs
  | d :: sh, .seq items =>
    simp only [checkMatrix]
    by_cases h : items.length ≠ d.getD items.length
    · rw [if_pos h]
      intro ds hf hs
      cases hs with
      | seq hl hi =>
        cases hf with
        | cons h1 h2 =>
          cases d with
          | none => exact h rfl
          | some k => exact h (by rw [hl]; exact (h1 k rfl).symm)
    · rw [if_neg h]
      simp only [not_not] at h
      have hi := checkItems_spec ok sh items
      rcases hc : checkItems ok sh items with _ | sh'
      · rw [hc] at hi
        intro ds hf hs
        cases hs with
        | seq hl hi' =>
          cases hf with
          | cons h1 h2 => exact hi _ h2 hi'
      · rw [hc] at hi
        intro ds
        simp only
        constructor
        · intro hf
          cases hf with
          | cons h1 h2 =>
            obtain ⟨h3, h4⟩ := (hi _).1 h2
            have := h1 _ rfl
            refine ⟨.cons ?_ h3, .seq (by rw [h, this]) h4⟩
            rintro k rfl
            exact this
        · rintro ⟨hf, hs⟩
          cases hs with
          | seq hl hi' =>
            cases hf with
            | cons h1 h2 =>
              refine .cons ?_ ((hi _).2 ⟨h2, hi'⟩)
              intro k hk
              simp only [Option.some.injEq] at hk
              rw [← hk, ← h, hl]
theorem checkItems_spec {A : Type} (ok : A → Bool) (sh : List (Option Nat)) (vs : List (Val A)) :
    match checkItems ok sh vs with
    | some sh' => ∀ ds, Fits sh' ds ↔ Fits sh ds ∧ ∀ v ∈ vs, HasShape ok ds v
    | none => ∀ ds, Fits sh ds → ¬ ∀ v ∈ vs, HasShape ok ds v := by
  match vs with
  | [] =>
    simp only [checkItems]
    intro ds
    simp
  | v :: vs =>
    simp only [checkItems]
    have h1 := checkMatrix_spec ok sh v
    rcases hc : checkMatrix ok sh v with _ | sh1
    · rw [hc] at h1
      intro ds hf ha
      exact h1 ds hf (ha v (by simp))
    · rw [hc] at h1
      simp only
      have h2 := checkItems_spec ok sh1 vs
      rcases hc2 : checkItems ok sh1 vs with _ | sh2
      · rw [hc2] at h2
        intro ds hf ha
        exact h2 ds ((h1 ds).2 ⟨hf, ha v (by simp)⟩) fun w hw => ha w (by simp [hw])
      · rw [hc2] at h2
        intro ds
        rw [h2, h1, and_assoc]
        simp
end

/-- `check_matrix` accepts exactly the values that are matrices of some dimensions agreeing with the requested shape (where
`None` agrees with everything) with elements of the allowed types. -/
theorem check_matrix_iff {A : Type} (ok : A → Bool) (sh : List (Option Nat)) (v : Val A) :
    (checkMatrix ok sh v).isSome ↔ ∃ ds, Fits sh ds ∧ HasShape ok ds v := by
  have h := checkMatrix_spec ok sh v
  rcases hc : checkMatrix ok sh v with _ | sh'
  · rw [hc] at h
    simp only [Option.isSome_none, Bool.false_eq_true, false_iff, not_exists, not_and]
    exact h
  · rw [hc] at h
    simp only [Option.isSome_some, true_iff]
    obtain ⟨ds, hd⟩ := fits_exists sh'
    exact ⟨ds, (h ds).1 hd⟩

/-- The shape it returns fits exactly the dimensions that fit the request and are dimensions of the value. -/
theorem check_matrix_shape {A : Type} (ok : A → Bool) (sh sh' : List (Option Nat)) (v : Val A)
    (h : checkMatrix ok sh v = some sh') (ds : List Nat) : Fits sh' ds ↔ Fits sh ds ∧ HasShape ok ds v := by
  have := checkMatrix_spec ok sh v
  rw [h] at this
  exact this ds

/-- Points of a curve; a table without points leaves the unknown dimension open. -/
example : checkMatrix (fun a : Nat => decide (a < 10)) [none, some 2] (.seq [.seq [.leaf 1, .leaf 2], .seq [.leaf 3, .leaf 4]]) =
    some [some 2, some 2] ∧
    checkMatrix (fun a : Nat => decide (a < 10)) [none, none] (.seq [.seq [.leaf 1, .leaf 2], .seq [.leaf 3]]) = none ∧
    checkMatrix (fun a : Nat => decide (a < 10)) [none, none, some 3] (.seq []) = some [some 0, none, some 3] := by
  simp [checkMatrix, checkItems]

/-- `check_knots` (brep_writer.py:129-135). -/
def checkKnots {K : Type} (deg : Int) (knots : List (K × Int)) (n : Int) : Bool :=
  decide ((knots.map Prod.snd).sum = deg + n + 1)

/-- `check_knots` accepts the knots in any order. -/
theorem check_knots_any_order {K : Type} (deg n : Int) (knots knots' : List (K × Int)) (h : knots.Perm knots') :
    checkKnots deg knots' n = checkKnots deg knots n := by
  simp only [checkKnots, (h.map Prod.snd).sum_eq]

/-- `check_knots` ignores the values of the knots: replacing them by any other values changes nothing. -/
theorem check_knots_any_values {K : Type} (deg n : Int) (knots : List (K × Int)) (f : K → K) :
    checkKnots deg (knots.map fun p => (f p.1, p.2)) n = checkKnots deg knots n := by
  simp only [checkKnots, List.map_map]
  rfl

/-- For every list of knots accepted, the list with a knot of multiplicity `-m` and one of multiplicity `m` added is accepted:
positive multiplicities are not enforced. -/
theorem check_knots_negative {K : Type} (deg n m : Int) (a b : K) (knots : List (K × Int)) (h : checkKnots deg knots n = true) :
    checkKnots deg ((a, m) :: (b, -m) :: knots) n = true := by
  simp only [checkKnots, decide_eq_true_eq, List.map_cons, List.sum_cons] at h ⊢
  omega

/-- For natural multiplicities it accepts exactly the knot vectors with `degree + N + 1` knots, counted with their
multiplicity. -/
theorem check_knots_count {K : Type} (deg n : Nat) (knots : List (K × Nat)) :
    checkKnots (deg : Int) (knots.map fun p => (p.1, (p.2 : Int))) n = true ↔
      (knots.flatMap fun p => List.replicate p.2 p.1).length = deg + n + 1 := by
  have : (knots.map fun p => (p.1, (p.2 : Int))).map Prod.snd = (knots.map Prod.snd).map fun m : Nat => (m : Int) := by
    simp [List.map_map]
  simp only [checkKnots, decide_eq_true_eq, this, List.length_flatMap, List.length_replicate]
  have hs : ((knots.map Prod.snd).map fun m : Nat => (m : Int)).sum = ((knots.map fun p => p.2).sum : Nat) := by
    clear this
    induction knots with
    | nil => rfl
    | cons a l ih =>
      simp only [List.map_cons, List.sum_cons, Nat.cast_add]
      rw [ih]
      norm_cast
  rw [hs]
  norm_cast

example : checkKnots 2 [((0 : Nat), 3), (1, 3)] 3 = true ∧ checkKnots 2 [((1 : Nat), 7), (0, -1)] 3 = true := by decide

/-! ### The text of a composed location -/

/-- The numbers of a location record `2 ...` (brep_writer.py:123-127). -/
def composedTokens (ps : List (Nat × Int)) : List Int := 2 :: (ps.flatMap fun p => [(p.1 : Int), p.2]) ++ [0]

/-- Reading of a `<location data 2>` record: pairs of a location number and a power up to a location number 0 (Open CASCADE BREP
format); the pairs and the rest of the text. -/
def readPairs : List Int → List (Int × Int) → Option (List (Int × Int) × List Int)
  | 0 :: rest, acc => some (acc, rest)
  | l :: p :: rest, acc => readPairs rest (acc ++ [(l, p)])
  | _, _ => none

theorem readPairs_append (ps : List (Nat × Int)) (h : ∀ p ∈ ps, p.1 ≠ 0) (rest : List Int) : ∀ acc,
    readPairs ((ps.flatMap fun p => [(p.1 : Int), p.2]) ++ rest) acc = readPairs rest (acc ++ ps.map fun p => ((p.1 : Int), p.2)) := by
  induction ps with
  | nil => intro acc; simp
  | cons p ps ih =>
    intro acc
    have hp := h p (by simp)
    obtain ⟨l, e⟩ := p
    simp only [List.flatMap_cons, List.cons_append, List.nil_append, List.map_cons]
    rw [readPairs]
    · rw [ih (fun q hq => h q (by simp [hq]))]
      simp
    · intro h0
      exact hp (by exact_mod_cast h0)

/-- A composed location is read back from the file exactly when none of its components is the identity. -/
theorem composed_read_iff (ps : List (Nat × Int)) (rest : List Int) :
    readPairs ((composedTokens ps).tail ++ rest) [] = some (ps.map fun p => ((p.1 : Int), p.2), rest) ↔ ∀ p ∈ ps, p.1 ≠ 0 := by
  have ht : (composedTokens ps).tail ++ rest = (ps.flatMap fun p => [(p.1 : Int), p.2]) ++ (0 :: rest) := by
    simp [composedTokens]
  rw [ht]
  constructor
  · intro h p hp h0
    obtain ⟨a, b, rfl, hb⟩ : ∃ a b, ps = a ++ b ∧ (∀ q ∈ a, q.1 ≠ 0) ∧ ∃ e c, b = (0, e) :: c := by
      clear h ht
      induction ps with
      | nil => cases hp
      | cons q ps ih =>
        by_cases hq : q.1 = 0
        · exact ⟨[], q :: ps, rfl, by simp, q.2, ps, by rw [← hq]⟩
        · rcases List.mem_cons.1 hp with rfl | hp
          · exact absurd h0 hq
          · obtain ⟨a, b, h1, h2, h3⟩ := ih hp
            refine ⟨q :: a, b, by rw [h1]; rfl, fun x hx => ?_, h3⟩
            rcases List.mem_cons.1 hx with rfl | hx
            · exact hq
            · exact h2 x hx
    obtain ⟨ha, e, c, rfl⟩ := hb
    rw [List.flatMap_append, List.append_assoc, readPairs_append a ha] at h
    simp only [List.nil_append, List.flatMap_cons, List.cons_append] at h
    rw [show ((((0 : Nat), e).1 : Nat) : Int) = 0 from rfl, readPairs, Option.some.injEq, Prod.mk.injEq] at h
    have := congrArg List.length h.1
    simp at this
  · intro h
    rw [readPairs_append ps h]
    simp [readPairs]

example : readPairs ((composedTokens [(1, 2), (3, -1)]).tail ++ [7]) [] = some ([(1, 2), (3, -1)], [7]) ∧
    readPairs ((composedTokens [(1, 2), (0, 1), (3, -1)]).tail ++ [7]) [] = some ([(1, 2)], [1, 3, -1, 0, 7]) := by decide

end Verif.Brep
