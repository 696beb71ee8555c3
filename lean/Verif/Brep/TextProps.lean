import Verif.Brep.Text

/-! The reader gives back the records of every written text. -/
namespace Verif.Brep

variable {K : Type}

/-! ### Words of a text -/

theorem scan_append (t u : List Char) : ∀ s, scan (t ++ u) s = scan u (scan t s) := by
  induction t with
  | nil => intro s; rfl
  | cons c t ih =>
    rintro ⟨d, w⟩
    simp only [List.cons_append, scan]
    split <;> exact ih _

theorem scan_word {w : Word} (h : ∀ c ∈ w, blank c = false) : ∀ d v, scan w (d, v) = (d, v ++ w) := by
  induction w with
  | nil => intro d v; simp [scan]
  | cons c w ih =>
    intro d v
    have := ih (fun c hc => h c (by simp [hc])) d (v ++ [c])
    rw [scan, h c (by simp), if_neg (by decide), this]
    simp

theorem nat_nb (n : Nat) : ∀ c ∈ nat n, blank c = false := by
  intro c hc
  have h := Nat.isDigit_of_mem_toDigits (by decide) (by decide) hc
  simp only [blank, Bool.or_eq_false_iff, beq_eq_false_iff_ne]
  constructor <;> (rintro rfl; simp at h)

theorem nat_ne (n : Nat) : nat n ≠ [] := Nat.toDigits_ne_nil

theorem int_nb (n : Int) : ∀ c ∈ int n, blank c = false := by
  cases n with
  | ofNat n => exact nat_nb n
  | negSucc n =>
    intro c hc
    simp only [int, List.mem_cons] at hc
    rcases hc with rfl | hc
    · rfl
    · exact nat_nb _ c hc

theorem int_ne (n : Int) : int n ≠ [] := by
  cases n with
  | ofNat n => exact nat_ne n
  | negSucc n => simp [int]

@[simp] theorem scan_nat (n : Nat) (d : List Word) (v : Word) : scan (nat n) (d, v) = (d, v ++ nat n) := scan_word (nat_nb n) d v
@[simp] theorem scan_int (n : Int) (d : List Word) (v : Word) : scan (int n) (d, v) = (d, v ++ int n) := scan_word (int_nb n) d v
@[simp] theorem scan_num (F : Fmt K) (x : K) (d : List Word) (v : Word) : scan (F.text x) (d, v) = (d, v ++ F.text x) :=
  scan_word (F.nb x) d v

/-- A text that begins and ends at the border of words and has the given words. -/
def Out (t : List Char) (ws : List Word) : Prop := ∀ d, scan t (d, []) = (d ++ ws, [])

theorem Out.append {t u : List Char} {a b : List Word} (h : Out t a) (h' : Out u b) : Out (t ++ u) (a ++ b) := by
  intro d
  rw [scan_append, h, h', List.append_assoc]

theorem Out.flatMap {α : Type} {f : α → List Char} {g : α → List Word} (l : List α) (h : ∀ a ∈ l, Out (f a) (g a)) :
    Out (l.flatMap f) (l.flatMap g) := by
  induction l with
  | nil => intro d; simp [scan]
  | cons a l ih => exact (h a (by simp)).append (ih fun b hb => h b (by simp [hb]))

theorem out_blank : Out [' '] [] := by intro d; simp [scan, blank]

/-- Words, each after a space, and a blank. -/
theorem out_spaced {l : List Word} (h : ∀ w ∈ l, w ≠ [] ∧ ∀ c ∈ w, blank c = false) {b : Char} (hb : blank b = true) :
    Out (spaced l ++ [b]) l := by
  have key : ∀ (l : List Word), (∀ w ∈ l, w ≠ [] ∧ ∀ c ∈ w, blank c = false) → ∀ d v,
      scan (spaced l ++ [b]) (d, v) = ((if v = [] then d else d ++ [v]) ++ l, []) := by
    intro l
    induction l with
    | nil => intro _ d v; simp [spaced, scan, hb]
    | cons w l ih =>
      intro h d v
      have hw := h w (by simp)
      have : spaced (w :: l) ++ [b] = ' ' :: (w ++ (spaced l ++ [b])) := by simp [spaced]
      rw [this]
      simp only [scan, show blank ' ' = true from rfl, if_true]
      rw [scan_append, scan_word hw.2, ih fun x hx => h x (by simp [hx])]
      simp [hw.1]
  intro d
  rw [key l h d []]
  simp

theorem num_ok (F : Fmt K) (l : List K) : ∀ w ∈ l.map F.text, w ≠ [] ∧ ∀ c ∈ w, blank c = false := by
  intro w hw
  obtain ⟨x, _, rfl⟩ := List.mem_map.1 hw
  exact ⟨F.ne x, F.nb x⟩

theorem out_nums (F : Fmt K) (l : List K) {b : Char} (hb : blank b = true) : Out (spaced (l.map F.text) ++ [b]) (l.map F.text) :=
  out_spaced (num_ok F l) hb

theorem out_knot (F : Fmt K) (k : K × Nat) : Out (spaced [F.text k.1, nat k.2] ++ " ".toList) [F.text k.1, nat k.2] := by
  refine out_spaced ?_ rfl
  intro w hw
  simp only [List.mem_cons, List.not_mem_nil, or_false] at hw
  rcases hw with rfl | rfl
  · exact ⟨F.ne _, F.nb _⟩
  · exact ⟨nat_ne _, nat_nb _⟩

def curveWords (F : Fmt K) (c : Curve K) : List Word :=
  ["7".toList, nat c.rational.toNat, "0".toList, nat c.degree, nat c.poles.length, nat c.knots.length] ++
    (c.poles.flatMap fun p => p.map F.text) ++ (c.knots.flatMap fun k => [F.text k.1, nat k.2])

theorem out_curve (F : Fmt K) (c : Curve K) : Out (curveText F c) (curveWords F c) := by
  have h1 : Out ("7 ".toList ++ nat c.rational.toNat ++ " 0  ".toList ++ nat c.degree ++ " ".toList ++ nat c.poles.length ++
      " ".toList ++ nat c.knots.length ++ " ".toList)
      ["7".toList, nat c.rational.toNat, "0".toList, nat c.degree, nat c.poles.length, nat c.knots.length] := by
    intro d
    simp [scan_append, scan, blank, nat_ne]
  have h2 := Out.flatMap c.poles (f := fun p => spaced (p.map F.text) ++ " ".toList) fun p _ => out_nums F p rfl
  have h3 := Out.flatMap c.knots fun k _ => out_knot F k
  have h4 : Out "\n".toList [] := by intro d; simp [scan, blank]
  have := ((h1.append h2).append h3).append h4
  rw [List.append_nil] at this
  exact this

def surfWords (F : Fmt K) (s : Surf K) : List Word :=
  ["9".toList, nat s.rational.toNat, nat s.rational.toNat, "0".toList, "0".toList, nat s.degree.1, nat s.degree.2, nat s.poles.length,
    nat (s.poles.headD []).length, nat s.uKnots.length, nat s.vKnots.length] ++
    (s.poles.flatMap fun r => r.flatMap fun p => p.map F.text) ++ (s.uKnots.flatMap fun k => [F.text k.1, nat k.2]) ++
    (s.vKnots.flatMap fun k => [F.text k.1, nat k.2])

theorem out_surf (F : Fmt K) (s : Surf K) : Out (surfText F s) (surfWords F s) := by
  have h1 : Out ("9 ".toList ++ nat s.rational.toNat ++ " ".toList ++ nat s.rational.toNat ++ " 0 0 ".toList ++
      spaced [nat s.degree.1, nat s.degree.2] ++ " ".toList ++ nat s.poles.length ++ " ".toList ++ nat (s.poles.headD []).length ++
      "  ".toList ++ nat s.uKnots.length ++ " ".toList ++ nat s.vKnots.length ++ " ".toList)
      ["9".toList, nat s.rational.toNat, nat s.rational.toNat, "0".toList, "0".toList, nat s.degree.1, nat s.degree.2,
        nat s.poles.length, nat (s.poles.headD []).length, nat s.uKnots.length, nat s.vKnots.length] := by
    intro d
    simp [scan_append, scan, blank, nat_ne, spaced]
  have h2 := Out.flatMap s.poles (f := fun r => (r.flatMap fun p => spaced (p.map F.text) ++ " ".toList) ++ " ".toList)
    (g := fun r => (r.flatMap fun p => p.map F.text) ++ [])
    fun r _ => (Out.flatMap r fun p _ => out_nums F p rfl).append out_blank
  have h3 := Out.flatMap s.uKnots fun k _ => out_knot F k
  have h3' := Out.flatMap s.vKnots fun k _ => out_knot F k
  have h4 : Out "\n".toList [] := by intro d; simp [scan, blank]
  have := (((h1.append h2).append h3).append h3').append h4
  simp only [List.append_nil] at this
  exact this

def locWords (F : Fmt K) : LocRec K → List Word
  | .elem m => "1".toList :: m.flatMap fun r => r.map F.text
  | .composed ps => "2".toList :: (ps.flatMap fun p => [nat p.1, int p.2]) ++ ["0".toList]

theorem out_loc (F : Fmt K) (l : LocRec K) : Out (locText F l) (locWords F l) := by
  cases l with
  | elem m =>
    have h1 : Out "1\n".toList ["1".toList] := by intro d; simp [scan, blank]
    exact h1.append (Out.flatMap m fun r _ => out_nums F r rfl)
  | composed ps =>
    have h1 : Out "2 ".toList ["2".toList] := by intro d; simp [scan, blank]
    have h3 : Out "0\n".toList ["0".toList] := by intro d; simp [scan, blank]
    refine (h1.append (Out.flatMap ps fun p _ => ?_)).append h3
    intro d
    simp [scan_append, scan, blank, nat_ne, int_ne]

def reprWords (F : Fmt K) : Repr K → List Word
  | .c2 t0 t1 c f l => ["2".toList, nat c, nat f, nat l, F.text t0, F.text t1]
  | .c3 t0 t1 c l => ["1".toList, nat c, nat l, F.text t0, F.text t1]
  | .sf _ _ => []

theorem out_repr2 (F : Fmt K) (t0 t1 : K) (c f l : Nat) : Out (reprText F (.c2 t0 t1 c f l)) (reprWords F (.c2 t0 t1 c f l)) := by
  unfold reprText reprWords
  intro d
  simp [scan_append, scan, blank, nat_ne, F.ne]

theorem out_repr3 (F : Fmt K) (t0 t1 : K) (c l : Nat) : Out (reprText F (.c3 t0 t1 c l)) (reprWords F (.c3 t0 t1 c l)) := by
  unfold reprText reprWords
  intro d
  simp [scan_append, scan, blank, nat_ne, F.ne]

theorem out_reprS (F : Fmt K) (f l : Nat) : Out (reprText F (.sf f l)) (reprWords F (.sf f l)) := by
  unfold reprText reprWords
  intro d
  simp [scan]

theorem out_repr (F : Fmt K) (r : Repr K) : Out (reprText F r) (reprWords F r) :=
  match r with
  | .c2 t0 t1 c f l => out_repr2 F t0 t1 c f l
  | .c3 t0 t1 c l => out_repr3 F t0 t1 c l
  | .sf f l => out_reprS F f l

def subWords (F : Fmt K) : TSub K → List Word
  | .none => []
  | .vertex tol p => F.text tol :: p.map F.text ++ ["0".toList, "0".toList]
  | .edge tol f0 f1 f2 rs => [F.text tol, nat f0, nat f1, nat f2] ++ rs.flatMap (reprWords F) ++ ["0".toList]
  | .face r tol f l => [nat r, F.text tol, nat f, nat l]

theorem out_vertex (F : Fmt K) (tol : K) (p : List K) : Out (subText F (.vertex tol p)) (subWords F (.vertex tol p)) := by
  have h1 : Out (F.text tol ++ "\n".toList) [F.text tol] := by intro d; simp [scan_append, scan, blank, F.ne]
  have h2 : Out (p.flatMap fun x => F.text x ++ " ".toList) (p.flatMap fun x => [F.text x]) :=
    Out.flatMap p fun x _ => by intro d; simp [scan_append, scan, blank, F.ne]
  have h3 : Out "\n0 0\n\n".toList ["0".toList, "0".toList] := by intro d; simp [scan, blank]
  have e : (p.flatMap fun x => [F.text x]) = p.map F.text := by
    clear h2
    induction p with
    | nil => rfl
    | cons a p ih => rw [List.flatMap_cons, ih]; rfl
  rw [e] at h2
  have := (h1.append h2).append h3
  rw [subText, subWords]
  exact this

theorem out_edge (F : Fmt K) (tol : K) (f0 f1 f2 : Nat) (rs : List (Repr K)) :
    Out (subText F (.edge tol f0 f1 f2 rs)) (subWords F (.edge tol f0 f1 f2 rs)) := by
  have h1 : Out (" ".toList ++ F.text tol ++ " ".toList ++ nat f0 ++ " ".toList ++ nat f1 ++ " ".toList ++ nat f2 ++ "\n".toList)
      [F.text tol, nat f0, nat f1, nat f2] := by intro d; simp [scan_append, scan, blank, F.ne, nat_ne]
  have h3 : Out "0\n".toList ["0".toList] := by intro d; simp [scan, blank]
  have := (h1.append (Out.flatMap rs fun r _ => out_repr F r)).append h3
  rw [subText, subWords]
  exact this

theorem out_sub (F : Fmt K) (s : TSub K) : Out (subText F s) (subWords F s) := by
  cases s with
  | none => intro d; simp [subText, subWords, scan, blank]
  | vertex tol p => exact out_vertex F tol p
  | edge tol f0 f1 f2 rs => exact out_edge F tol f0 f1 f2 rs
  | face r tol f l => intro d; simp [subText, subWords, scan_append, scan, blank, F.ne, nat_ne]

def refWords (r : Ref) : List Word := [orientChar r.orient :: nat r.shape, nat r.loc]

theorem orient_nb (n : Nat) : blank (orientChar n) = false := by
  unfold orientChar
  split <;> rfl

theorem out_ref (r : Ref) : Out (refText r) (refWords r) := by
  intro d
  simp only [refText, refWords, List.cons_append, scan, orient_nb, List.append_assoc]
  simp [scan_append, scan, blank, nat_ne]

def shapeWords (F : Fmt K) (s : TShp K) : List Word :=
  s.kind.name :: subWords F s.sub ++ [s.flags.flatMap nat] ++ s.childs.flatMap refWords ++ ["*".toList]

theorem flags_nb (l : List Nat) : ∀ c ∈ l.flatMap nat, blank c = false := by
  intro c hc
  obtain ⟨n, _, hc⟩ := List.mem_flatMap.1 hc
  exact nat_nb n c hc

theorem out_shape (F : Fmt K) (s : TShp K) (hf : s.flags ≠ []) : Out (shapeText F s) (shapeWords F s) := by
  have h1 : Out (s.kind.name ++ "\n".toList) [s.kind.name] := by
    intro d
    cases s.kind <;> simp [Kind.name, scan_append, scan, blank]
  have h2 : Out (s.flags.flatMap nat ++ "\n".toList) [s.flags.flatMap nat] := by
    intro d
    have hne : s.flags.flatMap nat ≠ [] := by
      cases hs : s.flags with
      | nil => exact absurd hs hf
      | cons a l => simp [nat_ne]
    rw [scan_append, scan_word (flags_nb _)]
    simp only [List.nil_append]
    simp [scan, blank, hne]
  have h3 : Out "*\n".toList ["*".toList] := by intro d; simp [scan, blank]
  have := (((h1.append (out_sub F s.sub)).append h2).append (Out.flatMap s.childs fun r _ => out_ref r)).append h3
  simp only [List.append_assoc] at this
  simpa only [shapeText, shapeWords, List.append_assoc, List.cons_append, List.nil_append] using this

/-- The name of a section with the number of its records. -/
theorem out_section {name : List Char} (hn : Out (name ++ [' ']) [name]) (n : Nat) :
    Out (name ++ [' '] ++ nat n ++ ['\n']) [name, nat n] := by
  intro d
  rw [List.append_assoc (name ++ [' ']), scan_append, hn]
  simp [scan_append, scan, blank, nat_ne]

def fileWords (F : Fmt K) (f : TFile K) : List Word :=
  ["DBRep_DrawableShape".toList, "CASCADE".toList, "Topology".toList, "V1,".toList, "(c)".toList, "Matra-Datavision".toList] ++
    (["Locations".toList, nat f.locs.length] ++ f.locs.flatMap (locWords F)) ++
    (["Curve2ds".toList, nat f.c2.length] ++ f.c2.flatMap (curveWords F)) ++
    (["Curves".toList, nat f.c3.length] ++ f.c3.flatMap (curveWords F)) ++
    ["Polygon3D".toList, nat 0] ++ ["PolygonOnTriangulations".toList, nat 0] ++
    (["Surfaces".toList, nat f.sf.length] ++ f.sf.flatMap (surfWords F)) ++ ["Triangulations".toList, nat 0] ++
    (["TShapes".toList, nat f.shapes.length] ++ f.shapes.flatMap (shapeWords F)) ++ ["+1".toList, "0".toList]

theorem words_last {t : List Char} {ws : List Word} (h : Out t ws) :
    words (t ++ "\n+1 0".toList) = ws ++ ["+1".toList, "0".toList] := by
  rw [words, scan_append, h []]
  simp [scan, blank]

theorem out_head : Out ("DBRep_DrawableShape\n\n".toList ++ "CASCADE Topology V1, (c) Matra-Datavision\n".toList)
    ["DBRep_DrawableShape".toList, "CASCADE".toList, "Topology".toList, "V1,".toList, "(c)".toList, "Matra-Datavision".toList] := by
  intro d; simp [scan, blank]

theorem out_locs (n : Nat) : Out ("Locations ".toList ++ nat n ++ "\n".toList) ["Locations".toList, nat n] := by
  intro d; simp [scan_append, scan, blank, nat_ne]

theorem out_c2 (n : Nat) : Out ("Curve2ds ".toList ++ nat n ++ "\n".toList) ["Curve2ds".toList, nat n] := by
  intro d; simp [scan_append, scan, blank, nat_ne]

theorem out_c3 (n : Nat) : Out ("Curves ".toList ++ nat n ++ "\n".toList) ["Curves".toList, nat n] := by
  intro d; simp [scan_append, scan, blank, nat_ne]

theorem out_sf (n : Nat) : Out ("Surfaces ".toList ++ nat n ++ "\n".toList) ["Surfaces".toList, nat n] := by
  intro d; simp [scan_append, scan, blank, nat_ne]

theorem out_shapes (n : Nat) : Out ("\nTShapes ".toList ++ nat n ++ "\n".toList) ["TShapes".toList, nat n] := by
  intro d; simp [scan_append, scan, blank, nat_ne]

theorem nat_zero : nat 0 = "0".toList := rfl

theorem out_poly : Out "Polygon3D 0\n".toList ["Polygon3D".toList, nat 0] := by intro d; rw [nat_zero]; simp [scan, blank]

theorem out_polyT : Out "PolygonOnTriangulations 0\n".toList ["PolygonOnTriangulations".toList, nat 0] := by
  intro d; rw [nat_zero]; simp [scan, blank]

theorem out_tri : Out "Triangulations 0\n".toList ["Triangulations".toList, nat 0] := by intro d; rw [nat_zero]; simp [scan, blank]

theorem file_words (F : Fmt K) (f : TFile K) (hf : ∀ s ∈ f.shapes, s.flags ≠ []) : words (fileText F f) = fileWords F f := by
  have hA := ((((((((out_head.append ((out_locs f.locs.length).append (Out.flatMap f.locs fun l _ => out_loc F l))).append
    ((out_c2 f.c2.length).append (Out.flatMap f.c2 fun c _ => out_curve F c))).append
    ((out_c3 f.c3.length).append (Out.flatMap f.c3 fun c _ => out_curve F c))).append out_poly).append out_polyT).append
    ((out_sf f.sf.length).append (Out.flatMap f.sf fun c _ => out_surf F c))).append out_tri).append
    ((out_shapes f.shapes.length).append (Out.flatMap f.shapes fun c hc => out_shape F c (hf c hc))))
  refine Eq.trans (congrArg words ?_) (words_last hA)
  unfold fileText
  simp only [List.append_assoc]

/-! ### Reading -/

/-- The reader takes the words `ws` and gives `a`, whatever follows. -/
def Reads {α : Type} (r : Rd α) (ws : List Word) (a : α) : Prop := ∀ l, r (ws ++ l) = some (a, l)

theorem Reads.pure {α : Type} (a : α) : Reads (Pure.pure a : Rd α) [] a := fun _ => rfl

theorem Reads.bind {α β : Type} {r : Rd α} {f : α → Rd β} {u v : List Word} {a : α} {b : β} (h : Reads r u a) (h' : Reads (f a) v b) :
    Reads (r >>= f) (u ++ v) b := by
  intro l
  change Rd.bind r f _ = _
  rw [Rd.bind, List.append_assoc, h]
  exact h' l

theorem Reads.map {α β : Type} {r : Rd α} {f : α → Rd β} {u : List Word} {a : α} {b : β} (h : Reads r u a) (h' : Reads (f a) [] b) :
    Reads (r >>= f) u b := by
  have := h.bind h'
  rwa [List.append_nil] at this

theorem Reads.cons {α β : Type} {r : Rd α} {f : α → Rd β} {w : Word} {v : List Word} {a : α} {b : β} (h : Reads r [w] a)
    (h' : Reads (f a) v b) : Reads (r >>= f) (w :: v) b := h.bind h'

theorem Reads.word {α : Type} {f : Word → Option α} {w : Word} {a : α} (h : f w = some a) : Reads (Rd.word f) [w] a := by
  intro l
  simp [Rd.word, h]

theorem natValue_nat (n : Nat) : natValue (nat n) = some n := by
  have h : (nat n).all Char.isDigit = true := by
    rw [List.all_eq_true]
    intro c hc
    exact Nat.isDigit_of_mem_toDigits (by decide) (by decide) hc
  rw [natValue, if_neg (nat_ne n), if_pos h]
  exact congrArg some Nat.ofDigitChars_ten_toDigits

theorem reads_nat (n : Nat) : Reads rdNat [nat n] n := .word (natValue_nat n)

theorem intValue_int (n : Int) : intValue (int n) = some n := by
  cases n with
  | negSucc n =>
    rw [int, intValue, natValue_nat]
    rfl
  | ofNat n =>
    have h : ∀ w, int (.ofNat n) ≠ '-' :: w := by
      intro w hw
      have : '-' ∈ nat n := by
        have : nat n = '-' :: w := hw
        rw [this]
        simp
      have := Nat.isDigit_of_mem_toDigits (by decide) (by decide) this
      simp at this
    rw [intValue]
    · simp [int, natValue_nat]
    · exact h

theorem reads_num (F : Fmt K) (x : K) : Reads (rdNum F) [F.text x] x := .word (F.back x)

theorem reads_this (w : Word) : Reads (rdThis w) [w] () := .word (by simp)

theorem reads_rep {α : Type} {r : Rd α} {t : α → List Word} (l : List α) (h : ∀ a ∈ l, Reads r (t a) a) :
    Reads (rdRep r l.length) (l.flatMap t) l := by
  induction l with
  | nil => exact .pure _
  | cons a l ih => exact (h a (by simp)).bind ((ih fun b hb => h b (by simp [hb])).map (.pure _))

theorem reads_nums (F : Fmt K) (l : List K) {n : Nat} (hn : l.length = n) : Reads (rdRep (rdNum F) n) (l.map F.text) l := by
  have := reads_rep (r := rdNum F) (t := fun x => [F.text x]) l fun x _ => reads_num F x
  have e : (l.flatMap fun x => [F.text x]) = l.map F.text := by
    clear this hn
    induction l with
    | nil => rfl
    | cons a p ih => rw [List.flatMap_cons, ih]; rfl
  rwa [e, hn] at this

theorem reads_bool (b : Bool) : Reads rdBool [nat b.toNat] b := by
  refine (reads_nat b.toNat).map ?_
  cases b <;> exact .pure _

theorem reads_knot (F : Fmt K) (k : K × Nat) : Reads (rdKnot F) [F.text k.1, nat k.2] k :=
  (reads_num F k.1).bind (v := [nat k.2]) ((reads_nat k.2).map (.pure _))

/-- All poles have `n` coordinates and with `rational` a weight. -/
def Curve.Fits (n : Nat) (c : Curve K) : Prop := ∀ p ∈ c.poles, p.length = n + c.rational.toNat

/-- The poles are a matrix of points with three coordinates and with `rational` a weight. -/
def Surf.Fits (s : Surf K) : Prop := ∀ r ∈ s.poles, r.length = (s.poles.headD []).length ∧ ∀ p ∈ r, p.length = 3 + s.rational.toNat

theorem reads_curve (F : Fmt K) {n : Nat} {c : Curve K} (h : c.Fits n) : Reads (rdCurve F n) (curveWords F c) c := by
  change Reads _ ("7".toList :: nat c.rational.toNat :: "0".toList :: nat c.degree :: nat c.poles.length :: nat c.knots.length ::
    ((c.poles.flatMap fun p => p.map F.text) ++ (c.knots.flatMap fun k => [F.text k.1, nat k.2]))) _
  unfold rdCurve
  exact .cons (reads_this _) <| .cons (reads_bool _) <| .cons (reads_this _) <| .cons (reads_nat _) <| .cons (reads_nat _) <|
    .cons (reads_nat _) <| .bind (reads_rep _ fun p hp => reads_nums F p (h p hp)) <| .map (reads_rep _ fun k _ => reads_knot F k) <|
    .pure _

theorem reads_surf (F : Fmt K) {s : Surf K} (h : s.Fits) : Reads (rdSurf F) (surfWords F s) s := by
  change Reads _ ("9".toList :: nat s.rational.toNat :: nat s.rational.toNat :: "0".toList :: "0".toList :: nat s.degree.1 ::
    nat s.degree.2 :: nat s.poles.length :: nat (s.poles.headD []).length :: nat s.uKnots.length :: nat s.vKnots.length ::
    ((s.poles.flatMap fun r => r.flatMap fun p => p.map F.text) ++ (s.uKnots.flatMap fun k => [F.text k.1, nat k.2]) ++
    (s.vKnots.flatMap fun k => [F.text k.1, nat k.2]))) _
  rw [List.append_assoc]
  unfold rdSurf
  refine .cons (reads_this _) <| .cons (reads_bool _) <| .cons (reads_bool _) <| .cons (reads_this _) <| .cons (reads_this _) <|
    .cons (reads_nat _) <| .cons (reads_nat _) <| .cons (reads_nat _) <| .cons (reads_nat _) <| .cons (reads_nat _) <|
    .cons (reads_nat _) <| .bind (a := s.poles) (reads_rep _ fun r hr => ?_) <| .bind (reads_rep _ fun k _ => reads_knot F k) <|
    .map (reads_rep _ fun k _ => reads_knot F k) ?_
  · rw [← (h r hr).1]
    refine reads_rep r fun p hp => reads_nums F p ?_
    rw [(h r hr).2 p hp, Bool.or_self]
  · rw [Bool.or_self]
    exact .pure _

/-- The matrix is 3 times 4; no component of a composed location is the identity. -/
def LocRec.Fits : LocRec K → Prop
  | .elem m => m.length = 3 ∧ ∀ r ∈ m, r.length = 4
  | .composed ps => ∀ p ∈ ps, p.1 ≠ 0

theorem reads_powers {ps : List (Nat × Int)} (h : ∀ p ∈ ps, p.1 ≠ 0) :
    Reads rdPowers ((ps.flatMap fun p => [nat p.1, int p.2]) ++ ["0".toList]) ps := by
  intro l
  induction ps with
  | nil => rfl
  | cons p ps ih =>
    have hp := h p (by simp)
    have := ih fun q hq => h q (by simp [hq])
    change rdPowers (nat p.1 :: int p.2 :: (((ps.flatMap fun p => [nat p.1, int p.2]) ++ ["0".toList]) ++ l)) = _
    obtain ⟨⟨_ | n⟩, k⟩ := p
    · exact absurd rfl hp
    · conv_lhs => unfold rdPowers
      simp only [natValue_nat, intValue_int, this]

theorem reads_loc (F : Fmt K) {l : LocRec K} (h : l.Fits) : Reads (rdLoc F) (locWords F l) l := by
  unfold rdLoc
  match l, h with
  | .elem m, h =>
    refine .cons (reads_nat 1) ?_
    have := reads_rep (r := rdRep (rdNum F) 4) m fun r hr => reads_nums F r (h.2 r hr)
    rw [h.1] at this
    exact .map this (.pure _)
  | .composed ps, h => exact .cons (reads_nat 2) (.map (reads_powers h) (.pure _))

theorem reads_reprs (F : Fmt K) {rs : List (Repr K)} (h : ∀ r ∈ rs, ∀ f l, r ≠ .sf f l) : ∀ k, rs.length < k →
    Reads (rdReprs F k) (rs.flatMap (reprWords F) ++ ["0".toList]) rs := by
  induction rs with
  | nil =>
    intro k hk
    obtain ⟨k, rfl⟩ : ∃ j, k = j + 1 := ⟨k - 1, by simp at hk; omega⟩
    exact .cons (reads_nat 0) (.pure _)
  | cons r rs ih =>
    intro k hk
    obtain ⟨k, rfl⟩ : ∃ j, k = j + 1 := ⟨k - 1, by simp at hk; omega⟩
    have ih := ih (fun r hr => h r (by simp [hr])) k (by simp at hk; omega)
    unfold rdReprs
    match r, h r (by simp) with
    | .c3 t0 t1 c l, _ =>
      exact .cons (reads_nat 1) <| .cons (reads_nat c) <| .cons (reads_nat l) <| .cons (reads_num F t0) <| .cons (reads_num F t1) <|
        .map ih (.pure _)
    | .c2 t0 t1 c f l, _ =>
      exact .cons (reads_nat 2) <| .cons (reads_nat c) <| .cons (reads_nat f) <| .cons (reads_nat l) <| .cons (reads_num F t0) <|
        .cons (reads_num F t1) <| .map ih (.pure _)
    | .sf f l, h => exact absurd rfl (h f l)

/-- The part of the record belongs to the class. -/
def TSub.Fits : Kind → TSub K → Prop
  | .vertex, .vertex _ p => p.length = 3
  | .edge, .edge _ _ _ _ rs => ∀ r ∈ rs, ∀ f l, r ≠ .sf f l
  | .face, .face _ _ _ _ => True
  | .compound, .none => True
  | .compSolid, .none => True
  | .solid, .none => True
  | .shell, .none => True
  | .wire, .none => True
  | _, _ => False

theorem reads_sub (F : Fmt K) {k : Kind} {s : TSub K} (h : s.Fits k) : Reads (rdSub F k) (subWords F s) s := by
  unfold TSub.Fits at h
  split at h
  · exact .cons (reads_num F _) <| .bind (reads_nums F _ h) <| .cons (reads_this _) <| .map (reads_this _) (.pure _)
  · rename_i tol f0 f1 f2 rs
    refine .cons (reads_num F _) <| .cons (reads_nat _) <| .cons (reads_nat _) <| .cons (reads_nat _) <| .map (a := rs) ?_ (.pure _)
    intro l
    refine reads_reprs F h _ ?_ l
    have : ∀ rs : List (Repr K), (∀ r ∈ rs, ∀ f l, r ≠ .sf f l) → rs.length ≤ (rs.flatMap (reprWords F)).length := by
      intro rs
      induction rs with
      | nil => intro _; simp
      | cons r rs ih =>
        intro h
        have := ih fun r hr => h r (by simp [hr])
        have hr : 1 ≤ (reprWords F r).length := by
          match r, h r (by simp) with
          | .c3 .., _ => simp [reprWords]
          | .c2 .., _ => simp [reprWords]
          | .sf f l, h => exact absurd rfl (h f l)
        rw [List.flatMap_cons, List.length_append, List.length_cons]
        omega
    have := this rs h
    change rs.length < ((rs.flatMap (reprWords F) ++ ["0".toList]) ++ l).length + 1
    simp only [List.length_append]
    omega
  · exact .cons (reads_nat _) <| .cons (reads_num F _) <| .cons (reads_nat _) <| .cons (reads_nat _) (.pure _)
  all_goals first | exact .pure _ | exact h.elim

theorem refValue_ref {o : Nat} (h1 : 1 ≤ o) (h4 : o ≤ 4) (n : Nat) : refValue (orientChar o :: nat n) = some (o, n) := by
  have : orientValue (orientChar o) = some o := by
    have : o = 1 ∨ o = 2 ∨ o = 3 ∨ o = 4 := by omega
    rcases this with rfl | rfl | rfl | rfl <;> rfl
  rw [refValue, this, natValue_nat]

theorem reads_refs {rs : List Ref} (h : ∀ r ∈ rs, 1 ≤ r.orient ∧ r.orient ≤ 4) :
    Reads rdRefs (rs.flatMap refWords ++ ["*".toList]) rs := by
  intro l
  induction rs with
  | nil => rfl
  | cons r rs ih =>
    obtain ⟨h1, h4⟩ := h r (by simp)
    have := ih fun q hq => h q (by simp [hq])
    change rdRefs ((orientChar r.orient :: nat r.shape) :: nat r.loc :: ((rs.flatMap refWords ++ ["*".toList]) ++ l)) = _
    have hne : (orientChar r.orient :: nat r.shape) ≠ "*".toList := by
      intro hh
      have hh : orientChar r.orient :: nat r.shape = ['*'] := hh
      exact nat_ne _ (List.cons.inj hh).2
    conv_lhs => unfold rdRefs
    rw [if_neg hne]
    simp only [refValue_ref h1 h4, natValue_nat, this]

theorem flags_back {l : List Nat} (h7 : l.length = 7) (h : ∀ f ∈ l, f ≤ 1) : flagsValue (l.flatMap nat) = some l := by
  have key : ∀ l : List Nat, (∀ f ∈ l, f ≤ 1) → (l.flatMap nat).length = l.length ∧ (∀ c ∈ l.flatMap nat, c = '0' ∨ c = '1') ∧
      ((l.flatMap nat).map fun c => if c = '1' then 1 else 0) = l := by
    intro l
    induction l with
    | nil => intro _; simp
    | cons f l ih =>
      intro h
      obtain ⟨i1, i2, i3⟩ := ih fun g hg => h g (by simp [hg])
      have : f = 0 ∨ f = 1 := by have := h f (by simp); omega
      rcases this with rfl | rfl
      · have e : nat 0 = ['0'] := rfl
        refine ⟨by simp [e, i1], fun c hc => ?_, by simp [e, i3]⟩
        rw [List.flatMap_cons, e] at hc
        rcases List.mem_append.1 hc with hc | hc
        · exact Or.inl (by simpa using hc)
        · exact i2 c hc
      · have e : nat 1 = ['1'] := rfl
        refine ⟨by simp [e, i1], fun c hc => ?_, by simp [e, i3]⟩
        rw [List.flatMap_cons, e] at hc
        rcases List.mem_append.1 hc with hc | hc
        · exact Or.inr (by simpa using hc)
        · exact i2 c hc
  obtain ⟨k1, k2, k3⟩ := key l h
  rw [flagsValue, if_pos ⟨k1.trans h7, k2⟩, k3]

/-- A shape record as the classes make it: seven flags, orientations 1 to 4. -/
structure TShp.Fits (s : TShp K) : Prop where
  sub : s.sub.Fits s.kind
  flags : s.flags.length = 7 ∧ ∀ f ∈ s.flags, f ≤ 1
  orient : ∀ r ∈ s.childs, 1 ≤ r.orient ∧ r.orient ≤ 4

theorem reads_shape (F : Fmt K) {s : TShp K} (h : s.Fits) (hc : s.kind ≠ .compSolid) : Reads (rdShape F) (shapeWords F s) s := by
  have hk : kindValue s.kind.name = some s.kind := by
    revert hc
    cases s.kind <;> intro hc <;> first | rfl | exact absurd rfl hc
  have : shapeWords F s = s.kind.name :: (subWords F s.sub ++ (s.flags.flatMap nat :: (s.childs.flatMap refWords ++ ["*".toList]))) := by
    simp only [shapeWords, List.append_assoc, List.cons_append, List.nil_append]
  rw [this]
  unfold rdShape
  exact .cons (.word hk) <| .bind (reads_sub F h.sub) <| .cons (.word (flags_back h.flags.1 h.flags.2)) <| .map (reads_refs h.orient) <|
    .pure _

theorem reads_section {α : Type} {r : Rd α} {t : α → List Word} (name : String) (l : List α) (h : ∀ a ∈ l, Reads r (t a) a) :
    Reads (rdSection name r) ([name.toList, nat l.length] ++ l.flatMap t) l :=
  .cons (reads_this _) <| .cons (reads_nat _) <| reads_rep l h

/-- The records of the file have the shapes that the constructors check. -/
structure TFile.Fits (f : TFile K) : Prop where
  locs : ∀ l ∈ f.locs, l.Fits
  c2 : ∀ c ∈ f.c2, c.Fits 2
  c3 : ∀ c ∈ f.c3, c.Fits 3
  sf : ∀ s ∈ f.sf, s.Fits
  shapes : ∀ s ∈ f.shapes, s.Fits

theorem fileWords_eq (F : Fmt K) (f : TFile K) : fileWords F f = "DBRep_DrawableShape".toList :: "CASCADE".toList :: "Topology".toList :: "V1,".toList :: "(c)".toList ::
        "Matra-Datavision".toList :: (
        (["Locations".toList, nat f.locs.length] ++ f.locs.flatMap (locWords F)) ++ (
        (["Curve2ds".toList, nat f.c2.length] ++ f.c2.flatMap (curveWords F)) ++ (
        (["Curves".toList, nat f.c3.length] ++ f.c3.flatMap (curveWords F)) ++ (
        (["Polygon3D".toList, nat ([] : List Unit).length] ++ ([] : List Unit).flatMap (fun _ => [])) ++ (
        (["PolygonOnTriangulations".toList, nat ([] : List Unit).length] ++ ([] : List Unit).flatMap (fun _ => [])) ++ (
        (["Surfaces".toList, nat f.sf.length] ++ f.sf.flatMap (surfWords F)) ++ (
        (["Triangulations".toList, nat ([] : List Unit).length] ++ ([] : List Unit).flatMap (fun _ => [])) ++ (
        (["TShapes".toList, nat f.shapes.length] ++ f.shapes.flatMap (shapeWords F)) ++ ["+1".toList, "0".toList])))))))) := by
  simp only [fileWords, List.append_assoc, List.cons_append, List.nil_append, List.flatMap_nil, List.length_nil]

/-- Reading a written text gives exactly the records that were written, and the reference `+1 0`, if there is no compound solid. -/
theorem text_read_back (F : Fmt K) {f : TFile K} (h : f.Fits) (hc : ∀ s ∈ f.shapes, s.kind ≠ .compSolid) :
    readText F (fileText F f) = some (f, ⟨1, 1, 0⟩) := by
  have hw := file_words F f fun s hs hh => by
    have := (h.shapes s hs).flags.1
    rw [hh] at this
    cases this
  have hG : Reads (rdFile F) (fileWords F f) (f, ⟨1, 1, 0⟩) := by
    rw [fileWords_eq]
    unfold rdFile
    exact .cons (reads_this _) <| .cons (reads_this _) <| .cons (reads_this _) <| .cons (reads_this _) <| .cons (reads_this _) <|
      .cons (reads_this _) <| .bind (reads_section _ _ fun l hl => reads_loc F (h.locs l hl)) <|
      .bind (reads_section _ _ fun l hl => reads_curve F (h.c2 l hl)) <| .bind (reads_section _ _ fun l hl => reads_curve F (h.c3 l hl)) <|
      .bind (reads_section _ [] (by simp)) <| .bind (reads_section _ [] (by simp)) <|
      .bind (reads_section _ _ fun l hl => reads_surf F (h.sf l hl)) <| .bind (reads_section _ [] (by simp)) <|
      .bind (reads_section _ _ fun l hl => reads_shape F (h.shapes l hl) (hc l hl)) <|
      .cons (.word (a := (1, 1)) rfl) <| .cons (reads_nat 0) <| .pure _
  have := hG []
  rw [List.append_nil] at this
  rw [readText, hw, this]

end Verif.Brep
