import Verif.Msh.Props
import Mathlib.Data.List.Nodup

namespace Verif.Msh

set_option linter.unusedSectionVars false

variable {F : Type} (io : FloatIO F)

/-- Field names that survive quoting: one line, not starting or ending with a quote. -/
structure FieldName (n : List Char) : Prop where
  line : ∀ c ∈ n, c ≠ '\n' ∧ c ≠ '\r'
  first : n.head? ≠ some '"'
  last : n.getLast? ≠ some '"'

/-- A two dimensional array with at least one row: all rows have the same length. -/
def IsArray (v : List (List F)) : Prop := ∃ n, v ≠ [] ∧ ∀ r ∈ v, r.length = n

/-- What the reader makes of one field: time index 0, time 0, and a dict from the **printed** id to the values. -/
def fieldItem (ids : List Int) (f : List Char × List (List F)) :
    List Char × List (Int × (F × List (Key × List F))) :=
  (f.1, [(0, (io.zero, (ids.zip f.2).map fun p => (Key.str (showInt p.1), p.2)))])

theorem strip_quoted (n : List Char) : strip ('"' :: (n ++ ['"'])) = '"' :: (n ++ ['"']) := by
  rw [strip_cons _ _ (by decide), List.reverse_append]
  simp only [List.reverse_cons, List.reverse_nil, List.nil_append, List.singleton_append]
  rw [List.dropWhile_cons_of_neg (by decide)]
  simp

theorem dropWhile_head {n : List Char} (h : n.head? ≠ some '"') (t : List Char) :
    (n ++ t).dropWhile (· == '"') = if n = [] then t.dropWhile (· == '"') else n ++ t := by
  cases n with
  | nil => simp
  | cons c n =>
    have : ¬ ((c == '"') = true) := by simpa using h
    simp only [List.cons_append, reduceCtorEq, if_false]
    rw [List.dropWhile_cons_of_neg (by simpa using h)]

theorem stripQuotes_quoted (n : List Char) (h1 : n.head? ≠ some '"') (h2 : n.getLast? ≠ some '"') :
    stripQuotes ('"' :: (n ++ ['"'])) = n := by
  unfold stripQuotes
  rw [List.dropWhile_cons_of_pos (by decide), dropWhile_head h1]
  by_cases hn : n = []
  · subst hn; decide
  · rw [if_neg hn, List.reverse_append]
    simp only [List.reverse_cons, List.reverse_nil, List.nil_append, List.singleton_append]
    rw [List.dropWhile_cons_of_pos (by decide)]
    have := dropWhile_head (n := n.reverse) (by simpa using h2) []
    rw [List.append_nil] at this
    rw [this, if_neg (by simpa using hn)]
    simp

theorem headInt_const {l : List Char} {w : List Char} {i : Int} (h1 : words (strip l) = [w]) (h2 : readInt w = some i) :
    headInt l = .ok i := by
  simp [headInt, h1, h2]

theorem headInt_showNat (n : Nat) : headInt (showNat n) = .ok (n : Int) :=
  headInt_const (by rw [words_strip, words_single _ (showNat_word n)]) (readInt_showNat n)

theorem readHead_written (name : List Char) (hn : FieldName name) (nc ne : Nat) (rest : List (List Char)) :
    readHead io (['1'] :: ('"' :: (name ++ ['"'])) :: ['1'] :: ['0'] :: ['3'] :: ['0'] :: showNat nc :: showNat ne :: rest)
      = .ok (⟨name, io.zero, 0, nc, ne⟩, rest) := by
  have a1 : headInt ['1'] = .ok 1 := by decide
  have a3 : headInt ['3'] = .ok 3 := by decide
  have a0 : headInt ['0'] = .ok 0 := by decide
  have af : headFloat io ['0'] = .ok io.zero := by
    have : words (strip ['0']) = [['0']] := by decide
    simp [headFloat, this, io.read_zero]
  simp [readHead, readLine, a1, a3, a0, af, assertEq, bind, Except.bind, pure, Except.pure, headInt_showNat,
    strip_quoted, stripQuotes_quoted name hn.first hn.last]

theorem zip_keys (ids : List Int) (v : List (List F)) : (ids.zip v).map Prod.fst = ids.take v.length := by
  induction ids generalizing v with
  | nil => simp
  | cons i ids ih => cases v <;> simp [ih]

theorem row_words (p : Int × List F) : words (nodeTxt io p) = showInt p.1 :: p.2.map io.shw := by
  rw [nodeTxt, words_cons _ _ (showInt_word _), words_joinSp _ (shws_word io _)]

theorem showInt_inj {i j : Int} (h : showInt i = showInt j) : i = j := by
  have := readInt_showInt i
  rw [h, readInt_showInt] at this
  exact (Option.some.inj this).symm

theorem readRows_written (nc : Nat) (xs : List (Int × List F)) (h : ∀ p ∈ xs, p.2.length = nc)
    (acc : List (Key × List F)) (rest : List (List Char)) :
    readRows io nc xs.length acc (xs.map (nodeTxt io) ++ rest) =
      .ok (xs.foldl (fun a p => dset (.str (showInt p.1)) p.2 a) acc, rest) := by
  induction xs generalizing acc with
  | nil => simp [readRows]
  | cons p xs ih =>
    obtain ⟨c, t, e, _, h2⟩ := head_append (b := ' ' :: joinSp (p.2.map io.shw)) (showInt_head p.1)
    have e' : nodeTxt io p = c :: t := e
    simp only [List.map_cons, List.cons_append, List.length_cons, readRows, readLine, row_words, readFloats_map]
    rw [if_neg (by rw [e']; simpa using h2)]
    rw [if_pos (by rw [h p (by simp)]), ih (fun q hq => h q (by simp [hq]))]
    rfl

theorem foldl_rows (xs : List (Int × List F)) (h : (xs.map Prod.fst).Nodup) :
    xs.foldl (fun a p => dset (Key.str (showInt p.1)) p.2 a) [] = xs.map fun p => (Key.str (showInt p.1), p.2) := by
  have key := dset_foldl (xs.map fun p => (Key.str (showInt p.1), p.2)) [] (by
    simp only [List.nil_append, List.map_map]
    have e : (Prod.fst ∘ fun p : Int × List F => (Key.str (showInt p.1), p.2)) =
      (fun i => Key.str (showInt i)) ∘ Prod.fst := rfl
    rw [e, ← List.map_map]
    exact h.map (fun i j hij => showInt_inj (Key.str.inj hij)))
  rw [List.foldl_map] at key
  simpa using key

theorem readLoop_block (s : Loop F) (l : List Char) (rest : List (List Char)) (r) (h0 : strip l = "$ElementData".toList)
    (h : readBlock io s.mesh rest = .ok r) :
    readLoop io s (l :: rest) = readLoop io { s with mesh := r.1 } r.2 := by
  rw [readLoop]
  rw [if_pos h0]
  split
  · rename_i e he; rw [he] at h; cases h
  · rename_i r' he; rw [he] at h; cases h; rfl

theorem read_field (ids : List Int) (f : List Char × List (List F)) (m : Mesh F) (mode : Mode) (rest : List Char)
    (txt : List Char) (hids : ids.Nodup) (hlen : f.2.length ≤ ids.length) (hv : IsArray f.2) (hn : FieldName f.1)
    (hnew : f.1 ∉ m.data.map Prod.fst) (h : writeElementData io ids f.1 f.2 = .ok txt) :
    readLoop io ⟨mode, some 0, m⟩ (toLines (txt ++ rest)) =
      readLoop io ⟨.skip, some 0, { m with data := m.data ++ [fieldItem io ids f] }⟩ (toLines rest) := by
  obtain ⟨name, values⟩ := f
  obtain ⟨nc, hne, hrow⟩ := hv
  simp only at *
  obtain ⟨v0, vs, rfl⟩ := List.exists_cons_of_ne_nil hne
  simp only [writeElementData, Except.ok.injEq] at h
  subst h
  simp only [List.append_assoc]
  have hq : ∀ c ∈ '"' :: (name ++ ['"']), c ≠ '\n' ∧ c ≠ '\r' := by
    intro c hc
    simp only [List.mem_cons, List.mem_append, List.not_mem_nil, or_false] at hc
    rcases hc with rfl | hc | rfl
    · decide
    · exact hn.line c hc
    · decide
  have hzl : (ids.zip (v0 :: vs)).length = (v0 :: vs).length := by
    rw [List.length_zip]; omega
  have er : rowOut io = fun p => out (nodeTxt io p) := rfl
  rw [toLines_out _ _ (by decide), toLines_out _ _ (by decide), List.cons_append, toLines_out _ _ hq,
    toLines_out _ _ (by decide), toLines_out _ _ (by decide), toLines_out _ _ (by decide), toLines_out _ _ (by decide),
    toLines_out _ _ (clean_word (showNat_word _)), toLines_out _ _ (clean_word (showNat_word _)), er,
    toLines_flatMap (nodeTxt io) _ _ (fun p _ => clean_append (clean_word (showInt_word _))
      (clean_sp (clean_joinSp (shws_word io _)))), toLines_out _ _ (by decide)]
  have hz : ∀ p ∈ ids.zip (v0 :: vs), p.2.length = v0.length := by
    intro p hp
    rw [hrow _ (List.of_mem_zip hp).2, hrow v0 (by simp)]
  have hb : readBlock io m (['1'] :: ('"' :: (name ++ ['"'])) :: ['1'] :: ['0'] :: ['3'] :: ['0'] ::
      showNat v0.length :: showNat (v0 :: vs).length ::
      (List.map (nodeTxt io) (ids.zip (v0 :: vs)) ++ "$EndElementData".toList :: toLines rest)) =
      .ok ({ m with data := m.data ++ [fieldItem io ids (name, v0 :: vs)] }, "$EndElementData".toList :: toLines rest) := by
    have hr := readRows_written io v0.length (ids.zip (v0 :: vs)) hz [] ("$EndElementData".toList :: toLines rest)
    rw [hzl, foldl_rows _ (by
      have : (List.map Prod.fst (ids.zip (v0 :: vs))) = ids.take (v0 :: vs).length := zip_keys _ _
      rw [this]; exact hids.sublist (List.take_sublist _ _))] at hr
    simp only [readBlock, readHead_written io name hn, bind, Except.bind, pure, Except.pure, dget_none _ _ hnew,
      Option.getD_none, dget, Option.isSome_none, Bool.false_eq_true, if_false, Int.toNat_natCast]
    rw [hr]
    simp only [dset, dset_new _ _ _ hnew, fieldItem]
  rw [readLoop_block io _ _ _ _ (by decide) hb]
  rw [readLoop_section io _ _ _ (by decide) (by decide) (by decide)]
  have e' : sectionMode "$EndElementData".toList = .skip := by decide
  rw [e']

theorem read_fields_loop (ids : List Int) (fs : List (List Char × List (List F))) (m : Mesh F) (txt : List Char)
    (hids : ids.Nodup) (hlen : ∀ f ∈ fs, f.2.length ≤ ids.length) (hv : ∀ f ∈ fs, IsArray f.2)
    (hn : ∀ f ∈ fs, FieldName f.1) (hnew : (m.data.map Prod.fst ++ fs.map Prod.fst).Nodup)
    (h : writeFieldsLoop io ids fs = .ok txt) :
    readLoop io ⟨.skip, some 0, m⟩ (toLines txt) = .ok { m with data := m.data ++ fs.map (fieldItem io ids) } := by
  induction fs generalizing m txt with
  | nil =>
    simp only [writeFieldsLoop, Except.ok.injEq] at h
    subst h
    have e : toLines [] = [[]] := rfl
    rw [e, readLoop_end io _ rfl]
    simp
  | cons f fs ih =>
    obtain ⟨name, values⟩ := f
    simp only [writeFieldsLoop, bind, Except.bind, pure, Except.pure] at h
    split at h
    · cases h
    · rename_i a ha
      split at h
      · cases h
      · rename_i b hb
        cases h
        rw [read_field io ids (name, values) m .skip b a hids (hlen _ (by simp)) (hv _ (by simp)) (hn _ (by simp))
          ?_ ha]
        · rw [ih _ _ (fun f hf => hlen f (by simp [hf])) (fun f hf => hv f (by simp [hf]))
            (fun f hf => hn f (by simp [hf])) ?_ hb]
          · simp
          · simpa [fieldItem] using hnew
        · intro hc
          rw [List.nodup_append] at hnew
          exact hnew.2.2 _ hc name (by simp) rfl

theorem writeFieldsLoop_ok (ids : List Int) (fs : List (List Char × List (List F))) (hv : ∀ f ∈ fs, IsArray f.2) :
    ∃ txt, writeFieldsLoop io ids fs = .ok txt := by
  induction fs with
  | nil => exact ⟨[], rfl⟩
  | cons f fs ih =>
    obtain ⟨b, hb⟩ := ih (fun f hf => hv f (by simp [hf]))
    obtain ⟨name, values⟩ := f
    obtain ⟨n, hne, _⟩ := hv (name, values) (by simp)
    obtain ⟨v0, vs, e⟩ := List.exists_cons_of_ne_nil hne
    simp only at e
    subst e
    simp only [writeFieldsLoop, writeElementData, hb, bind, Except.bind, pure, Except.pure]
    exact ⟨_, rfl⟩

/-- C29 (partial: the ids come back as strings, see `data_keys_are_strings`). For distinct element ids, at least as many
as there are rows, and distinct field names on one line that do not start or end with a quote, the file written by
`write_fields` is read back to exactly one time step per field, holding for each element, in order, its row of values. -/
theorem fields_read_back_partial (ids : List Int) (fs : List (List Char × List (List F)))
    (hids : ids.Nodup) (hlen : ∀ f ∈ fs, f.2.length ≤ ids.length) (hv : ∀ f ∈ fs, IsArray f.2)
    (hn : ∀ f ∈ fs, FieldName f.1) (hnew : (fs.map Prod.fst).Nodup) :
    ∃ file g, writeFields io ids fs = .ok file ∧ read io (reset F) file = .ok g ∧ g.nodes = [] ∧ g.elements = [] ∧
      g.physical = [] ∧ g.data.length = fs.length ∧
      ∀ f ∈ fs, ∃ rows, dget f.1 g.data = some [(0, (io.zero, rows))] ∧ rows.length = f.2.length ∧
        ∀ (k : Nat) (hk : k < f.2.length), dget (Key.str (showInt (ids.getD k 0))) rows = some f.2[k] := by
  obtain ⟨txt, ht⟩ := writeFieldsLoop_ok io ids fs hv
  refine ⟨formatOut ++ txt, ⟨[], [], [], fs.map (fieldItem io ids)⟩, ?_, ?_, rfl, rfl, rfl, by simp, ?_⟩
  · simp [writeFields, ht, bind, Except.bind, pure, Except.pure]
  · unfold read
    rw [read_format, read_fields_loop io ids fs (reset F) txt hids hlen hv hn (by simpa [reset] using hnew) ht]
    simp [reset]
  · intro f hf
    refine ⟨(ids.zip f.2).map fun p => (Key.str (showInt p.1), p.2), ?_, ?_, ?_⟩
    · refine dget_mem f.1 _ _ ?_ (List.mem_map.mpr ⟨f, hf, rfl⟩)
      simpa [fieldItem, Function.comp_def] using hnew
    · have := hlen f hf
      simp only [List.length_map, List.length_zip]; omega
    · intro k hk
      have hk' : k < ids.length := lt_of_lt_of_le hk (hlen f hf)
      have hz : k < (ids.zip f.2).length := by rw [List.length_zip]; omega
      refine dget_mem _ _ _ ?_ ?_
      · rw [List.map_map]
        have e : (Prod.fst ∘ fun p : Int × List F => (Key.str (showInt p.1), p.2)) =
          (fun i => Key.str (showInt i)) ∘ Prod.fst := rfl
        rw [e, ← List.map_map, zip_keys]
        exact (hids.sublist (List.take_sublist _ _)).map (fun i j hij => showInt_inj (Key.str.inj hij))
      · refine List.mem_map.mpr ⟨(ids.zip f.2)[k], List.getElem_mem hz, ?_⟩
        rw [List.getElem_zip, List.getD_eq_getElem?_getD, List.getElem?_eq_getElem hk', Option.getD_some]

theorem readRows_short (nc : Nat) (xs : List (Int × List F)) (hx : ∀ p ∈ xs, p.2.length = nc) (k : Nat)
    (acc : List (Key × List F)) (e : List Char) (rest : List (List Char)) (he : e.head? = some '$') (hk : xs.length < k) :
    readRows io nc k acc (xs.map (nodeTxt io) ++ e :: rest) = .error .insufficient := by
  induction xs generalizing k acc with
  | nil =>
    obtain ⟨k, rfl⟩ := Nat.exists_eq_succ_of_ne_zero (n := k) (by simp at hk; omega)
    simp only [List.map_nil, List.nil_append, readRows, readLine]
    rw [if_pos he]
  | cons p xs ih =>
    obtain ⟨k, rfl⟩ := Nat.exists_eq_succ_of_ne_zero (n := k) (by simp at hk; omega)
    obtain ⟨c, t, e', _, h2⟩ := head_append (b := ' ' :: joinSp (p.2.map io.shw)) (showInt_head p.1)
    have e' : nodeTxt io p = c :: t := e'
    simp only [List.map_cons, List.cons_append, readRows, readLine, row_words, readFloats_map]
    rw [if_neg (by rw [e']; simpa using h2), if_pos (by rw [hx p (by simp)])]
    exact ih (fun q hq => hx q (by simp [hq])) k _ (by simp at hk; omega)

/-- With fewer ids than rows the file is not readable: the announced number of rows is missing. -/
theorem fields_short_ids_raise (ids : List Int) (name : List Char) (v : List (List F))
    (hlen : ids.length < v.length) (hv : IsArray v) (hn : FieldName name) :
    ∃ file, writeFields io ids [(name, v)] = .ok file ∧ read io (reset F) file = .error .insufficient := by
  obtain ⟨nc, hne, hrow⟩ := hv
  obtain ⟨v0, vs, rfl⟩ := List.exists_cons_of_ne_nil hne
  refine ⟨_, by simp only [writeFields, writeFieldsLoop, writeElementData, bind, Except.bind, pure, Except.pure]; rfl, ?_⟩
  unfold read
  rw [read_format]
  simp only [List.append_assoc, List.append_nil]
  have hq : ∀ c ∈ '"' :: (name ++ ['"']), c ≠ '\n' ∧ c ≠ '\r' := by
    intro c hc
    simp only [List.mem_cons, List.mem_append, List.not_mem_nil, or_false] at hc
    rcases hc with rfl | hc | rfl
    · decide
    · exact hn.line c hc
    · decide
  have hz : ∀ p ∈ ids.zip (v0 :: vs), p.2.length = v0.length := by
    intro p hp
    rw [hrow _ (List.of_mem_zip hp).2, hrow v0 (by simp)]
  have er : rowOut io = fun p => out (nodeTxt io p) := rfl
  have elast : toLines (out "$EndElementData".toList) = "$EndElementData".toList :: toLines [] := by
    have := toLines_out "$EndElementData".toList [] (by decide)
    rwa [List.append_nil] at this
  rw [toLines_out _ _ (by decide), toLines_out _ _ (by decide), List.cons_append, toLines_out _ _ hq,
    toLines_out _ _ (by decide), toLines_out _ _ (by decide), toLines_out _ _ (by decide), toLines_out _ _ (by decide),
    toLines_out _ _ (clean_word (showNat_word _)), toLines_out _ _ (clean_word (showNat_word _)), er,
    toLines_flatMap (nodeTxt io) _ _ (fun p _ => clean_append (clean_word (showInt_word _))
      (clean_sp (clean_joinSp (shws_word io _)))), elast]
  have hb : readBlock io (reset F) (['1'] :: ('"' :: (name ++ ['"'])) :: ['1'] :: ['0'] :: ['3'] :: ['0'] ::
      showNat v0.length :: showNat (v0 :: vs).length ::
      (List.map (nodeTxt io) (ids.zip (v0 :: vs)) ++ "$EndElementData".toList :: toLines [])) = .error .insufficient := by
    simp only [readBlock, readHead_written io name hn, bind, Except.bind, pure, Except.pure, reset, dget,
      Option.getD_none, Option.isSome_none, Bool.false_eq_true, if_false, Int.toNat_natCast]
    rw [readRows_short io v0.length _ hz _ _ _ _ (by decide) (by rw [List.length_zip]; omega)]
  rw [readLoop]
  simp only
  rw [if_pos (by decide)]
  split
  · rename_i e he; rw [hb] at he; cases he; rfl
  · rename_i r' he; rw [hb] at he; cases he

/-! ### Keys of the element data -/

/-- All keys are strings. -/
def StrKeys (d : List (List Char × List (Int × (F × List (Key × List F))))) : Prop :=
  ∀ f ∈ d, ∀ t ∈ f.2, ∀ r ∈ t.2.2, ∃ w, r.1 = Key.str w

theorem readRows_str (nc : Int) (n : Nat) (acc : List (Key × List F)) (ls : List (List Char)) (r)
    (hacc : ∀ p ∈ acc, ∃ w, p.1 = Key.str w) (h : readRows io nc n acc ls = .ok r) :
    ∀ p ∈ r.1, ∃ w, p.1 = Key.str w := by
  induction n generalizing acc ls with
  | zero => simp only [readRows] at h; cases h; exact hacc
  | succ n ih =>
    simp only [readRows] at h
    split at h
    · cases h
    · split at h
      · cases h
      · split at h
        · cases h
        · split at h
          · refine ih _ _ ?_ h
            intro p hp
            rcases mem_dset _ _ _ _ hp with hp | rfl
            · exact hacc p hp
            · exact ⟨_, rfl⟩
          · cases h

theorem dget_mem_of {α β : Type} [DecidableEq α] (k : α) (v : β) (d : List (α × β)) (h : dget k d = some v) :
    (k, v) ∈ d := by
  induction d with
  | nil => simp [dget] at h
  | cons p d ih =>
    obtain ⟨k', v'⟩ := p
    simp only [dget] at h
    split at h
    · rename_i e; cases h; subst e; simp
    · simp [ih h]

theorem readBlock_str (m : Mesh F) (ls : List (List Char)) (r) (hm : StrKeys m.data) (h : readBlock io m ls = .ok r) :
    StrKeys r.1.data := by
  simp only [readBlock, bind, Except.bind, pure, Except.pure] at h
  split at h
  · cases h
  · split at h
    · cases h
    · split at h
      · cases h
      · rename_i v _ hv _ w hw
        have hstr := readRows_str io _ _ _ _ w (by simp) hw
        cases h
        intro f hf
        rcases mem_dset _ _ _ _ hf with hf | rfl
        · exact hm f hf
        · intro t ht
          rcases mem_dset _ _ _ _ ht with ht | rfl
          · cases hg : dget v.1.field m.data with
            | none => rw [hg] at ht; simp at ht
            | some ts =>
              rw [hg] at ht
              exact hm _ (dget_mem_of _ _ _ hg) t (by simpa using ht)
          · exact hstr

theorem elementLine_data (s s' : Loop F) (cols : List (List Char)) (h : elementLine s cols = .ok s') :
    s'.mesh.data = s.mesh.data := by
  unfold elementLine at h
  repeat' split at h
  all_goals (cases h)
  all_goals rfl

theorem dataLine_data (s s' : Loop F) (l : List Char) (h : dataLine io s l = .ok s') :
    s'.mesh.data = s.mesh.data := by
  unfold dataLine at h
  simp only [bind, Except.bind] at h
  split at h
  · cases h; rfl
  · split at h
    · cases h
    · rename_i v hv
      rw [elementLine_data v s' _ h]
      unfold nameLine at hv
      repeat' split at hv
      all_goals (cases hv)
      all_goals rfl
  · split at h
    · cases h
    · rename_i v hv
      rw [elementLine_data v s' _ h, formatLine_mesh io s v _ hv]
  · unfold nodeLine at h
    repeat' split at h
    all_goals (cases h)
    all_goals rfl
  · exact elementLine_data s s' _ h
  · exact elementLine_data s s' _ h

theorem readLoop_str (n : Nat) (s : Loop F) (ls : List (List Char)) (hn : ls.length ≤ n) (g : Mesh F)
    (hs : StrKeys s.mesh.data) (h : readLoop io s ls = .ok g) : StrKeys g.data := by
  induction n generalizing s ls with
  | zero =>
    have : ls = [] := by simpa using hn
    subst this
    rw [readLoop] at h
    cases hd : dataLine io s [] with
    | error e => rw [hd] at h; cases h
    | ok s' => rw [hd] at h; cases h; rw [dataLine_data io s s' [] hd]; exact hs
  | succ n ih =>
    cases ls with
    | nil => exact ih s [] (by simp) hs h
    | cons l rest =>
      simp only [List.length_cons] at hn
      rw [readLoop] at h
      split at h
      · split at h
        · cases h
        · rename_i r hr
          have hl := readBlock_len io _ _ _ hr
          exact ih _ _ (by omega) (readBlock_str io _ _ _ hs hr) h
      · split at h
        · refine ih _ rest (by omega) ?_ h
          exact hs
        · split at h
          · cases h
          · rename_i s' hs'
            have : StrKeys s'.mesh.data := by rw [dataLine_data io _ _ _ hs']; exact hs
            split at h
            · cases h; exact this
            · exact ih _ rest (by omega) this h

/-- C29, the negative part: in the element data read from any file no entry has an integer key, so looking up an
element by its id (an `int`, as in `elements`) finds nothing. -/
theorem data_keys_are_strings (file : List Char) (g : Mesh F) (h : read io (reset F) file = .ok g)
    (name : List Char) (ts) (hf : dget name g.data = some ts) (t : Int) (time : F) (rows)
    (ht : dget t ts = some (time, rows)) (i : Int) : dget (Key.int i) rows = none := by
  have hs := readLoop_str io _ _ _ (le_refl _) g (by simp [StrKeys, reset]) h
  have h1 := hs _ (dget_mem_of _ _ _ hf) _ (dget_mem_of _ _ _ ht)
  cases hd : dget (Key.int i) rows with
  | none => rfl
  | some v =>
    obtain ⟨w, hw⟩ := h1 _ (dget_mem_of _ _ _ hd)
    cases hw

/-! ### The hypotheses are satisfiable -/

/-- A simple float type: integers, with every other text read as 0. -/
def toyIO : FloatIO Int where
  shw := showInt
  read := fun w => some ((readInt w).getD 0)
  zero := 0
  read_shw := fun x => by simp [readInt_showInt]
  shw_ne := fun x => (showInt_word x).1
  shw_word := fun x => (showInt_word x).2
  read_zero := by decide
  read_version := by decide

/-- A mesh of one triangle with a physical name. -/
def toyMesh : Mesh Int :=
  { nodes := [(3, [0, 5, -1]), (1, [0, 0, 0]), (2, [7, 0, 0])]
    elements := [(10, ⟨2, [5, 6], [1, 2, 3]⟩), (4, ⟨15, [5, 6], [1]⟩)]
    physical := [("\"rock\"".toList, (5, 2))]
    data := [] }

example : toyMesh.Wf ∧ toyMesh.Storable := by
  refine ⟨⟨by decide, by decide, by decide⟩, ⟨?_, by decide, by decide⟩⟩
  intro p hp
  simp only [toyMesh, List.mem_singleton] at hp
  subst hp
  exact ⟨by decide, by decide⟩

/-- A name with a blank is not storable: the round trip of such a mesh fails. -/
example : ¬ ∃ g, read toyIO (reset Int) (writeAscii toyIO { toyMesh with physical := [("my rock".toList, (5, 2))] })
    = .ok g ∧ g.Same { toyMesh with physical := [("my rock".toList, (5, 2))] } := by
  rw [write_read_iff toyIO _ ⟨by decide, by decide, by decide⟩]
  intro h
  have := (h.names ("my rock".toList, (5, 2)) (by simp)).2 ' ' (by decide)
  revert this; decide

/-- Two fields on three elements. -/
example : (∀ f ∈ [("a b".toList, [[1, 2], [3, 4]]), ("c".toList, [[(5 : Int)], [6], [7]])], IsArray f.2 ∧ FieldName f.1) := by
  intro f hf
  simp only [List.mem_cons, List.not_mem_nil, or_false] at hf
  rcases hf with rfl | rfl
  · exact ⟨⟨2, by simp, by simp⟩, ⟨by decide, by decide, by decide⟩⟩
  · exact ⟨⟨1, by simp, by simp⟩, ⟨by decide, by decide, by decide⟩⟩

/-- A file with a blank line between two sections. -/
example : "$Nodes\n".toList.getLast? ≠ some '\r' ∧ ∀ l ∈ toLines "$Nodes\n".toList, strip l ≠ "$ElementData".toList := by
  decide

end Verif.Msh
