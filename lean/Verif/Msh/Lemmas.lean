import Verif.Msh.Spec
import Mathlib.Data.Nat.Digits.Lemmas
import Mathlib.Data.List.Perm.Basic

namespace Verif.Msh

set_option linter.unusedSectionVars false

/-! ### Lines and words -/

theorem toLines_out (l rest : List Char) (h : ∀ c ∈ l, c ≠ '\n' ∧ c ≠ '\r') :
    toLines (out l ++ rest) = l :: toLines rest := by
  induction l with
  | nil => simp [out, toLines]
  | cons c l ih =>
    have hc := h c (by simp)
    have ih' := ih (fun x hx => h x (by simp [hx]))
    have e : out (c :: l) ++ rest = c :: (out l ++ rest) := by simp [out]
    rw [e, toLines.eq_3 _ _ (fun cs h1 _ => hc.2 h1), if_neg (by tauto), ih']

theorem space_nl {c : Char} (h : isSpace c = false) : c ≠ '\n' ∧ c ≠ '\r' := by
  constructor <;> (rintro rfl; revert h; decide)

theorem toLines_flatMap {α : Type} (f : α → List Char) (xs : List α) (rest : List Char)
    (h : ∀ x ∈ xs, ∀ c ∈ f x, c ≠ '\n' ∧ c ≠ '\r') :
    toLines (xs.flatMap (fun x => out (f x)) ++ rest) = xs.map f ++ toLines rest := by
  induction xs with
  | nil => simp
  | cons x xs ih =>
    simp only [List.flatMap_cons, List.append_assoc, List.map_cons, List.cons_append]
    rw [toLines_out _ _ (h x (by simp)), ih (fun y hy => h y (by simp [hy]))]

theorem wordsAux_word (w rest cur : List Char) (h : ∀ c ∈ w, isSpace c = false) :
    wordsAux (w ++ rest) cur = wordsAux rest (w.reverse ++ cur) := by
  induction w generalizing cur with
  | nil => simp
  | cons c w ih =>
    simp only [List.cons_append, wordsAux, h c (by simp), Bool.false_eq_true, if_false]
    rw [ih _ (fun x hx => h x (by simp [hx]))]
    simp

theorem words_nil : words [] = [] := by simp [words, wordsAux]

theorem words_cons (w rest : List Char) (h : IsWord w) : words (w ++ ' ' :: rest) = w :: words rest := by
  have h1 : isSpace ' ' = true := by decide
  unfold words
  rw [wordsAux_word w _ _ h.2]
  simp only [wordsAux, h1, if_true]
  rw [if_neg (by simpa using h.1)]
  simp

theorem words_space (rest : List Char) : words (' ' :: rest) = words rest := by
  have h1 : isSpace ' ' = true := by decide
  simp [words, wordsAux, h1]

theorem words_single (w : List Char) (h : IsWord w) : words w = [w] := by
  have := wordsAux_word w [] [] h.2
  simp only [List.append_nil] at this
  rw [words, this]
  simp [wordsAux, h.1]

theorem words_joinSp (ws : List (List Char)) (h : ∀ w ∈ ws, IsWord w) : words (joinSp ws) = ws := by
  induction ws with
  | nil => simp [joinSp, words_nil]
  | cons w ws ih =>
    cases ws with
    | nil => simpa [joinSp] using words_single w (h w (by simp))
    | cons v vs =>
      simp only [joinSp]
      rw [words_cons _ _ (h w (by simp)), ih (fun x hx => h x (by simp [hx]))]

theorem words_joinSp_sp (ws : List (List Char)) (rest : List Char) (h : ∀ w ∈ ws, IsWord w) :
    words (joinSp ws ++ ' ' :: rest) = ws ++ words rest := by
  induction ws with
  | nil => simp [joinSp, words_space]
  | cons w ws ih =>
    cases ws with
    | nil => simpa [joinSp] using words_cons w rest (h w (by simp))
    | cons v vs =>
      simp only [joinSp, List.append_assoc, List.cons_append]
      rw [words_cons _ _ (h w (by simp)), ih (fun x hx => h x (by simp [hx]))]
      simp

theorem wordsAux_snoc (l cur : List Char) (c : Char) (h : isSpace c = true) :
    wordsAux (l ++ [c]) cur = wordsAux l cur := by
  induction l generalizing cur with
  | nil => simp only [List.nil_append, wordsAux, h, if_true]
  | cons d l ih =>
    simp only [List.cons_append, wordsAux]
    split
    · split <;> simp [ih]
    · exact ih _

theorem words_rstrip (l : List Char) : words (l.reverse.dropWhile isSpace).reverse = words l := by
  induction l using List.reverseRecOn with
  | nil => simp
  | append_singleton l c ih =>
    rw [List.reverse_append]
    simp only [List.reverse_cons, List.reverse_nil, List.nil_append, List.singleton_append]
    by_cases hc : isSpace c = true
    · rw [List.dropWhile_cons_of_pos hc, ih]
      exact (wordsAux_snoc l [] c hc).symm
    · rw [List.dropWhile_cons_of_neg hc]; simp

theorem words_lstrip (l : List Char) : words (l.dropWhile isSpace) = words l := by
  induction l with
  | nil => simp
  | cons c l ih =>
    by_cases hc : isSpace c = true
    · rw [List.dropWhile_cons_of_pos hc, ih]; simp [words, wordsAux, hc]
    · rw [List.dropWhile_cons_of_neg hc]

theorem words_strip (l : List Char) : words (strip l) = words l := by
  unfold strip
  rw [words_rstrip, words_lstrip]

theorem strip_cons (c : Char) (t : List Char) (h : isSpace c = false) :
    strip (c :: t) = c :: (t.reverse.dropWhile isSpace).reverse := by
  unfold strip
  rw [List.dropWhile_cons_of_neg (by simp [h]), List.reverse_cons, List.dropWhile_append]
  split
  · rename_i h1
    rw [List.isEmpty_iff.mp h1, List.dropWhile_cons_of_neg (by simp [h])]; simp
  · simp

theorem wordsAux_isWord (l cur : List Char) (hc : ∀ c ∈ cur, isSpace c = false) :
    ∀ w ∈ wordsAux l cur, IsWord w := by
  induction l generalizing cur with
  | nil =>
    intro w hw
    simp only [wordsAux] at hw
    split at hw
    · simp at hw
    · simp only [List.mem_singleton] at hw; subst hw
      exact ⟨by simpa, by simpa using hc⟩
  | cons c l ih =>
    intro w hw
    simp only [wordsAux] at hw
    split at hw
    · split at hw
      · exact ih [] (by simp) w hw
      · rcases List.mem_cons.mp hw with rfl | hw
        · exact ⟨by simpa, by simpa using hc⟩
        · exact ih [] (by simp) w hw
    · rename_i h1
      refine ih (c :: cur) ?_ w hw
      intro x hx
      rcases List.mem_cons.mp hx with rfl | hx
      · simpa using h1
      · exact hc x hx

theorem words_isWord (l : List Char) : ∀ w ∈ words l, IsWord w := wordsAux_isWord l [] (by simp)

/-! ### Numbers -/

theorem digit_lt {d : Nat} (h : d < 10) : digitVal (digitChar d) = some d ∧ isSpace (digitChar d) = false ∧
    digitChar d ≠ '-' ∧ digitChar d ≠ '+' ∧ digitChar d ≠ '$' := by
  have : d = 0 ∨ d = 1 ∨ d = 2 ∨ d = 3 ∨ d = 4 ∨ d = 5 ∨ d = 6 ∨ d = 7 ∨ d = 8 ∨ d = 9 := by omega
  rcases this with rfl | rfl | rfl | rfl | rfl | rfl | rfl | rfl | rfl | rfl <;> decide

/-- Characters of a printed natural number. -/
theorem showNat_chars (n : Nat) : ∀ c ∈ showNat n, ∃ d, d < 10 ∧ c = digitChar d := by
  intro c hc
  unfold showNat at hc
  split at hc
  · simp only [List.mem_singleton] at hc; subst hc; exact ⟨0, by omega, by decide⟩
  · simp only [List.mem_reverse, List.mem_map] at hc
    obtain ⟨d, hd, rfl⟩ := hc
    exact ⟨d, Nat.digits_lt_base (by omega) hd, rfl⟩

theorem showNat_ne (n : Nat) : showNat n ≠ [] := by
  unfold showNat
  split
  · simp
  · rename_i h
    simpa [Nat.digits_eq_nil_iff_eq_zero] using h

theorem foldl_digits (ds : List Nat) (h : ∀ d ∈ ds, d < 10) :
    (ds.map digitChar).reverse.foldl (fun acc c => acc.bind fun a => (digitVal c).map fun d => a * 10 + d) (some 0)
      = some (Nat.ofDigits 10 ds) := by
  induction ds with
  | nil => simp
  | cons d ds ih =>
    simp only [List.map_cons, List.reverse_cons, List.foldl_append, ih (fun x hx => h x (by simp [hx])),
      List.foldl_cons, List.foldl_nil, Option.bind_some, (digit_lt (h d (by simp))).1, Option.map_some,
      Nat.ofDigits_cons]
    congr 1; omega

theorem readNat_showNat (n : Nat) : readNat (showNat n) = some n := by
  unfold readNat
  rw [if_neg (showNat_ne n)]
  unfold showNat
  split
  · subst_vars; decide
  · rw [foldl_digits _ (fun d hd => Nat.digits_lt_base (by omega) hd), Nat.ofDigits_digits]

theorem readInt_of_digits (cs : List Char) (h : ∀ c ∈ cs, ∃ d, d < 10 ∧ c = digitChar d) :
    readInt cs = (readNat cs).map fun n : Nat => (n : Int) := by
  unfold readInt
  split
  · obtain ⟨d, hd, e⟩ := h '-' (by simp)
    exact absurd e.symm (digit_lt hd).2.2.1
  · obtain ⟨d, hd, e⟩ := h '+' (by simp)
    exact absurd e.symm (digit_lt hd).2.2.2.1
  · rfl

theorem readInt_showInt (i : Int) : readInt (showInt i) = some i := by
  unfold showInt
  split
  · simp only [readInt, readNat_showNat, Option.map_some]; congr 1; omega
  · rw [readInt_of_digits _ (showNat_chars _), readNat_showNat]; simp only [Option.map_some]; congr 1; omega

theorem readInt_showNat (n : Nat) : readInt (showNat n) = some (n : Int) := by
  rw [readInt_of_digits _ (showNat_chars _), readNat_showNat]; rfl

theorem showNat_word (n : Nat) : IsWord (showNat n) :=
  ⟨showNat_ne n, fun c hc => by obtain ⟨d, hd, rfl⟩ := showNat_chars n c hc; exact (digit_lt hd).2.1⟩

theorem showInt_word (i : Int) : IsWord (showInt i) := by
  unfold showInt
  split
  · refine ⟨by simp, fun c hc => ?_⟩
    rcases List.mem_cons.mp hc with rfl | hc
    · decide
    · exact (showNat_word _).2 c hc
  · exact showNat_word _

theorem showNat_head (n : Nat) : ∃ c t, showNat n = c :: t ∧ isSpace c = false ∧ c ≠ '$' := by
  obtain ⟨c, t, e⟩ := List.exists_cons_of_ne_nil (showNat_ne n)
  obtain ⟨d, hd, e2⟩ := showNat_chars n c (by simp [e])
  exact ⟨c, t, e, e2 ▸ (digit_lt hd).2.1, e2 ▸ (digit_lt hd).2.2.2.2⟩

theorem showInt_head (i : Int) : ∃ c t, showInt i = c :: t ∧ isSpace c = false ∧ c ≠ '$' := by
  unfold showInt
  split
  · exact ⟨'-', _, rfl, by decide, by decide⟩
  · exact showNat_head _

theorem readInts_map (xs : List Int) : readInts (xs.map showInt) = some xs := by
  induction xs with
  | nil => rfl
  | cons x xs ih => simp [readInts, readInt_showInt, ih]

theorem readInts_length (ws : List (List Char)) (xs : List Int) (h : readInts ws = some xs) :
    xs.length = ws.length := by
  induction ws generalizing xs with
  | nil => simp [readInts] at h; simp [← h]
  | cons w ws ih =>
    simp only [readInts, Option.bind_eq_some_iff, Option.map_eq_some_iff] at h
    obtain ⟨a, _, b, hb, rfl⟩ := h
    simp [ih b hb]

variable {F : Type} (io : FloatIO F)

theorem readFloats_map (xs : List F) : readFloats io (xs.map io.shw) = some xs := by
  induction xs with
  | nil => rfl
  | cons x xs ih => simp [readFloats, io.read_shw, ih]

theorem readFloats_length (ws : List (List Char)) (xs : List F) (h : readFloats io ws = some xs) :
    xs.length = ws.length := by
  induction ws generalizing xs with
  | nil => simp [readFloats] at h; simp [← h]
  | cons w ws ih =>
    simp only [readFloats, Option.bind_eq_some_iff, Option.map_eq_some_iff] at h
    obtain ⟨a, _, b, hb, rfl⟩ := h
    simp [ih b hb]

theorem shw_isWord (x : F) : IsWord (io.shw x) := ⟨io.shw_ne x, io.shw_word x⟩

/-! ### Dicts -/

theorem dset_new {α β : Type} [DecidableEq α] (k : α) (v : β) (d : List (α × β)) (h : k ∉ d.map Prod.fst) :
    dset k v d = d ++ [(k, v)] := by
  induction d with
  | nil => rfl
  | cons p d ih =>
    obtain ⟨k', v'⟩ := p
    simp only [List.map_cons, List.mem_cons, not_or] at h
    simp only [dset, if_neg (Ne.symm h.1), ih h.2, List.cons_append]

theorem dget_none {α β : Type} [DecidableEq α] (k : α) (d : List (α × β)) (h : k ∉ d.map Prod.fst) :
    dget k d = none := by
  induction d with
  | nil => rfl
  | cons p d ih =>
    obtain ⟨k', v'⟩ := p
    simp only [List.map_cons, List.mem_cons, not_or] at h
    simp only [dget, if_neg (Ne.symm h.1), ih h.2]

theorem dget_mem {α β : Type} [DecidableEq α] (k : α) (v : β) (d : List (α × β)) (hn : (d.map Prod.fst).Nodup)
    (h : (k, v) ∈ d) : dget k d = some v := by
  induction d with
  | nil => simp at h
  | cons p d ih =>
    obtain ⟨k', v'⟩ := p
    simp only [List.map_cons, List.nodup_cons] at hn
    rcases List.mem_cons.mp h with e | h
    · cases e; simp [dget]
    · have : k' ≠ k := fun e => hn.1 (e ▸ List.mem_map_of_mem (f := Prod.fst) h)
      simp only [dget, if_neg this, ih hn.2 h]

theorem dset_foldl {α β : Type} [DecidableEq α] (xs acc : List (α × β))
    (h : ((acc ++ xs).map Prod.fst).Nodup) :
    xs.foldl (fun a p => dset p.1 p.2 a) acc = acc ++ xs := by
  induction xs generalizing acc with
  | nil => simp
  | cons p xs ih =>
    rw [List.foldl_cons, dset_new, ih]
    · simp
    · simpa using h
    · intro hc
      simp only [List.map_append, List.map_cons, List.nodup_append] at h
      exact h.2.2 _ hc p.1 (by simp) rfl

theorem mem_dset {α β : Type} [DecidableEq α] (k : α) (v : β) (d : List (α × β)) (p : α × β)
    (h : p ∈ dset k v d) : p ∈ d ∨ p = (k, v) := by
  induction d with
  | nil => simp only [dset, List.mem_singleton] at h; exact Or.inr h
  | cons q d ih =>
    obtain ⟨k', v'⟩ := q
    simp only [dset] at h
    split at h
    · rename_i e
      rcases List.mem_cons.mp h with rfl | h
      · right; rw [e]
      · left; simp [h]
    · rcases List.mem_cons.mp h with rfl | h
      · left; simp
      · rcases ih h with h | h
        · left; simp [h]
        · right; exact h

/-! ### Steps of the read loop -/

theorem readLoop_section (s : Loop F) (l : List Char) (rest : List (List Char)) (h0 : strip l = l)
    (h1 : l ≠ "$ElementData".toList) (h2 : l.head? = some '$') :
    readLoop io s (l :: rest) = readLoop io { s with mode := sectionMode l } rest := by
  rw [readLoop]
  simp only [h0]
  rw [if_neg h1, if_pos h2]

theorem readLoop_data (s s' : Loop F) (c : Char) (t : List Char) (rest : List (List Char))
    (hc : isSpace c = false) (hd : c ≠ '$') (h : dataLine io s (strip (c :: t)) = .ok s') :
    readLoop io s ((c :: t) :: rest) = readLoop io s' rest := by
  rw [readLoop]
  simp only [h]
  rw [strip_cons c t hc]
  rw [if_neg, if_neg, if_neg]
  · simp
  · simpa using hd
  · intro e
    have := congrArg List.head? e
    simp only [List.head?_cons] at this
    exact hd (by simpa using this)

theorem readLoop_end (s : Loop F) (h : s.mode = .skip) : readLoop io s [[]] = .ok s.mesh := by
  rw [readLoop]
  have e : strip [] = [] := by decide
  simp only [e, dataLine, h]
  simp

/-- A line holding a list of items, each read by the same step. -/
theorem readLoop_items {α : Type} (f : α → List Char) (step : Mesh F → α → Mesh F) (mode : Mode)
    (xs : List α) (m : Mesh F) (rest : List (List Char))
    (hf : ∀ x ∈ xs, ∃ c t, f x = c :: t ∧ isSpace c = false ∧ c ≠ '$')
    (hs : ∀ x ∈ xs, ∀ m, dataLine io ⟨mode, some 0, m⟩ (strip (f x)) = .ok ⟨mode, some 0, step m x⟩) :
    readLoop io ⟨mode, some 0, m⟩ (xs.map f ++ rest) = readLoop io ⟨mode, some 0, xs.foldl step m⟩ rest := by
  induction xs generalizing m with
  | nil => simp
  | cons x xs ih =>
    obtain ⟨c, t, e, h1, h2⟩ := hf x (by simp)
    have h3 := hs x (by simp) m
    simp only [List.map_cons, List.cons_append, List.foldl_cons]
    rw [e] at h3 ⊢
    rw [readLoop_data io _ _ c t _ h1 h2 h3]
    exact ih _ (fun y hy => hf y (by simp [hy])) (fun y hy => hs y (by simp [hy]))

/-- The line with the number of items of a section is skipped. -/
theorem readLoop_count (mode : Mode) (hm : mode = .nodes ∨ mode = .names ∨ mode = .elements) (n : Nat) (m : Mesh F)
    (rest : List (List Char)) :
    readLoop io ⟨mode, some 0, m⟩ (showNat n :: rest) = readLoop io ⟨mode, some 0, m⟩ rest := by
  obtain ⟨c, t, e, h1, h2⟩ := showNat_head n
  have hw : words (strip (showNat n)) = [showNat n] := by rw [words_strip, words_single _ (showNat_word n)]
  have h3 : dataLine io ⟨mode, some 0, m⟩ (strip (showNat n)) = .ok ⟨mode, some 0, m⟩ := by
    unfold dataLine
    rw [hw]
    rcases hm with rfl | rfl | rfl
    · simp [nodeLine]
    · simp [nameLine, elementLine, bind, Except.bind]
    · simp [elementLine]
  rw [e] at h3 ⊢
  exact readLoop_data io _ _ c t rest h1 h2 h3

end Verif.Msh
