import Verif.Msh.Lemmas

namespace Verif.Msh

set_option linter.unusedSectionVars false

variable {F : Type} (io : FloatIO F)

/-! ### Reading back what was written -/

/-- Text of a line without its end, see `nameOut`, `nodeOut`, `elemOut`. -/
def nameTxt (p : List Char × (Int × Int)) : List Char := showInt p.2.2 ++ ' ' :: (showInt p.2.1 ++ ' ' :: p.1)
def nodeTxt (p : Int × List F) : List Char := showInt p.1 ++ ' ' :: joinSp (p.2.map io.shw)
def elemTxt (p : Int × Elem) : List Char :=
  showInt p.1 ++ ' ' :: (showInt p.2.type ++ ' ' :: (showNat p.2.tags.length ++ ' ' ::
    (joinSp (p.2.tags.map showInt) ++ ' ' :: joinSp (p.2.nodes.map showInt))))

theorem clean_append {a b : List Char} (ha : ∀ c ∈ a, c ≠ '\n' ∧ c ≠ '\r') (hb : ∀ c ∈ b, c ≠ '\n' ∧ c ≠ '\r') :
    ∀ c ∈ a ++ b, c ≠ '\n' ∧ c ≠ '\r' := by
  intro c hc
  rcases List.mem_append.mp hc with h | h
  · exact ha c h
  · exact hb c h

theorem clean_sp {b : List Char} (hb : ∀ c ∈ b, c ≠ '\n' ∧ c ≠ '\r') :
    ∀ c ∈ ' ' :: b, c ≠ '\n' ∧ c ≠ '\r' := by
  intro c hc
  rcases List.mem_cons.mp hc with rfl | h
  · decide
  · exact hb c h

theorem clean_word {w : List Char} (h : IsWord w) : ∀ c ∈ w, c ≠ '\n' ∧ c ≠ '\r' := fun c hc => space_nl (h.2 c hc)

theorem clean_joinSp {ws : List (List Char)} (h : ∀ w ∈ ws, IsWord w) : ∀ c ∈ joinSp ws, c ≠ '\n' ∧ c ≠ '\r' := by
  induction ws with
  | nil => simp [joinSp]
  | cons w ws ih =>
    cases ws with
    | nil => simpa [joinSp] using clean_word (h w (by simp))
    | cons v vs =>
      simp only [joinSp]
      exact clean_append (clean_word (h w (by simp))) (clean_sp (ih (fun x hx => h x (by simp [hx]))))

theorem showInts_word (xs : List Int) : ∀ w ∈ xs.map showInt, IsWord w := by
  intro w hw
  obtain ⟨x, _, rfl⟩ := List.mem_map.mp hw
  exact showInt_word x

theorem shws_word (xs : List F) : ∀ w ∈ xs.map io.shw, IsWord w := by
  intro w hw
  obtain ⟨x, _, rfl⟩ := List.mem_map.mp hw
  exact shw_isWord io x

theorem head_append {a b : List Char} (h : ∃ c t, a = c :: t ∧ isSpace c = false ∧ c ≠ '$') :
    ∃ c t, a ++ b = c :: t ∧ isSpace c = false ∧ c ≠ '$' := by
  obtain ⟨c, t, rfl, h1, h2⟩ := h
  exact ⟨c, t ++ b, rfl, h1, h2⟩

theorem name_step (p : List Char × (Int × Int)) (h : IsWord p.1) (m : Mesh F) :
    dataLine io ⟨.names, some 0, m⟩ (strip (nameTxt p)) =
      .ok ⟨.names, some 0, { m with physical := dset p.1 p.2 m.physical }⟩ := by
  have hw : words (strip (nameTxt p)) = [showInt p.2.2, showInt p.2.1, p.1] := by
    rw [words_strip, nameTxt, words_cons _ _ (showInt_word _), words_cons _ _ (showInt_word _), words_single _ h]
  simp [dataLine, hw, nameLine, readInt_showInt, elementLine, bind, Except.bind]

theorem node_step (p : Int × List F) (h : p.2.length = 3) (m : Mesh F) :
    dataLine io ⟨.nodes, some 0, m⟩ (strip (nodeTxt io p)) =
      .ok ⟨.nodes, some 0, { m with nodes := dset p.1 p.2 m.nodes }⟩ := by
  obtain ⟨i, xs⟩ := p
  match xs, h with
  | [x, y, z], _ =>
    have hw : words (strip (nodeTxt io (i, [x, y, z]))) = [showInt i, io.shw x, io.shw y, io.shw z] := by
      rw [words_strip, nodeTxt, words_cons _ _ (showInt_word _), words_joinSp _ (shws_word io _)]; rfl
    have hf := readFloats_map io [x, y, z]
    simp only [List.map_cons, List.map_nil] at hf
    simp [dataLine, hw, nodeLine, readInt_showInt, hf]

theorem elem_step (p : Int × Elem) (h : 3 ≤ p.2.tags.length + p.2.nodes.length) (m : Mesh F) :
    dataLine io ⟨.elements, some 0, m⟩ (strip (elemTxt p)) =
      .ok ⟨.elements, some 0, { m with elements := dset p.1 p.2 m.elements }⟩ := by
  obtain ⟨i, ⟨ty, tags, nodes⟩⟩ := p
  simp only at h
  have hw : words (strip (elemTxt (i, ⟨ty, tags, nodes⟩))) =
      showInt i :: showInt ty :: showNat tags.length :: (tags.map showInt ++ nodes.map showInt) := by
    rw [words_strip, elemTxt, words_cons _ _ (showInt_word _), words_cons _ _ (showInt_word _),
      words_cons _ _ (showNat_word _), words_joinSp_sp _ _ (showInts_word _), words_joinSp _ (showInts_word _)]
  have hr : readInts (showInt i :: showInt ty :: showNat tags.length :: (tags.map showInt ++ nodes.map showInt)) =
      some (i :: ty :: (tags.length : Int) :: (tags ++ nodes)) := by
    simp only [readInts, readInt_showInt, readInt_showNat, ← List.map_append, readInts_map, Option.bind_some,
      Option.map_some]
  have he : elemOf true (i :: ty :: (tags.length : Int) :: (tags ++ nodes)) = (i, ⟨ty, tags, nodes⟩) := by
    simp only [elemOf, if_true, List.getD_cons_zero, List.getD_cons_succ, slice, sliceFrom, bound, List.length_cons,
      List.length_append]
    have e1 : (min (Int.toNat 3) (tags.length + nodes.length + 1 + 1 + 1)) = 3 := by
      have : Int.toNat 3 = 3 := rfl
      omega
    have e2 : (min (Int.toNat (3 + (tags.length : Int))) (tags.length + nodes.length + 1 + 1 + 1)) =
      tags.length + 1 + 1 + 1 := by omega
    rw [if_neg (by omega), if_neg (by omega), e1, e2]
    have e3 : tags.length + 1 + 1 + 1 - 3 = tags.length := by omega
    rw [e3]
    simp
  simp only [dataLine, hw, elementLine]
  rw [if_pos]
  · rw [hr]
    simp only [beq_self_eq_true, he]
  · refine ⟨trivial, Or.inr trivial, ?_⟩
    simp only [List.length_cons, List.length_append, List.length_map]; omega

/-- The format section. -/
theorem read_format (m : Mesh F) (rest : List Char) :
    readLoop io ⟨.skip, none, m⟩ (toLines (formatOut ++ rest)) = readLoop io ⟨.skip, some 0, m⟩ (toLines rest) := by
  unfold formatOut
  simp only [List.append_assoc]
  rw [toLines_out _ _ (by decide), toLines_out _ _ (by decide), toLines_out _ _ (by decide)]
  rw [readLoop_section io _ _ _ (by decide) (by decide) (by decide)]
  have e : sectionMode "$MeshFormat".toList = .format := by decide
  have e' : sectionMode "$EndMeshFormat".toList = .skip := by decide
  rw [e]
  have hd : dataLine io ⟨.format, none, m⟩ (strip "2.2 0 8".toList) = .ok ⟨.format, some 0, m⟩ := by
    have hw : words (strip "2.2 0 8".toList) = [['2', '.', '2'], ['0'], ['8']] := by decide
    have h0 : readInt ['0'] = some 0 := by decide
    have h8 : readInt ['8'] = some 8 := by decide
    obtain ⟨x, hx⟩ := Option.isSome_iff_exists.mp io.read_version
    unfold dataLine
    rw [hw]
    simp [formatLine, hx, h0, h8, elementLine, bind, Except.bind]
  have h2 := readLoop_data io ⟨.format, none, m⟩ ⟨.format, some 0, m⟩ '2' ['.', '2', ' ', '0', ' ', '8']
    ("$EndMeshFormat".toList :: toLines rest) (by decide) (by decide) hd
  refine h2.trans ?_
  rw [readLoop_section io _ _ _ (by decide) (by decide) (by decide), e']

/-- One section of the file: header, number of items, items, end. -/
theorem read_section {α : Type} (hd ed : List Char) (mode : Mode) (hm : mode = .nodes ∨ mode = .names ∨ mode = .elements)
    (f : α → List Char) (step : Mesh F → α → Mesh F) (xs : List α) (n : Nat) (m : Mesh F) (rest : List Char)
    (hh : (∀ c ∈ hd, c ≠ '\n' ∧ c ≠ '\r') ∧ strip hd = hd ∧ hd ≠ "$ElementData".toList ∧ hd.head? = some '$' ∧
      sectionMode hd = mode)
    (he : (∀ c ∈ ed, c ≠ '\n' ∧ c ≠ '\r') ∧ strip ed = ed ∧ ed ≠ "$ElementData".toList ∧ ed.head? = some '$' ∧
      sectionMode ed = .skip)
    (hl : ∀ x ∈ xs, ∀ c ∈ f x, c ≠ '\n' ∧ c ≠ '\r')
    (hf : ∀ x ∈ xs, ∃ c t, f x = c :: t ∧ isSpace c = false ∧ c ≠ '$')
    (hs : ∀ x ∈ xs, ∀ m, dataLine io ⟨mode, some 0, m⟩ (strip (f x)) = .ok ⟨mode, some 0, step m x⟩) :
    readLoop io ⟨.skip, some 0, m⟩
      (toLines (out hd ++ (out (showNat n) ++ (xs.flatMap (fun x => out (f x)) ++ (out ed ++ rest))))) =
    readLoop io ⟨.skip, some 0, xs.foldl step m⟩ (toLines rest) := by
  rw [toLines_out _ _ hh.1, toLines_out _ _ (clean_word (showNat_word n)), toLines_flatMap f xs _ hl,
    toLines_out _ _ he.1]
  rw [readLoop_section io _ _ _ hh.2.1 hh.2.2.1 hh.2.2.2.1, hh.2.2.2.2]
  rw [readLoop_count io mode hm, readLoop_items io f step mode xs m _ hf hs]
  rw [readLoop_section io _ _ _ he.2.1 he.2.2.1 he.2.2.2.1, he.2.2.2.2]

theorem foldl_names (xs : List (List Char × (Int × Int))) (m : Mesh F) :
    xs.foldl (fun m p => { m with physical := dset p.1 p.2 m.physical }) m =
      { m with physical := xs.foldl (fun a p => dset p.1 p.2 a) m.physical } := by
  induction xs generalizing m with
  | nil => rfl
  | cons p xs ih => simp only [List.foldl_cons, ih]

theorem foldl_nodes (xs : List (Int × List F)) (m : Mesh F) :
    xs.foldl (fun m p => { m with nodes := dset p.1 p.2 m.nodes }) m =
      { m with nodes := xs.foldl (fun a p => dset p.1 p.2 a) m.nodes } := by
  induction xs generalizing m with
  | nil => rfl
  | cons p xs ih => simp only [List.foldl_cons, ih]

theorem foldl_elems (xs : List (Int × Elem)) (m : Mesh F) :
    xs.foldl (fun m p => { m with elements := dset p.1 p.2 m.elements }) m =
      { m with elements := xs.foldl (fun a p => dset p.1 p.2 a) m.elements } := by
  induction xs generalizing m with
  | nil => rfl
  | cons p xs ih => simp only [List.foldl_cons, ih]

theorem sortedItems_perm {α β : Type} [LE α] [DecidableLE α] (d : List (α × β)) : (sortedItems d).Perm d :=
  List.mergeSort_perm _ _

/-- Exactly what reading back gives: the same items, in sorted order. -/
theorem read_written (m : Mesh F) (hw : m.Wf) (hs : m.Storable) :
    read io (reset F) (writeAscii io m) =
      .ok ⟨sortedItems m.nodes, sortedItems m.elements, sortedItems m.physical, []⟩ := by
  have p1 := sortedItems_perm m.physical
  have p2 := sortedItems_perm m.nodes
  have p3 := sortedItems_perm m.elements
  have k1 : ((sortedItems m.physical).map Prod.fst).Nodup := (p1.map Prod.fst).nodup_iff.mpr hw.physical
  have k2 : ((sortedItems m.nodes).map Prod.fst).Nodup := (p2.map Prod.fst).nodup_iff.mpr hw.nodes
  have k3 : ((sortedItems m.elements).map Prod.fst).Nodup := (p3.map Prod.fst).nodup_iff.mpr hw.elements
  unfold read writeAscii
  simp only [List.append_assoc]
  rw [read_format]
  have n1 : nameOut = fun x => out (nameTxt x) := rfl
  have n2 : nodeOut io = fun x => out (nodeTxt io x) := rfl
  have n3 : elemOut = fun x => out (elemTxt x) := rfl
  rw [n1, n2, n3]
  rw [read_section io _ _ .names (Or.inr (Or.inl rfl)) nameTxt
    (fun m p => { m with physical := dset p.1 p.2 m.physical })]
  rotate_left
  · decide
  · decide
  · intro p hp
    exact clean_append (clean_word (showInt_word _)) (clean_sp (clean_append (clean_word (showInt_word _))
      (clean_sp (clean_word (hs.names p (p1.mem_iff.mp hp))))))
  · intro p _; exact head_append (showInt_head _)
  · intro p hp m'; exact name_step io p (hs.names p (p1.mem_iff.mp hp)) m'
  rw [foldl_names]
  rw [read_section io _ _ .nodes (Or.inl rfl) (nodeTxt io)
    (fun m p => { m with nodes := dset p.1 p.2 m.nodes })]
  rotate_left
  · decide
  · decide
  · intro p _
    exact clean_append (clean_word (showInt_word _)) (clean_sp (clean_joinSp (shws_word io _)))
  · intro p _; exact head_append (showInt_head _)
  · intro p hp m'; exact node_step io p (hs.nodes p (p2.mem_iff.mp hp)) m'
  rw [foldl_nodes]
  have := read_section io "$Elements".toList "$EndElements".toList .elements (Or.inr (Or.inr rfl)) elemTxt
    (fun m p => { m with elements := dset p.1 p.2 m.elements }) (sortedItems m.elements) m.elements.length
    ⟨(sortedItems m.nodes).foldl (fun a p => dset p.1 p.2 a) [], [],
      (sortedItems m.physical).foldl (fun a p => dset p.1 p.2 a) [], []⟩ [] (by decide) (by decide)
    (fun p _ => clean_append (clean_word (showInt_word _)) (clean_sp (clean_append (clean_word (showInt_word _))
      (clean_sp (clean_append (clean_word (showNat_word _)) (clean_sp (clean_append (clean_joinSp (showInts_word _))
        (clean_sp (clean_joinSp (showInts_word _))))))))))
    (fun p _ => head_append (showInt_head _))
    (fun p hp m' => elem_step io p (hs.elements p (p3.mem_iff.mp hp)) m')
  rw [List.append_nil] at this
  refine this.trans ?_
  rw [foldl_elems]
  have e : toLines [] = [[]] := rfl
  rw [e, readLoop_end io _ rfl]
  simp only
  rw [dset_foldl _ _ (by simpa using k2), dset_foldl _ _ (by simpa using k3), dset_foldl _ _ (by simpa using k1)]
  simp

/-! ### The reader stores only storable meshes -/

theorem elemOf_size (v2 : Bool) (cols : List Int) (h : 5 < cols.length) :
    3 ≤ (elemOf v2 cols).2.tags.length + (elemOf v2 cols).2.nodes.length := by
  unfold elemOf
  simp only
  generalize cols.getD 2 0 = nt
  cases v2
  · simp only [Bool.false_eq_true, if_false, slice, sliceFrom, bound, List.length_take, List.length_drop]
    rw [if_neg (by omega), if_neg (by omega), if_neg (by omega)]
    have e2 : Int.toNat 2 = 2 := rfl
    have e4 : Int.toNat 4 = 4 := rfl
    have e5 : Int.toNat 5 = 5 := rfl
    omega
  · simp only [if_true, slice, sliceFrom, bound, List.length_take, List.length_drop]
    have e3 : Int.toNat 3 = 3 := rfl
    split_ifs <;> omega

theorem elementLine_storable (s s' : Loop F) (cols : List (List Char)) (hs : s.mesh.Storable)
    (h : elementLine s cols = .ok s') : s'.mesh.Storable := by
  unfold elementLine at h
  split at h
  · cases h
  · split at h
    · rename_i hc
      split at h
      · cases h; exact hs
      · rename_i xs hx
        cases h
        refine ⟨hs.names, hs.nodes, ?_⟩
        intro p hp
        rcases mem_dset _ _ _ _ hp with hp | rfl
        · exact hs.elements p hp
        · exact elemOf_size _ _ (by rw [readInts_length _ _ hx]; exact hc.2.2)
    · split at h
      · cases h
      · cases h; exact hs

theorem nameLine_storable (s s' : Loop F) (cols : List (List Char)) (hs : s.mesh.Storable)
    (hc : ∀ w ∈ cols, IsWord w) (h : nameLine s cols = .ok s') : s'.mesh.Storable := by
  unfold nameLine at h
  split at h
  · split at h
    · cases h
      refine ⟨?_, hs.nodes, hs.elements⟩
      intro p hp
      rcases mem_dset _ _ _ _ hp with hp | rfl
      · exact hs.names p hp
      · exact hc _ (by simp)
    · cases h
  · cases h; exact hs

theorem nodeLine_storable (s s' : Loop F) (cols : List (List Char)) (hs : s.mesh.Storable)
    (h : nodeLine io s cols = .ok s') : s'.mesh.Storable := by
  unfold nodeLine at h
  split at h
  · cases h
  · split at h
    · split at h
      · split at h
        · rename_i i xs hi hx
          cases h
          refine ⟨hs.names, ?_, hs.elements⟩
          intro p hp
          rcases mem_dset _ _ _ _ hp with hp | rfl
          · exact hs.nodes p hp
          · exact readFloats_length io _ _ hx
        · cases h; exact hs
      · cases h; exact hs
    · split at h
      · cases h
      · cases h; exact hs

theorem formatLine_mesh (s s' : Loop F) (cols : List (List Char)) (h : formatLine io s cols = .ok s') :
    s'.mesh = s.mesh := by
  unfold formatLine at h
  split at h
  · split at h
    · split at h
      · cases h; rfl
      · cases h
    · cases h
  · cases h
  · cases h

theorem dataLine_storable (s s' : Loop F) (l : List Char) (hs : s.mesh.Storable)
    (h : dataLine io s l = .ok s') : s'.mesh.Storable := by
  unfold dataLine at h
  simp only [bind, Except.bind] at h
  split at h
  · cases h; exact hs
  · split at h
    · cases h
    · rename_i v hv
      exact elementLine_storable v s' _ (nameLine_storable s v _ hs (words_isWord l) hv) h
  · split at h
    · cases h
    · rename_i v hv
      exact elementLine_storable v s' _ (by rw [formatLine_mesh io s v _ hv]; exact hs) h
  · exact nodeLine_storable io s s' _ hs h
  · exact elementLine_storable s s' _ hs h
  · exact elementLine_storable s s' _ hs h

theorem readBlock_mesh (m : Mesh F) (ls : List (List Char)) (r) (h : readBlock io m ls = .ok r) :
    r.1.nodes = m.nodes ∧ r.1.elements = m.elements ∧ r.1.physical = m.physical := by
  simp only [readBlock, bind, Except.bind, pure, Except.pure] at h
  split at h
  · cases h
  · split at h
    · cases h
    · split at h
      · cases h
      · cases h; exact ⟨rfl, rfl, rfl⟩

theorem readLoop_storable (n : Nat) (s : Loop F) (ls : List (List Char)) (hn : ls.length ≤ n) (g : Mesh F)
    (hs : s.mesh.Storable) (h : readLoop io s ls = .ok g) : g.Storable := by
  induction n generalizing s ls with
  | zero =>
    have : ls = [] := by simpa using hn
    subst this
    rw [readLoop] at h
    cases hd : dataLine io s [] with
    | error e => rw [hd] at h; cases h
    | ok s' => rw [hd] at h; cases h; exact dataLine_storable io s s' [] hs hd
  | succ n ih =>
    cases ls with
    | nil => exact ih s [] (by simp) hs h
    | cons l rest =>
      simp only [List.length_cons] at hn
      rw [readLoop] at h
      split at h
      · split at h
        · cases h
        · rename_i r hr
          have hm := readBlock_mesh io _ _ _ hr
          have hl := readBlock_len io _ _ _ hr
          refine ih _ _ (by omega) ?_ h
          exact ⟨hm.2.2 ▸ hs.names, hm.1 ▸ hs.nodes, hm.2.1 ▸ hs.elements⟩
      · split at h
        · refine ih _ rest (by omega) ?_ h
          exact hs
        · split at h
          · cases h
          · rename_i s' hs'
            have := dataLine_storable io _ _ _ hs hs'
            split at h
            · cases h; exact this
            · exact ih _ rest (by omega) this h

theorem Mesh.Same.storable {g m : Mesh F} (h : Mesh.Same g m) (hg : g.Storable) : m.Storable :=
  ⟨fun p hp => hg.names p (h.2.2.mem_iff.mpr hp), fun p hp => hg.nodes p (h.1.mem_iff.mpr hp),
    fun p hp => hg.elements p (h.2.1.mem_iff.mpr hp)⟩

/-- C28. Writing a mesh with `write_ascii` and reading the file with a new `GmshIO` gives back the same nodes, elements
and physical names **exactly when** all physical names are single words, all nodes have three coordinates and all
elements have at least three tags and nodes together; for any other mesh the reader raises or loses something. -/
theorem write_read_iff (m : Mesh F) (hw : m.Wf) :
    (∃ g, read io (reset F) (writeAscii io m) = .ok g ∧ g.Same m) ↔ m.Storable := by
  constructor
  · rintro ⟨g, hg, hsame⟩
    refine hsame.storable (readLoop_storable io _ _ _ (le_refl _) g ?_ hg)
    exact ⟨by simp [reset], by simp [reset], by simp [reset]⟩
  · intro hs
    exact ⟨_, read_written io m hw hs, sortedItems_perm _, sortedItems_perm _, sortedItems_perm _⟩

/-- C28, seen through dict lookups: for a storable mesh every key gives the same value before and after, and the reader
makes no element data. -/
theorem write_read_lookup (m : Mesh F) (hw : m.Wf) (hs : m.Storable) :
    ∃ g, read io (reset F) (writeAscii io m) = .ok g ∧ (∀ i, dget i g.nodes = dget i m.nodes) ∧
      (∀ i, dget i g.elements = dget i m.elements) ∧ (∀ n, dget n g.physical = dget n m.physical) ∧ g.data = [] := by
  have key : ∀ {α β : Type} [DecidableEq α] (a b : List (α × β)), a.Perm b → (b.map Prod.fst).Nodup →
      ∀ k, dget k a = dget k b := by
    intro α β _ a b hp hb k
    by_cases hk : k ∈ b.map Prod.fst
    · obtain ⟨⟨k', v⟩, hv, rfl⟩ := List.mem_map.mp hk
      rw [dget_mem _ v b hb hv, dget_mem _ v a ((hp.map Prod.fst).nodup_iff.mpr hb) (hp.mem_iff.mpr hv)]
    · rw [dget_none k b hk, dget_none k a (fun h => hk ((hp.map Prod.fst).mem_iff.mp h))]
  exact ⟨_, read_written io m hw hs, key _ _ (sortedItems_perm _) hw.nodes, key _ _ (sortedItems_perm _) hw.elements,
    key _ _ (sortedItems_perm _) hw.physical, rfl⟩

/-- Whatever the file holds, the mesh read is storable: every name read is a single word, every node has three
coordinates, every element has at least three tags and nodes together. -/
theorem read_storable (m : Mesh F) (file : List Char) (g : Mesh F) (hm : m.Storable)
    (h : read io m file = .ok g) : g.Storable :=
  readLoop_storable io _ _ _ (le_refl _) g hm h

theorem toLines_append_nl (a rest : List Char) (h : a.getLast? ≠ some '\r') :
    toLines (a ++ '\n' :: rest) = toLines a ++ toLines rest := by
  fun_induction toLines a with
  | case1 => simp [toLines]
  | case2 cs ih =>
    have : cs.getLast? ≠ some '\r' := by
      cases cs with
      | nil => simp
      | cons c cs => simpa using h
    simp only [List.cons_append, toLines, ih this]
  | case3 c cs hn hc ih =>
    have hr : c = '\n' ∨ (∃ d ds, cs = d :: ds ∧ d ≠ '\n') := by
      rcases hc with hc | hc
      · exact Or.inl hc
      · right
        cases cs with
        | nil => subst hc; simp at h
        | cons d ds => exact ⟨d, ds, rfl, fun e => hn ds hc (by rw [e])⟩
    have : cs.getLast? ≠ some '\r' := by
      cases cs with
      | nil => simp
      | cons c cs => simpa using h
    rw [List.cons_append, toLines.eq_3, if_pos hc, ih this]
    · rfl
    · intro cs' h1 h2
      rcases hr with hr | ⟨d, ds, rfl, hd⟩
      · rw [hr] at h1; revert h1; decide
      · simp only [List.cons_append, List.cons.injEq] at h2; exact hd h2.1
  | case4 c cs hn hc he ih =>
    exfalso
    revert he
    rw [toLines.eq_def]
    split
    · simp
    · simp
    · split
      · simp
      · split <;> simp
  | case5 c cs hn hc l ls he ih =>
    have : cs.getLast? ≠ some '\r' := by
      cases cs with
      | nil => simp
      | cons c cs => simpa using h
    rw [List.cons_append, toLines.eq_3 _ _ (fun _ h1 _ => hc (Or.inr h1)), if_neg hc, ih this, he]
    rfl

theorem readLoop_blank (s : Loop F) (ls rest : List (List Char)) (h : ∀ l ∈ ls, strip l ≠ "$ElementData".toList) :
    readLoop io s (ls ++ [] :: rest) = readLoop io s ls := by
  induction ls generalizing s with
  | nil =>
    rw [List.nil_append, readLoop, readLoop]
    have e : strip [] = [] := by decide
    simp only [e]
    rw [if_neg (by decide), if_neg (by decide)]
    cases dataLine io s [] <;> simp [Except.map]
  | cons l ls ih =>
    have ih' := fun s => ih s (fun x hx => h x (by simp [hx]))
    rw [List.cons_append, readLoop, readLoop]
    simp only [if_neg (h l (by simp)), ih']

/-- C60. Reading stops at the first blank line: for every text `a` without element data sections, what follows after a
blank line is ignored, without any message. -/
theorem read_ignores_after_blank (m : Mesh F) (a rest : List Char) (h1 : a.getLast? ≠ some '\r')
    (h2 : ∀ l ∈ toLines a, strip l ≠ "$ElementData".toList) :
    read io m (a ++ '\n' :: '\n' :: rest) = read io m a := by
  unfold read
  rw [toLines_append_nl a _ h1]
  have e : toLines ('\n' :: rest) = [] :: toLines rest := by
    rw [toLines.eq_3 _ _ (fun _ h1 _ => absurd h1 (by decide)), if_pos (Or.inl rfl)]
  rw [e]
  exact readLoop_blank io _ _ _ h2

end Verif.Msh
