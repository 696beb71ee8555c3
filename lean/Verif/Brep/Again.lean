import Verif.Brep.Total

/-!
Writing again: ids left by the first `write_model`.
-/
namespace Verif.Brep

variable {K : Type} [Field K]

/-- Components of numbered locations are numbered. -/
def LocsClosed (g : Graph K) (t : Tab) : Prop :=
  ∀ l ps, g.locs l = .composed ps → (t.ids l).isSome → ∀ p ∈ ps, (t.ids p.1).isSome

/-- Everything the search from `i` can meet is numbered. -/
structure Sat (g : Graph K) (i : Nat) (s : St K) : Prop where
  num : ∀ x, Reach g i x → num s x
  done : ∀ x, Reach g i x → Done g s x
  locs : LocsClosed g s.tL

theorem visit_noop {t : Tab} {x : Nat} (h : (t.ids x).isSome) : t.visit x = t := by
  rcases t.visit_cases x with ⟨-, e⟩ | ⟨hn, -⟩
  · exact e
  · rw [hn] at h; cases h

omit [Field K] in
theorem locDfs_noop {g : Graph K} {t : Tab} (h : LocsClosed g t) (f : Nat) : ∀ l, (t.ids l).isSome →
    locDfs g.locs f l t = t := by
  induction f with
  | zero => intro l _; rfl
  | succ f ih =>
    intro l hl
    simp only [locDfs]
    rcases hc : g.locs l with m | ps <;> simp only
    · exact visit_noop hl
    · have key : ∀ qs : List (Nat × Int), (∀ q ∈ qs, (t.ids q.1).isSome) →
          qs.foldl (fun t p => locDfs g.locs f p.1 t) t = t := by
        intro qs
        induction qs with
        | nil => intro _; rfl
        | cons q qs ihq =>
          intro hq
          rw [List.foldl_cons, ih q.1 (hq q (by simp)), ihq fun x hx => hq x (by simp [hx])]
      rw [key ps (h l ps hc hl), visit_noop hl]

omit [Field K] in
theorem visitLoc_noop {g : Graph K} {s : St K} (h : LocsClosed g s.tL) {l : Nat} (hl : (s.tL.ids l).isSome) :
    visitLoc g s l = s := by
  simp only [visitLoc, locDfs_noop h _ l hl]

omit [Field K] in
theorem reprDfs_noop {g : Graph K} {s : St K} (h : LocsClosed g s.tL) {r : Repr K} (hr : reprNum s r) : reprDfs g s r = s := by
  cases r with
  | sf => rfl
  | c3 t0 t1 c l => simp only [reprDfs, visit_noop hr.1]; exact visitLoc_noop h hr.2
  | c2 t0 t1 c f l => simp only [reprDfs, visit_noop hr.1, visit_noop hr.2.1]; exact visitLoc_noop h hr.2.2

omit [Field K] in
theorem reprs_noop {g : Graph K} {s : St K} (h : LocsClosed g s.tL) (rs : List (Repr K)) (hr : ∀ r ∈ rs, reprNum s r) :
    rs.foldl (reprDfs g) s = s := by
  induction rs with
  | nil => rfl
  | cons r rs ih => rw [List.foldl_cons, reprDfs_noop h (hr r (by simp)), ih fun x hx => hr x (by simp [hx])]

theorem dfs_succ (g : Graph K) (f i : Nat) (s : St K) : dfs g (f + 1) i s =
    match shapeBase g (dfs g f) i s with
    | .error e => .error e
    | .ok s => shapePost g (dfs g f) i s := rfl

/-- The search changes nothing when everything is numbered. -/
theorem dfs_noop {g : Graph K} (hk : KindsOk g) (f : Nat) : ∀ i (s : St K), (g.kind i).rank < f → Sat g i s →
    dfs g f i s = .ok s := by
  induction f with
  | zero => intro i s h; omega
  | succ f ih =>
    intro i s hf hs
    have hb : shapeBase g (dfs g f) i s = .ok s := by
      unfold shapeBase
      have hn : (s.tT.ids i).isSome := hs.num i .refl
      rw [if_pos hn]
    simp only [dfs, hb]
    have hd := hs.done i .refl
    unfold shapePost
    unfold Done at hd
    cases hki : g.kind i <;> simp only [hki] at hd <;> simp only
    case edge =>
      unfold edgePost
      rw [if_neg hd.1]
      simp only [reprs_noop hs.locs _ hd.2]
    case vertex => rw [reprs_noop hs.locs _ hd]
    case face =>
      obtain ⟨fc, l, he, h1, h2⟩ := hd
      have hfp : facePost g i s = .ok s := by
        unfold facePost
        rw [if_neg (by rw [he]; simp)]
        simp only [he, visit_noop h1]
        rw [visitLoc_noop hs.locs h2]
      simp only [hfp]
      have key : ∀ es : List Ref, (∀ e ∈ es, e ∈ faceEdges g i) → loop (fun (r : Ref) s => dfs g f r.shape s) es s = .ok s := by
        intro es
        induction es with
        | nil => intro _; rfl
        | cons e es ihe =>
          intro he
          obtain ⟨w, hw, hew, hre⟩ := faceEdges_reach (he e (by simp))
          have a := hk.rank hw
          have b := hk.rank hew
          have : dfs g f e.shape s = .ok s := ih e.shape s (by omega)
            ⟨fun x hx => hs.num x (hre.trans hx), fun x hx => hs.done x (hre.trans hx), hs.locs⟩
          simp only [loop, this]
          exact ihe fun x hx => he x (by simp [hx])
      exact key _ fun e he => he

/-- The state after a complete `write_model`. -/
theorem written_sat {g : Graph K} (hl : LocsOk g.locs) (hk : KindsOk g) {root loc : Nat} {s s' : St K} {file : File K}
    (hf : Fresh s) (h : writeModel g root loc s = .ok (file, s')) :
    Sat g root (clearGroups s') ∧ (s'.tL.ids loc).isSome ∧ file.shapes ≠ [] ∧
      ∀ x, Reach g root x → ∀ r ∈ g.childs x, (s'.tL.ids r.loc).isSome := by
  obtain ⟨s1, h1, h⟩ := bind_ok h
  obtain ⟨locs, h2, h⟩ := bind_ok h
  obtain ⟨shapes, h3, h⟩ := bind_ok h
  cases h
  obtain ⟨hi, hn, hd, hr⟩ := index_spec hl hk hf h1
  have hloc : (s1.tL.ids loc).isSome := by
    unfold indexAll at h1
    split at h1
    · cases h1
    · rename_i s2 hd2
      cases h1
      obtain ⟨a1, -⟩ := dfs_spec hl hk 8 root _ _ ∅ (fresh_inv hf)
        (fun x hx => by simp [num, clearGroups, hf.T] at hx) hd2
      exact (vis_loc hl s2 loc).2 a1
  refine ⟨⟨fun x hx => ?_, fun x hx => ?_, ?_⟩, hloc, ?_, ?_⟩
  · exact flip_some ((hn x).2 hx)
  · exact hd x ((hn x).2 hx)
  · intro l ps hc hnl p hp
    obtain ⟨k, hkl⟩ := Option.isSome_iff_exists.1 hnl
    by_cases hk0 : k = 0
    · subst hk0
      have := hl l ps hc p hp
      rw [hi.locs.only l hkl] at this
      omega
    · obtain ⟨j, hj, -⟩ := hi.locs.comp l ps k hc hkl hk0 p hp
      show (s1.tL.ids p.1).isSome
      rw [hj]; rfl
  · have hlen := (mapM_forall _ h3).length_eq
    intro hc
    have hc : shapes = [] := hc
    subst hc
    rw [List.length_nil] at hlen
    have hlen : s1.tT.list = [] := List.length_eq_zero_iff.1 hlen
    rw [hlen] at hr
    simp at hr
  · intro x hx r hr
    obtain ⟨k, hkx⟩ := Option.isSome_iff_exists.1 ((hn x).2 hx)
    exact (hi.kids x k hkx r hr).2

/-- A second `write_model` of the same shape writes a file in which all tables are empty and whose last line names a shape
that is not in the file. The first file is never empty, so the two files differ for every model. -/
theorem second_write_empty {g : Graph K} (hl : LocsOk g.locs) (hk : KindsOk g) {root loc : Nat} {s s' : St K} {file : File K}
    (hf : Fresh s) (h : writeModel g root loc s = .ok (file, s')) :
    file.shapes ≠ [] ∧ ∃ s'', writeModel g root loc s' = .ok (⟨[], [], [], [], [], ⟨1, 1, 0⟩⟩, s'') := by
  obtain ⟨hs, hloc, hne, -⟩ := written_sat hl hk hf h
  refine ⟨hne, { clearGroups s' with tT := flip (clearGroups s').tT }, ?_⟩
  have hi : indexAll g root loc s' = .ok (clearGroups s') := by
    unfold indexAll
    rw [dfs_noop hk 8 root _ (rank_lt_eight _) hs]
    simp only
    rw [visitLoc_noop hs.locs hloc]
  exact (ok_bind hi).trans rfl

/-- A compound whose children were written before with another model is written without them: the file has one shape record and
no geometry, and the record names the children by their numbers in the other file. -/
theorem shared_shapes_missing {g : Graph K} (hl : LocsOk g.locs) (hk : KindsOk g) {root loc new : Nat} {s s' : St K}
    {file file' : File K} {s'' : St K} (hf : Fresh s) (h : writeModel g root loc s = .ok (file, s'))
    (hnew : g.kind new = .compound) (hn : ¬ Reach g root new) (hch : ∀ r ∈ g.childs new, Reach g root r.shape ∧ r.loc = 0)
    (h' : writeModel g new 0 s' = .ok (file', s'')) :
    file'.c2 = [] ∧ file'.c3 = [] ∧ file'.sf = [] ∧ file'.locs = [] ∧
      ∃ refs, file'.shapes = [⟨.compound, .none, g.flags new, refs⟩] ∧
        List.Forall₂ (fun r c => s'.tT.ids r.shape = some c.shape ∧ c.orient = r.orient ∧ c.loc = 0) (g.childs new) refs := by
  obtain ⟨hs, hloc, hne, -⟩ := written_sat hl hk hf h
  have hz : s'.tL.ids 0 = some 0 ∧ s'.tT.ids new = none := by
    obtain ⟨s1, h1, h⟩ := bind_ok h
    obtain ⟨locs, h2, h⟩ := bind_ok h
    obtain ⟨shapes, h3, h⟩ := bind_ok h
    cases h
    obtain ⟨hi, hnum, hd, hr⟩ := index_spec hl hk hf h1
    refine ⟨hi.locs.zero, ?_⟩
    rcases hx : (flip s1.tT).ids new with _ | k
    · rfl
    · obtain ⟨k, hk', -⟩ := flip_ids hi.okT hi.nzT hx
      exact absurd ((hnum new).1 (by simp [num, hk'])) hn
  obtain ⟨hz, hnn⟩ := hz
  have hi : indexAll g new 0 s' = .ok { clearGroups s' with tT := (clearGroups s').tT.push new } := by
    have hloop : ∀ rs : List Ref, (∀ r ∈ rs, r ∈ g.childs new) →
        loop (fun (r : Ref) s => dfs g 7 r.shape (visitLoc g s r.loc)) rs (clearGroups s') = .ok (clearGroups s') := by
      intro rs
      induction rs with
      | nil => intro _; rfl
      | cons r rs ih =>
        intro hr
        obtain ⟨h1, h2⟩ := hch r (hr r (by simp))
        have hv : visitLoc g (clearGroups s') r.loc = clearGroups s' := by
          rw [h2]
          exact visitLoc_noop hs.locs (by show (s'.tL.ids 0).isSome; rw [hz]; rfl)
        have hrank := hk.rank (hr r (by simp))
        rw [hnew] at hrank
        have hd : dfs g 7 r.shape (clearGroups s') = .ok (clearGroups s') := dfs_noop hk 7 _ _ hrank
          ⟨fun x hx => hs.num x (h1.trans hx), fun x hx => hs.done x (h1.trans hx), hs.locs⟩
        simp only [loop, hv, hd]
        exact ih fun x hx => hr x (by simp [hx])
    have hb : shapeBase g (dfs g 7) new (clearGroups s') = .ok { clearGroups s' with tT := (clearGroups s').tT.push new } := by
      unfold shapeBase
      rw [if_neg (by show ¬ (s'.tT.ids new).isSome; rw [hnn]; simp), hloop _ fun r hr => hr]
    have hd : dfs g 8 new (clearGroups s') = .ok { clearGroups s' with tT := (clearGroups s').tT.push new } := by
      rw [dfs_succ, hb]
      simp only [shapePost, hnew]
    unfold indexAll
    rw [hd]
    simp only
    rw [visitLoc_noop (s := { clearGroups s' with tT := (clearGroups s').tT.push new }) hs.locs
      (by show (s'.tL.ids 0).isSome; rw [hz]; rfl)]
  obtain ⟨s1, h1, h'⟩ := bind_ok h'
  rw [hi] at h1
  cases h1
  obtain ⟨locs, h2, h'⟩ := bind_ok h'
  obtain ⟨shapes, h3, h'⟩ := bind_ok h'
  cases h'
  refine ⟨rfl, rfl, rfl, ?_, ?_⟩
  · have : locs = [] := by
      have := mapM_forall _ h2
      cases this
      rfl
    exact this
  · have hf3 := mapM_forall _ h3
    have hl3 : ({ clearGroups s' with tT := flip ((clearGroups s').tT.push new) } : St K).tT.list = [new] := rfl
    rw [hl3] at hf3
    cases hf3 with
    | cons hab htl =>
      cases htl
      obtain ⟨sub, h4, h5⟩ := bind_ok hab
      obtain ⟨ch, h6, h7⟩ := bind_ok h5
      cases h7
      simp only [writeSub, hnew] at h4
      cases h4
      refine ⟨ch, by rw [hnew], ?_⟩
      refine forall₂_mem (mapM_forall _ h6) ?_
      intro r c hr hrc
      obtain ⟨a, h8, h9⟩ := bind_ok hrc
      obtain ⟨b, h10, h11⟩ := bind_ok h9
      cases h11
      have hne : r.shape ≠ new := by
        rintro rfl
        exact hn (hch r hr).1
      have h8 := attr_ok h8
      have h10 := attr_ok h10
      simp only [flip, Tab.push_ids, if_neg hne] at h8
      simp only [Tab.push, clearGroups, List.nil_append, List.mem_singleton, if_neg hne] at h8
      rw [(hch r hr).2] at h10
      have h10 : s'.tL.ids 0 = some b := h10
      rw [hz] at h10
      cases h10
      exact ⟨h8, rfl, rfl⟩

/-! ### The location of the model -/

theorem attr_le {t t' : Tab} (h : t.Le t') {x : Nat} (hx : (t.ids x).isSome) : attr t' x = attr t x := by
  obtain ⟨k, hk⟩ := Option.isSome_iff_exists.1 hx
  simp only [attr, hk, h.1 x k hk]

theorem mapM_congr' {α β : Type} {f f' : α → Except Err β} (l : List α) (h : ∀ a ∈ l, f a = f' a) : l.mapM f = l.mapM f' := by
  induction l with
  | nil => rfl
  | cons a l ih =>
    rw [List.mapM_cons, List.mapM_cons, h a (by simp), ih fun b hb => h b (by simp [hb])]

omit [Field K] in
theorem writeShape_le {g : Graph K} {s : St K} (hi : StInv g s) {x : Nat} (hx : num s x) (hd : Done g s x) {t : Tab}
    (hle : s.tL.Le t) (T : Tab) : writeShape g { s with tL := t, tT := T } x = writeShape g { s with tT := T } x := by
  have h1 : writeSub g { s with tL := t, tT := T } x = writeSub g { s with tT := T } x := by
    unfold Done at hd
    cases hk : g.kind x <;> simp only [hk] at hd <;> simp only [writeSub, hk]
    case edge =>
      have : (s.repr x).mapM (writeRepr { s with tL := t, tT := T }) = (s.repr x).mapM (writeRepr { s with tT := T }) := by
        refine mapM_congr' _ fun r hr => ?_
        have hn := hd.2 r hr
        cases r with
        | sf => rfl
        | c3 t0 t1 c l => simp only [writeRepr, attr_le hle hn.2]
        | c2 t0 t1 c f l => simp only [writeRepr, attr_le hle hn.2.2]
      rw [this]
    case face =>
      obtain ⟨f, l, he, h1, h2⟩ := hd
      simp only [he, attr_le hle h2]
  have h2 : (g.childs x).mapM (writeRef { s with tL := t, tT := T }) = (g.childs x).mapM (writeRef { s with tT := T }) := by
    refine mapM_congr' _ fun r hr => ?_
    obtain ⟨k, hk⟩ := Option.isSome_iff_exists.1 hx
    have := (hi.kids x k hk r hr).2
    simp only [writeRef, attr_le hle this]
  simp only [writeShape, h1, h2]

/-- The location given to `write_model` places nothing: for any two locations the files agree except for the table of
locations, in particular in all references to shapes and in the final line, which names the identity location. -/
theorem model_location_ignored {g : Graph K} (hl : LocsOk g.locs) (hk : KindsOk g) {root loc loc' : Nat} {s s' s'' : St K}
    {file file' : File K} (hf : Fresh s) (h : writeModel g root loc s = .ok (file, s'))
    (h' : writeModel g root loc' s = .ok (file', s'')) :
    file'.shapes = file.shapes ∧ file'.c2 = file.c2 ∧ file'.c3 = file.c3 ∧ file'.sf = file.sf ∧ file'.root = file.root ∧
      file.root.loc = 0 := by
  obtain ⟨s1, h1, h⟩ := bind_ok h
  obtain ⟨locs, h2, h⟩ := bind_ok h
  obtain ⟨shapes, h3, h⟩ := bind_ok h
  cases h
  obtain ⟨s1', h1', h'⟩ := bind_ok h'
  obtain ⟨locs', h2', h'⟩ := bind_ok h'
  obtain ⟨shapes', h3', h'⟩ := bind_ok h'
  cases h'
  unfold indexAll at h1 h1'
  split at h1
  · cases h1
  · rename_i s0 hd0
    rw [hd0] at h1'
    cases h1
    cases h1'
    obtain ⟨a1, -, -, -, a5⟩ := dfs_spec hl hk 8 root _ _ ∅ (fresh_inv hf)
      (fun x hx => by simp [num, clearGroups, hf.T] at hx) hd0
    have key : ∀ l, s0.tT.list.mapM (writeShape g { visitLoc g s0 l with tT := flip s0.tT }) =
        s0.tT.list.mapM (writeShape g { s0 with tT := flip s0.tT }) := by
      intro l
      refine mapM_congr' _ fun x hx => ?_
      obtain ⟨p, hp⟩ := List.mem_iff_getElem?.1 hx
      have hn : num s0 x := by simp [num, (a1.okT x p).2 hp]
      exact writeShape_le a1 hn (a5 x hn (Or.inl (by simp))) ((vis_loc hl s0 l).1.grow a1).L _
    refine ⟨?_, rfl, rfl, rfl, rfl, rfl⟩
    have e := (key loc').symm.trans (h3'.trans rfl)
    have e' := (key loc).symm.trans (h3.trans rfl)
    rw [e] at e'
    cases e'
    rfl

/-! ### Depth of the search -/

omit [Field K] in
theorem loop_no_fuel {α : Type} {f : α → St K → Except Err (St K)} (l : List α) (hf : ∀ a ∈ l, ∀ s, f a s ≠ .error .fuel) :
    ∀ s, loop f l s ≠ .error .fuel := by
  induction l with
  | nil => intro s h; cases h
  | cons a l ih =>
    intro s h
    simp only [loop] at h
    split at h
    · exact ih (fun b hb => hf b (by simp [hb])) _ h
    · rename_i e he; cases h; exact hf a (by simp) s he

theorem attachAll_no_fuel {g : Graph K} {surf : Nat} {uv : List (Nat × List K)} (es : List Nat) : ∀ s : St K,
    attachAll g surf uv es s ≠ .error .fuel := by
  induction es with
  | nil => intro s h; cases h
  | cons e es ih =>
    intro s h
    simp only [attachAll] at h
    split at h
    · split at h
      · exact ih _ h
      · cases h
    · cases h

/-- The depth eight of the model is enough for every model: the search never stops for it. -/
theorem dfs_no_fuel {g : Graph K} (hk : KindsOk g) (f : Nat) : ∀ i (s : St K), (g.kind i).rank < f →
    dfs g f i s ≠ .error .fuel := by
  induction f with
  | zero => intro i s h; omega
  | succ f ih =>
    intro i s hf h
    rw [dfs_succ] at h
    split at h
    · rename_i e he
      cases h
      unfold shapeBase at he
      split at he
      · cases he
      · split at he
        · rename_i e' he'
          cases he
          exact loop_no_fuel _ (fun r hr s => ih r.shape _ (by have := hk.rank hr; omega)) _ he'
        · cases he
    · rename_i s1 h1
      unfold shapePost at h
      split at h
      · unfold edgePost at h
        split at h
        · rename_i e he
          cases h
          split at he
          · unfold implicitCurve at he
            split at he <;> cases he
          · cases he
        · cases h
      · split at h
        · rename_i e he
          cases h
          unfold facePost at he
          split at he
          · rename_i e' he'
            cases he
            split at he'
            · unfold implicitSurface at he'
              simp only at he'
              split at he'
              · cases he'
              · split at he'
                · exact attachAll_no_fuel _ _ he'
                · exact attachAll_no_fuel _ _ he'
                · cases he'
            · cases he'
          · split at he <;> cases he
        · refine loop_no_fuel _ (fun r hr s => ?_) _ h
          obtain ⟨w, hw, hew, -⟩ := faceEdges_reach hr
          have a := hk.rank hw
          have b := hk.rank hew
          exact ih r.shape s (by omega)
      · cases h
      · cases h

end Verif.Brep
