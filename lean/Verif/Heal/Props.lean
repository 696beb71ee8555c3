import Verif.Heal.Lemmas

/-!
C30 (incidence) and C32 (fresh ids) for all runs of the public methods, `heal_mesh` included.
-/
namespace Verif.Heal

variable {P : Type} {ord : Finset Nat → List Nat}

/-! ### What every method keeps, relative to an earlier state `s0` -/

/-- `s` is well formed; compared to `s0` there are no new elements and nodes except with ids above the counters of `s0`.
The nodes in `K` are among the old or the new ones. -/
structure Since (s0 : St P) (K : List Nat) (s : St P) : Prop where
  good : Good s
  el : s0.maxEl ≤ s.maxEl
  node : s0.maxNode ≤ s.maxNode
  els : ∀ e el, look s.elements e = some el → look s0.elements e = some el ∨ s0.maxEl < e
  nodes : ∀ n, (look s.nodes n).isSome → (look s0.nodes n).isSome ∨ s0.maxNode < n
  known : ∀ n ∈ K, n ≤ s.maxNode ∧ ((look s0.nodes n).isSome ∨ s0.maxNode < n)

theorem Since.refl {s : St P} (h : Good s) : Since s [] s :=
  ⟨h, le_rfl, le_rfl, fun _ _ h => Or.inl h, fun _ h => Or.inl h, by simp⟩

theorem Since.trans {s0 s1 s2 : St P} (h : Since s0 [] s1) (h' : Since s1 [] s2) : Since s0 [] s2 where
  good := h'.good
  el := h.el.trans h'.el
  node := h.node.trans h'.node
  els := by
    intro e el he
    rcases h'.els e el he with h1 | h1
    · exact h.els e el h1
    · exact Or.inr (lt_of_le_of_lt h.el h1)
  nodes := by
    intro n hn
    rcases h'.nodes n hn with h1 | h1
    · exact h.nodes n h1
    · exact Or.inr (lt_of_le_of_lt h.node h1)
  known := by simp

variable {s0 : St P} {K : List Nat}

theorem since_rm {s : St P} (h : Since s0 K s) (eid : Nat) : Since s0 K (rmSt s eid) where
  good := good_rmSt h.good eid
  el := h.el
  node := h.node
  els := by
    intro e el he
    rw [look_rmSt] at he
    split at he
    · cases he
    · exact h.els e el he
  nodes := h.nodes
  known := h.known

theorem since_add {s : St P} (h : Since s0 K s) {ele : Elem} (he : ∀ n ∈ ele.nodes, (look s.nodes n).isSome) :
    Since s0 K (addSt s ele) where
  good := good_addSt h.good he
  el := Nat.le_succ_of_le h.el
  node := h.node
  els := by
    intro e el he
    rw [look_addSt] at he
    split at he
    · right; have := h.el; omega
    · exact h.els e el he
  nodes := h.nodes
  known := h.known

theorem since_addNode {s : St P} (h : Since s0 K s) (p : P) : Since s0 K (addNodeSt s p) where
  good := good_addNodeSt h.good p
  el := h.el
  node := Nat.le_succ_of_le h.node
  els := h.els
  nodes := by
    intro n hn
    have hn' : (look (put s.nodes (s.maxNode + 1) p) n).isSome := hn
    rw [look_put] at hn'
    split at hn'
    · right; have := h.node; omega
    · exact h.nodes n hn'
  known := fun n hn => ⟨Nat.le_succ_of_le (h.known n hn).1, (h.known n hn).2⟩

/-- the node is present, or it is in `K` -/
theorem since_put {s : St P} (h : Since s0 K s) {nid : Nat} (hn : (look s.nodes nid).isSome ∨ nid ∈ K) (p : P) :
    Since s0 K (putSt s nid p) := by
  have hk : nid ≤ s.maxNode ∧ ((look s0.nodes nid).isSome ∨ s0.maxNode < nid) := by
    rcases hn with hn | hn
    · obtain ⟨q, hq⟩ := Option.isSome_iff_exists.1 hn
      exact ⟨h.good.nodeMax nid q hq, h.nodes nid hn⟩
    · exact h.known nid hn
  refine ⟨good_putSt h.good hk.1 p, h.el, h.node, h.els, ?_, h.known⟩
  intro n hn
  have hn' : (look (put s.nodes nid p) n).isSome := hn
  rw [look_put] at hn'
  split at hn'
  · rename_i e; rw [e]; exact hk.2
  · exact h.nodes n hn'

theorem since_modified {s : St P} (h : Since s0 K s) (m : Finset Nat) : Since s0 K { s with modified := m } :=
  ⟨good_modified h.good m, h.el, h.node, h.els, h.nodes, h.known⟩

theorem since_move {s : St P} (h : Since s0 K s) {nid : Nat} (hn : (look s.nodes nid).isSome ∨ nid ∈ K) (p : P) :
    Since s0 K (moveSt s nid p) := since_modified (since_put h hn p) _

/-! ### The methods keep it -/

theorem pres_common {I : St P → Prop} (ns : List Nat) : Pres I (common ord ns) := by
  intro s hs; rw [common_state]; exact hs

theorem pres_mk {I : St P → Prop} (ns : List Nat) : Pres I (mkElement ns) := by
  intro s hs; rw [mkElement_state]; exact hs

theorem pres_isDuplicate {I : St P → Prop} (ty : Nat) (ns : List Nat) : Pres I (isDuplicate ord ty ns) :=
  pres_bind (pres_common ns) fun _ => pres_get fun _ hs => hs

theorem pres_remove (ho : OrdOk ord) (eid : Nat) : Pres (Since s0 K) (removeElement ord eid) := by
  intro s hs
  rcases hl : look s.elements eid with _ | el
  · rw [removeElement_none hl]; exact hs
  · rw [removeElement_eq ho hs.good.incid hl]; exact since_rm hs eid

theorem pres_add (ho : OrdOk ord) (ele : Elem) : Pres (Since s0 K) (addElement ord ele) := by
  intro s hs
  rcases addElement_cases ho hs.good.incid ele with h | ⟨h1, _, _, h | h⟩
  · rw [h.1]; exact hs
  · rw [h.1]; exact hs
  · rw [h.1]; exact since_add hs h1

theorem pres_addNode (p : P) : Pres (Since s0 K) (addNode p) := fun s hs => by
  rw [addNode_eq]; exact since_addNode hs p

theorem move_since {s : St P} (hs : Since s0 K s) {nid : Nat} (hn : (look s.nodes nid).isSome ∨ nid ∈ K) (p : P) :
    Since s0 K (moveNode ord nid p s).2 := by
  rcases moveNode_cases (ord := ord) nid p s with h | ⟨e, h | h⟩ <;> rw [h]
  · exact since_move hs hn p
  · exact hs
  · exact since_put hs hn p

theorem pres_removeNode (nid : Nat) : Pres (Since s0 K) (removeNode nid) := by
  refine pres_get fun s hs => ?_
  split
  · exact hs
  rename_i he
  split
  · exact hs
  simp only [ne_eq, not_not] at he
  show Since s0 K { s with nodes := del s.nodes nid }
  refine ⟨⟨hs.good.keys, nodup_del hs.good.nkeys nid, hs.good.incid, hs.good.elMax, ?_, ?_⟩, hs.el, hs.node, hs.els, ?_,
    hs.known⟩
  · intro n p hn
    have hn' : look (del s.nodes nid) n = some p := hn
    rw [look_del] at hn'
    split at hn'
    · cases hn'
    · exact hs.good.nodeMax n p hn'
  · intro e el hl n hn
    show (look (del s.nodes nid) n).isSome
    rw [look_del]
    split
    · rename_i h
      subst h
      have := (hs.good.incid n e).2 ⟨el, hl, hn⟩
      rw [he] at this; simp at this
    · exact hs.good.exist e el hl n hn
  · intro n hn
    have hn' : (look (del s.nodes nid) n).isSome := hn
    rw [look_del] at hn'
    split at hn'
    · cases hn'
    · exact hs.nodes n hn'

theorem pres_reset : Pres (Since s0 K) (resetModified ord) := fun _ hs => since_modified hs ∅

theorem pres_merge (ho : OrdOk ord) (avg : P → P → P) (rm tgt : Nat) :
    Pres (Since s0 K) (mergeNode ord avg rm tgt) := by
  unfold mergeNode
  split
  · exact pres_fail _
  refine pres_bind (pres_common _) fun l => pres_bind (pres_forActive fun e _ s hs _ => pres_remove ho e s hs) fun _ =>
    pres_get fun s hs => ?_
  rcases ha : look s.nodes rm with _ | a
  · exact hs
  rcases hb : look s.nodes tgt with _ | b
  · exact hs
  · simp only
    have h1 : Since s0 K (moveNode ord tgt (avg a b) s).2 := move_since hs (Or.inl (by rw [hb]; rfl)) _
    rcases hm : moveNode ord tgt (avg a b) s with ⟨r, s1⟩
    rw [hm] at h1
    cases r with
    | error e => rw [bind_err hm]; exact h1
    | ok u =>
      rw [bind_ok hm]
      refine pres_bind (pres_common _) (fun l => pres_bind (pres_forActive fun e _ t ht _ => ?_) fun _ =>
        pres_bind (pres_removeNode rm) fun _ => pres_pure _) s1 h1
      rw [get_bind]
      rcases hl : look t.elements e with _ | el
      · exact ht
      · exact pres_bind (pres_remove ho e) (fun _ => pres_bind (pres_add ho _) fun _ => pres_pure _) t ht

theorem pres_split (ho : OrdOk ord) (eid : Nat) (olds : List Nat) (new : Nat) (w : Bool) :
    Pres (Since s0 K) (splitElement ord eid olds new w) := by
  refine pres_get fun s hs => ?_
  rcases hl : look s.elements eid with _ | el
  · exact hs
  · simp only
    split
    · exact hs
    · refine pres_bind (pres_remove ho eid) (fun _ => pres_forEach fun o _ => ?_) s hs
      split
      · exact pres_bind (pres_add ho _) fun _ => pres_pure _
      · exact pres_fail _

/-- Indices chosen by `argmin` and `argmax` are in range. -/
structure Geo.Sane (g : Geo P) : Prop where
  minFace : ∀ ps, g.minFace ps < 4
  proj : ∀ ps i p, g.proj ps = .go i p → i < 3

theorem nth_mem {ns : List Nat} {i : Nat} (h : i < ns.length) : nth ns i ∈ ns := by
  simp [nth, List.getD_eq_getElem?_getD, List.getElem?_eq_getElem h]

theorem face_lt {f : Nat} (hf : f < 4) : (faces.getD f []).length = 3 ∧ ∀ i ∈ faces.getD f [], i < 4 := by
  have : f = 0 ∨ f = 1 ∨ f = 2 ∨ f = 3 := by omega
  rcases this with rfl | rfl | rfl | rfl <;> decide

theorem pres_dupl (ho : OrdOk ord) (eid : Nat) (ns : List Nat) : Pres (Since s0 K) (checkDuplNodes ord eid ns) := by
  unfold checkDuplNodes
  split
  · exact pres_pure _
  · exact pres_bind (pres_remove ho eid) fun _ => pres_get fun _ hs => hs

theorem pres_degen (ho : OrdOk ord) (g : Geo P) (ns : List Nat) (ps : List P) :
    Pres (Since s0 K) (checkDegenNodes ord g ns ps) := by
  unfold checkDegenNodes
  split
  · exact pres_pure _
  · split
    · exact pres_bind (pres_merge ho _ _ _) fun _ => pres_reset
    · exact pres_reset

theorem pres_dupEl (ho : OrdOk ord) (eid ty : Nat) (ns : List Nat) :
    Pres (Since s0 K) (checkDuplicateElement ord eid ty ns) := by
  refine pres_bind (pres_isDuplicate ty ns) fun l => ?_
  split
  · refine pres_bind (pres_forEach fun x _ => ?_) fun _ => pres_pure _
    split
    · exact pres_remove ho x
    · exact pres_pure _
  · exact pres_pure _

theorem pres_smallEdge (ho : OrdOk ord) (g : Geo P) (ns : List Nat) (ps : List P) :
    Pres (Since s0 K) (checkSmallEdge ord g ns ps) :=
  pres_bind (pres_merge ho _ _ _) fun _ => pres_reset

theorem pres_flatTriangle (ho : OrdOk ord) {g : Geo P} (hg : g.Sane) {ns : List Nat} (hK : ∀ n ∈ ns, n ∈ K)
    (h4 : ns.length ≤ 4) (ps : List P) : Pres (Since s0 K) (checkFlatTriangle ord g ns ps) := by
  unfold checkFlatTriangle
  split
  · exact pres_pure _
  rename_i h3
  refine pres_bind (pres_common _) fun l => pres_bind (pres_forActive fun e _ s hs _ => pres_remove ho e s hs) fun _ => ?_
  split
  · exact pres_fail _
  · exact pres_pure _
  · rename_i i pos hp
    have hi := hg.proj _ _ _ hp
    have hmem : nth ((if ns.length = 4 then faces.getD (g.minFace ps) [] else [0, 1, 2]).map (nth ns)) i ∈ K := by
      refine hK _ ?_
      have hloc : (if ns.length = 4 then faces.getD (g.minFace ps) [] else [0, 1, 2]).length = 3 ∧
          ∀ j ∈ (if ns.length = 4 then faces.getD (g.minFace ps) [] else [0, 1, 2]), j < ns.length := by
        split
        · rename_i h; rw [h]; exact face_lt (hg.minFace ps)
        · refine ⟨rfl, fun j hj => ?_⟩
          simp only [List.mem_cons, List.not_mem_nil, or_false] at hj
          omega
      have hx := nth_mem (ns := (if ns.length = 4 then faces.getD (g.minFace ps) [] else [0, 1, 2]).map (nth ns))
        (i := i) (by rw [List.length_map, hloc.1]; exact hi)
      obtain ⟨j, hj, hjx⟩ := List.mem_map.1 hx
      rw [← hjx]
      exact nth_mem (hloc.2 j hj)
    exact pres_bind (fun s hs => move_since hs (Or.inr hmem) pos) fun _ => pres_bind (pres_common _) fun l =>
      pres_bind (pres_forActive fun e _ s hs _ => pres_split ho e _ _ _ s hs) fun _ => pres_reset

theorem pres_flatTetra (ho : OrdOk ord) (g : Geo P) (eid : Nat) {ns : List Nat} (hK : ∀ n ∈ ns, n ∈ K) (ps : List P) :
    Pres (Since s0 K) (checkFlatTetra ord g eid ns ps) := by
  have hmv : ∀ f : List P, Pres (Since s0 K) (forEach (ns.zip f) fun np => moveNode ord np.1 np.2) := fun f =>
    pres_forEach fun np hnp s hs => move_since hs (Or.inr (hK _ (List.of_mem_zip hnp).1)) _
  unfold checkFlatTetra
  split
  · exact pres_pure _
  split
  · exact pres_pure _
  · exact pres_fail _
  · refine pres_bind (hmv _) fun _ => pres_bind (pres_remove ho eid) fun _ => pres_bind (pres_addNode _) fun new =>
      pres_bind (pres_forEach fun cf _ => ?_) fun _ => pres_reset
    exact pres_bind (pres_common _) fun l => pres_forActive fun e _ s hs _ => pres_split ho e _ _ _ s hs
  · exact pres_bind (hmv _) fun _ => pres_bind (pres_remove ho eid) fun _ => pres_bind (pres_common _) fun l =>
      pres_bind (pres_forActive fun e _ s hs _ => pres_split ho e _ _ _ s hs) fun _ => pres_reset

theorem pres_ifRet {I : St P → Prop} {m : List Nat} {k : M P (List Nat)} (h : Pres I k) :
    Pres I (if m ≠ [] then pure m else k) := by
  split
  · exact pres_pure _
  · exact h

theorem pres_healOne (ho : OrdOk ord) {g : Geo P} (hg : g.Sane) (eid : Nat) :
    Pres (Since s0 []) (healOne ord g eid) := by
  intro s hs
  have hw : ∀ {el : Elem}, look s.elements eid = some el → Since s0 el.nodes s := fun {el} hl =>
    { hs with
      known := fun n hn => by
        have he := hs.good.exist eid el hl n hn
        obtain ⟨q, hq⟩ := Option.isSome_iff_exists.1 he
        exact ⟨hs.good.nodeMax n q hq, hs.nodes n he⟩ }
  have hback : ∀ {K : List Nat} {t : St P}, Since s0 K t → Since s0 [] t := fun h => { h with known := by simp }
  simp only [healOne, get_bind]
  rcases hl : look s.elements eid with _ | el
  · exact hs
  · simp only
    rcases hm : mkElement el.nodes s with ⟨r, s1⟩
    cases r with
    | error e =>
      rw [bind_err hm]
      have := mkElement_state el.nodes s
      rw [hm] at this
      simp only at this
      rw [this]; exact hs
    | ok ps =>
      rw [bind_ok hm]
      obtain ⟨rfl, _, _, h4, _⟩ := mkElement_eq_ok hm
      refine hback (K := el.nodes) ?_
      refine pres_bind (pres_dupl ho eid _) (fun m => pres_ifRet ?_) s1 (hw hl)
      refine pres_bind (pres_degen ho g _ _) fun m => pres_ifRet ?_
      refine pres_bind (pres_dupEl ho _ _ _) fun m => pres_ifRet ?_
      split
      · exact pres_pure _
      split
      · exact pres_fail _
      · exact pres_pure _
      · refine pres_bind (pres_flatTetra ho g eid (fun _ h => h) _) fun m => pres_ifRet ?_
        refine pres_bind (pres_flatTriangle ho hg (fun _ h => h) h4 _) fun m => pres_ifRet ?_
        exact pres_smallEdge ho g _ _

theorem pres_healLoop (ho : OrdOk ord) {g : Geo P} (hg : g.Sane) (limit fuel : Nat) (stack m : List Nat) :
    Pres (Since s0 []) (healLoop ord g limit fuel stack m) := by
  induction fuel generalizing stack m with
  | zero => exact pres_pure _
  | succ fuel ih =>
    unfold healLoop
    split
    · exact pres_pure _
    · refine pres_get fun s hs => ?_
      split
      · exact hs
      · rcases hst : m.reverse ++ stack with _ | ⟨eid, rest⟩
        · exact hs
        · exact pres_bind (pres_healOne ho hg _) (fun _ => ih _ _) s hs

/-! ### Runs of the public methods -/

/-- Calls of public methods. -/
inductive Op (P : Type) where
  | addElement (ele : Elem)
  | addNode (p : P)
  | removeElement (eid : Nat)
  | removeNode (nid : Nat)
  | moveNode (nid : Nat) (p : P)
  | mergeNode (avg : P → P → P) (rm tgt : Nat)
  | resetModified
  | heal (g : Geo P) (limit fuel : Nat)

/-- State after a call, also when it raised. -/
def step (ord : Finset Nat → List Nat) (s : St P) : Op P → St P
  | .addElement ele => (addElement ord ele s).2
  | .addNode p => (addNode p s).2
  | .removeElement e => (removeElement ord e s).2
  | .removeNode n => (removeNode n s).2
  | .moveNode n p => (moveNode ord n p s).2
  | .mergeNode avg a b => (mergeNode ord avg a b s).2
  | .resetModified => (resetModified ord s).2
  | .heal g limit fuel => (healMesh ord g limit fuel s).2

/-- The only restriction on calls: a node that is moved exists. -/
def Op.Ok (s : St P) : Op P → Prop
  | .moveNode n _ => (look s.nodes n).isSome
  | .heal g _ _ => g.Sane
  | _ => True

/-- `s` is reached from `s0` by some calls. -/
inductive Run (ord : Finset Nat → List Nat) : St P → St P → Prop where
  | nil (s) : Run ord s s
  | step {s0 s : St P} (op : Op P) : Run ord s0 s → op.Ok s → Run ord s0 (step ord s op)

theorem step_since (ho : OrdOk ord) {s : St P} (hs : Good s) {op : Op P} (hop : op.Ok s) :
    Since s [] (step ord s op) := by
  have h := Since.refl hs
  cases op with
  | addElement ele => exact pres_add ho ele s h
  | addNode p => exact pres_addNode p s h
  | removeElement e => exact pres_remove ho e s h
  | removeNode n => exact pres_removeNode n s h
  | moveNode n p => exact move_since h (Or.inl hop) p
  | mergeNode avg a b => exact pres_merge ho avg a b s h
  | resetModified => exact pres_reset s h
  | heal g limit fuel => exact pres_healLoop ho hop limit fuel _ _ s h

theorem run_since (ho : OrdOk ord) {s0 s : St P} (h0 : Good s0) (h : Run ord s0 s) : Since s0 [] s := by
  induction h with
  | nil => exact Since.refl h0
  | step op _ hop ih => exact ih.trans (step_since ho ih.good hop)

/-- A mesh file's content: no id twice, elements list nodes of the mesh. -/
structure ValidMesh (els : List (Nat × Elem)) (nodes : List (Nat × P)) : Prop where
  elKeys : (els.map Prod.fst).Nodup
  nodeKeys : (nodes.map Prod.fst).Nodup
  exist : ∀ p ∈ els, ∀ n ∈ p.2.nodes, n ∈ nodes.map Prod.fst

theorem foldl_max_ge (l : List Nat) (a : Nat) : a ≤ l.foldl max a ∧ ∀ x ∈ l, x ≤ l.foldl max a := by
  induction l generalizing a with
  | nil => simp
  | cons b l ih =>
    have h := ih (max a b)
    refine ⟨le_trans (le_max_left a b) h.1, fun x hx => ?_⟩
    rcases List.mem_cons.1 hx with rfl | hx
    · exact le_trans (le_max_right a x) h.1
    · exact h.2 x hx

theorem init_good {els : List (Nat × Elem)} {nodes : List (Nat × P)} (hv : ValidMesh els nodes) {s : St P}
    (h : init els nodes = .ok s) : Good s := by
  rcases he : els.map Prod.fst with _ | ⟨e, es⟩
  · simp [init, he] at h
  rcases hn : nodes.map Prod.fst with _ | ⟨n, ns⟩
  · simp [init, he, hn] at h
  simp only [init, he, hn, Except.ok.injEq] at h
  subst h
  refine ⟨hv.elKeys, hv.nodeKeys, ?_, ?_, ?_, ?_⟩
  · intro n e
    simp only [makeNodeToEl, List.mem_toFinset, List.mem_map, List.mem_filter, decide_eq_true_eq]
    constructor
    · rintro ⟨⟨a, el⟩, ⟨h1, h2⟩, rfl⟩
      exact ⟨el, mem_look hv.elKeys h1, h2⟩
    · rintro ⟨el, h1, h2⟩
      exact ⟨(e, el), ⟨look_mem h1, h2⟩, rfl⟩
  · intro x el hx
    have : x ∈ els.map Prod.fst := List.mem_map.2 ⟨_, look_mem hx, rfl⟩
    rw [he] at this
    exact (foldl_max_ge _ 0).2 x this
  · intro x p hx
    have : x ∈ nodes.map Prod.fst := List.mem_map.2 ⟨_, look_mem hx, rfl⟩
    rw [hn] at this
    exact (foldl_max_ge _ 0).2 x this
  · intro e el he m hm
    exact (look_isSome_iff _ _).2 (hv.exist _ (look_mem he) m hm)

/-- **C30**: starting from a mesh, after any calls (healing included, exceptions included) each node's element set is exactly
the set of elements that list the node. -/
theorem incidence_consistent (ho : OrdOk ord) {els : List (Nat × Elem)} {nodes : List (Nat × P)}
    (hv : ValidMesh els nodes) {s0 s : St P} (h0 : init els nodes = .ok s0) (h : Run ord s0 s) (n e : Nat) :
    e ∈ s.nodeEls n ↔ ∃ el, look s.elements e = some el ∧ n ∈ el.nodes :=
  (run_since ho (init_good hv h0) h).good.incid n e

/-- **C30**, the consequence on exceptions: an element of the mesh can always be removed. -/
theorem remove_never_fails (ho : OrdOk ord) {els : List (Nat × Elem)} {nodes : List (Nat × P)}
    (hv : ValidMesh els nodes) {s0 s : St P} (h0 : init els nodes = .ok s0) (h : Run ord s0 s) {e : Nat} {el : Elem}
    (he : look s.elements e = some el) :
    ∃ s', removeElement ord e s = (.ok (), s') ∧ look s'.elements e = none ∧
      ∀ e', e' ≠ e → look s'.elements e' = look s.elements e' := by
  refine ⟨_, removeElement_eq ho (run_since ho (init_good hv h0) h).good.incid he, ?_, ?_⟩
  · rw [look_rmSt, if_pos rfl]
  · intro e' hne; rw [look_rmSt, if_neg hne]

/-- **C32**: an id given to an element by `add_element` is larger than every element id at every earlier moment. -/
theorem element_id_fresh (ho : OrdOk ord) {els : List (Nat × Elem)} {nodes : List (Nat × P)}
    (hv : ValidMesh els nodes) {s0 s1 s s' : St P} (h0 : init els nodes = .ok s0) (h : Run ord s0 s1) (h' : Run ord s1 s)
    {ele : Elem} {id : Nat} (ha : addElement ord ele s = (.ok (some id), s')) {e : Nat} {el : Elem}
    (he : look s1.elements e = some el) : e < id ∧ look s'.elements id = some ele := by
  have g1 := run_since ho (init_good hv h0) h
  have g2 := run_since ho g1.good h'
  rcases addElement_cases ho g2.good.incid ele with x | ⟨_, _, _, x | x⟩
  · rw [x.1] at ha; simp at ha
  · rw [x.1] at ha; simp at ha
  · rw [x.1] at ha
    simp only [Prod.mk.injEq, Except.ok.injEq, Option.some.injEq] at ha
    obtain ⟨rfl, rfl⟩ := ha
    refine ⟨?_, by rw [look_addSt, if_pos rfl]⟩
    have a := g1.good.elMax e el he
    have b := g2.el
    omega

/-- **C32**: an id given to a node by `add_node` is larger than every node id at every earlier moment. -/
theorem node_id_fresh (ho : OrdOk ord) {els : List (Nat × Elem)} {nodes : List (Nat × P)}
    (hv : ValidMesh els nodes) {s0 s1 s s' : St P} (h0 : init els nodes = .ok s0) (h : Run ord s0 s1) (h' : Run ord s1 s)
    {p : P} {id : Nat} (ha : addNode p s = (.ok id, s')) {n : Nat} {q : P} (hn : look s1.nodes n = some q) :
    n < id ∧ look s'.nodes id = some p := by
  have g1 := run_since ho (init_good hv h0) h
  have g2 := run_since ho g1.good h'
  rw [addNode_eq] at ha
  simp only [Prod.mk.injEq, Except.ok.injEq] at ha
  obtain ⟨rfl, rfl⟩ := ha
  refine ⟨?_, by show look (put _ _ _) _ = _; rw [look_put, if_pos rfl]⟩
  have a := g1.good.nodeMax n q hn
  have b := g2.node
  omega

/-- **C32** for whole calls, `heal_mesh` included: what is in the mesh later and was not there before has an id larger than
every id at every moment up to then, and an id never changes its element. -/
theorem new_ids_fresh (ho : OrdOk ord) {els : List (Nat × Elem)} {nodes : List (Nat × P)} (hv : ValidMesh els nodes)
    {s0 s1 s s' : St P} (h0 : init els nodes = .ok s0) (h : Run ord s0 s1) (h' : Run ord s1 s) (h'' : Run ord s s') :
    (∀ e el, look s'.elements e = some el → look s.elements e = some el ∨
      ∀ e1 el1, look s1.elements e1 = some el1 → e1 < e) ∧
    (∀ n q, look s'.nodes n = some q → (look s.nodes n).isSome ∨ ∀ n1 q1, look s1.nodes n1 = some q1 → n1 < n) := by
  have g1 := run_since ho (init_good hv h0) h
  have g2 := run_since ho g1.good h'
  have g3 := run_since ho g2.good h''
  refine ⟨fun e el he => ?_, fun n q hn => ?_⟩
  · rcases g3.els e el he with x | x
    · exact Or.inl x
    · refine Or.inr fun e1 el1 h1 => ?_
      have a := g1.good.elMax e1 el1 h1
      have b := g2.el
      omega
  · rcases g3.nodes n (by rw [hn]; rfl) with x | x
    · exact Or.inl x
    · refine Or.inr fun n1 q1 h1 => ?_
      have a := g1.good.nodeMax n1 q1 h1
      have b := g2.node
      omega

end Verif.Heal
