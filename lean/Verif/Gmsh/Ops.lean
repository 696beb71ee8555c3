import Mathlib.Data.List.Dedup
import Verif.Gmsh.Split

/-! Other operations on object sets. -/
namespace Verif.Gmsh
open M

theorem Reach.lt {s : St} (h : Reach s) {o : Nat} {b : Obj} (ho : s.obj o = some b) : o < s.nobj := by
  by_contra hc
  rw [h.inv.heap o (not_lt.1 hc)] at ho
  cases ho

theorem Valid.of_mem {s : St} {objs : List Nat} {bs : List Obj} (hv : Valid s objs bs) {o : Nat} (ho : o ∈ objs) :
    ∃ b ∈ bs, s.obj o = some b := by
  obtain ⟨i, hi, rfl⟩ := List.getElem_of_mem ho
  exact ⟨_, List.getElem_mem (by rw [← hv.length_eq]; exact hi), List.Forall₂.get hv hi (by rw [← hv.length_eq]; exact hi)⟩

theorem Valid.len {s : St} (h : Inv s) {objs : List Nat} {bs : List Obj} (hv : Valid s objs bs) :
    ∀ b ∈ bs, b.regs.length = b.dts.length := by
  intro b hb
  obtain ⟨i, hi, rfl⟩ := List.getElem_of_mem hb
  have := List.Forall₂.get hv (i := i) (by rw [hv.length_eq]; exact hi) hi
  exact h.len _ _ this

theorem pairs_mk (ps : List (DimTag × Nat)) : Obj.pairs ⟨ps.map Prod.fst, ps.map Prod.snd⟩ = ps := by
  unfold Obj.pairs
  exact (List.zip_of_prod rfl rfl).symm

/-! ### `remove_small_mass` -/

/-- `remove_small_mass` keeps exactly the entities over the limit with their regions, in their order. -/
theorem remove_small_mass_spec {s : St} (h : Reach s) {o : Nat} {b : Obj} (ho : s.obj o = some b) (big : DimTag → Bool) :
    ∃ s' b', removeSmallMass o big s = (.ok (), s') ∧ s'.obj o = some b' ∧ b'.pairs = b.pairs.filter (fun p => big p.1) ∧
      b'.regs.length = b'.dts.length ∧ ∀ x, x ≠ o → s'.obj x = s.obj x := by
  have hl := h.inv.len o b ho
  have key : ∀ (d : List DimTag) (r : List Nat), r.length = d.length →
      ((d.zip (d.map big)).filter Prod.snd).map Prod.fst = ((d.zip r).filter fun p => big p.1).map Prod.fst ∧
      ((r.zip (d.map big)).filter Prod.snd).map Prod.fst = ((d.zip r).filter fun p => big p.1).map Prod.snd := by
    intro d
    induction d with
    | nil => intro r _; simp
    | cons a d ih =>
      intro r hr
      cases r with
      | nil => simp at hr
      | cons x r =>
        obtain ⟨h1, h2⟩ := ih r (by simpa using hr)
        rw [List.map_cons, List.zip_cons_cons, List.zip_cons_cons, List.zip_cons_cons, List.filter_cons, List.filter_cons,
          List.filter_cons]
        cases big a
        · exact ⟨h1, h2⟩
        · exact ⟨congrArg (a :: ·) h1, congrArg (x :: ·) h2⟩
  obtain ⟨k1, k2⟩ := key b.dts b.regs hl
  let b' : Obj := ⟨(b.pairs.filter fun p => big p.1).map Prod.fst, (b.pairs.filter fun p => big p.1).map Prod.snd⟩
  refine ⟨(store o b' s).2, b',
    ?_, ?_, pairs_mk _, by simp [b'], fun x hx => ?_⟩
  · unfold removeSmallMass
    rw [bind_of (load_ok.2 ⟨ho, rfl⟩)]
    show store o _ s = _
    rw [k1, k2]
    rfl
  · exact Function.update_self ..
  · exact Function.update_of_ne hx ..

/-! ### `copy` -/

/-- The copy has the copied entities with the regions in their order, the library copies every entity. -/
theorem copy_spec {s : St} (h : Reach s) {o : Nat} {b : Obj} (ho : s.obj o = some b) {tags : List DimTag}
    (hl : tags.length = b.dts.length) : copy o (some tags) s = (.ok s.nobj, put s ⟨tags, b.regs⟩) := by
  unfold copy
  rw [bind_of (load_ok.2 ⟨ho, rfl⟩), bind_of (lib_ok.2 ⟨rfl, rfl⟩)]
  exact mkSet_eq ((h.inv.len o b ho).trans hl.symm) s

/-! ### `select_by_intersect` -/

theorem selectLoop_of : ∀ {l : List (List DimTag × DimTag × Nat)} {s : St}, (∀ x ∈ l, x.1.length ≤ 1) →
    selectLoop l s = (.ok ((l.filter fun p => p.1.length = 1).map Prod.snd), s) := by
  intro l
  induction l with
  | nil => intro s _; rfl
  | cons p l ih =>
    intro s h
    rw [selectLoop, bind_of (check_of (by simpa using h p List.mem_cons_self) s),
      bind_of (ih fun x hx => h x (List.mem_cons_of_mem _ hx))]
    by_cases hp : p.1.length = 1 <;> simp [pure_apply, hp]

theorem selectLoop_err : ∀ {l : List (List DimTag × DimTag × Nat)} {s : St}, (∃ x ∈ l, 1 < x.1.length) →
    selectLoop l s = (.error .bool, s) := by
  intro l
  induction l with
  | nil => intro s h; simp at h
  | cons p l ih =>
    intro s h
    by_cases hp : p.1.length ≤ 1
    · have hl : ∃ x ∈ l, 1 < x.1.length := by
        obtain ⟨x, hx, hlt⟩ := h
        rcases List.mem_cons.1 hx with rfl | hx
        · omega
        · exact ⟨x, hx, hlt⟩
      rw [selectLoop, bind_of (check_of (by simpa using hp) s), bind_apply, ih hl]
    · rw [selectLoop, bind_apply, check, if_neg (by simpa using hp)]
      rfl

/-- `select_by_intersect` returns the entities with exactly one piece of the intersection, with their regions; it raises if an
entity has more pieces. All object sets that existed before, so also the object and the tools, remain as they were. -/
theorem select_by_intersect_spec {s : St} (h : Reach s) {o : Nat} {b : Obj} (ho : s.obj o = some b) {tools : List Nat}
    {ts : List Obj} (hv : Valid s tools ts) {c1 c2 : List DimTag} (h1 : c1.length = b.dts.length)
    (h2 : c2.length = (ts.map fun b => b.dts.length).sum) (tm : List (List DimTag)) :
    ((∀ x ∈ tm.zip b.pairs, x.1.length ≤ 1) → ∃ n s' b', selectByIntersect o tools (some c1) (some c2) (some tm) s = (.ok n, s') ∧
      s'.obj n = some b' ∧ b'.pairs = ((tm.zip b.pairs).filter fun x => x.1.length = 1).map Prod.snd ∧
      b'.regs.length = b'.dts.length ∧ ∀ x < s.nobj, s'.obj x = s.obj x) ∧
    ((∃ x ∈ tm.zip b.pairs, 1 < x.1.length) → ∃ s', selectByIntersect o tools (some c1) (some c2) (some tm) s =
      (.error .bool, s') ∧ ∀ x < s.nobj, s'.obj x = s.obj x) := by
  have hlt := h.lt ho
  have hr1 : Reach (put s ⟨c1, b.regs⟩) := by
    have := Reach.step (o := .copy o (some c1)) h trivial
    rwa [step, copy_spec h ho h1] at this
  have old1 : ∀ x < s.nobj, (put s ⟨c1, b.regs⟩).obj x = s.obj x := (put_alloc s _).old
  have hv1 : Valid (put s ⟨c1, b.regs⟩) tools ts := hv.mono fun x hx => by
    obtain ⟨_, _, hb⟩ := hv.of_mem hx
    exact old1 x (h.lt hb)
  obtain ⟨g, s1, bg, g1, g2, g3, g4, g5, g6⟩ := group_concat hr1.inv hv1
  have hr2 : Reach s1 := by
    have := Reach.step (o := .group tools) hr1 trivial
    rwa [step, g1] at this
  have hc2 : c2.length = bg.dts.length := by rw [h2, g3, List.length_flatMap]
  have hle : s.nobj + 1 ≤ s1.nobj := by
    have := (safe_group (objs := tools) hr1.inv).2.1.nobj
    rw [g1] at this
    exact this
  let s2 := put s1 ⟨c2, bg.regs⟩
  let s3 := (invalidate s.nobj (invalidate s1.nobj s2).2).2
  have old3 : ∀ x < s.nobj, s3.obj x = s.obj x := by
    intro x hx
    show Function.update (Function.update s2.obj s1.nobj none) s.nobj none x = _
    rw [Function.update_of_ne (by omega), Function.update_of_ne (by omega), (put_alloc s1 _).old x (by omega),
      g5 x (show x < s.nobj + 1 by omega), old1 x hx]
  have hunf : selectByIntersect o tools (some c1) (some c2) (some tm) s = (selectLoop (tm.zip b.pairs) >>= fun isec =>
      mkSet (isec.map Prod.fst) (isec.map Prod.snd)) s3 := by
    unfold selectByIntersect
    rw [bind_of (copy_spec h ho h1), bind_of g1, bind_of (copy_spec hr2 g2 hc2), bind_of (lib_ok.2 ⟨rfl, rfl⟩),
      bind_of (invalidate_eq s1.nobj _), bind_of (invalidate_eq s.nobj _)]
    rw [bind_of (load_ok.2 ⟨(old3 o hlt).trans ho, rfl⟩), bind_of (dimtagreg_of (h.inv.len o b ho) s3)]
  refine ⟨fun hs => ?_, fun hs => ?_⟩
  · rw [hunf, bind_of (selectLoop_of hs), mkSet_eq (by simp)]
    refine ⟨_, _, _, rfl, Function.update_self .., pairs_mk _, by simp, fun x hx => ?_⟩
    refine Eq.trans ?_ (old3 x hx)
    refine Function.update_of_ne (a := x) ?_ _ _
    show x ≠ s1.nobj + 1
    omega
  · rw [hunf, bind_apply, selectLoop_err hs]
    exact ⟨s3, rfl, old3⟩

/-! ### `split_by_cut` -/

theorem items_fst {P : List (DimTag × Nat)} : ∀ {ks : List DimTag}, (∀ k ∈ ks, k ∈ P.map Prod.fst) →
    (items P ks).map Prod.fst = ks := by
  intro ks
  induction ks with
  | nil => intro _; rfl
  | cons k ks ih =>
    intro h
    have hk : lastOf P k ≠ none := by
      unfold lastOf
      rw [Ne, find_none, not_not, List.map_reverse, List.mem_reverse]
      exact h k List.mem_cons_self
    obtain ⟨r, hr⟩ := Option.ne_none_iff_exists'.1 hk
    have : items P (k :: ks) = (k, r) :: items P ks := by simp [items, hr]
    rw [this, List.map_cons, ih fun x hx => h x (List.mem_cons_of_mem _ hx)]

/-- The object set `b` has each of the entities `c` once, with a region that the entity has in `P`. -/
structure PartOf (b : Obj) (P : List (DimTag × Nat)) (c : DimTag → Prop) : Prop where
  len : b.regs.length = b.dts.length
  nd : b.dts.Nodup
  mem : ∀ t, t ∈ b.dts ↔ c t
  sub : ∀ p ∈ b.pairs, p ∈ P

theorem items_part {P : List (DimTag × Nat)} {ks : List DimTag} {f : DimTag → Bool} {ord : List DimTag → List DimTag}
    (hord : ∀ l, (ord l).Perm l) (hk : ks = ord ((keys P).filter f)) :
    PartOf ⟨(items P ks).map Prod.fst, (items P ks).map Prod.snd⟩ P (fun t => t ∈ P.map Prod.fst ∧ f t = true) := by
  have hmem : ∀ k, k ∈ ks ↔ k ∈ P.map Prod.fst ∧ f k = true := by
    intro k
    rw [hk, (hord _).mem_iff, List.mem_filter, keys, List.mem_dedup]
  have hf := items_fst fun k h => ((hmem k).1 h).1
  refine ⟨by simp, ?_, fun t => ?_, fun p hp => ?_⟩
  · rw [hf, hk, (hord _).nodup_iff]
    exact (List.nodup_dedup _).filter _
  · rw [hf]; exact hmem t
  · rw [pairs_mk] at hp
    exact lastOf_mem (items_mem.1 hp).2

/-- `split_by_cut`: with the pieces `P` of the object and `Q` of the tools, the four object sets have each piece of the object
only, each piece of the tools only, and twice each common piece, with the regions from the object and from the tools. The object
is invalidated. A single tool is invalidated too; but if there are more tools, they all stay valid with their old entities,
though these were replaced by the pieces. -/
theorem split_by_cut_spec {s : St} (h : Reach s) {o : Nat} {b : Obj} (ho : s.obj o = some b) {tools : List Nat} {ts : List Obj}
    (hv : Valid s tools ts) (hot : o ∉ tools) {tm tm' : List (List DimTag)} (hlen : tm.length = b.dts.length)
    (hlen' : tm'.length = (ts.map fun b => b.dts.length).sum) {ord : List DimTag → List DimTag} (hord : ∀ l, (ord l).Perm l) :
    ∃ n s' b1 b2 b3 b4, splitByCut o tools (some (tm ++ tm')) ord s = (.ok [n, n + 1, n + 2, n + 3], s') ∧
      Valid s' [n, n + 1, n + 2, n + 3] [b1, b2, b3, b4] ∧
      (∀ P Q, P = withRegions b.regs tm → Q = withRegions (ts.flatMap Obj.regs) tm' →
        PartOf b1 P (fun t => t ∈ P.map Prod.fst ∧ t ∉ Q.map Prod.fst) ∧
        PartOf b2 Q (fun t => t ∈ Q.map Prod.fst ∧ t ∉ P.map Prod.fst) ∧
        PartOf b3 P (fun t => t ∈ P.map Prod.fst ∧ t ∈ Q.map Prod.fst) ∧
        PartOf b4 Q (fun t => t ∈ Q.map Prod.fst ∧ t ∈ P.map Prod.fst)) ∧
      s'.obj o = none ∧ (∀ t, tools = [t] → s'.obj t = none) ∧
      (tools.length ≠ 1 → ∀ x < s.nobj, x ≠ o → s'.obj x = s.obj x) := by
  have hlt := h.lt ho
  -- the group of tools
  obtain ⟨g, s1, bg, hg, hbg, hgo, hregs, hdts, hr1, hle, old1, htool⟩ : ∃ g s1 bg, group tools s = (.ok g, s1) ∧
      s1.obj g = some bg ∧ g ≠ o ∧ bg.regs = ts.flatMap Obj.regs ∧ bg.dts = ts.flatMap Obj.dts ∧ Reach s1 ∧
      s.nobj ≤ s1.nobj ∧ (∀ x < s.nobj, s1.obj x = s.obj x) ∧ (tools = [g] ∨ tools.length ≠ 1 ∧ s.nobj ≤ g) := by
    have hr1 : Reach (group tools s).2 := Reach.step (o := .group tools) h trivial
    rcases group_eq hv (hv.len h.inv) with ⟨_, x, bx, rfl, rfl, hg⟩ | ⟨hne, hg⟩
    · rw [hg] at hr1
      refine ⟨x, s, bx, hg, (List.forall₂_cons.1 hv).1, fun he => hot (by simp [he]), by simp, by simp, h, le_refl _,
        fun _ _ => rfl, Or.inl rfl⟩
    · rw [hg] at hr1
      exact ⟨s.nobj, _, _, hg, Function.update_self .., by omega, rfl, rfl, hr1, Nat.le_succ _, (put_alloc s _).old,
        Or.inr ⟨hne, le_refl _⟩⟩
  have hdl : bg.dts.length = tm'.length := by rw [hdts, hlen', List.length_flatMap]
  have ho1 : s1.obj o = some b := (old1 o hlt).trans ho
  have hvf : Valid s1 [o, g] [b, bg] := .cons ho1 (.cons hbg .nil)
  obtain ⟨ns, s2, f1, f2, f3, f4⟩ := fragment_regions hr1 hvf (by simpa using Ne.symm hgo) (by simp) (tm := tm ++ tm')
    (by simp [hlen, hdl])
  have hr2 : Reach s2 := by
    have := Reach.step (o := .fragment [o, g] (some (tm ++ tm'))) hr1 trivial
    rwa [step, f1] at this
  have hcuts : cuts [b, bg] (tm ++ tm') = [(b, tm), (bg, tm')] := by
    simp only [cuts]
    rw [← hlen, List.take_left, List.drop_left, hdl, List.take_length]
  rw [hcuts] at f2
  obtain ⟨n1, ns', ⟨b1, e1, l1, p1⟩, f2', rfl⟩ := List.forall₂_cons_right_iff.1 f2
  obtain ⟨n2, ns'', ⟨b2, e2, l2, p2⟩, f2'', rfl⟩ := List.forall₂_cons_right_iff.1 f2'
  cases f2''
  have hle2 : s1.nobj ≤ s2.nobj := by
    have := (safe_fragment (objs := [o, g]) (res := some (tm ++ tm')) hr1.inv).2.1.nobj
    rwa [f1] at this
  dsimp only at p1 p2
  rw [hregs] at p2
  let mk : List (DimTag × Nat) → Obj := fun ps => ⟨ps.map Prod.fst, ps.map Prod.snd⟩
  let ks1 := ord ((keys b1.pairs).filter fun k => decide (k ∉ keys b2.pairs))
  let ks2 := ord ((keys b2.pairs).filter fun k => decide (k ∉ keys b1.pairs))
  let ks3 := ord ((keys b1.pairs).filter fun k => decide (k ∈ keys b2.pairs))
  obtain ⟨s3, a1, a2⟩ := each_alloc (f := fun ps : List (DimTag × Nat) => mkSet (ps.map Prod.fst) (ps.map Prod.snd)) (g := mk)
    (l := [items b1.pairs ks1, items b2.pairs ks2, items b1.pairs ks3, items b2.pairs ks3])
    (fun ps _ s => mkSet_eq (by simp) s) s2
  have hks3 : PartOf (mk (items b2.pairs ks3)) b2.pairs (fun t => t ∈ b2.pairs.map Prod.fst ∧ t ∈ b1.pairs.map Prod.fst) := by
    have hmem : ∀ k, k ∈ ks3 ↔ k ∈ b2.pairs.map Prod.fst ∧ k ∈ b1.pairs.map Prod.fst := by
      intro k
      rw [(hord _).mem_iff, List.mem_filter, keys, List.mem_dedup, decide_eq_true_eq, keys, List.mem_dedup, and_comm]
    have hf := items_fst fun k h => ((hmem k).1 h).1
    refine ⟨by simp [mk], ?_, fun t => ?_, fun p hp => ?_⟩
    · show ((items b2.pairs ks3).map Prod.fst).Nodup
      rw [hf, (hord _).nodup_iff]
      exact (List.nodup_dedup _).filter _
    · show t ∈ (items b2.pairs ks3).map Prod.fst ↔ _
      rw [hf]; exact hmem t
    · rw [pairs_mk] at hp
      exact lastOf_mem (items_mem.1 hp).2
  have conv : ∀ {B : Obj} {P : List (DimTag × Nat)} {f g : DimTag → Prop}, PartOf B P f → (∀ t, f t ↔ g t) → PartOf B P g :=
    fun h hfg => ⟨h.len, h.nd, fun t => (h.mem t).trans (hfg t), h.sub⟩
  refine ⟨s2.nobj, s3, mk (items b1.pairs ks1), mk (items b2.pairs ks2), mk (items b1.pairs ks3), mk (items b2.pairs ks3),
    ?_, ?_, ?_, ?_, ?_, ?_⟩
  · unfold splitByCut
    rw [bind_of (load_ok.2 ⟨ho, rfl⟩), bind_of hg, bind_of f1]
    dsimp only
    rw [bind_of (load_ok.2 ⟨e1, rfl⟩), bind_of (dimtagreg_of l1 s2), bind_of (load_ok.2 ⟨e2, rfl⟩), bind_of (dimtagreg_of l2 s2)]
    exact a1
  · exact a2.new
  · rintro P Q rfl rfl
    rw [← p1, ← p2]
    refine ⟨conv (items_part (f := fun k => decide (k ∉ keys b2.pairs)) hord rfl) ?_,
      conv (items_part (f := fun k => decide (k ∉ keys b1.pairs)) hord rfl) ?_,
      conv (items_part (f := fun k => decide (k ∈ keys b2.pairs)) hord rfl) ?_, hks3⟩ <;>
    · intro t
      rw [decide_eq_true_eq, keys, List.mem_dedup]
  · rw [a2.old o (by omega)]
    exact f3 o (by simp)
  · rintro t rfl
    rcases htool with ht | ⟨ht, _⟩
    · have : t = g := by simpa using ht
      subst this
      have := hr1.lt hbg
      rw [a2.old t (by omega)]
      exact f3 t (by simp)
    · simp at ht
  · intro hne x hx hxo
    rcases htool with rfl | ⟨_, hge⟩
    · simp at hne
    · rw [a2.old x (by omega), f4 x (by omega) (by simp; omega), old1 x hx]

/-! ### `set_region` -/

/-- `set_region` of a region that can have the dimensions of all entities sets it to all of them. -/
theorem set_region_spec {s : St} {o : Nat} {b : Obj} (ho : s.obj o = some b) {r : Nat} :
    ((∃ s', setRegion o (.reg r) s = (.ok (), s')) ↔ Fits s (b.dts.map fun t => (t, r))) ∧
    ∀ s', setRegion o (.reg r) s = (.ok (), s') → s'.obj o = some ⟨b.dts, b.dts.map fun _ => r⟩ ∧
      (∀ t ∈ b.dts, (s'.reg r).dim = some (t.1 : Int)) ∧ (∀ x, x ≠ o → s'.obj x = s.obj x) ∧
      (∀ q, q ≠ r → s'.reg q = s.reg q) ∧ (s'.reg r).name = (s.reg r).name ∧
      (∀ d, (s.reg r).dim = some d → (s'.reg r).dim = some d) ∧ s'.nobj = s.nobj ∧ s'.maxId = s.maxId := by
  have hunf : setRegion o (.reg r) s = (each (fun dt : DimTag => complete r dt.1) b.dts >>= fun regs => store o ⟨b.dts, regs⟩) s := by
    unfold setRegion
    rw [bind_of (load_ok.2 ⟨ho, rfl⟩)]
    rfl
  have heach : each (fun dt : DimTag => complete r dt.1) b.dts = completes (b.dts.map fun t => (t, r)) := by
    unfold completes
    generalize b.dts = l
    induction l with
    | nil => rfl
    | cons t l ih => rw [List.map_cons, each, each, ih]
  have hval : ∀ {l : List DimTag} {s s' : St} {x}, completes (l.map fun t => (t, r)) s = (.ok x, s') → x = l.map fun _ => r := by
    intro l
    induction l with
    | nil => intro s s' x h; cases h; rfl
    | cons t l ih =>
      intro s s' x h
      rw [List.map_cons, completes, each] at h
      obtain ⟨y, s1, h1, h2⟩ := bind_ok.1 h
      obtain ⟨z, s2, h3, h4⟩ := bind_ok.1 h2
      cases h4
      rw [List.map_cons, ih h3]
      congr 1
      unfold complete at h1
      split at h1
      · cases h1; rfl
      · split at h1
        · cases h1; rfl
        · cases h1
  rw [hunf, heach]
  refine ⟨⟨fun ⟨s', hs⟩ => ?_, fun hf => ?_⟩, fun s' hs => ?_⟩
  · obtain ⟨x, s1, h1, _⟩ := bind_ok.1 hs
    exact (completes_ok h1).2
  · obtain ⟨l, s1, h1⟩ := completes_of hf
    exact ⟨_, bind_of h1⟩
  · obtain ⟨x, s1, h1, h2⟩ := bind_ok.1 hs
    obtain ⟨c, _⟩ := completes_ok h1
    have := hval h1
    subst this
    cases h2
    refine ⟨Function.update_self .., fun t ht => ?_, fun x hx => ?_, fun q hq => ?_, c.name r, c.dim r, c.nobj, c.maxId⟩
    · exact c.new (t, r) (List.mem_map_of_mem ht)
    · rw [← c.obj]
      exact Function.update_of_ne hx ..
    · refine c.old q fun hm => hq ?_
      obtain ⟨p, hp, rfl⟩ := List.mem_map.1 hm
      obtain ⟨t, _, rfl⟩ := List.mem_map.1 hp
      rfl

/-! ### `get_boundary_per_region` -/

theorem each_default : ∀ {tags : List DimTag} {s s' : St} {x}, each (fun dt : DimTag => defaultRegion dt.1) tags s = (.ok x, s') →
    x = tags.map (fun t => firstId + t.1) ∧ s' = s := by
  intro tags
  induction tags with
  | nil => intro s s' x h; cases h; exact ⟨rfl, rfl⟩
  | cons t tags ih =>
    intro s s' x h
    rw [each] at h
    obtain ⟨y, s1, h1, h2⟩ := bind_ok.1 h
    obtain ⟨z, s2, h3, h4⟩ := bind_ok.1 h2
    cases h4
    unfold defaultRegion at h1
    split at h1
    · cases h1
      obtain ⟨rfl, rfl⟩ := ih h3
      exact ⟨rfl, rfl⟩
    · cases h1

/-- `get_boundary`: the entities given by the library with the default regions of their dimensions. -/
theorem get_boundary_ok {s s' : St} {o n : Nat} {res : Option (List DimTag)} (h : getBoundary o res s = (.ok n, s')) :
    ∃ tags, res = some tags ∧ n = s.nobj ∧ s' = put s ⟨tags, tags.map fun t => firstId + t.1⟩ := by
  unfold getBoundary at h
  obtain ⟨b, s1, h1, h2⟩ := bind_ok.1 h
  obtain ⟨_, rfl⟩ := load_ok.1 h1
  obtain ⟨tags, s2, h3, h4⟩ := bind_ok.1 h2
  obtain ⟨rfl, rfl⟩ := lib_ok.1 h3
  obtain ⟨regs, s3, h5, h6⟩ := bind_ok.1 h4
  obtain ⟨rfl, rfl⟩ := each_default h5
  rw [mkSet_eq (by simp)] at h6
  cases h6
  exact ⟨tags, rfl, rfl, rfl⟩

/-- The state after the boundary of one region is made. -/
theorem boundaryStep {s s' : St} {n : Name} {d : Int} {tags : List DimTag}
    (h : setRegion s.nobj (.reg (s.maxId + 1)) (put { s with maxId := s.maxId + 1, reg := Function.update s.reg (s.maxId + 1) ⟨some d, n⟩ }
      ⟨tags, tags.map fun t => firstId + t.1⟩) = (.ok (), s')) :
    s'.nobj = s.nobj + 1 ∧ s'.maxId = s.maxId + 1 ∧ s'.obj s.nobj = some ⟨tags, tags.map fun _ => s.maxId + 1⟩ ∧
      (∀ x < s.nobj, s'.obj x = s.obj x) ∧ (∀ q ≤ s.maxId, s'.reg q = s.reg q) ∧ s'.reg (s.maxId + 1) = ⟨some d, n⟩ ∧
      ∀ t ∈ tags, (t.1 : Int) = d := by
  have hself : (put { s with maxId := s.maxId + 1, reg := Function.update s.reg (s.maxId + 1) ⟨some d, n⟩ }
      ⟨tags, tags.map fun t => firstId + t.1⟩).reg (s.maxId + 1) = ⟨some d, n⟩ := Function.update_self ..
  obtain ⟨_, hs⟩ := set_region_spec (s := put
    { s with maxId := s.maxId + 1, reg := Function.update s.reg (s.maxId + 1) (Reg.mk (some d) n) }
    ⟨tags, tags.map fun t => firstId + t.1⟩) (o := s.nobj) (b := ⟨tags, tags.map fun t : DimTag => firstId + t.1⟩) (Function.update_self ..) (r := s.maxId + 1)
  obtain ⟨h1, h2, h3, h4, h5, h6, h7, h8⟩ := hs s' h
  rw [hself] at h5 h6
  have hd := h6 d rfl
  refine ⟨h7, h8, h1, fun x hx => ?_, fun q hq => ?_, ?_, fun t ht => ?_⟩
  · rw [h3 x (Nat.ne_of_lt hx)]
    exact Function.update_of_ne (Nat.ne_of_lt hx) ..
  · rw [h4 q (by omega)]
    exact Function.update_of_ne (show q ≠ s.maxId + 1 by omega) ..
  · cases hr : s'.reg (s.maxId + 1) with
    | mk dd nn =>
      rw [hr] at hd h5
      dsimp only at hd h5
      rw [hd, h5]
  · have := h2 t ht
    rw [hd] at this
    exact (Option.some.inj this).symm

theorem boundaryLoop_ok {f : Name → Name} : ∀ {l : List (Nat × Option (List DimTag))} {s s' : St} {ns : List Nat},
    (∀ p ∈ l, p.1 < s.nobj ∧ ∀ b, s.obj p.1 = some b → ∀ r ∈ b.regs, r ≤ s.maxId) →
    boundaryLoop f l s = (.ok ns, s') → ns.length = l.length ∧ s'.maxId = s.maxId + l.length ∧ s.nobj ≤ s'.nobj ∧
      (∀ x < s.nobj, s'.obj x = s.obj x) ∧ (∀ r ≤ s.maxId, s'.reg r = s.reg r) ∧
      ∀ i n p, ns[i]? = some n → l[i]? = some p →
        ∃ b r d tags, s.obj p.1 = some b ∧ b.regs.head? = some r ∧
          (s.reg r).dim = some d ∧ p.2 = some tags ∧ n < s'.nobj ∧ s'.obj n = some ⟨tags, tags.map fun _ => s.maxId + 1 + i⟩ ∧
          s'.reg (s.maxId + 1 + i) = ⟨some (d - 1), f (s.reg r).name⟩ ∧ ∀ t ∈ tags, (t.1 : Int) = d - 1 := by
  intro l
  induction l with
  | nil => intro s s' ns _ h; cases h; exact ⟨rfl, rfl, le_refl _, fun _ _ => rfl, fun _ _ => rfl, by simp⟩
  | cons q l ih =>
    obtain ⟨o, res⟩ := q
    intro s s' ns hl h
    rw [boundaryLoop] at h
    obtain ⟨b, s1, h1, k1⟩ := bind_ok.1 h
    clear h
    obtain ⟨hb, e1⟩ := load_ok.1 h1
    subst e1
    obtain ⟨r, s2, h2, k2⟩ := bind_ok.1 k1
    clear k1 h1
    obtain ⟨hr, e2⟩ := lib_ok.1 h2
    subst e2
    obtain ⟨x, s3, h3, k3⟩ := bind_ok.1 k2
    clear k2 h2
    cases h3
    obtain ⟨d, s4, h4, k4⟩ := bind_ok.1 k3
    clear k3
    obtain ⟨hd, e4⟩ := lib_ok.1 h4
    subst e4
    obtain ⟨br, s5, h5, k5⟩ := bind_ok.1 k4
    clear k4 h4
    obtain ⟨bd, s6, h6, k6⟩ := bind_ok.1 k5
    clear k5
    obtain ⟨u, s7, h7, k7⟩ := bind_ok.1 k6
    clear k6
    obtain ⟨rest, s8, h8, k8⟩ := bind_ok.1 k7
    clear k7
    cases k8
    cases h5
    obtain ⟨tags, rfl, rfl, rfl⟩ := get_boundary_ok h6
    obtain ⟨t1, t2, t3, t4, t5, t6, t7⟩ := boundaryStep h7
    have hl0 := hl (o, some tags) List.mem_cons_self
    have hl' : ∀ p ∈ l, p.1 < s7.nobj ∧ ∀ b, s7.obj p.1 = some b → ∀ r ∈ b.regs, r ≤ s7.maxId := by
      intro p hp
      obtain ⟨g1, g2⟩ := hl p (List.mem_cons_of_mem _ hp)
      refine ⟨by omega, fun b' hb' r' hr' => ?_⟩
      rw [t4 p.1 g1] at hb'
      have := g2 b' hb' r' hr'
      omega
    obtain ⟨u1, u2, u3, u4, u5, u6⟩ := ih hl' h8
    refine ⟨by rw [List.length_cons, List.length_cons, u1], by rw [u2, t2, List.length_cons]; omega, by omega,
      fun x hx => (u4 x (by omega)).trans (t4 x hx), fun q hq => (u5 q (by omega)).trans (t5 q hq), fun i n p hi hp => ?_⟩
    cases i with
    | zero =>
      have en : s4.nobj = n := by simpa using hi
      have ep : (o, some tags) = p := by simpa using hp
      subst en
      subst ep
      refine ⟨b, r, d, tags, hb, hr, hd, rfl, by omega, ?_, ?_, t7⟩
      · rw [u4 _ (by omega)]; exact t3
      · rw [u5 _ (by omega)]; exact t6
    | succ i =>
      rw [List.getElem?_cons_succ] at hi hp
      obtain ⟨b', r', d', tags', v1, v2, v3, v4, v5, v6, v7, v8⟩ := u6 i n p hi hp
      obtain ⟨g1, g2⟩ := hl p (List.mem_cons_of_mem _ (List.mem_of_getElem? hp))
      rw [t4 p.1 g1] at v1
      have hr' : r' ≤ s4.maxId := g2 b' v1 r' (List.mem_of_mem_head? (by rw [v2]; rfl))
      rw [t5 r' hr'] at v3 v7
      have e : s7.maxId + 1 + i = s4.maxId + 1 + (i + 1) := by omega
      rw [e] at v6 v7
      exact ⟨b', r', d', tags', v1, v2, v3, v4, v5, v6, v7, v8⟩

/-- `get_boundary_per_region`: if it returns, there is one object set for every region of the object, with the entities that
the library gives for this region. They all have one new region, of one dimension less, named by the format from the name of
the region; and the entities have this dimension. Different regions get different new regions. -/
theorem boundary_per_region_spec {s s' : St} (h : Reach s) {o : Nat} {b : Obj} (ho : s.obj o = some b) {f : Name → Name}
    {res : Nat → Option (List DimTag)} {ns : List Nat} (hs : getBoundaryPerRegion o f res s = (.ok ns, s')) :
    ∃ rs : List Nat, rs.Nodup ∧ (∀ r, r ∈ rs ↔ r ∈ b.regs) ∧ ns.length = rs.length ∧
      (∀ x < s.nobj, s'.obj x = s.obj x) ∧
      ∀ i n r, ns[i]? = some n → rs[i]? = some r → ∃ (d : Int) (tags : List DimTag), (s'.reg r).dim = some d ∧ res i = some tags ∧
        s'.obj n = some ⟨tags, tags.map fun _ => s.maxId + 1 + i⟩ ∧
        s'.reg (s.maxId + 1 + i) = ⟨some (d - 1), f (s.reg r).name⟩ ∧ (∀ t ∈ tags, (t.1 : Int) = d - 1) ∧
        ∀ p ∈ b.pairs, p.2 = r → (p.1.1 : Int) = d := by
  unfold getBoundaryPerRegion at hs
  obtain ⟨sets, s1, h1, h2⟩ := bind_ok.1 hs
  obtain ⟨rs, r1, r2, r3, r4, r5⟩ := (split_by_region_partition h ho).2 sets s1 h1
  have hR1 : Reach s1 := by
    have := Reach.step (o := .splitByRegion o) h trivial
    rwa [step, h1] at this
  have hunf : splitByRegion o s = (splitLoop b.pairs [] >>= fun acc =>
      each (fun p : Nat × List DimTag => mkSet p.2 [p.1]) acc) s := by
    unfold splitByRegion
    rw [bind_of (load_ok.2 ⟨ho, rfl⟩), bind_of (dimtagreg_of (h.inv.len o b ho) s)]
  have hcomp : s1.maxId = s.maxId ∧ s.nobj ≤ s1.nobj ∧ ∀ r, (s1.reg r).name = (s.reg r).name := by
    rw [hunf] at h1
    obtain ⟨acc, s2, g1, g2⟩ := bind_ok.1 h1
    obtain ⟨⟨l, g3⟩, _⟩ := splitLoop_ok.1 g1
    obtain ⟨c, _⟩ := completes_ok g3
    obtain ⟨s3, g4, g5⟩ := each_alloc (f := fun p : Nat × List DimTag => mkSet p.2 [p.1]) (l := acc)
      (fun p _ s => mkSet_one p.2 p.1 s) s2
    rw [g4] at g2
    cases g2
    exact ⟨g5.maxId.trans c.maxId, by rw [g5.nobj, c.nobj]; omega, fun r => by rw [g5.reg]; exact c.name r⟩
  obtain ⟨m1, m2, m3⟩ := hcomp
  have hle : ∀ p ∈ sets.zip ((List.range sets.length).map res), p.1 < s1.nobj ∧
      ∀ b', s1.obj p.1 = some b' → ∀ r ∈ b'.regs, r ≤ s1.maxId := by
    intro p hp
    have hp1 : p.1 ∈ sets := (List.of_mem_zip hp).1
    obtain ⟨i, hi, hpi⟩ := List.getElem_of_mem hp1
    have := List.Forall₂.get r3 hi (by rw [← r3.length_eq]; exact hi)
    rw [List.get_eq_getElem, hpi] at this
    exact ⟨hR1.lt this, fun b' hb' r hr => (hR1.inv.known p.1 b' hb' r hr).2⟩
  obtain ⟨u1, u2, u3, u4, u5, u6⟩ := boundaryLoop_ok hle h2
  have hlen : (sets.zip ((List.range sets.length).map res)).length = sets.length := by simp
  refine ⟨rs, r1, r2, by rw [u1, hlen, r3.length_eq], fun x hx => (u4 x (by omega)).trans (r5 x hx), fun i n r hn hr => ?_⟩
  have hi : i < rs.length := (List.getElem?_eq_some_iff.1 hr).1
  have hi' : i < sets.length := by rw [r3.length_eq]; exact hi
  have hri : rs[i] = r := (List.getElem?_eq_some_iff.1 hr).2
  have hset := List.Forall₂.get r3 hi' hi
  rw [List.get_eq_getElem, List.get_eq_getElem, hri] at hset
  have hz : (sets.zip ((List.range sets.length).map res))[i]? = some (sets[i], res i) := by
    rw [List.getElem?_zip_eq_some]
    refine ⟨by simp [hi'], ?_⟩
    rw [List.getElem?_map, List.getElem?_range hi']
    rfl
  obtain ⟨b', r', d, tags, v1, v2, v3, v4, v5, v6, v7, v8⟩ := u6 i n _ hn hz
  dsimp only at v1 v4
  rw [hset] at v1
  cases v1
  have hr' : r' = r := by
    have : r' ∈ (b.pairs.filter fun p => p.2 = r).map Prod.snd := List.mem_of_mem_head? (by rw [v2]; rfl)
    obtain ⟨p, hp, rfl⟩ := List.mem_map.1 this
    simpa using (List.mem_filter.1 hp).2
  subst hr'
  have hkn : r' ≤ s1.maxId := by
    have hrb : r' ∈ b.regs := (r2 r').1 (List.mem_of_getElem? hr)
    rw [m1]
    exact (h.inv.known o b ho r' hrb).2
  rw [m1] at v6 v7
  rw [m3] at v7
  refine ⟨d, tags, by rw [u5 r' hkn]; exact v3, v4, v6, v7, v8, fun p hp he => ?_⟩
  have := r4 p hp
  rw [he, v3] at this
  exact (Option.some.inj this).symm

end Verif.Gmsh
