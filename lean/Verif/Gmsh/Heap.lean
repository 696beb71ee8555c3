import Verif.Gmsh.Run

/-! Exact results of the calls that make object sets. -/
namespace Verif.Gmsh
open M

variable {α β : Type}

/-- Pairs of an entity and its region. -/
def Obj.pairs (b : Obj) : List (DimTag × Nat) := b.dts.zip b.regs

/-- All of the list are valid object sets with these contents. -/
abbrev Valid (s : St) (objs : List Nat) (bs : List Obj) : Prop := List.Forall₂ (fun o b => s.obj o = some b) objs bs

/-- `s'` has in addition to `s` the object sets `bs`, nothing else is changed. -/
structure Alloc (s s' : St) (bs : List Obj) : Prop where
  nobj : s'.nobj = s.nobj + bs.length
  new : Valid s' (List.range' s.nobj bs.length) bs
  old : ∀ o < s.nobj, s'.obj o = s.obj o
  reg : s'.reg = s.reg
  maxId : s'.maxId = s.maxId
  names : s'.names = s.names
  groups : s'.groups = s.groups

/-- The state with one more object set. -/
def put (s : St) (b : Obj) : St := { s with nobj := s.nobj + 1, obj := Function.update s.obj s.nobj (some b) }

theorem put_alloc (s : St) (b : Obj) : Alloc s (put s b) [b] := by
  refine ⟨rfl, ?_, fun o ho => ?_, rfl, rfl, rfl, rfl⟩
  · simp [put, Valid]
  · simp only [put]; exact Function.update_of_ne (Nat.ne_of_lt ho) ..

theorem Valid.mono {s s' : St} {objs : List Nat} {bs : List Obj} (h : Valid s objs bs)
    (ho : ∀ o ∈ objs, s'.obj o = s.obj o) : Valid s' objs bs := by
  induction h with
  | nil => exact .nil
  | cons h1 _ ih =>
    exact .cons ((ho _ List.mem_cons_self).trans h1) (ih fun o h => ho o (List.mem_cons_of_mem _ h))

theorem Alloc.nil (s : St) : Alloc s s [] := ⟨rfl, .nil, fun _ _ => rfl, rfl, rfl, rfl, rfl⟩

theorem Alloc.trans {s s1 s2 : St} {l l' : List Obj} (h1 : Alloc s s1 l) (h2 : Alloc s1 s2 l') : Alloc s s2 (l ++ l') := by
  refine ⟨by rw [h2.nobj, h1.nobj, List.length_append, Nat.add_assoc], ?_, ?_, h2.reg.trans h1.reg, h2.maxId.trans h1.maxId,
    h2.names.trans h1.names, h2.groups.trans h1.groups⟩
  · rw [List.length_append, List.range'_append_1.symm]
    refine List.rel_append ?_ ?_
    · refine h1.new.mono fun o ho => h2.old o ?_
      rw [h1.nobj]
      exact (List.mem_range'_1.1 ho).2
    · have := h2.new
      rwa [h1.nobj] at this
  · intro o ho
    rw [h2.old o (by rw [h1.nobj]; omega), h1.old o ho]

/-- A loop that makes one object set for every item. -/
theorem each_alloc {f : α → M Nat} {g : α → Obj} {l : List α} (h : ∀ a ∈ l, ∀ s, f a s = (.ok s.nobj, put s (g a))) :
    ∀ s, ∃ s', each f l s = (.ok (List.range' s.nobj l.length), s') ∧ Alloc s s' (l.map g) := by
  induction l with
  | nil => exact fun s => ⟨s, rfl, .nil s⟩
  | cons a l ih =>
    intro s
    obtain ⟨s', h1, h2⟩ := ih (fun x hx => h x (List.mem_cons_of_mem _ hx)) (put s (g a))
    refine ⟨s', ?_, (put_alloc s (g a)).trans h2⟩
    rw [each, bind_of (h a List.mem_cons_self s), bind_of h1, pure_apply]
    rfl

theorem each_load {s : St} {objs : List Nat} {bs : List Obj} (h : Valid s objs bs) : each load objs s = (.ok bs, s) := by
  induction h with
  | nil => rfl
  | cons h1 _ ih =>
    rw [each, bind_of (load_ok.2 ⟨h1, rfl⟩), bind_of ih]
    rfl

theorem each_load_ok {objs : List Nat} : ∀ {s s' : St} {bs : List Obj}, each load objs s = (.ok bs, s') →
    Valid s objs bs ∧ s' = s := by
  induction objs with
  | nil => intro s s' bs h; cases h; exact ⟨.nil, rfl⟩
  | cons o l ih =>
    intro s s' bs h
    rw [each] at h
    obtain ⟨b, s1, h1, h2⟩ := bind_ok.1 h
    obtain ⟨r, s2, h3, h4⟩ := bind_ok.1 h2
    obtain ⟨h1, rfl⟩ := load_ok.1 h1
    obtain ⟨h3, rfl⟩ := ih h3
    cases h4
    exact ⟨.cons h1 h3, rfl⟩

theorem invalidate_eq (o : Nat) (s : St) : invalidate o s = (.ok (), (invalidate o s).2) := rfl

theorem mkSet_one (dts : List DimTag) (r : Nat) (s : St) : mkSet dts [r] s = (.ok s.nobj, put s ⟨dts, dts.map fun _ => r⟩) := rfl

theorem mkSet_eq {dts : List DimTag} {regs : List Nat} (h : regs.length = dts.length) (s : St) :
    mkSet dts regs s = (.ok s.nobj, put s ⟨dts, regs⟩) := by
  unfold mkSet
  split
  · rename_i r
    obtain ⟨a, ha⟩ := List.length_eq_one_iff.1 (show dts.length = 1 from h.symm)
    simp [ha, put]
  · rw [if_pos h]; rfl

theorem flat_len {bs : List Obj} (h : ∀ b ∈ bs, b.regs.length = b.dts.length) :
    (bs.flatMap Obj.regs).length = (bs.flatMap Obj.dts).length := by
  induction bs with
  | nil => rfl
  | cons b bs ih =>
    simp only [List.flatMap_cons, List.length_append]
    rw [h b List.mem_cons_self, ih fun x hx => h x (List.mem_cons_of_mem _ hx)]

theorem flat_pairs {bs : List Obj} (h : ∀ b ∈ bs, b.regs.length = b.dts.length) :
    (bs.flatMap Obj.dts).zip (bs.flatMap Obj.regs) = bs.flatMap Obj.pairs := by
  induction bs with
  | nil => rfl
  | cons b bs ih =>
    simp only [List.flatMap_cons, Obj.pairs]
    rw [List.zip_append (h b List.mem_cons_self).symm, ih fun x hx => h x (List.mem_cons_of_mem _ hx)]

theorem group_eq {s : St} {objs : List Nat} {bs : List Obj} (hv : Valid s objs bs)
    (hl : ∀ b ∈ bs, b.regs.length = b.dts.length) :
    (objs.length = 1 ∧ ∃ o b, objs = [o] ∧ bs = [b] ∧ group objs s = (.ok o, s)) ∨
    (objs.length ≠ 1 ∧ group objs s = (.ok s.nobj, put s ⟨bs.flatMap Obj.dts, bs.flatMap Obj.regs⟩)) := by
  unfold group
  split
  · rename_i o
    left
    cases hv with
    | cons h1 h2 => cases h2; exact ⟨rfl, o, _, rfl, rfl, rfl⟩
  · rename_i hne
    right
    refine ⟨fun h => ?_, ?_⟩
    · obtain ⟨a, ha⟩ := List.length_eq_one_iff.1 h
      exact hne a ha
    · rw [bind_of (each_load hv)]
      exact mkSet_eq (flat_len hl) s

/-- Grouping valid object sets always returns; the entities and their regions are concatenated, no other object set changes. -/
theorem group_concat {s : St} (h : Inv s) {objs : List Nat} {bs : List Obj} (hv : Valid s objs bs) :
    ∃ g s' b, group objs s = (.ok g, s') ∧ s'.obj g = some b ∧ b.dts = bs.flatMap Obj.dts ∧
      b.pairs = bs.flatMap Obj.pairs ∧ (∀ o < s.nobj, s'.obj o = s.obj o) ∧ s'.reg = s.reg := by
  have hl : ∀ b ∈ bs, b.regs.length = b.dts.length := by
    intro b hb
    obtain ⟨i, hi, rfl⟩ := List.getElem_of_mem hb
    have := List.Forall₂.get hv (i := i) (by rw [hv.length_eq]; exact hi) hi
    exact h.len _ _ this
  rcases group_eq hv hl with ⟨_, o, b, rfl, rfl, hg⟩ | ⟨_, hg⟩
  · cases hv with
    | cons h1 _ => exact ⟨o, s, b, hg, h1, by simp, by simp, fun _ _ => rfl, rfl⟩
  · refine ⟨_, _, ⟨bs.flatMap Obj.dts, bs.flatMap Obj.regs⟩, hg, by simp [put], rfl, flat_pairs hl, (put_alloc s _).old, rfl⟩

/-! ### Pieces of entities -/

/-- Pieces with the region of the entity they come from. -/
def withRegions (regs : List Nat) (subs : List (List DimTag)) : List (DimTag × Nat) :=
  (regs.zip subs).flatMap fun p => p.2.map fun t => (t, p.1)

/-- A piece has the region of an entity that it is a piece of. -/
theorem mem_withRegions {regs : List Nat} {subs : List (List DimTag)} {t : DimTag} {r : Nat} :
    (t, r) ∈ withRegions regs subs ↔ ∃ (j : Nat) (sub : List DimTag), regs[j]? = some r ∧ subs[j]? = some sub ∧ t ∈ sub := by
  unfold withRegions
  rw [List.mem_flatMap]
  constructor
  · rintro ⟨p, hp, ht⟩
    obtain ⟨t', ht', he⟩ := List.mem_map.1 ht
    obtain ⟨j, hj⟩ := List.mem_iff_getElem?.1 hp
    rw [List.getElem?_zip_eq_some] at hj
    cases he
    exact ⟨j, p.2, hj.1, hj.2, ht'⟩
  · rintro ⟨j, sub, h1, h2, h3⟩
    refine ⟨(r, sub), List.mem_iff_getElem?.2 ⟨j, ?_⟩, List.mem_map.2 ⟨t, h3, rfl⟩⟩
    rw [List.getElem?_zip_eq_some]
    exact ⟨h1, h2⟩

/-- `pieces` always returns a new object set with the pieces and their regions. -/
theorem pieces_eq (regs : List Nat) (subs : List (List DimTag)) (s : St) :
    ∃ n s' b, pieces regs subs s = (.ok n, s') ∧ s.nobj ≤ n ∧ n < s'.nobj ∧ s'.obj n = some b ∧
      b.pairs = withRegions regs subs ∧ b.regs.length = b.dts.length ∧
      (∀ o < s.nobj, s'.obj o = s.obj o) ∧ s'.reg = s.reg ∧ s'.names = s.names ∧ s'.maxId = s.maxId := by
  let g : Nat × List DimTag → Obj := fun p => ⟨p.2, p.2.map fun _ => p.1⟩
  obtain ⟨s1, h1, h2⟩ := each_alloc (f := fun p : Nat × List DimTag => mkSet p.2 [p.1]) (g := g) (l := regs.zip subs)
    (fun p _ s => mkSet_one p.2 p.1 s) s
  have hl : ∀ b ∈ (regs.zip subs).map g, b.regs.length = b.dts.length := by
    intro b hb
    obtain ⟨p, _, rfl⟩ := List.mem_map.1 hb
    simp [g]
  have hv := h2.new
  rw [List.length_map] at hv
  have hp : ((regs.zip subs).map g).flatMap Obj.pairs = withRegions regs subs := by
    unfold withRegions
    rw [List.flatMap_map]
    congr 1
    funext p
    simp only [g, Obj.pairs]
    rw [List.zip_map_right]
    simp [List.zip, List.zipWith_self]
  have hn := h2.nobj
  rw [List.length_map] at hn
  unfold pieces
  rcases group_eq hv hl with ⟨hlen, o, b, ho, hb, hg⟩ | ⟨hlen, hg⟩
  · rw [List.length_range'] at hlen
    have hos : o = s.nobj := by
      have := ho
      rw [hlen] at this
      simpa using this.symm
    refine ⟨o, s1, b, by rw [bind_of h1]; exact hg, hos.ge, by omega, ?_, ?_, hl b (by rw [hb]; simp), h2.old, h2.reg, h2.names,
      h2.maxId⟩
    · rw [ho, hb] at hv
      cases hv with
      | cons h _ => exact h
    · rw [hb] at hp
      simpa using hp
  · refine ⟨s1.nobj, put s1 ⟨((regs.zip subs).map g).flatMap Obj.dts, ((regs.zip subs).map g).flatMap Obj.regs⟩,
      ⟨((regs.zip subs).map g).flatMap Obj.dts, ((regs.zip subs).map g).flatMap Obj.regs⟩,
      by rw [bind_of h1]; exact hg, by omega, Nat.lt_succ_self _, by simp [put], (flat_pairs hl).trans hp,
      flat_len hl, fun o ho => ?_, h2.reg, h2.names, h2.maxId⟩
    rw [(put_alloc s1 _).old o (by omega), h2.old o ho]

/-! ### Fragments -/

/-- Cuts the results of the library for a list of object sets: each gets as many items as it has entities. -/
def cuts : List Obj → List (List DimTag) → List (Obj × List (List DimTag))
  | [], _ => []
  | b :: l, tm => (b, tm.take b.dts.length) :: cuts l (tm.drop b.dts.length)

/-- The items of the library are distributed in order, one for every entity. -/
theorem cuts_spec : ∀ {bs : List Obj} {tm : List (List DimTag)}, tm.length = (bs.map fun b => b.dts.length).sum →
    (cuts bs tm).map Prod.fst = bs ∧ (cuts bs tm).flatMap Prod.snd = tm ∧
      ∀ c ∈ cuts bs tm, c.2.length = c.1.dts.length := by
  intro bs
  induction bs with
  | nil => intro tm h; simpa [cuts, eq_comm] using h
  | cons b bs ih =>
    intro tm h
    rw [List.map_cons, List.sum_cons] at h
    obtain ⟨h1, h2, h3⟩ := ih (tm := tm.drop b.dts.length) (by rw [List.length_drop]; omega)
    refine ⟨by rw [cuts, List.map_cons, h1], by rw [cuts, List.flatMap_cons, h2]; exact List.take_append_drop _ _, fun c hc => ?_⟩
    rw [cuts, List.mem_cons] at hc
    rcases hc with rfl | hc
    · show (tm.take b.dts.length).length = b.dts.length
      rw [List.length_take]; omega
    · exact h3 c hc

theorem fragmentLoop_eq : ∀ {objs : List Nat} {bs : List Obj} {tm : List (List DimTag)} {s : St}, Valid s objs bs →
    objs.Nodup → (∀ o ∈ objs, o < s.nobj) →
    ∃ ns s', fragmentLoop (objs.zip (bs.map fun b => b.dts.length)) tm s = (.ok ns, s') ∧ s.nobj ≤ s'.nobj ∧
      List.Forall₂ (fun n (c : Obj × List (List DimTag)) => s.nobj ≤ n ∧ n < s'.nobj ∧ ∃ b, s'.obj n = some b ∧
        b.regs.length = b.dts.length ∧ b.pairs = withRegions c.1.regs c.2) ns (cuts bs tm) ∧
      (∀ o ∈ objs, s'.obj o = none) ∧ (∀ o < s.nobj, o ∉ objs → s'.obj o = s.obj o) ∧ s'.reg = s.reg := by
  intro objs
  induction objs with
  | nil =>
    intro bs tm s hv _ _
    cases hv
    exact ⟨[], s, rfl, le_refl _, .nil, by simp, fun _ _ _ => rfl, rfl⟩
  | cons o objs ih =>
    intro bs tm s hv hnd hlt
    cases hv with
    | @cons _ b _ bs h1 h2 =>
      rw [List.nodup_cons] at hnd
      obtain ⟨n, s1, b', p1, p2, p3, p4, p5, p6, p7, p8, p9, p10⟩ := pieces_eq b.regs (tm.take b.dts.length) s
      have hlt1 : ∀ x ∈ objs, x < s.nobj := fun x hx => hlt x (List.mem_cons_of_mem _ hx)
      have hv2 : Valid (invalidate o s1).2 objs bs := by
        refine Valid.mono (s := s) h2 fun x hx => ?_
        have : x ≠ o := fun h => hnd.1 (h ▸ hx)
        exact (Function.update_of_ne this ..).trans (p7 x (hlt1 x hx))
      obtain ⟨ns, s', q1, q2, q3, q4, q5, q6⟩ := ih (tm := tm.drop b.dts.length) hv2 hnd.2 fun x hx =>
        lt_of_lt_of_le (hlt1 x hx) (show s.nobj ≤ s1.nobj by omega)
      have hle : s1.nobj ≤ s'.nobj := q2
      have hon : n ≠ o := fun h => absurd (hlt o List.mem_cons_self) (by omega)
      refine ⟨n :: ns, s', ?_, by omega, .cons ⟨p2, by omega, b', ?_, p6, p5⟩ ?_, ?_, ?_, ?_⟩
      · rw [List.map_cons, List.zip_cons_cons, fragmentLoop, bind_of (load_ok.2 ⟨h1, rfl⟩), bind_of p1,
          bind_of (invalidate_eq o s1), bind_of q1]
        rfl
      · rw [q5 n p3 (fun h => absurd (hlt1 n h) (by omega))]
        exact (Function.update_of_ne hon ..).trans p4
      · refine q3.imp fun n c hc => ⟨?_, hc.2⟩
        have : s1.nobj ≤ n := hc.1
        omega
      · intro x hx
        rcases List.mem_cons.1 hx with rfl | hx
        · by_cases hxo : x ∈ objs
          · exact q4 x hxo
          · rw [q5 x (lt_of_lt_of_le (hlt x List.mem_cons_self) (show s.nobj ≤ s1.nobj by omega)) hxo]
            exact Function.update_self ..
        · exact q4 x hx
      · intro x hx hxo
        rw [List.mem_cons, not_or] at hxo
        rw [q5 x (lt_of_lt_of_le hx (show s.nobj ≤ s1.nobj by omega)) hxo.2]
        exact (Function.update_of_ne hxo.1 ..).trans (p7 x hx)
      · rw [q6]; exact p8

/-- `fragment` of different valid object sets: it returns if the library has one item for every entity, whatever the pieces
are. Every new object set has exactly the pieces of the entities of its object set, each with the region of the entity it comes
from. The given object sets are invalidated, no others change. -/
theorem fragment_regions {s : St} (h : Reach s) {objs : List Nat} {bs : List Obj} (hv : Valid s objs bs) (hnd : objs.Nodup)
    (hne : objs ≠ []) {tm : List (List DimTag)} (hlen : tm.length = (bs.map fun b => b.dts.length).sum) :
    ∃ ns s', fragment objs (some tm) s = (.ok ns, s') ∧
      List.Forall₂ (fun n (c : Obj × List (List DimTag)) => ∃ b, s'.obj n = some b ∧ b.regs.length = b.dts.length ∧
        b.pairs = withRegions c.1.regs c.2) ns (cuts bs tm) ∧
      (∀ o ∈ objs, s'.obj o = none) ∧ (∀ o < s.nobj, o ∉ objs → s'.obj o = s.obj o) := by
  have hlt : ∀ o ∈ objs, o < s.nobj := by
    intro o ho
    by_contra hc
    obtain ⟨i, hi, rfl⟩ := List.getElem_of_mem ho
    have := List.Forall₂.get hv hi (by rw [← hv.length_eq]; exact hi)
    rw [List.get_eq_getElem, h.inv.heap _ (not_lt.1 hc)] at this
    cases this
  obtain ⟨ns, s', q1, _, q3, q4, q5, _⟩ := fragmentLoop_eq (tm := tm) hv hnd hlt
  refine ⟨ns, s', ?_, q3.imp fun n c hc => hc.2.2, q4, q5⟩
  unfold fragment
  rw [bind_of (each_load hv), bind_of (lib_ok.2 ⟨rfl, rfl⟩), bind_of (check_of (by simpa using hne) s),
    bind_of (check_of (by simpa using hlen.symm) s)]
  exact q1

/-- A second appearance of an object set makes `fragment` raise. -/
theorem fragment_twice {s : St} {o : Nat} {b : Obj} (h : s.obj o = some b) (hlt : o < s.nobj) (tm : List (List DimTag)) :
    ∃ s', fragment [o, o] (some tm) s = (.error .invalid, s') ∨ fragment [o, o] (some tm) s = (.error .assertion, s') := by
  have hv : Valid s [o, o] [b, b] := .cons h (.cons h .nil)
  unfold fragment
  rw [bind_of (each_load hv), bind_of (lib_ok.2 ⟨rfl, rfl⟩), bind_of (check_of (c := !([o, o] : List Nat).isEmpty) rfl s)]
  rw [bind_apply]
  unfold check
  split
  · rename_i a s1 hc
    split at hc
    · cases hc
      obtain ⟨n, s1, b', p1, p2, p3, p4, p5, p6, p7, p8, p9, p10⟩ := pieces_eq b.regs (tm.take b.dts.length) s
      refine ⟨(invalidate o s1).2, Or.inl ?_⟩
      simp only [List.map_cons, List.map_nil, List.zip_cons_cons, List.zip_nil_right]
      rw [fragmentLoop, bind_of (load_ok.2 ⟨h, rfl⟩), bind_of p1, bind_of (invalidate_eq o s1), bind_apply]
      have : fragmentLoop [(o, b.dts.length)] (List.drop b.dts.length tm) (invalidate o s1).2 =
          (.error .invalid, (invalidate o s1).2) := by
        rw [fragmentLoop, bind_apply]
        have : load o (invalidate o s1).2 = (.error .invalid, (invalidate o s1).2) := by
          unfold load invalidate
          simp
        rw [this]
      rw [this]
    · cases hc
  · rename_i e s1 hc
    split at hc
    · cases hc
    · cases hc; exact ⟨_, Or.inr rfl⟩

/-- The same for `cut`, `intersect` and `fragment` of an object set: the pieces of its entities get the regions of the entities;
the object is invalidated, tools and other object sets are not changed. -/
theorem operation_regions {s : St} (h : Reach s) {o : Nat} {b : Obj} (ho : s.obj o = some b) {tools : List Nat} {ts : List Obj}
    (hv : Valid s tools ts) {ct : List DimTag} (hc : ct.length = (ts.map fun b => b.dts.length).sum)
    (tm : List (List DimTag)) :
    ∃ n s' b', applyOperation o tools (some ct) (some tm) s = (.ok n, s') ∧ s'.obj n = some b' ∧
      b'.regs.length = b'.dts.length ∧ b'.pairs = withRegions b.regs (tm.take b.dts.length) ∧ s'.obj o = none ∧
      (∀ x < s.nobj, x ≠ o → s'.obj x = s.obj x) := by
  have hlt : o < s.nobj := by
    by_contra hc
    rw [h.inv.heap o (not_lt.1 hc)] at ho
    cases ho
  obtain ⟨g, s1, bg, g1, g2, g3, g4, g5, g6⟩ := group_concat h.inv hv
  have hI1 : Inv s1 := by have := (safe_group (objs := tools) h.inv).1; rw [g1] at this; exact this
  have hlg : bg.regs.length = ct.length := by
    rw [hI1.len g bg g2, g3, hc, List.length_flatMap]
  have hle1 : s.nobj ≤ s1.nobj := by have := (safe_group (objs := tools) h.inv).2.1.nobj; rw [g1] at this; exact this
  have hcopy : copy g (some ct) s1 = (.ok s1.nobj, put s1 ⟨ct, bg.regs⟩) := by
    unfold copy
    rw [bind_of (load_ok.2 ⟨g2, rfl⟩), bind_of (lib_ok.2 ⟨rfl, rfl⟩)]
    exact mkSet_eq hlg s1
  have ho2 : (put s1 ⟨ct, bg.regs⟩).obj o = some b := by
    rw [(put_alloc s1 _).old o (by omega), g5 o hlt, ho]
  obtain ⟨n, s2, b', p1, p2, p3, p4, p5, p6, p7, p8, p9, p10⟩ :=
    pieces_eq b.regs (tm.take b.dts.length) (put s1 ⟨ct, bg.regs⟩)
  have p2' : s1.nobj + 1 ≤ n := p2
  refine ⟨n, (invalidate s1.nobj (invalidate o s2).2).2, b', ?_, ?_, p6, p5, ?_, ?_⟩
  · unfold applyOperation
    rw [bind_of (load_ok.2 ⟨ho, rfl⟩), bind_of g1, bind_of hcopy, bind_of (lib_ok.2 ⟨rfl, rfl⟩), bind_of (load_ok.2 ⟨ho2, rfl⟩),
      bind_of (check_of (by simpa using h.inv.len o b ho) _), bind_of p1, bind_of (invalidate_eq o s2),
      bind_of (invalidate_eq s1.nobj _)]
    rfl
  · simp only [invalidate]
    rw [Function.update_of_ne (show n ≠ s1.nobj by omega), Function.update_of_ne (show n ≠ o by omega)]
    exact p4
  · simp only [invalidate]
    rw [Function.update_of_ne (show o ≠ s1.nobj by omega), Function.update_self]
  · intro x hx hxo
    simp only [invalidate]
    rw [Function.update_of_ne (show x ≠ s1.nobj by omega), Function.update_of_ne hxo,
      p7 x (show x < s1.nobj + 1 by omega), (put_alloc s1 _).old x (by omega), g5 x hx]

end Verif.Gmsh
