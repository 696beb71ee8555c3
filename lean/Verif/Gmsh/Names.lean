import Verif.Gmsh.Ops
import Verif.Gmsh.Groups

/-! Operations that give regions by names. -/
namespace Verif.Gmsh
open M

/-- What one or more calls of `get_region_name` change: new regions and new names only. -/
structure Named (s s' : St) : Prop where
  inv : Inv s'
  obj : s'.obj = s.obj
  nobj : s'.nobj = s.nobj
  max : s.maxId ≤ s'.maxId
  reg : ∀ r ≤ s.maxId, s'.reg r = s.reg r
  names : s.names <+: s'.names
  fresh : ∀ n r, (n, r) ∈ s'.names → (n, r) ∈ s.names ∨ (find n s.names = none ∧ s'.reg r = ⟨none, n⟩)

theorem Named.refl {s : St} (h : Inv s) : Named s s :=
  ⟨h, rfl, rfl, le_refl _, fun _ _ => rfl, List.prefix_refl _, fun _ _ hm => .inl hm⟩

theorem find_prefix {κ γ : Type} [DecidableEq κ] {k : κ} {a : γ} {l l' : List (κ × γ)} (h : l <+: l') (hf : find k l = some a) :
    find k l' = some a := by
  obtain ⟨t, rfl⟩ := h
  induction l with
  | nil => cases hf
  | cons p l ih =>
    rw [List.cons_append, find]
    rw [find] at hf
    split
    · rename_i h; rw [if_pos h] at hf; exact hf
    · rename_i h; rw [if_neg h] at hf; exact ih hf

theorem Named.trans {s s' s'' : St} (h1 : Named s s') (h2 : Named s' s'') : Named s s'' := by
  refine ⟨h2.inv, h2.obj.trans h1.obj, h2.nobj.trans h1.nobj, h1.max.trans h2.max,
    fun r hr => (h2.reg r (hr.trans h1.max)).trans (h1.reg r hr), h1.names.trans h2.names, fun n r hm => ?_⟩
  rcases h2.fresh n r hm with h | ⟨ha, hb⟩
  · rcases h1.fresh n r h with h' | ⟨ha, hb⟩
    · exact .inl h'
    · exact .inr ⟨ha, (h2.reg r (h1.inv.names _ h).2).trans hb⟩
  · refine .inr ⟨?_, hb⟩
    cases hf : find n s.names with
    | none => rfl
    | some x => rw [find_prefix h1.names hf] at ha; cases ha

theorem getRegionName_named {s : St} (h : Inv s) (n : Name) :
    ∃ r s', getRegionName n s = (.ok r, s') ∧ Named s s' ∧ find n s'.names = some r := by
  have hs := (safe_getRegionName (n := n) h).1
  have hu : getRegionName n s = keepName n (s.maxId + 1)
      { s with maxId := s.maxId + 1, reg := Function.update s.reg (s.maxId + 1) ⟨none, n⟩ } := rfl
  rw [hu] at hs ⊢
  unfold keepName at hs ⊢
  simp only at hs ⊢
  have hreg : ∀ r ≤ s.maxId, Function.update s.reg (s.maxId + 1) ⟨none, n⟩ r = s.reg r :=
    fun r hr => Function.update_of_ne (by omega) ..
  cases hf : find n s.names with
  | some r =>
    rw [hf] at hs
    exact ⟨r, _, rfl, ⟨hs, rfl, rfl, Nat.le_succ _, hreg, List.prefix_refl _, fun _ _ hm => .inl hm⟩, hf⟩
  | none =>
    rw [hf] at hs
    refine ⟨s.maxId + 1, _, rfl, ⟨hs, rfl, rfl, Nat.le_succ _, hreg, List.prefix_append _ _, fun m r hm => ?_⟩, ?_⟩
    · simp only [List.mem_append, List.mem_cons, List.not_mem_nil, or_false, Prod.mk.injEq] at hm
      rcases hm with hm | ⟨rfl, rfl⟩
      · exact .inl hm
      · exact .inr ⟨hf, Function.update_self ..⟩
    · exact find_some_of_nodup hs.keyNd (by simp)

/-- names for a list of things; `g` may read the regions that were known before -/
theorem each_named {α : Type} {g : α → Name} {f : α → M Nat} : ∀ {l : List α} {s0 s : St}, Named s0 s →
    (∀ a ∈ l, ∀ s, Named s0 s → f a s = getRegionName (g a) s) →
    ∃ regs s', each f l s = (.ok regs, s') ∧ Named s s' ∧ List.Forall₂ (fun a r => find (g a) s'.names = some r) l regs := by
  intro l
  induction l with
  | nil => intro s0 s h _; exact ⟨[], s, rfl, .refl h.inv, .nil⟩
  | cons a l ih =>
    intro s0 s h hf
    obtain ⟨r, s1, e1, n1, f1⟩ := getRegionName_named h.inv (g a)
    obtain ⟨regs, s2, e2, n2, f2⟩ := ih (h.trans n1) fun x hx => hf x (List.mem_cons_of_mem _ hx)
    refine ⟨r :: regs, s2, ?_, n1.trans n2, .cons (find_prefix n2.names f1) f2⟩
    rw [each, bind_of ((hf a List.mem_cons_self s h).trans e1), bind_of e2]
    rfl

theorem find_inj {s : St} (h : Inv s) {n m : Name} {r : Nat} (hn : find n s.names = some r) (hm : find m s.names = some r) :
    n = m := by
  exact congrArg Prod.fst (List.inj_on_of_nodup_map h.valNd (find_mem hn) (find_mem hm) rfl)

/-- C105. `modify_regions` never raises; the set keeps its entities, the region of an entity becomes the region that
`get_region_name` has for the formatted old name; a new region has exactly this name; nothing else changes. -/
theorem modify_regions_spec {s : St} (h : Reach s) {o : Nat} {b : Obj} (ho : s.obj o = some b) (f : Name → Name) :
    ∃ s' regs, modifyRegions o f s = (.ok (), s') ∧ s'.obj o = some ⟨b.dts, regs⟩ ∧
      List.Forall₂ (fun r r' => find (f (s.reg r).name) s'.names = some r' ∧
        (find (f (s.reg r).name) s.names = some r' ∨ s'.reg r' = ⟨none, f (s.reg r).name⟩)) b.regs regs ∧
      (∀ x, x ≠ o → s'.obj x = s.obj x) ∧ ∀ r ≤ s.maxId, s'.reg r = s.reg r := by
  obtain ⟨regs, s1, e1, n1, f1⟩ := each_named (g := fun r => f (s.reg r).name)
    (f := fun r => do let x ← getReg r; getRegionName (f x.name)) (l := b.regs) (Named.refl h.inv) (fun r hr s2 h2 => by
      show getRegionName (f (s2.reg r).name) s2 = _
      have hk : r ≤ s.maxId := by
        have := h.inv.known o b ho r hr
        exact this.2
      rw [h2.reg r hk])
  refine ⟨(store o ⟨b.dts, regs⟩ s1).2, regs, ?_, Function.update_self .., ?_, fun x hx => ?_, n1.reg⟩
  · unfold modifyRegions
    rw [bind_of (load_ok.2 ⟨ho, rfl⟩), bind_of e1]
    rfl
  · refine f1.imp fun r r' hf => ⟨hf, ?_⟩
    rcases n1.fresh _ _ (find_mem hf) with hm | ⟨_, hm⟩
    · exact .inl (find_some_of_nodup h.inv.keyNd hm)
    · exact .inr hm
  · show Function.update s1.obj o _ x = _
    rw [Function.update_of_ne hx, n1.obj]

theorem dimtag_name_inj {a b : DimTag} (h : Nat.toDigits 10 a.1 ++ '_' :: Nat.toDigits 10 a.2 =
    Nat.toDigits 10 b.1 ++ '_' :: Nat.toDigits 10 b.2) : a = b := by
  have key : ∀ (i : Nat) (l : Name), (Nat.toDigits 10 i ++ '_' :: l).takeWhile (· ≠ '_') = Nat.toDigits 10 i := by
    intro i l
    rw [List.takeWhile_append_of_pos]
    · simp
    · intro c hc
      have : c ≠ '_' := fun he => Nat.underscore_not_in_toDigits (n := i) (he ▸ hc)
      simpa using this
  have inj : ∀ {i j : Nat}, Nat.toDigits 10 i = Nat.toDigits 10 j → i = j := by
    intro i j hd
    have := congrArg (fun l => Nat.ofDigitChars 10 l 0) hd
    simpa [Nat.ofDigitChars_ten_toDigits] using this
  have h1 : Nat.toDigits 10 a.1 = Nat.toDigits 10 b.1 := by rw [← key a.1 (Nat.toDigits 10 a.2), h, key]
  rw [h1] at h
  have h2 := List.append_cancel_left h
  exact Prod.ext (inj h1) (inj (List.cons.inj h2).2)

/-- C105. `set_region_from_dimtag` never raises; an entity gets the region with the name `dim_tag`, and two entities of
the set get the same region only if they are the same entity. -/
theorem set_region_from_dimtag_spec {s : St} (h : Reach s) {o : Nat} {b : Obj} (ho : s.obj o = some b) :
    ∃ s' regs, setRegionFromDimtag o s = (.ok (), s') ∧ s'.obj o = some ⟨b.dts, regs⟩ ∧
      List.Forall₂ (fun dt r => find (Nat.toDigits 10 dt.1 ++ '_' :: Nat.toDigits 10 dt.2) s'.names = some r) b.dts regs ∧
      (∀ p ∈ b.dts.zip regs, ∀ p' ∈ b.dts.zip regs, p.2 = p'.2 → p.1 = p'.1) ∧
      (∀ x, x ≠ o → s'.obj x = s.obj x) ∧ ∀ r ≤ s.maxId, s'.reg r = s.reg r := by
  obtain ⟨regs, s1, e1, n1, f1⟩ := each_named (g := fun dt : DimTag => Nat.toDigits 10 dt.1 ++ '_' :: Nat.toDigits 10 dt.2)
    (f := fun dt : DimTag => getRegionName (Nat.toDigits 10 dt.1 ++ '_' :: Nat.toDigits 10 dt.2)) (l := b.dts)
    (Named.refl h.inv) (fun _ _ _ _ => rfl)
  refine ⟨(store o ⟨b.dts, regs⟩ s1).2, regs, ?_, Function.update_self .., f1, ?_, fun x hx => ?_, n1.reg⟩
  · unfold setRegionFromDimtag
    rw [bind_of (load_ok.2 ⟨ho, rfl⟩), bind_of e1]
    rfl
  · intro p hp p' hp' he
    have g1 := List.forall₂_zip f1 hp
    have g2 := List.forall₂_zip f1 hp'
    rw [he] at g1
    exact dimtag_name_inj (find_inj n1.inv g1 g2)
  · show Function.update s1.obj o _ x = _
    rw [Function.update_of_ne hx, n1.obj]

/-! ### `make_fractures` -/

/-- the region meant by an argument of `set_region` in a state -/
def RegArg.Is (s : St) : RegArg → Nat → Prop
  | .name n, r => find n s.names = some r
  | .reg r', r => r' = r

theorem RegArg.Is.mono {s s' : St} (h : s.names <+: s'.names) {a : RegArg} {r : Nat} (ha : a.Is s r) : a.Is s' r := by
  cases a with
  | name n => exact find_prefix h ha
  | reg _ => exact ha

theorem setRegion_ok {s s' : St} (h : Inv s) {o : Nat} {b : Obj} (ho : s.obj o = some b) {a : RegArg}
    (hs : setRegion o a s = (.ok (), s')) : ∃ r, a.Is s' r ∧ s'.obj o = some ⟨b.dts, b.dts.map fun _ => r⟩ ∧
      (∀ x, x ≠ o → s'.obj x = s.obj x) ∧ s'.nobj = s.nobj ∧ s.names <+: s'.names := by
  obtain ⟨r, s1, e1, ho1, h1, h2, h3⟩ : ∃ r s1, a.get s = (.ok r, s1) ∧ s1.obj = s.obj ∧ s1.nobj = s.nobj ∧ a.Is s1 r ∧
      s.names <+: s1.names := by
    cases a with
    | name n =>
      obtain ⟨r, s1, e, hn, hf⟩ := getRegionName_named h n
      exact ⟨r, s1, e, hn.obj, hn.nobj, hf, hn.names⟩
    | reg r => exact ⟨r, s, rfl, rfl, rfl, rfl, List.prefix_refl _⟩
  have hs' : setRegion o (.reg r) s1 = (.ok (), s') := by
    unfold setRegion at hs ⊢
    rw [bind_of (load_ok.2 ⟨ho, rfl⟩), bind_of e1] at hs
    rw [bind_of (load_ok.2 ⟨(congrFun ho1 o).trans ho, rfl⟩)]
    exact hs
  have hb : s1.obj o = some b := (congrFun ho1 o).trans ho
  obtain ⟨c1, _, c3, _, _, _, c7, _⟩ := (set_region_spec hb (r := r)).2 s' hs'
  have hn : s'.names = s1.names := by
    unfold setRegion at hs'
    rw [bind_of (load_ok.2 ⟨hb, rfl⟩)] at hs'
    obtain ⟨r', s2, g1, g2⟩ := bind_ok.1 hs'
    cases g1
    obtain ⟨l, s3, g3, g4⟩ := bind_ok.1 g2
    cases g4
    have : ∀ {l : List DimTag} {s s' : St} {x}, each (fun dt : DimTag => complete r dt.1) l s = (.ok x, s') → s'.names = s.names := by
      intro l
      induction l with
      | nil => intro s s' x h; cases h; rfl
      | cons d l ih =>
        intro s s' x h
        rw [each] at h
        obtain ⟨y, s4, k1, k2⟩ := bind_ok.1 h
        obtain ⟨z, s5, k3, k4⟩ := bind_ok.1 k2
        cases k4
        rw [ih k3]
        unfold complete at k1
        split at k1
        · cases k1; rfl
        · split at k1
          · cases k1; rfl
          · cases k1
    show s3.names = s1.names
    exact this g3
  refine ⟨r, h2.mono (by rw [hn]; exact List.prefix_refl _), c1, fun x hx => (c3 x hx).trans (congrFun ho1 x), c7.trans h1, by rw [hn]; exact h3⟩

/-- C105. The loop of `make_fractures`: a new set for every fracture, with the copied entities, all with the region of the
fracture. The base shape and all other sets remain. -/
theorem fracture_loop_spec {base : Nat} : ∀ {l : List (RegArg × Option (List DimTag))} {s s' : St} {shapes : List Nat},
    Reach s → (∀ p ∈ l, p.1.Ok s) → (∃ b, s.obj base = some b) → fractureLoop base l s = (.ok shapes, s') →
    (List.Forall₂ (fun p o => s.nobj ≤ o ∧ ∃ tags r, p.2 = some tags ∧ p.1.Is s' r ∧
      s'.obj o = some ⟨tags, tags.map fun _ => r⟩) l shapes ∧ shapes.Nodup ∧ s.names <+: s'.names ∧ s.nobj ≤ s'.nobj ∧
      (∀ o ∈ shapes, o < s'.nobj) ∧ ∀ x < s.nobj, s'.obj x = s.obj x) := by
  intro l
  induction l with
  | nil =>
    intro s s' shapes _ _ _ h
    cases h
    exact ⟨.nil, List.nodup_nil, List.prefix_refl _, le_refl _, by simp, fun _ _ => rfl⟩
  | cons p l ih =>
    intro s s' shapes hR hok hb h
    obtain ⟨b, hb⟩ := hb
    rw [fractureLoop] at h
    obtain ⟨sh, s1, e1, h⟩ := bind_ok.1 h
    obtain ⟨_, s2, e2, h⟩ := bind_ok.1 h
    obtain ⟨r, s3, e3, h⟩ := bind_ok.1 h
    cases h
    have hR1 : Reach s1 := by
      have := Reach.step (o := .copy base p.2) hR trivial
      rwa [step, e1] at this
    -- the copy
    obtain ⟨tags, ht, rfl, hobj1, hold1, hn1, hnames1⟩ : ∃ tags, p.2 = some tags ∧ sh = s.nobj ∧
        (∃ rs, s1.obj sh = some ⟨tags, rs⟩) ∧ (∀ x < s.nobj, s1.obj x = s.obj x) ∧ s1.nobj = s.nobj + 1 ∧
        s1.names = s.names := by
      unfold copy at e1
      rw [bind_of (load_ok.2 ⟨hb, rfl⟩)] at e1
      obtain ⟨tags, s4, k1, k2⟩ := bind_ok.1 e1
      obtain ⟨hp, rfl⟩ := lib_ok.1 k1
      refine ⟨tags, hp, ?_⟩
      unfold mkSet at k2
      split at k2
      · cases k2
        exact ⟨rfl, ⟨_, Function.update_self ..⟩, fun x hx => Function.update_of_ne (Nat.ne_of_lt hx) ..,
          rfl, rfl⟩
      · split at k2
        · cases k2
          exact ⟨rfl, ⟨_, Function.update_self ..⟩, fun x hx => Function.update_of_ne (Nat.ne_of_lt hx) ..,
          rfl, rfl⟩
        · cases k2
    obtain ⟨rs, hobj1⟩ := hobj1
    have hle1 : s ≤ s1 := by
      have := (safe_copy (o := base) (res := p.2) hR.inv).2.1
      rwa [e1] at this
    have hok1 : ∀ q ∈ p :: l, q.1.Ok s1 := fun q hq => (hok q hq).mono hle1
    have hR2 : Reach s2 := by
      have := Reach.step (o := .setRegion s.nobj p.1) hR1 (hok1 p List.mem_cons_self)
      rwa [step, e2] at this
    obtain ⟨q, c1, c2, c3, c4, c5⟩ := setRegion_ok hR1.inv hobj1 e2
    have hb2 : ∃ b, s2.obj base = some b := ⟨b, by
      rw [c3 base (Nat.ne_of_lt (hR.lt hb)), hold1 base (hR.lt hb), hb]⟩
    have hmax : s1 ≤ s2 := by
      have := (safe_setRegion (o := s.nobj) hR1.inv (hok1 p List.mem_cons_self)).2.1
      rwa [e2] at this
    obtain ⟨d1, d2, d3, d4, d5, d6⟩ := ih hR2 (fun x hx => (hok1 x (List.mem_cons_of_mem _ hx)).mono hmax) hb2 e3
    rw [c4, hn1] at d4 d6
    refine ⟨.cons ⟨le_refl _, tags, q, ht, c1.mono d3, ?_⟩ (d1.imp fun x o ho => ?_), ?_, ?_, by omega, ?_, fun x hx => ?_⟩
    · rw [d6 _ (by omega), c2]
    · obtain ⟨g1, g2⟩ := ho
      exact ⟨by omega, g2⟩
    · refine List.nodup_cons.2 ⟨fun hm => ?_, d2⟩
      have hge : ∀ {l : List (RegArg × Option (List DimTag))} {os : List Nat} {Q : RegArg × Option (List DimTag) → Nat → Prop},
          List.Forall₂ (fun p o => s2.nobj ≤ o ∧ Q p o) l os → ∀ o ∈ os, s2.nobj ≤ o := by
        intro l os Q hf
        induction hf with
        | nil => simp
        | cons h1 _ ih =>
          intro o ho
          rcases List.mem_cons.1 ho with rfl | ho
          · exact h1.1
          · exact ih o ho
      have := hge d1 _ hm
      omega
    · rw [← hnames1]; exact c5.trans d3
    · intro o ho
      rcases List.mem_cons.1 ho with rfl | ho
      · omega
      · exact d5 o ho
    · rw [d6 x (by omega), c3 x (by omega), hold1 x hx]

end Verif.Gmsh
