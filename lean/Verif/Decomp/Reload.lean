import Verif.Decomp.Hang

/-!
Copying a decomposition through lists of segments (polygons.py:759-850, merge.py:8-39).
-/
namespace Verif.Decomp

variable {K : Type} [Field K]

/-- The arguments of `make_polygon` for one polygon. -/
abbrev PolyData : Type := List Id × List (List Id) × List Id

/-- The loop `for poly in ...: decomp.make_polygon(outer_wire, holes, free_points)` (merge.py:25-33). -/
def loadAll : List PolyData → St K → Except Err (St K)
  | [], s => .ok s
  | x :: l, s => do
    let r ← loadPolygon x.1 x.2.1 x.2.2 s
    loadAll l r.2

/-- The lists for one polygon (merge.py:26-32): the ids of the segments of the outer wire and of the holes, and the free points. `L`
gives the list of the sides of each wire; `wire.segments()` lists them from the side stored in the wire. The root wire has none. -/
def polyData (s : St K) (L : Id → List HE) (q : Id) : PolyData :=
  (if q = 0 then [] else (L (s.outer q)).map Prod.fst, (s.childs (s.outer q)).map fun h => (L h).map Prod.fst, s.fpts q)

/-- `t` has the points and the segments of `s`; no wires and no polygons but the outer ones, and no point is in a polygon. -/
structure Blank (s t : St K) : Prop where
  pid : t.pid.live = s.pid.live
  sid : t.sid.live = s.sid.live
  sids : t.sid.Ok
  vtx : ∀ d : HE, d.1 ∈ s.sid.live → t.vtx d = s.vtx d
  wids : t.wid.Ok
  wid : t.wid.live = [0]
  qids : t.qid.Ok
  qid : t.qid.live = [0]
  parent : t.parent 0 = none
  childs : t.childs 0 = []
  outer : t.outer 0 = 0
  wpoly : t.wpoly 0 = some 0
  fpts : t.fpts 0 = []
  ppoly : ∀ p ∈ s.pid.live, t.ppoly p = none
  pseg : ∀ p ∈ s.pid.live, t.pseg p = none ↔ s.pseg p = none

/-- `t` is the part of `s` with the wires `Wd` and the polygons `Qd`, those of `Fd` with their free points; `X` are polygons without
outer wire, `Y` wires without parent. -/
structure Sim (s t : St K) (f g : Id → Id) (Wd Qd Fd : List Id) (X Y : Id → Prop) : Prop where
  pid : t.pid.live = s.pid.live
  sid : t.sid.live = s.sid.live
  sids : t.sid.Ok
  vtx : ∀ d : HE, d.1 ∈ s.sid.live → t.vtx d = s.vtx d
  wl : t.wid.live = Wd.map f
  ql : t.qid.live = Qd.map g
  f0 : f 0 = 0
  g0 : g 0 = 0
  w0 : 0 ∈ Wd
  q0 : 0 ∈ Qd
  tree : UpTree t
  qids : t.qid.Ok
  self : ∀ w ∈ t.wid.live, w ∉ t.childs w
  sides : ∀ d : HE, d.1 ∈ s.sid.live → ∀ w ∈ Wd, s.wire d = some w → t.next d = s.next d ∧ t.wire d = some (f w)
  wseg : ∀ w ∈ Wd, w ≠ 0 → ∃ d : HE, t.wseg (f w) = some d ∧ d.1 ∈ s.sid.live ∧ s.wire d = some w
  wpol : ∀ w ∈ Wd, ∃ q ∈ Qd, s.wpoly w = some q ∧ t.wpoly (f w) = some (g q)
  out : ∀ q ∈ Qd, ¬ X q → s.outer q ∈ Wd ∧ t.outer (g q) = f (s.outer q)
  paro : ∀ w ∈ Wd, ¬ Y w → w ≠ 0 → Around (· ∈ s.qid.live) s.outer w → t.parent (f w) = some (f w)
  parh : ∀ w ∈ Wd, ¬ Y w → ¬ Around (· ∈ s.qid.live) s.outer w → ∃ p ∈ Wd, s.parent w = some p ∧ t.parent (f w) = some (f p)
  fdq : ∀ q ∈ Fd, q ∈ Qd
  fpts : ∀ q ∈ Qd, t.fpts (g q) = if q ∈ Fd then s.fpts q else []
  ppoly : ∀ p ∈ s.pid.live, t.ppoly p = (s.ppoly p).bind fun q => if q ∈ Fd then some (g q) else none
  pseg : ∀ p ∈ s.pid.live, t.pseg p = none ↔ s.pseg p = none

abbrev No : Id → Prop := fun _ => False

theorem Sim.f_inj {s t : St K} {f g : Id → Id} {Wd Qd Fd : List Id} {X Y : Id → Prop} (h : Sim s t f g Wd Qd Fd X Y) :
    ∀ w ∈ Wd, ∀ w' ∈ Wd, f w = f w' → w = w' := by
  have := h.tree.wids.nd
  rw [h.wl] at this
  exact fun w hw w' hw' he => List.inj_on_of_nodup_map this hw hw' he

theorem Sim.g_inj {s t : St K} {f g : Id → Id} {Wd Qd Fd : List Id} {X Y : Id → Prop} (h : Sim s t f g Wd Qd Fd X Y) :
    ∀ w ∈ Qd, ∀ w' ∈ Qd, g w = g w' → w = w' := by
  have := h.qids.nd
  rw [h.ql] at this
  exact fun w hw w' hw' he => List.inj_on_of_nodup_map this hw hw' he

theorem Sim.f_live {s t : St K} {f g : Id → Id} {Wd Qd Fd : List Id} {X Y : Id → Prop} (h : Sim s t f g Wd Qd Fd X Y) {w : Id}
    (hw : w ∈ Wd) : f w ∈ t.wid.live := by rw [h.wl]; exact List.mem_map_of_mem hw

theorem Sim.g_live {s t : St K} {f g : Id → Id} {Wd Qd Fd : List Id} {X Y : Id → Prop} (h : Sim s t f g Wd Qd Fd X Y) {q : Id}
    (hw : q ∈ Qd) : g q ∈ t.qid.live := by rw [h.ql]; exact List.mem_map_of_mem hw

/-- The start. -/
theorem Blank.sim {s t : St K} (h : Blank s t) (hN : Nested s) : Sim s t id id [0] [0] [] No No where
  pid := h.pid
  sid := h.sid
  sids := h.sids
  vtx := h.vtx
  wl := by rw [h.wid]; rfl
  ql := by rw [h.qid]; rfl
  f0 := rfl
  g0 := rfl
  w0 := by simp
  q0 := by simp
  tree := by
    have hc : ∀ w ∈ t.wid.live, t.childs w = [] := by rw [h.wid]; simpa using h.childs
    refine {
      wids := h.wids, root := by simp [h.wid], top := h.parent, non := by simp [h.wid]
      nd := fun w hw => ?_, mem := fun w hw c hc' => ?_, up := ?_ }
    · rw [hc w hw]; simp
    · rw [hc w hw] at hc'; simp at hc'
    · rw [h.wid]
      simp [h.parent]
  qids := h.qids
  self := by rw [h.wid]; simp [h.childs]
  sides := by
    intro d hd w hw hdw
    simp only [List.mem_singleton] at hw
    subst hw
    obtain ⟨w', h1, _, h2⟩ := hN.wires.lab d hd
    rw [hdw] at h1
    exact absurd (Option.some.inj h1).symm h2
  wseg := by simp
  wpol := by simpa [h.wpoly] using (by
    have := (hN.nest.outs 0 hN.nest.q0).2
    rw [hN.nest.o0] at this; exact this)
  out := by simp [h.outer, hN.nest.o0]
  paro := by simp
  parh := by
    intro w hw _ h1
    simp only [List.mem_singleton] at hw
    subst hw
    exact absurd ⟨0, hN.nest.q0, hN.nest.o0⟩ h1
  fdq := by simp
  fpts := by simpa using h.fpts
  ppoly := by
    intro p hp
    rw [h.ppoly p hp]
    cases s.ppoly p <;> simp
  pseg := h.pseg

/-- A polygon is added. -/
theorem Sim.poly {s t : St K} {f g : Id → Id} {Wd Qd Fd : List Id} (h : Sim s t f g Wd Qd Fd No No) {q : Id} (hq : q ∉ Qd) :
    Sim s { t with qid := t.qid.append.2, fpts := upd t.fpts t.qid.append.1 [] } f (upd g q t.qid.append.1) Wd (Qd ++ [q]) Fd (· = q) No := by
  obtain ⟨n1, n2, n3⟩ := Ids.append_ok h.qids
  have hg : ∀ x ∈ Qd, upd g q t.qid.append.1 x = g x := fun x hx =>
    Function.update_of_ne (fun e : x = q => hq (e ▸ hx)) _ _
  have hgq : upd g q t.qid.append.1 q = t.qid.append.1 := Function.update_self ..
  refine { h with
    tree := h.tree.frame rfl rfl rfl, ql := ?_, g0 := ?_, q0 := ?_, qids := n3, wpol := ?_, out := ?_, fdq := ?_, fpts := ?_, ppoly := ?_ }
  · simp only
    rw [n2, h.ql, List.map_append, List.map_singleton, hgq, List.map_congr_left hg]
  · rw [hg 0 h.q0, h.g0]
  · simp [h.q0]
  · intro w hw
    obtain ⟨x, h1, h2, h3⟩ := h.wpol w hw
    exact ⟨x, by simp [h1], h2, by rw [hg x h1]; exact h3⟩
  · intro x hx hx'
    have hx : x ∈ Qd := by simpa [hx'] using hx
    rw [hg x hx]
    exact h.out x hx (fun h => h)
  · intro x hx
    simp [h.fdq x hx]
  · intro x hx
    rcases List.mem_append.1 hx with hx | hx
    · rw [hg x hx]
      have : g x ≠ t.qid.append.1 := fun e => n1 (e ▸ h.g_live hx)
      simp only [upd, Function.update_of_ne this]
      exact h.fpts x hx
    · simp only [List.mem_singleton] at hx
      subst hx
      rw [hgq, if_neg (fun e => hq (h.fdq x e))]
      simp [upd]
  · intro p hp
    rw [h.ppoly p hp]
    cases s.ppoly p with
    | none => rfl
    | some x =>
      simp only [Option.bind_some]
      split_ifs with hx
      · rw [hg x (h.fdq x hx)]
      · rfl

/-- A wire is added. -/
theorem Sim.wire {s t : St K} {f g : Id → Id} {Wd Qd Fd : List Id} {X : Id → Prop} (h : Sim s t f g Wd Qd Fd X No) (hN : Nested s)
    {w q : Id} {l : List HE} (hw : w ∉ Wd) (hw0 : w ≠ 0) (hc : CycOf s w l) (hg : GoodStart l)
    (hq : q ∈ Qd) (hwq : s.wpoly w = some q) :
    ∃ t', loadWire (l.map Prod.fst) (g q) t = .ok (t.wid.append.1, t') ∧
      Sim s t' (upd f w t.wid.append.1) g (Wd ++ [w]) Qd Fd X (· = w) ∧ t'.parent t.wid.append.1 = some t.wid.append.1 ∧
      t'.outer = t.outer := by
  obtain ⟨n1, n2, n3⟩ := Ids.append_ok h.tree.wids
  have hlv : ∀ d ∈ l, d.1 ∈ s.sid.live := fun d hd => ((hc.mem d).1 hd).1
  obtain ⟨a, ha⟩ := hc.path
  have hal : a ∈ l := by
    obtain ⟨x, l', rfl⟩ := List.exists_cons_of_ne_nil hc.ne
    rw [path_head ha]
    simp
  have hv : ∀ e ∈ t.sid.live, t.vtx (e, false) ≠ t.vtx (e, true) := by
    rw [h.sid]
    intro e he
    rw [h.vtx _ he, h.vtx _ he]
    exact hN.inv.links.vne e he
  have h1 : Single t := by
    unfold Single
    rw [h.sid]
    intro e he e' he' u v e1 e2
    rw [h.vtx _ he, h.vtx _ he'] at e1 e2
    have t1 := (hN.inv.tab.exact_ (s.vtx (e, false)) (s.vtx (e, true)) e).2 ⟨he, rfl, rfl⟩
    by_cases huv : u = v
    · subst huv
      have t2 := (hN.inv.tab.exact_ (s.vtx (e, false)) (s.vtx (e, true)) e').2 ⟨he', by cases u <;> simp_all, by cases u <;> simp_all⟩
      rw [t1] at t2
      exact Option.some.inj t2
    · have t2 := (hN.inv.tab.exact_ (s.vtx (e, true)) (s.vtx (e, false)) e').2
        ⟨he', by cases u <;> cases v <;> simp_all, by cases u <;> cases v <;> simp_all⟩
      rw [hN.inv.tab.one _ _ (by rw [t1]; simp)] at t2
      cases t2
  obtain ⟨N, L, e1, e2, e3⟩ := loadWire_eq (q := g q) (s := t) ha hc.nd hg (by rw [h.sid]; exact hlv) hv h1 (by
    intro d hd k hk
    obtain ⟨k', k1, k2, k3, _⟩ := hN.inv.links.next_ok (hlv d hd) (by simp)
    rw [hk] at k1
    cases k1
    rw [h.vtx _ (hlv d hd), h.vtx (flip k) k2]
    exact k3)
  have hf : ∀ x ∈ Wd, upd f w t.wid.append.1 x = f x := fun x hx => Function.update_of_ne (fun e : x = w => hw (e ▸ hx)) _ _
  have hfw : upd f w t.wid.append.1 w = t.wid.append.1 := Function.update_self ..
  have hne : ∀ x ∈ Wd, f x ≠ t.wid.append.1 := fun x hx e => n1 (e ▸ h.f_live hx)
  have hmem : ∀ x ∈ Wd ++ [w], x ∈ Wd ∨ x = w := by simp
  have hT := newWireObj_up h.tree
  refine ⟨_, e1, ?_, by simp [newWireObj, upd], rfl⟩
  refine {
    pid := h.pid, sid := h.sid, sids := h.sids, vtx := h.vtx, wl := ?_, ql := h.ql, f0 := ?_, g0 := h.g0, w0 := by simp [h.w0], q0 := h.q0
    tree := hT.frame rfl rfl rfl, qids := h.qids, self := ?_, sides := ?_, wseg := ?_, wpol := ?_, out := ?_, paro := ?_
    parh := ?_, fdq := h.fdq, fpts := h.fpts, ppoly := h.ppoly, pseg := h.pseg }
  · simp only [newWireObj]
    rw [n2, h.wl, List.map_append, List.map_singleton, hfw, List.map_congr_left hf]
  · rw [hf 0 h.w0, h.f0]
  · intro x hx
    simp only [newWireObj] at hx ⊢
    by_cases hxn : x = t.wid.append.1
    · rw [hxn]; simp [upd]
    · simp only [upd, Function.update_of_ne hxn]
      rw [n2] at hx
      exact h.self x (by simpa [hxn] using hx)
  · intro d hd x hx hdx
    rcases hmem x hx with hx | rfl
    · have : d ∉ l := by
        intro hdl
        have := ((hc.mem d).1 hdl).2
        rw [hdx] at this
        exact hw (Option.some.inj this ▸ hx)
      rw [hf x hx]
      obtain ⟨k1, k2⟩ := h.sides d hd x hx hdx
      exact ⟨(e3 d this).1.trans k1, (e3 d this).2.trans k2⟩
    · have := e2 d ((hc.mem d).2 ⟨hd, hdx⟩)
      rw [hfw]
      exact this
  · intro x hx hx0
    rcases hmem x hx with hx | rfl
    · rw [hf x hx]
      simp only [upd, Function.update_of_ne (hne x hx)]
      exact h.wseg x hx hx0
    · rw [hfw]
      exact ⟨a, by simp [upd], hlv a hal, ((hc.mem a).1 hal).2⟩
  · intro x hx
    rcases hmem x hx with hx | rfl
    · rw [hf x hx]
      simp only [upd, Function.update_of_ne (hne x hx)]
      exact h.wpol x hx
    · rw [hfw]
      exact ⟨q, hq, hwq, by simp [upd]⟩
  · intro x hx hX
    obtain ⟨k1, k2⟩ := h.out x hx hX
    exact ⟨by simp [k1], by rw [hf _ k1]; exact k2⟩
  · intro x hx hY h0 ho
    have hx := (hmem x hx).resolve_right hY
    rw [hf x hx]
    simp only [newWireObj, upd, Function.update_of_ne (hne x hx)]
    exact h.paro x hx (fun h => h) h0 ho
  · intro x hx hY ho
    have hx := (hmem x hx).resolve_right hY
    rw [hf x hx]
    simp only [newWireObj, upd, Function.update_of_ne (hne x hx)]
    obtain ⟨p, k1, k2, k3⟩ := h.parh x hx (fun h => h) ho
    exact ⟨p, by simp [k1], k2, by rw [Function.update_of_ne (fun e : p = w => hw (e ▸ k1))]; exact k3⟩

/-- The outer wire of a new polygon. -/
theorem Sim.setOuter {s t : St K} {f g : Id → Id} {Wd Qd Fd : List Id} {q : Id}
    (h : Sim s t f g Wd Qd Fd (· = q) (· = s.outer q)) (hq : q ∈ Qd) (hw : s.outer q ∈ Wd) (ha : Around (· ∈ s.qid.live) s.outer (s.outer q))
    (hp : t.parent (f (s.outer q)) = some (f (s.outer q))) :
    Sim s { t with outer := upd t.outer (g q) (f (s.outer q)) } f g Wd Qd Fd No No := by
  refine { h with tree := h.tree.frame rfl rfl rfl, out := ?_, paro := ?_, parh := ?_ }
  · intro x hx _
    by_cases hxq : x = q
    · subst hxq
      exact ⟨hw, by simp [upd]⟩
    · have : g x ≠ g q := fun e => hxq (h.g_inj x hx q hq e)
      simp only [upd, Function.update_of_ne this]
      exact h.out x hx hxq
  · intro w hw' _ h0 ha'
    by_cases hwo : w = s.outer q
    · rw [hwo]; exact hp
    · exact h.paro w hw' hwo h0 ha'
  · intro w hw' _ ha'
    exact h.parh w hw' (fun e => ha' (e ▸ ha)) ha'

/-- The parent of a new hole. -/
theorem Sim.setHole {s t : St K} {f g : Id → Id} {Wd Qd Fd : List Id} {w p : Id}
    {X : Id → Prop} (h : Sim s t f g Wd Qd Fd X (· = w)) (hw : w ∈ Wd) (h0 : w ≠ 0) (ha : ¬ Around (· ∈ s.qid.live) s.outer w) (hp : s.parent w = some p) (hpw : p ∈ Wd)
    (hne : p ≠ w) (hs : t.parent (f w) = some (f w)) :
    ∃ t', setParent (f w) (some (f p)) t = .ok t' ∧ Sim s t' f g Wd Qd Fd X No ∧ t'.outer = t.outer := by
  obtain ⟨t', h1⟩ := setParent_self (x := f p) h.tree hs
  have hf0 : f w ≠ 0 := by
    rw [← h.f0]
    exact fun e => h0 (h.f_inj w hw 0 h.w0 e)
  have hT := setParent_up h.tree (h.f_live hw) hf0 (h.f_live hpw) h1
  obtain ⟨_, hc⟩ := setParent_childs h.tree.toTree (h.f_live hw) hf0 h1
  obtain ⟨C, rfl⟩ := setParent_eq h1
  refine ⟨_, h1, { h with tree := hT, self := ?_, paro := ?_, parh := ?_, out := ?_ }, rfl⟩
  · intro x hx hxc
    rcases (hc x hx x).1 hxc with ⟨e1, e2⟩ | ⟨_, h3⟩
    · rw [e1] at e2
      exact hne (h.f_inj w hw p hpw e2).symm
    · exact h.self x hx h3
  · exact h.out
  · intro x hx _ hx0 hxa
    have hxw : x ≠ w := fun e => ha (e ▸ hxa)
    simp only [upd, Function.update_of_ne (fun e => hxw (h.f_inj x hx w hw e))]
    exact h.paro x hx hxw hx0 hxa
  · intro x hx _ hxa
    by_cases hxw : x = w
    · subst hxw
      exact ⟨p, hpw, hp, by simp [upd]⟩
    · simp only [upd, Function.update_of_ne (fun e => hxw (h.f_inj x hx w hw e))]
      exact h.parh x hx hxw hxa

theorem loadFree_eq {q : Id} {l : List Id} : ∀ {t : St K}, l.Nodup → (∀ p ∈ l, p ∈ t.pid.live ∧ t.ppoly p = none ∧ p ∉ t.fpts q) →
    loadFree q l t = .ok { t with
      ppoly := fun p => if p ∈ l then some q else t.ppoly p
      fpts := upd t.fpts q (t.fpts q ++ l)
      pseg := fun p => if p ∈ l then none else t.pseg p } := by
  induction l with
  | nil =>
    intro t _ _
    simp [loadFree, upd]
  | cons p l ih =>
    intro t hn hl
    obtain ⟨h1, h2, h3⟩ := hl p (by simp)
    rw [List.nodup_cons] at hn
    simp only [loadFree]
    rw [if_pos h1]
    simp only [setPolygon, leavePoly, h2, bind, Except.bind, insertSet, if_neg h3]
    rw [ih hn.2]
    · congr 2
      · funext x
        by_cases hx : x = p
        · subst hx; simp [hn.1, upd]
        · simp [hx, upd]
      · funext x
        by_cases hx : x = p
        · subst hx; simp [hn.1, upd]
        · simp [hx, upd]
      · simp [upd]
    · intro x hx
      have hxp : x ≠ p := fun e => hn.1 (e ▸ hx)
      obtain ⟨k1, k2, k3⟩ := hl x (by simp [hx])
      refine ⟨k1, ?_, ?_⟩
      · simpa only [upd, Function.update_of_ne hxp] using k2
      · simpa [upd, hxp] using k3

/-- The free points of a polygon. -/
theorem Sim.free {s t : St K} {f g : Id → Id} {Wd Qd Fd : List Id} (h : Sim s t f g Wd Qd Fd No No) (hF : Free True s) {q : Id}
    (hq : q ∈ Qd) (hqf : q ∉ Fd) :
    ∃ t', loadFree (g q) (s.fpts q) t = .ok t' ∧ Sim s t' f g Wd Qd (Fd ++ [q]) No No := by
  have hfp : t.fpts (g q) = [] := by rw [h.fpts q hq, if_neg hqf]
  refine ⟨_, loadFree_eq (hF.nd q) fun p hp => ?_, ?_⟩
  · obtain ⟨h1, h2⟩ := hF.mem q p hp
    refine ⟨by rw [h.pid]; exact h1, ?_, by rw [hfp]; simp⟩
    rw [h.ppoly p h1, h2]
    simp [hqf]
  · refine { h with tree := h.tree.frame rfl rfl rfl, fdq := ?_, fpts := ?_, ppoly := ?_, pseg := ?_ }
    · intro x hx
      rcases List.mem_append.1 hx with hx | hx
      · exact h.fdq x hx
      · simp only [List.mem_singleton] at hx
        rw [hx]; exact hq
    · intro x hx
      by_cases hxq : x = q
      · subst hxq
        simp [upd, hfp]
      · have : g x ≠ g q := fun e => hxq (h.g_inj x hx q hq e)
        simp only [upd, Function.update_of_ne this]
        rw [h.fpts x hx]
        simp [hxq]
    · intro p hp
      simp only
      by_cases hpq : p ∈ s.fpts q
      · rw [if_pos hpq, (hF.mem q p hpq).2]
        simp
      · rw [if_neg hpq, h.ppoly p hp]
        cases hs : s.ppoly p with
        | none => rfl
        | some x =>
          have hxq : x ≠ q := by
            rintro rfl
            exact hpq (hF.full trivial p hp x hs).2
          simp [hxq]
    · intro p hp
      simp only
      by_cases hpq : p ∈ s.fpts q
      · rw [if_pos hpq]
        have := (hF.seg p hp).2 (by rw [(hF.mem q p hpq).2]; simp)
        simp [this]
      · rw [if_neg hpq]
        exact h.pseg p hp

/-- The holes of a polygon. -/
theorem Sim.holes {s : St K} {g : Id → Id} {Qd Fd : List Id} {L : Id → List HE} (hN : Nested s)
    (hL : ∀ w ∈ s.wid.live, w ≠ 0 → CycOf s w (L w) ∧ GoodStart (L w)) {q : Id} (hq : q ∈ Qd) (hqs : q ∈ s.qid.live) {l : List Id} :
    ∀ {t : St K} {f : Id → Id} {Wd : List Id}, Sim s t f g Wd Qd Fd No No → l.Nodup →
    (∀ h ∈ l, h ∉ Wd ∧ h ∈ s.wid.live ∧ s.parent h = some (s.outer q)) →
    ∃ t' f', loadHoles (g q) (l.map fun h => (L h).map Prod.fst) t = .ok t' ∧ Sim s t' f' g (Wd ++ l) Qd Fd No No := by
  induction l with
  | nil =>
    intro t f Wd h _ _
    exact ⟨t, f, rfl, by simpa using h⟩
  | cons w l ih =>
    intro t f Wd h hn hl
    rw [List.nodup_cons] at hn
    obtain ⟨h1, h2, h3⟩ := hl w (by simp)
    have hw0 := hN.nest.nz h3
    obtain ⟨h4, h5⟩ := hN.nest.child h2 hqs h3
    obtain ⟨t1, e1, h6, h7, h8⟩ := h.wire hN h1 hw0 (hL w h2 hw0).1 (hL w h2 hw0).2 hq h4
    have ho := (h.out q hq (fun h => h))
    have hfo : upd f w t.wid.append.1 (s.outer q) = f (s.outer q) := Function.update_of_ne (fun e : s.outer q = w => h1 (e ▸ ho.1)) _ _
    have hfw : upd f w t.wid.append.1 w = t.wid.append.1 := Function.update_self ..
    obtain ⟨t2, e2, h9, _⟩ := Sim.setHole (X := No) h6 (by simp) hw0 h5 h3 (by simp [ho.1]) (fun e => h1 (e ▸ ho.1)) (by rw [hfw]; exact h7)
    obtain ⟨t', f', e3, h10⟩ := ih h9 hn.2 (fun x hx => by
      obtain ⟨k1, k2, k3⟩ := hl x (by simp [hx])
      refine ⟨?_, k2, k3⟩
      simp only [List.mem_append, List.mem_singleton, not_or]
      exact ⟨k1, fun e => hn.1 (e ▸ hx)⟩)
    refine ⟨t', f', ?_, by simpa using h10⟩
    simp only [List.map_cons, loadHoles]
    rw [e1]
    simp only [bind, Except.bind]
    rw [hfw, hfo] at e2
    rw [h8, ho.2, e2]
    exact e3

/-- The wires of a polygon are its outer wire and the children of it. -/
theorem Nested.wires_of {s : St K} (hN : Nested s) {q w : Id} (hq : q ∈ s.qid.live) :
    (w ∈ s.wid.live ∧ s.wpoly w = some q) ↔ w = s.outer q ∨ w ∈ s.childs (s.outer q) := by
  have ho := hN.nest.outs q hq
  constructor
  · rintro ⟨h1, h2⟩
    obtain ⟨q', h3, h4, h5⟩ := hN.nest.pols w h1
    rw [h2] at h4
    cases h4
    rcases h5 with h5 | h5
    · exact Or.inl h5.symm
    · right
      rw [hN.tree.childs_iff ho.1 h1 (fun e => hN.nest.self h1 (by rw [h5, e]))]
      exact h5
  · rintro (rfl | h1)
    · exact ho
    · obtain ⟨h2, h3⟩ := hN.tree.child ho.1 h1
      exact ⟨h2, (hN.nest.child h2 hq h3).1⟩

/-- The wires and polygons of `t` are those of the polygons `Fd`. -/
structure Part (s : St K) (Wd Qd Fd : List Id) : Prop where
  w : ∀ w, w ∈ Wd ↔ w = 0 ∨ (w ∈ s.wid.live ∧ ∃ q ∈ Fd, s.wpoly w = some q)
  q : ∀ q, q ∈ Qd ↔ q = 0 ∨ q ∈ Fd

/-- One polygon. -/
theorem Sim.polygon {s t : St K} {f g : Id → Id} {Wd Qd Fd : List Id} {L : Id → List HE} (h : Sim s t f g Wd Qd Fd No No) (hN : Nested s)
    (hL : ∀ w ∈ s.wid.live, w ≠ 0 → CycOf s w (L w) ∧ GoodStart (L w)) (hP : Part s Wd Qd Fd) {q : Id} (hqs : q ∈ s.qid.live)
    (hqf : q ∉ Fd) : ∃ t' f' g' Wd' Qd' n, loadPolygon (polyData s L q).1 (polyData s L q).2.1 (polyData s L q).2.2 t = .ok (n, t') ∧
      Sim s t' f' g' Wd' Qd' (Fd ++ [q]) No No ∧ Part s Wd' Qd' (Fd ++ [q]) := by
  have ho := hN.nest.outs q hqs
  have hnew : ∀ w, w ∈ s.childs (s.outer q) → w ∉ Wd ∧ w ∈ s.wid.live ∧ s.parent w = some (s.outer q) := by
    intro w hw
    obtain ⟨h1, h2⟩ := hN.tree.child ho.1 hw
    refine ⟨fun hh => ?_, h1, h2⟩
    rcases (hP.w w).1 hh with rfl | ⟨_, q', h3, h4⟩
    · exact hN.nest.nz h2 rfl
    · rw [(hN.nest.child h1 hqs h2).1] at h4
      cases h4
      exact hqf h3
  have hself : s.outer q ∉ s.childs (s.outer q) := fun hh => hN.nest.self ho.1 (hN.tree.child ho.1 hh).2
  have hnd := hN.tree.nd _ ho.1
  by_cases hq0 : q = 0
  · subst hq0
    obtain ⟨t1, f1, e1, h1⟩ := Sim.holes hN hL h.q0 hqs h hnd hnew
    obtain ⟨t2, e2, h2⟩ := h1.free hN.free h.q0 hqf
    rw [h.g0] at e1 e2
    refine ⟨t2, f1, g, _, _, 0, ?_, h2, fun w => ?_, fun x => ?_⟩
    · simp only [loadPolygon, polyData, if_true, loadOuter, bind, Except.bind]
      rw [e1]
      simp only
      rw [e2]
    · rw [List.mem_append, hP.w]
      have := hN.wires_of (w := w) hqs
      rw [hN.nest.o0] at this ⊢
      simp only [List.mem_append, List.mem_singleton]
      constructor
      · rintro ((h3 | ⟨h3, q', h4, h5⟩) | h3)
        · exact Or.inl h3
        · exact Or.inr ⟨h3, q', Or.inl h4, h5⟩
        · exact Or.inr ⟨(this.2 (Or.inr h3)).1, 0, Or.inr rfl, (this.2 (Or.inr h3)).2⟩
      · rintro (h3 | ⟨h3, q', h4 | rfl, h5⟩)
        · exact Or.inl (Or.inl h3)
        · exact Or.inl (Or.inr ⟨h3, q', h4, h5⟩)
        · exact (this.1 ⟨h3, h5⟩).imp Or.inl id
    · rw [hP.q]
      simp only [List.mem_append, List.mem_singleton]
      tauto
  · have hqQ : q ∉ Qd := fun hh => ((hP.q q).1 hh).elim hq0 hqf
    have hoW : s.outer q ∉ Wd := by
      intro hh
      rcases (hP.w _).1 hh with h1 | ⟨_, q', h3, h4⟩
      · exact hN.nest.out_ne hqs hq0 h1
      · rw [ho.2] at h4
        cases h4
        exact hqf h3
    have ho0 := hN.nest.out_ne hqs hq0
    obtain ⟨hc, hg⟩ := hL _ ho.1 ho0
    have h1 := h.poly hqQ
    have hgq : upd g q t.qid.append.1 q = t.qid.append.1 := Function.update_self ..
    obtain ⟨t1, e1, h2, h3, _⟩ := h1.wire hN hoW ho0 hc hg (q := q) (by simp) ho.2
    have hfw : upd f (s.outer q) t.wid.append.1 (s.outer q) = t.wid.append.1 := Function.update_self ..
    have h4 := h2.setOuter (by simp) (by simp) ⟨q, hqs, rfl⟩ (by simp only; rw [hfw]; exact h3)
    obtain ⟨t2, f2, e2, h5⟩ := Sim.holes hN hL (q := q) (by simp) hqs h4 hnd (fun w hw => by
      obtain ⟨k1, k2, k3⟩ := hnew w hw
      refine ⟨?_, k2, k3⟩
      simp only [List.mem_append, List.mem_singleton, not_or]
      exact ⟨k1, fun e => hself (e ▸ hw)⟩)
    obtain ⟨t3, e3, h6⟩ := h5.free hN.free (q := q) (by simp) hqf
    simp only at e1 e2 e3
    rw [hgq] at e1 e2 e3
    rw [hfw] at e2
    refine ⟨t3, f2, _, _, _, t.qid.append.1, ?_, h6, fun w => ?_, fun x => ?_⟩
    · have hne : (L (s.outer q)).map Prod.fst ≠ [] := by simpa using hc.ne
      have eo : loadOuter ((L (s.outer q)).map Prod.fst) t = .ok (t.qid.append.1, { t1 with outer := upd t1.outer t.qid.append.1 t.wid.append.1 }) := by
        unfold loadOuter
        split
        · rename_i h; exact absurd h hne
        · simp only [bind, Except.bind]
          rw [e1]
      simp only [loadPolygon, polyData, if_neg hq0, bind, Except.bind]
      rw [eo]
      simp only
      rw [e2]
      simp only
      rw [e3]
    · rw [List.mem_append, List.mem_append, hP.w]
      have := hN.wires_of (w := w) hqs
      simp only [List.mem_append, List.mem_singleton]
      constructor
      · rintro (((h3 | ⟨h3, q', h4, h5⟩) | h3) | h3)
        · exact Or.inl h3
        · exact Or.inr ⟨h3, q', Or.inl h4, h5⟩
        · exact Or.inr ⟨(this.2 (Or.inl h3)).1, q, Or.inr rfl, (this.2 (Or.inl h3)).2⟩
        · exact Or.inr ⟨(this.2 (Or.inr h3)).1, q, Or.inr rfl, (this.2 (Or.inr h3)).2⟩
      · rintro (h3 | ⟨h3, q', h4 | k, h5⟩)
        · exact Or.inl (Or.inl (Or.inl h3))
        · exact Or.inl (Or.inl (Or.inr ⟨h3, q', h4, h5⟩))
        · rw [k] at h5
          exact (this.1 ⟨h3, h5⟩).imp Or.inr id
    · rw [List.mem_append, hP.q]
      simp only [List.mem_append, List.mem_singleton]
      tauto

/-- All polygons. -/
theorem Sim.all {s : St K} {L : Id → List HE} (hN : Nested s) (hL : ∀ w ∈ s.wid.live, w ≠ 0 → CycOf s w (L w) ∧ GoodStart (L w))
    {l : List Id} : ∀ {t : St K} {f g : Id → Id} {Wd Qd Fd : List Id}, Sim s t f g Wd Qd Fd No No → Part s Wd Qd Fd → l.Nodup →
      (∀ q ∈ l, q ∈ s.qid.live ∧ q ∉ Fd) → ∃ t' f' g' Wd' Qd', loadAll (l.map (polyData s L)) t = .ok t' ∧
      Sim s t' f' g' Wd' Qd' (Fd ++ l) No No ∧ Part s Wd' Qd' (Fd ++ l) := by
  induction l with
  | nil =>
    intro t f g Wd Qd Fd h hP _ _
    exact ⟨t, f, g, Wd, Qd, rfl, by simpa using h, by simpa using hP⟩
  | cons q l ih =>
    intro t f g Wd Qd Fd h hP hn hl
    rw [List.nodup_cons] at hn
    obtain ⟨t1, f1, g1, W1, Q1, n, e1, h1, h2⟩ := h.polygon hN hL hP (hl q (by simp)).1 (hl q (by simp)).2
    obtain ⟨t', f', g', W', Q', e2, h3, h4⟩ := ih h1 h2 hn.2 (fun x hx => by
      obtain ⟨k1, k2⟩ := hl x (by simp [hx])
      refine ⟨k1, ?_⟩
      simp only [List.mem_append, List.mem_singleton, not_or]
      exact ⟨k2, fun e => hn.1 (e ▸ hx)⟩)
    refine ⟨t', f', g', W', Q', ?_, by simpa using h3, by simpa using h4⟩
    simp only [List.map_cons, loadAll]
    rw [e1]
    exact e2

/-- Renaming of wires and polygons. -/
theorem Nest.map {W Q : Id → Prop} {par pol : Id → Option Id} {out : Id → Id} {sh : Id → Id → Prop} (h : Nest W Q par pol out sh)
    {f g : Id → Id} {W' Q' : Id → Prop} {par' pol' : Id → Option Id} {out' : Id → Id} {sh' : Id → Id → Prop}
    (hf : ∀ x y, W x → W y → f x = f y → x = y) (hg : ∀ x y, Q x → Q y → g x = g y → x = y) (f0 : f 0 = 0) (g0 : g 0 = 0)
    (hW : ∀ x, W' x ↔ ∃ w, W w ∧ f w = x) (hQ : ∀ x, Q' x ↔ ∃ q, Q q ∧ g q = x) (h1 : ∀ w, W w → par' (f w) = (par w).map f)
    (h2 : ∀ w, W w → pol' (f w) = (pol w).map g) (h3 : ∀ q, Q q → out' (g q) = f (out q))
    (h4 : ∀ x y, sh' x y ↔ ∃ a b, sh a b ∧ f a = x ∧ f b = y) : Nest W' Q' par' pol' out' sh' := by
  have hA : ∀ w, W w → (Around Q' out' (f w) ↔ Around Q out w) := by
    intro w hw
    constructor
    · rintro ⟨q', k1, k2⟩
      obtain ⟨q, k3, rfl⟩ := (hQ q').1 k1
      rw [h3 q k3] at k2
      exact ⟨q, k3, hf _ _ (h.outs q k3).1 hw k2⟩
    · rintro ⟨q, k1, rfl⟩
      exact ⟨g q, (hQ _).2 ⟨q, k1, rfl⟩, h3 q k1⟩
  have hU : ∀ w, Up par w → W w → Up par' (f w) := by
    intro w hw
    induction hw with
    | root => intro _; rw [f0]; exact .root
    | @step w p hp _ ih =>
      intro hw
      obtain ⟨p', e1, e2⟩ := h.up w hw (h.nz hp)
      rw [hp] at e1
      cases e1
      exact .step (by rw [h1 w hw, hp]; rfl) (ih e2)
  have hq0 : ∀ q, Q q → g q ≠ 0 → q ≠ 0 := fun q _ k e => k (by rw [e, g0])
  refine ⟨(hW 0).2 ⟨0, h.w0, f0⟩, (hQ 0).2 ⟨0, h.q0, g0⟩, ?_, ?_, ?_, ?_, ?_, ?_, ?_, ?_, ?_, ?_, ?_⟩
  · have := h3 0 h.q0
    rw [g0, h.o0, f0] at this
    exact this
  · have := h1 0 h.w0
    rw [f0, h.p0] at this
    exact this
  · intro x hx hx0
    obtain ⟨w, hw, rfl⟩ := (hW x).1 hx
    obtain ⟨p, k1, k2⟩ := h.up w hw (fun e => hx0 (by rw [e, f0]))
    exact ⟨f p, by rw [h1 w hw, k1]; rfl, (hW _).2 ⟨p, k2, rfl⟩⟩
  · intro x hx
    obtain ⟨w, hw, rfl⟩ := (hW x).1 hx
    exact hU w (h.chain w hw) hw
  · intro x hx
    obtain ⟨q, hq, rfl⟩ := (hQ x).1 hx
    obtain ⟨k1, k2⟩ := h.outs q hq
    rw [h3 q hq]
    exact ⟨(hW _).2 ⟨_, k1, rfl⟩, by rw [h2 _ k1, k2]; rfl⟩
  · intro x hx
    obtain ⟨w, hw, rfl⟩ := (hW x).1 hx
    obtain ⟨q, k1, k2, k3⟩ := h.pols w hw
    refine ⟨g q, (hQ _).2 ⟨q, k1, rfl⟩, by rw [h2 w hw, k2]; rfl, ?_⟩
    rw [h3 q k1]
    rcases k3 with rfl | k3
    · exact Or.inl rfl
    · exact Or.inr (by rw [h1 w hw, k3]; rfl)
  · intro x hx hx0 y hy
    obtain ⟨q, hq, rfl⟩ := (hQ x).1 hx
    rw [h3 q hq, h1 _ (h.outs q hq).1] at hy
    have hqn := hq0 q hq hx0
    obtain ⟨p, k1, k2⟩ := h.up _ (h.outs q hq).1 (h.out_ne hq hqn)
    rw [k1] at hy
    obtain rfl := Option.some.inj hy
    rw [hA p k2]
    exact h.hole q hq hqn p k1
  · intro x y hxy
    obtain ⟨a, b, k1, rfl, rfl⟩ := (h4 x y).1 hxy
    obtain ⟨k2, k3, k4, k5⟩ := h.shw a b k1
    refine ⟨(hW _).2 ⟨a, k2, rfl⟩, (hW _).2 ⟨b, k3, rfl⟩, fun e => k4 ?_, fun e => k5 ?_⟩
    · exact hf a 0 k2 h.w0 (by rw [e, f0])
    · exact hf b 0 k3 h.w0 (by rw [e, f0])
  · intro x y hxy
    obtain ⟨a, b, k1, rfl, rfl⟩ := (h4 x y).1 hxy
    exact (h4 _ _).2 ⟨b, a, h.sym a b k1, rfl, rfl⟩
  · intro x y hxy
    obtain ⟨a, b, k1, rfl, rfl⟩ := (h4 x y).1 hxy
    obtain ⟨k2, k3, _⟩ := h.shw a b k1
    unfold Beside
    rw [hA a k2, hA b k3, h1 a k2, h1 b k3]
    rcases h.adj a b k1 with k | ⟨i, j, k⟩ | ⟨i, j, k⟩ | ⟨i, j, k⟩
    · exact Or.inl (by rw [k])
    · exact Or.inr (Or.inl ⟨i, j, by rw [k]⟩)
    · exact Or.inr (Or.inr (Or.inl ⟨i, j, by rw [k]; rfl⟩))
    · exact Or.inr (Or.inr (Or.inr ⟨i, j, by rw [k]; rfl⟩))
  · intro x hx hx0 y hy
    obtain ⟨q, hq, rfl⟩ := (hQ x).1 hx
    have hqn := hq0 q hq hx0
    rw [h3 q hq, h1 _ (h.outs q hq).1] at hy
    obtain ⟨p, k1, k2⟩ := h.up _ (h.outs q hq).1 (h.out_ne hq hqn)
    rw [k1] at hy
    obtain rfl := Option.some.inj hy
    rw [h3 q hq]
    exact (h.comp q hq hqn p k1).lift f (fun {a b} hab => (h4 _ _).2 ⟨a, b, hab, rfl, rfl⟩)

/-- `t` is `s` up to the ids of wires and polygons. -/
structure Copy (s t : St K) (f g : Id → Id) : Prop where
  pid : t.pid.live = s.pid.live
  sid : t.sid.live = s.sid.live
  sids : t.sid.Ok
  vtx : ∀ d : HE, d.1 ∈ s.sid.live → t.vtx d = s.vtx d
  /-- The ids of the wires. -/
  f_inj : ∀ w ∈ s.wid.live, ∀ w' ∈ s.wid.live, f w = f w' → w = w'
  wid : ∀ x, x ∈ t.wid.live ↔ ∃ w ∈ s.wid.live, f w = x
  /-- The ids of the polygons. -/
  g_inj : ∀ q ∈ s.qid.live, ∀ q' ∈ s.qid.live, g q = g q' → q = q'
  qid : ∀ x, x ∈ t.qid.live ↔ ∃ q ∈ s.qid.live, g q = x
  next : ∀ d : HE, d.1 ∈ s.sid.live → t.next d = s.next d
  wire : ∀ d : HE, d.1 ∈ s.sid.live → t.wire d = (s.wire d).map f
  wpoly : ∀ w ∈ s.wid.live, t.wpoly (f w) = (s.wpoly w).map g
  parent : ∀ w ∈ s.wid.live, t.parent (f w) = (s.parent w).map f
  childs : ∀ w ∈ s.wid.live, ∀ c ∈ s.wid.live, f c ∈ t.childs (f w) ↔ c ∈ s.childs w
  outer : ∀ q ∈ s.qid.live, t.outer (g q) = f (s.outer q)
  fpts : ∀ q ∈ s.qid.live, t.fpts (g q) = s.fpts q
  ppoly : ∀ p ∈ s.pid.live, t.ppoly p = (s.ppoly p).map g
  pseg : ∀ p ∈ s.pid.live, t.pseg p = none ↔ s.pseg p = none
  wseg : ∀ w ∈ s.wid.live, w ≠ 0 → ∃ d : HE, t.wseg (f w) = some d ∧ d.1 ∈ s.sid.live ∧ s.wire d = some w

/-- Copying polygon by polygon and `set_wire_parents` end and give a copy. The lists of the segments of the wires may start at any
side that meets `GoodStart`. -/
theorem reload {s t : St K} {L : Id → List HE} {l : List Id} (hN : Nested s)
    (hL : ∀ w ∈ s.wid.live, w ≠ 0 → CycOf s w (L w) ∧ GoodStart (L w)) (hB : Blank s t) (hl : l.Perm s.qid.live) :
    ∃ t1 t2 f g, loadAll (l.map (polyData s L)) t = .ok t1 ∧ (∃ n0, ∀ n ≥ n0, setWireParents n t1 = .ok t2) ∧ Copy s t2 f g ∧ UpTree t2 := by
  obtain ⟨t1, f, g, Wd, Qd, e1, h1, hP⟩ := Sim.all hN hL (l := l) (hB.sim hN) ⟨by simp, by simp⟩ (hl.nodup_iff.2 hN.inv.qids.nd)
    (fun q hq => ⟨hl.mem_iff.1 hq, by simp⟩)
  rw [List.nil_append] at h1 hP
  have hWd : ∀ w, w ∈ Wd ↔ w ∈ s.wid.live := by
    intro w
    rw [hP.w]
    constructor
    · rintro (rfl | ⟨h, _⟩)
      · exact hN.nest.w0
      · exact h
    · intro h
      obtain ⟨q, k1, k2, _⟩ := hN.nest.pols w h
      exact Or.inr ⟨h, q, hl.mem_iff.2 k1, k2⟩
  have hQd : ∀ q, q ∈ Qd ↔ q ∈ s.qid.live := by
    intro q
    rw [hP.q, hl.mem_iff]
    constructor
    · rintro (rfl | h)
      · exact hN.nest.q0
      · exact h
    · exact Or.inr
  have hwid : ∀ x, x ∈ t1.wid.live ↔ ∃ w ∈ s.wid.live, f w = x := by
    intro x
    rw [h1.wl, List.mem_map]
    simp only [hWd]
  have hqid : ∀ x, x ∈ t1.qid.live ↔ ∃ w ∈ s.qid.live, g w = x := by
    intro x
    rw [h1.ql, List.mem_map]
    simp only [hQd]
  have hfi : ∀ w ∈ s.wid.live, ∀ w' ∈ s.wid.live, f w = f w' → w = w' := fun w hw w' hw' =>
    h1.f_inj w ((hWd w).2 hw) w' ((hWd w').2 hw')
  have hgi : ∀ w ∈ s.qid.live, ∀ w' ∈ s.qid.live, g w = g w' → w = w' := fun w hw w' hw' =>
    h1.g_inj w ((hQd w).2 hw) w' ((hQd w').2 hw')
  have hwire : ∀ d : HE, d.1 ∈ s.sid.live → t1.next d = s.next d ∧ t1.wire d = (s.wire d).map f := by
    intro d hd
    obtain ⟨w, k1, k2, _⟩ := hN.wires.lab d hd
    rw [k1]
    exact h1.sides d hd w ((hWd w).2 k2) k1
  have hwpoly : ∀ w ∈ s.wid.live, t1.wpoly (f w) = (s.wpoly w).map g := by
    intro w hw
    obtain ⟨q, _, k2, k3⟩ := h1.wpol w ((hWd w).2 hw)
    rw [k2, k3]
    rfl
  have houter : ∀ q ∈ s.qid.live, t1.outer (g q) = f (s.outer q) := fun q hq => (h1.out q ((hQd q).2 hq) (fun h => h)).2
  classical
  let par : Id → Option Id := fun x => if h : ∃ w ∈ s.wid.live, f w = x then (s.parent h.choose).map f else none
  have hpar : ∀ w ∈ s.wid.live, par (f w) = (s.parent w).map f := by
    intro w hw
    have h : ∃ w' ∈ s.wid.live, f w' = f w := ⟨w, hw, rfl⟩
    have := hfi _ h.choose_spec.1 w hw h.choose_spec.2
    simp only [par]
    rw [dif_pos h, this]
  clear_value par
  have hshare : ∀ x y, Share t1 x y ↔ ∃ a b, Share s a b ∧ f a = x ∧ f b = y := by
    intro x y
    constructor
    · rintro ⟨d, k1, k2, k3⟩
      rw [h1.sid] at k1
      obtain ⟨a, a1, _⟩ := hN.wires.lab d k1
      obtain ⟨b, b1, _⟩ := hN.wires.lab (flip d) k1
      rw [(hwire d k1).2, a1] at k2
      rw [(hwire (flip d) k1).2, b1] at k3
      exact ⟨a, b, ⟨d, k1, a1, b1⟩, Option.some.inj k2, Option.some.inj k3⟩
    · rintro ⟨a, b, ⟨d, k1, k2, k3⟩, rfl, rfl⟩
      refine ⟨d, by rw [h1.sid]; exact k1, by rw [(hwire d k1).2, k2]; rfl, by rw [(hwire (flip d) k1).2, k3]; rfl⟩
  have hnest : Nest (· ∈ t1.wid.live) (· ∈ t1.qid.live) par t1.wpoly t1.outer (Share t1) :=
    hN.nest.map (fun x y hx hy => hfi x hx y hy) (fun x y hx hy => hgi x hx y hy) h1.f0 h1.g0 hwid hqid hpar hwpoly houter hshare
  have haround : ∀ w ∈ s.wid.live, Around (· ∈ s.qid.live) s.outer w → Around (· ∈ t1.qid.live) t1.outer (f w) := by
    rintro w _ ⟨q, k1, rfl⟩
    exact ⟨g q, (hqid _).2 ⟨q, k1, rfl⟩, houter q k1⟩
  have hfz : ∀ w ∈ s.wid.live, f w ≠ 0 → w ≠ 0 := fun w _ h e => h (by rw [e, h1.f0])
  have hwires : Wires t1 := by
    refine ⟨(hwid 0).2 ⟨0, hN.nest.w0, h1.f0⟩, ?_, ?_, ?_, h1.tree.non⟩
    · rw [h1.sid]
      intro d hd
      obtain ⟨w, k1, k2, k3⟩ := hN.wires.lab d hd
      refine ⟨f w, by rw [(hwire d hd).2, k1]; rfl, (hwid _).2 ⟨w, k2, rfl⟩, fun e => k3 ?_⟩
      exact hfi w k2 0 hN.nest.w0 (by rw [e, h1.f0])
    · intro x hx hx0
      obtain ⟨w, hw, rfl⟩ := (hwid x).1 hx
      obtain ⟨c, hc⟩ := hN.wires.cyc w hw (hfz w hw hx0)
      obtain ⟨a, ha⟩ := hc.path
      refine ⟨c, hc.ne, hc.nd, ⟨a, path_congr (fun d hd => (hwire d ((hc.mem d).1 hd).1).1) ha⟩, fun d => ?_⟩
      rw [hc.mem, h1.sid]
      refine and_congr_right fun hd => ?_
      rw [(hwire d hd).2]
      obtain ⟨w', k1, k2, _⟩ := hN.wires.lab d hd
      rw [k1, Option.map_some, Option.some.injEq, Option.some.injEq]
      exact ⟨fun e => by rw [e], fun e => hfi w' k2 w hw e⟩
    · intro x hx hx0
      obtain ⟨w, hw, rfl⟩ := (hwid x).1 hx
      obtain ⟨d, k1, k2, k3⟩ := h1.wseg w ((hWd w).2 hw) (hfz w hw hx0)
      exact ⟨d, k1, by rw [h1.sid]; exact k2, by rw [(hwire d k2).2, k3]; rfl⟩
  have hH : Half t1 par := by
    refine ⟨h1.sids, hwires, h1.tree, h1.self, hnest, fun x hx => ?_⟩
    obtain ⟨w, hw, rfl⟩ := (hwid x).1 hx
    by_cases ha : Around (· ∈ s.qid.live) s.outer w
    · by_cases hw0 : w = 0
      · subst hw0
        left
        rw [hpar 0 hw, hN.nest.p0, h1.f0, h1.tree.top]
        rfl
      · exact Or.inr ⟨h1.paro w ((hWd w).2 hw) (fun h => h) hw0 ha, haround w hw ha⟩
    · obtain ⟨p, _, k2, k3⟩ := h1.parh w ((hWd w).2 hw) (fun h => h) ha
      left
      rw [hpar w hw, k2, k3]
      rfl
  have hA : AllOrNone t1 par := by
    intro h
    right
    intro x hx hxa hxp
    obtain ⟨w, hw, rfl⟩ := (hwid x).1 hx
    obtain ⟨q', k1, k2⟩ := hxa
    obtain ⟨q, k3, rfl⟩ := (hqid q').1 k1
    rw [houter q k3] at k2
    have hwq := hfi _ (hN.nest.outs q k3).1 w hw k2
    rw [h1.paro w ((hWd w).2 hw) (fun h => h) (hfz w hw (hnest.nz hxp)) ⟨q, k3, hwq⟩]
    exact fun e => hnest.self hx e.symm
  obtain ⟨t2, ⟨P, C, rfl⟩, hU, hp, hn⟩ := setWireParents_ok hH hA
  refine ⟨t1, _, f, g, e1, hn, ?_, hU⟩
  have hp' : ∀ w ∈ s.wid.live, P (f w) = (s.parent w).map f := fun w hw => by
    rw [← hpar w hw]
    exact hp _ ((hwid _).2 ⟨w, hw, rfl⟩)
  refine {
    pid := h1.pid, sid := h1.sid, sids := h1.sids, vtx := h1.vtx, f_inj := hfi, wid := hwid, g_inj := hgi, qid := hqid, next := fun d hd => (hwire d hd).1
    wire := fun d hd => (hwire d hd).2, wpoly := hwpoly, parent := hp', outer := houter, childs := ?_, fpts := ?_, ppoly := ?_
    pseg := h1.pseg, wseg := fun w hw h0 => h1.wseg w ((hWd w).2 hw) h0 }
  · intro w hw c hc
    have hfw := (hwid (f w)).2 ⟨w, hw, rfl⟩
    have hfc := (hwid (f c)).2 ⟨c, hc, rfl⟩
    by_cases hcw : c = w
    · subst hcw
      constructor
      · intro h
        have := (hU.child hfc h).2
        simp only at this
        rw [hp' c hc, ← hpar c hc] at this
        exact absurd this (hnest.self hfc)
      · intro h
        exact absurd (hN.tree.child hc h).2 (hN.nest.self hc)
    · rw [hN.tree.childs_iff hw hc hcw, hU.childs_iff hfw hfc (fun e => hcw (hfi c hc w hw e))]
      simp only
      rw [hp' c hc]
      constructor
      · intro h
        obtain ⟨p, k1, k2⟩ := hN.nest.up c hc (by
          rintro rfl
          rw [hN.nest.p0] at h
          cases h)
        rw [k1] at h ⊢
        rw [hfi p k2 w hw (Option.some.inj h)]
      · intro h
        rw [h]
        rfl
  · intro q hq
    have := h1.fpts q ((hQd q).2 hq)
    rw [if_pos (hl.mem_iff.2 hq)] at this
    exact this
  · intro p hp
    simp only
    rw [h1.ppoly p hp]
    cases hq : s.ppoly p with
    | none => rfl
    | some q =>
      have := (hN.free.full trivial p hp q hq).1
      simp [hl.mem_iff.2 this]

end Verif.Decomp
