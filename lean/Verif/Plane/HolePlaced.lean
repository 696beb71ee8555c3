import Verif.Plane.Winding

/-! Deleted segments that split the wire of a hole. -/

namespace Verif.Decomp
open Verif.Plane

section
variable {K : Type} [Field K] [LinearOrder K] {g : Geom K}

/-- The tests of `nestHole` for the childs of a wire. -/
theorem spread_tests {aw bw : Id} {l : List Id} : ∀ {s s' : St K}, spread g aw bw l s = .ok s' → s.parent aw ≠ none →
    (∀ c ∈ l, s.parent c ≠ none) → ∀ c ∈ l, ∃ b, containsWire g s aw c = .ok b ∧ s'.parent c = some (if b = true then aw else bw) := by
  induction l with
  | nil => intro s s' _ _ _ c hc; cases hc
  | cons x l ih =>
    intro s s' h ha hl c hc
    simp only [spread, bind_ok] at h
    obtain ⟨b, hb, s1, h1, h2⟩ := h
    obtain ⟨C1, rfl⟩ := setParent_eq h1
    have hnn : ∀ w, s.parent w ≠ none → upd s.parent x (some (if b = true then aw else bw)) w ≠ none := by
      intro w hw
      rw [upd, Function.update_apply]
      split
      · simp
      · exact hw
    by_cases hcl : c ∈ l
    · obtain ⟨b', h3, h4⟩ := ih h2 (hnn aw ha) (fun c hc => hnn c (hl c (by simp [hc]))) c hcl
      refine ⟨b', ?_, h4⟩
      rw [← h3]
      refine (containsWire_congr (g := g) (s := s) (s' := { s with
        parent := upd s.parent x (some (if b = true then aw else bw)), childs := C1 }) rfl rfl rfl rfl rfl rfl (w := aw) (v := c) ?_ ?_).symm
      · exact ⟨fun k => absurd k (hnn aw ha), fun k => absurd k ha⟩
      · exact ⟨fun k => absurd k (hnn c (hl c hc)), fun k => absurd k (hl c hc)⟩
    · obtain rfl : c = x := by simpa [hcl] using hc
      refine ⟨b, hb, ?_⟩
      obtain ⟨P, C, rfl, h5⟩ := spread_eq h2
      exact ((h5 c).2 hcl).trans (by simp [upd])

/-- Paths of wires that have segments in common, when a wire is split. -/
theorem SplitWire.reach {s s' : St K} {e aw bw q : Id} {l : List HE} {bn r0 r1 : HE} (hS : SplitWire s s' e aw bw q l bn r0 r1)
    {c y : Id} (hc : c ≠ aw) (h : Relation.ReflTransGen (Share s) c y) :
    (Relation.ReflTransGen (Share s') c y ∧ y ≠ aw) ∨ Relation.ReflTransGen (Share s') c aw ∨ Relation.ReflTransGen (Share s') c bw := by
  induction h with
  | refl => exact Or.inl ⟨.refl, hc⟩
  | @tail y z _ hyz ih =>
    rcases ih with ⟨h1, h2⟩ | ih
    swap
    · exact Or.inr ih
    obtain ⟨d, d1, d2, d3⟩ := hyz
    have hde : d.1 ≠ e := by
      intro hh
      have : s.wire d = some aw := by rw [← hS.hw d.2, ← hh]
      rw [d2] at this
      exact h2 (Option.some.inj this)
    have hd' : d.1 ∈ s'.sid.live := (hS.del.live _).2 ⟨hde, d1⟩
    have hdl : d ∉ l := fun hh => by
      have := hS.old d hh
      rw [d2] at this
      exact h2 (Option.some.inj this)
    have hw : s'.wire d = some y := by rw [hS.wir, if_neg hdl, d2]
    by_cases hz : z = aw
    · subst hz
      have hw' := hS.wir (flip d)
      by_cases hfl : flip d ∈ l
      · rw [if_pos hfl] at hw'
        exact Or.inr (Or.inr (h1.tail ⟨d, hd', hw, hw'⟩))
      · rw [if_neg hfl, d3] at hw'
        exact Or.inr (Or.inl (h1.tail ⟨d, hd', hw, hw'⟩))
    · have hfl : flip d ∉ l := fun hh => by
        have := hS.old _ hh
        rw [d3] at this
        exact hz (Option.some.inj this)
      exact Or.inl ⟨h1.tail ⟨d, hd', hw, by rw [hS.wir, if_neg hfl, d3]⟩, hz⟩

/-- The parents after a hole is split, with the tests of its childs. -/
theorem splitWire_tests {e : Id} {s s' : St K} (hs : splitWire g e s = .ok s') (h : Nested s) (he : e ∈ s.sid.live)
    (hn : ∀ v, s.next (e, v) ≠ some (e, !v)) (ho : ∀ q ∈ s.qid.live, s.wire (e, true) ≠ some (s.outer q)) :
    ∃ aw bw q l bn r0 r1, SplitWire s s' e aw bw q l bn r0 r1 ∧ s.outer q ≠ aw ∧ s'.outer = s.outer ∧
      (∀ w ∈ s.wid.live, s.parent w ≠ some aw → s'.parent w = s.parent w) ∧
      ∃ t : St K, t.next = s'.next ∧ t.wseg = s'.wseg ∧ t.vtx = s'.vtx ∧ t.xy = s'.xy ∧ t.vec = s'.vec ∧ t.parent aw ≠ none ∧
        ∀ w ∈ s.wid.live, s.parent w = some aw → t.parent w ≠ none ∧
          ∃ b, containsWire g t aw w = .ok b ∧ s'.parent w = some (if b = true then aw else bw) := by
  obtain ⟨_, aw, bw, q, l, bn, r0, r1, hS⟩ := splitWire_eff (T := True) hs h.inv.links he h.free
    (fun _ w q hw hq => h.polyLive (d := (e, true)) he hw hq) (hn false) (hn true)
  obtain ⟨aw', q', t, t', e1, e2, hnest, t1, t2, t3, t4, t5, t6, t7, u1, u2, u3, _, u4, u5, u6⟩ := splitWire_nest hs
  rw [hS.hw] at e1
  cases e1
  rw [hS.hq] at e2
  cases e2
  have hbw : (newWireObj s).1 = bw := hS.hbw.symm
  rw [hbw] at hnest
  obtain ⟨k1, k2, _⟩ := Ids.append_ok h.inv.wids
  rw [← hS.hbw] at k1 k2
  have hml : ∀ w, w ∈ s'.wid.live ↔ w ∈ s.wid.live ∨ w = bw := by intro w; rw [hS.wid, k2]; simp
  have hmt : ∀ w, w ∈ t.wid.live ↔ w ∈ s.wid.live ∨ w = bw := by intro w; rw [t4]; exact hml w
  obtain ⟨w, w1, haw, haw0⟩ := h.wires.lab (e, true) he
  rw [hS.hw] at w1
  cases w1
  have hbw0 : bw ≠ 0 := fun hh => k1 (hh ▸ h.nest.w0)
  have hab : aw ≠ bw := fun hh => k1 (hh ▸ haw)
  obtain ⟨p0, hp0, hp0l⟩ := h.nest.up aw haw haw0
  have hT : UpTree t := (newWireObj_up h.tree).frame (by rw [t4, hS.wid]; rfl) t1 t2
  have htp : ∀ w, t.parent w = if w = bw then some bw else s.parent w := by
    intro w
    rw [t1]
    simp only [newWireObj, upd, Function.update_apply, hS.hbw]
  have hat : t.parent aw = some p0 := by rw [htp, if_neg hab]; exact hp0
  have hat' : aw ∈ t.wid.live := (hmt _).2 (Or.inl haw)
  have hbt' : bw ∈ t.wid.live := (hmt _).2 (Or.inr rfl)
  have hpt' : p0 ∈ t.wid.live := (hmt _).2 (Or.inl hp0l)
  have hout : s.outer q ≠ aw := by
    intro hh
    exact ho q (h.polyLive (d := (e, true)) he (hS.hw true) hS.hq) (by rw [hh]; exact hS.hw true)
  unfold nest at hnest
  rw [if_neg (by rw [t3]; exact hout)] at hnest
  unfold nestHole at hnest
  simp only [bind_ok] at hnest
  obtain ⟨s1, h1, s2, h2, h3⟩ := hnest
  rw [hat] at h1 h2
  have hT1 := setParent_up hT hat' haw0 hpt' h1
  obtain ⟨C1, rfl⟩ := setParent_eq h1
  have hT2 := setParent_up hT1 hbt' hbw0 hpt' h2
  obtain ⟨C2, rfl⟩ := setParent_eq h2
  have hch : ∀ c ∈ C2 aw, c ∈ t.wid.live ∧ c ≠ 0 ∧ upd (upd t.parent aw (some p0)) bw (some p0) c = some aw := fun c hc => by
    have := hT2.mem aw hat' c hc
    exact this
  have hpw : ∀ w, w ∈ s.wid.live → upd (upd t.parent aw (some p0)) bw (some p0) w = s.parent w := by
    intro w h1
    have h2 : w ≠ bw := fun hh => k1 (hh ▸ h1)
    rw [upd, Function.update_of_ne h2, upd, Function.update_apply]
    split
    · next hh => rw [hh]; exact hp0.symm
    · rw [htp, if_neg h2]
  have htest := spread_tests h3 (show upd (upd t.parent aw (some p0)) bw (some p0) aw ≠ none by rw [hpw aw haw, hp0]; simp)
    (fun c hc => by
      change upd (upd t.parent aw (some p0)) bw (some p0) c ≠ none
      rw [(hch c hc).2.2]
      simp)
  obtain ⟨P, C, rfl, hP⟩ := spread_eq h3
  have hou : s'.outer = s.outer := by rw [u3]; exact t3
  refine ⟨aw, bw, q, l, bn, r0, r1, hS, hout, hou, ?_,
    { t with parent := upd (upd t.parent aw (some p0)) bw (some p0), childs := C2 }, t6, t7, u4, u5, u6, ?_, ?_⟩
  rotate_left 2
  · intro w hw h2
    have hwc : w ∈ C2 aw := by
      refine (hT2.childs_iff hat' ((hmt w).2 (Or.inl hw)) ?_).2 ((hpw w hw).trans h2)
      intro hh
      rw [← hh] at h2
      exact h.nest.self hw h2
    obtain ⟨b, b1, b2⟩ := htest w hwc
    refine ⟨?_, b, b1, ?_⟩
    · change upd (upd t.parent aw (some p0)) bw (some p0) w ≠ none
      rw [hpw w hw, h2]
      simp
    · rw [u1]
      exact b2
  · intro w h1 h2
    rw [u1]
    change P w = _
    rw [(hP w).2]
    · exact hpw w h1
    · intro hh
      have := (hch w hh).2.2
      rw [hpw w h1] at this
      exact h2 this
  · change upd (upd t.parent aw (some p0)) bw (some p0) aw ≠ none
    rw [hpw aw haw, hp0]
    simp

theorem share_back {s : St K} {x y : Id} (h : Relation.ReflTransGen (Share s) x y) : Relation.ReflTransGen (Share s) y x := by
  induction h with
  | refl => exact .refl
  | tail _ k ih => exact .head (Share.symm k) ih

/-- Connected wires of the nest have one hole in common. -/
theorem Nest.hole_eq {W Q : Id → Prop} {par pol : Id → Option Id} {out : Id → Id} {sh : Id → Id → Prop}
    (h : Nest W Q par pol out sh) {x y : Id} (hr : Relation.ReflTransGen sh x y) (hx : ¬ Around Q out x) (hy : ¬ Around Q out y) :
    x = y := by
  have key : (Around Q out y → par y = some x) ∧ (¬ Around Q out y → y = x) := by
    clear hy
    induction hr with
    | refl => exact ⟨fun k => absurd k hx, fun _ => rfl⟩
    | @tail y z _ hyz ih =>
      rcases h.adj _ _ hyz with rfl | ⟨k1, k2, k3⟩ | ⟨k1, k2, k3⟩ | ⟨k1, k2, k3⟩
      · exact ih
      · exact ⟨fun _ => k3 ▸ ih.1 k1, fun k => absurd k2 k⟩
      · refine ⟨fun k => absurd k k2, fun _ => ?_⟩
        have := ih.1 k1
        rw [k3] at this
        exact Option.some.inj this
      · refine ⟨fun _ => ?_, fun k => absurd k1 k⟩
        rw [k3, ih.2 k2]
  exact (key.2 hy).symm

variable [IsStrictOrderedRing K]

/-- The answer of `Wire.contains_point` for a wire whose walk is the one of `s`. -/
theorem contains_walk {s t : St K} (hW : Wires s) {w : Id} (hw : w ∈ s.wid.live) (h0 : w ≠ 0) (h1 : t.next = s.next)
    (h2 : t.wseg = s.wseg) (h3 : t.vtx = s.vtx) (h4 : t.xy = s.xy) (hp : t.parent w ≠ none) {x : K × K} {b : Bool}
    (h : containsPoint t w x = .ok b) : b = true ↔ cnt s x w = 1 := by
  unfold containsPoint at h
  rw [if_neg hp] at h
  simp only [bind_ok, Except.ok.injEq] at h
  obtain ⟨l, hl, rfl⟩ := h
  have hm := wireAll_mem hW hw h0 h1 h2 hp hl
  have hn := (wireAll_sound hl).1
  have hc : cnt s x w = ((l.filter fun h => isOnXLine (t.xy (t.vtx (h.1, false))) (t.xy (t.vtx (h.1, true))) x).length : ZMod 2) := by
    unfold cnt
    rw [Finset.sum_boole]
    congr 1
    rw [← List.toFinset_card_of_nodup (hn.filter _), h3, h4]
    congr 1
    ext d
    rw [Finset.mem_filter, mem_darts, List.mem_toFinset, List.mem_filter, hm, and_assoc]
    rfl
  rw [decide_eq_true_iff, hc, ZMod.natCast_eq_one_iff_odd, Nat.odd_iff]

/-- The answer of `Wire.contains_wire` for wires whose walks are the ones of `s`. -/
theorem containsWire_walk (hg : ArgOk g) {s t : St K} (hs : Flat g s) (hN : Near g s) {w c : Id} (hw : w ∈ s.wid.live) (h0 : w ≠ 0)
    (hc : c ∈ s.wid.live) (hc0 : c ≠ 0) (h1 : t.next = s.next) (h2 : t.wseg = s.wseg) (h3 : t.vtx = s.vtx) (h4 : t.xy = s.xy)
    (h5 : t.vec = s.vec) (hp : t.parent w ≠ none) (hpc : t.parent c ≠ none) {b : Bool} (h : containsWire g t w c = .ok b) {d : HE}
    {x : K × K} (hx : Sees s d x) (hd : s.wire d = some c) : b = true ↔ cnt s x w = 1 := by
  obtain ⟨d', hd', hdl, hdw⟩ := hs.wires.seg c hc hc0
  unfold containsWire at h
  rw [if_neg hp, if_neg hpc, h2, hd'] at h
  have he : sidePoint g t d' = sidePoint g s d' := by unfold sidePoint; rw [h3, h4, h5]
  have h' : containsPoint t w (sidePoint g t d') = .ok b := h
  rw [he] at h'
  rw [contains_walk hs.wires hw h0 h1 h2 h3 h4 hp h', wire_same hg hs hx.live hd hdw hx (hN c hc hc0 d' hd')]

/-- Points beside wires that are connected without the wire `b` are together in `b` or not. -/
theorem cnt_reach (hg : ArgOk g) {s : St K} (h : Flat g s) {a b c : Id} (hr : Relation.ReflTransGen (Share s) a c)
    (hb : ¬ Relation.ReflTransGen (Share s) a b) : ∀ d x d' y, Sees s d x → s.wire d = some a → Sees s d' y → s.wire d' = some c →
      cnt s x b = cnt s y b := by
  induction hr with
  | refl => exact fun d x d' y hx hd hy hd' => congrFun (wire_same hg h hx.live hd hd' hx hy) b
  | @tail c z hac hcz ih =>
    intro d x d' y hx hd hy hd'
    obtain ⟨k, k1, k2, k3⟩ := hcz
    obtain ⟨u, hu⟩ := sees_ex h.links h.planar (d := k) k1
    obtain ⟨v, hv⟩ := sees_ex h.links h.planar (d := flip k) k1
    have hcb : c ≠ b := fun hh => hb (hh ▸ hac)
    have hzb : z ≠ b := fun hh => hb (hh ▸ hac.tail ⟨k, k1, k2, k3⟩)
    have hcr := sees_cross h.links h.wires h.planar hu hv b
    rw [k2, k3, if_neg (by simpa using hcb), if_neg (by simpa using hzb), add_zero, add_zero] at hcr
    rw [ih d x k u hx hd hu k2, hcr]
    exact congrFun (wire_same hg h (d := flip k) k1 k3 hd' hv hy) b

/-- The parts of a hole do not contain each other. -/
theorem SplitWire.apart (hg : ArgOk g) {s s' : St K} {e aw bw q : Id} {l : List HE} {bn r0 r1 : HE}
    (hS : SplitWire s s' e aw bw q l bn r0 r1) (h : Drawn g s) (hG : Good s) (h' : Flat g s') (ho : s.outer q ≠ aw)
    (hn : ∀ v, s.next (e, v) ≠ some (e, !v)) (hsep : ¬ Relation.ReflTransGen (Share s') aw bw) {d : HE} {x : K × K}
    (hx : Sees s' d x) : (s'.wire d = some aw → cnt s' x bw = 0) ∧ (s'.wire d = some bw → cnt s' x aw = 0) := by
  have hN := h.nested
  have hP := hS.del.plus
  have he := hS.del.was
  obtain ⟨k1, k2, _⟩ := Ids.append_ok hN.inv.wids
  rw [← hS.hbw] at k1 k2
  obtain ⟨w, w1, haw, haw0⟩ := hN.wires.lab (e, true) he
  rw [hS.hw] at w1
  cases w1
  have hab : aw ≠ bw := fun hh => k1 (hh ▸ haw)
  -- counts
  have hc : ∀ x, cnt s x aw = cnt s' x aw + cnt s' x bw := fun x => by
    rw [hP.more hab (k := aw) (Or.inl rfl) (fun d hd => by
      obtain ⟨y, y1, y2, _⟩ := hS.label hN hd
      exact ⟨y, y1, by rw [fold_keep]; exact y2⟩) (by rw [hS.hw, hS.hw]) x aw, if_pos rfl]
  have hzero : ∀ v x, Sees s (e, v) x → cnt s x aw = 0 := by
    intro v x hx
    have hex := hG aw (e, v) x q hx (hS.hw v) hS.hq aw haw
    have hpa := (hN.nest.inner haw hS.hq fun hh => ho (hN.nest.around hS.hq hh)).2
    have : ¬ Anc s.parent (s.outer q) aw := (hN.nest.chain aw haw).not_anc hN.nest.p0 hpa
    rw [← hex] at this
    rcases zmod2 (cnt s x aw) with k | k
    · exact k
    · exact absurd (Or.inr k) this
  -- paths
  have hclear : ∀ x y, Clear s x y → cnt s' x = cnt s' y := fun x y hxy =>
    cnt_path h'.links h'.wires fun j hj => by
      have := hxy j (hP.live j hj)
      rwa [hP.pos (j, false) hj, hP.pos (j, true) hj] at this
  -- the ends
  have hend : ∀ v, ∃ k y, s.next (e, v) = some k ∧ k.1 ∈ s'.sid.live ∧ Sees s' k y ∧ ∀ x, Sees s (e, v) x → cnt s' x = cnt s' y := by
    intro v
    obtain ⟨k, m1, m2, m3, _⟩ := hN.inv.links.next_ok (d := (e, v)) he (by simp)
    have hke : k.1 ≠ e := by
      intro hh
      rcases eq_or_flip (h := k) (k := (e, v)) hh with rfl | rfl
      · exact hN.inv.links.flip_ne (d := (e, v)) he m3
      · exact hn v m1
    have hk' : k.1 ∈ s'.sid.live := (hS.del.live _).2 ⟨hke, m2⟩
    obtain ⟨y, hy⟩ := sees_ex h.links h.planar m2
    exact ⟨k, y, m1, hk', hP.toSub.sees hk' hy, fun x hx =>
      corner_const hg hclear h.links h.planar h.fan (d := (e, v)) he m1 hx hy⟩
  obtain ⟨kt, yt, t1, t2, t3, t4⟩ := hend true
  obtain ⟨kf, yf, f1, f2, f3, f4⟩ := hend false
  obtain ⟨xt, hxt⟩ := sees_ex h.links h.planar (d := (e, true)) he
  obtain ⟨xf, hxf⟩ := sees_ex h.links h.planar (d := (e, false)) he
  have hacross : cnt s' xt = cnt s' xf := by
    obtain ⟨x', y', a1, a2, a3, _⟩ := sees_through (F := cnt s') hclear h.links h.planar hxt (show Sees s (flip (e, true)) xf from hxf)
    rw [← a1, ← a2]
    exact cnt_path h'.links h'.wires fun j hj => by
      have hje : j ≠ e := ((hS.del.live j).1 hj).1
      have := a3 j (hP.live j hj) hje
      rwa [hP.toSub.segApart hj] at this
  have hwn : ∀ v k, s.next (e, v) = some k → s.wire k = some aw := fun v k hk => by
    rw [← hS.hw v]
    exact (hN.wires.next_wire (x := (e, v)) he hk).2
  have hwt : s'.wire kt = some bw := by
    rw [hS.hbn] at t1
    cases t1
    have hmem : bn ∈ l := by
      rcases hS.walk with ⟨k, _⟩ | ⟨_, hp, hl, _⟩
      · exact absurd k (hN.wires.par aw haw haw0)
      · cases l with
        | nil => exact absurd rfl hl
        | cons z l => obtain ⟨rfl, _⟩ := hp; simp
    rw [hS.wir, if_pos hmem]
  have hwf : s'.wire kf = some aw := by
    rw [hS.wir, if_neg, hwn false kf f1]
    intro hm
    have hL := hN.inv.links
    have hfl : (e, false) ∉ l := by
      rcases hS.walk with ⟨_, _, k⟩ | ⟨_, hp, hl, ht⟩
      · simp [k]
      · cases l with
        | nil => simp
        | cons z l =>
          obtain ⟨rfl, _⟩ := hp
          rw [List.mem_cons, not_or]
          refine ⟨fun hh => hn true ?_, ht⟩
          rw [hS.hbn, ← hh]
          rfl
    rcases hS.walk with ⟨k, _⟩ | ⟨_, hp, hl, _⟩
    · exact absurd k (hN.wires.par aw haw haw0)
    rcases path_before hp kf hm with k | ⟨z, z1, z2⟩
    · rw [k] at f1
      have := hL.next_inj (d := (e, false)) (k := (e, true)) he he (by simp) (by simp) (f1.trans hS.hbn.symm)
      simp at this
    · have hbl : bn.1 ∈ s.sid.live := by
        obtain ⟨k, m1, m2, _⟩ := hL.next_ok (d := (e, true)) he (by simp)
        rw [hS.hbn] at m1
        cases m1
        exact m2
      have hzl : z.1 ∈ s.sid.live := path_live hL hp hbl z z1
      have := hL.next_inj (d := (e, false)) (k := z) he hzl (by simp) (by simp) (f1.trans z2.symm)
      exact hfl (this ▸ z1)
  -- values
  have hA : ∀ d x, Sees s' d x → s'.wire d = some aw → cnt s' x = cnt s' xf := fun d x hx hd =>
    (wire_same hg h' hx.live hd hwf hx f3).trans (f4 xf hxf).symm
  have hB : ∀ d x, Sees s' d x → s'.wire d = some bw → cnt s' x = cnt s' xf := fun d x hx hd =>
    ((wire_same hg h' hx.live hd hwt hx t3).trans (t4 xt hxt).symm).trans hacross
  have hsum : cnt s' xf aw + cnt s' xf bw = 0 := by rw [← hc]; exact hzero false xf hxf
  suffices hz : cnt s' xf bw = 0 by
    have hz' : cnt s' xf aw = 0 := by rwa [hz, add_zero] at hsum
    exact ⟨fun hd => by rw [hA d x hx hd]; exact hz, fun hd => by rw [hB d x hx hd]; exact hz'⟩
  by_contra hne
  have hb1 : cnt s' xf bw = 1 := (zmod2 _).resolve_left hne
  have ha1 : cnt s' xf aw = 1 := by
    rcases zmod2 (cnt s' xf aw) with k | k
    · rw [k, hb1] at hsum
      exact absurd hsum (by decide)
    · exact k
  have hno : ∀ d : HE, d.1 ∈ s'.sid.live → ¬ (s'.wire d = some aw ∧ s'.wire (flip d) = some bw) := fun d hd hh =>
    hsep (.single ⟨d, hd, hh.1, hh.2⟩)
  have hall : ∀ x, Off s' x → cnt s' x aw = 0 ∧ cnt s' x bw = 0 := by
    refine ray_ind h'.links h'.planar (P := fun x => cnt s' x aw = 0 ∧ cnt s' x bw = 0) ?_ ?_ ?_
    · intro x hx
      exact ⟨cnt_beyond hx _, cnt_beyond hx _⟩
    · rintro x y hcl hy
      rw [cnt_path h'.links h'.wires hcl]
      exact hy
    · rintro d x y hx hy ⟨y1, y2⟩
      have c1 := sees_cross h'.links h'.wires h'.planar hx hy aw
      have c2 := sees_cross h'.links h'.wires h'.planar hx hy bw
      have n1 : s'.wire (flip d) ≠ some aw := fun hh => by
        have := congrFun (hA _ _ hy hh) bw
        rw [y2, hb1] at this
        exact absurd this (by decide)
      have n2 : s'.wire (flip d) ≠ some bw := fun hh => by
        have := congrFun (hB _ _ hy hh) aw
        rw [y1, ha1] at this
        exact absurd this (by decide)
      rw [y1, if_neg n1] at c1
      rw [y2, if_neg n2] at c2
      have n3 : s'.wire d ≠ some aw := fun hh => by
        have := congrFun (hA _ _ hx hh) bw
        rw [c2, if_neg (by rw [hh]; simpa using hab), hb1] at this
        exact absurd this (by decide)
      have n4 : s'.wire d ≠ some bw := fun hh => by
        have := congrFun (hB _ _ hx hh) aw
        rw [c1, if_neg (by rw [hh]; simpa using hab.symm), ha1] at this
        exact absurd this (by decide)
      rw [if_neg n3] at c1
      rw [if_neg n4] at c2
      exact ⟨by simpa using c1, by simpa using c2⟩
  have := (hall yf f3.off).2
  rw [hA kf yf f3 hwf, hb1] at this
  exact absurd this (by decide)

/-- The parts of a split hole and the wires in it are placed by the segments. -/
theorem splitWire_placed (hg : ArgOk g) {e : Id} {s s' : St K} (hs : splitWire g e s = .ok s') (h : Drawn g s) (hG : Good s)
    (h' : Flat g s') (hne : Near g s') (he : e ∈ s.sid.live) (hn : ∀ v, s.next (e, v) ≠ some (e, !v))
    (ho : ∀ q ∈ s.qid.live, s.wire (e, true) ≠ some (s.outer q)) : Placed s' := by
  have hN := h.nested
  obtain ⟨aw, bw, q, l, bn, r0, r1, hS, hout, hou, hkeep, t, t1, t2, t3, t4, t5, hta, htest⟩ := splitWire_tests hs hN he hn ho
  have hsep := splitWire_apart hN h'.wires hS hn
  obtain ⟨k1, k2, _⟩ := Ids.append_ok hN.inv.wids
  rw [← hS.hbw] at k1 k2
  have hml : ∀ w, w ∈ s'.wid.live ↔ w ∈ s.wid.live ∨ w = bw := by intro w; rw [hS.wid, k2]; simp
  obtain ⟨w, w1, haw, haw0⟩ := hN.wires.lab (e, true) he
  rw [hS.hw] at w1
  cases w1
  have hab : aw ≠ bw := fun hh => k1 (hh ▸ haw)
  have hP := hS.del.plus
  have hshare := splitWire_share (fun d hd hh => by
    obtain ⟨w, w1, w2, _⟩ := hN.wires.lab d hd
    rw [hh] at w1
    cases w1
    exact k1 w2) hS
  have hback : ∀ x y, Relation.ReflTransGen (Share s') x y →
      Relation.ReflTransGen (Share s) (if x = bw then aw else x) (if y = bw then aw else y) := by
    intro x y hxy
    induction hxy with
    | refl => exact .refl
    | tail _ k ih => exact ih.tail (hshare _ _ k)
  have hanot : ¬ Around (· ∈ s.qid.live) s.outer aw := fun hh => hout (hN.nest.around hS.hq hh)
  refine ⟨splitWire_noself hs hN he hn ho, fun r hr hr0 p hp => ?_⟩
  rw [hS.qid] at hr
  rw [hou] at hp ⊢
  have hcl := (hN.nest.outs r hr).1
  have hc0 := hN.nest.out_ne hr hr0
  have hcb : s.outer r ≠ bw := fun hh => k1 (hh ▸ hcl)
  have hca : s.outer r ≠ aw := fun hh => hanot ⟨r, hr, hh⟩
  obtain ⟨p1, hp1, hp1l⟩ := hN.nest.up _ hcl hc0
  have hcomp := hN.nest.comp r hr hr0 p1 hp1
  by_cases hpa : s.parent (s.outer r) = some aw
  swap
  · rw [hkeep _ hcl hpa, hp1] at hp
    cases hp
    rcases hS.reach hca hcomp with ⟨k, _⟩ | k
    · exact k
    · exfalso
      have hra : Relation.ReflTransGen (Share s) (s.outer r) aw := by
        rcases k with k | k
        · have := hback _ _ k
          rwa [if_neg hcb, if_neg hab] at this
        · have := hback _ _ k
          rwa [if_neg hcb, if_pos rfl] at this
      have hsym : Relation.ReflTransGen (Share s) p (s.outer r) :=
        share_back hcomp
      have := hN.nest.hole_eq (hsym.trans hra) (hN.nest.hole r hr hr0 p hp1) hanot
      exact hpa (this ▸ hp1)
  · rw [hpa] at hp1
    cases hp1
    obtain ⟨htc, b, hb, hpar⟩ := htest _ hcl hpa
    rw [hpar] at hp
    cases hp
    have hcs : s.outer r ∈ s'.wid.live := (hml _).2 (Or.inl hcl)
    -- a side of the wire in both drawings
    obtain ⟨d, hd, hdl, hdw⟩ := h'.wires.seg _ hcs hc0
    obtain ⟨y, hy⟩ := sees_ex h.links h.planar (d := d) (hP.live _ hdl)
    have hy' := hP.toSub.sees hdl hy
    have hdw0 : s.wire d = some (s.outer r) := by
      obtain ⟨w, w1, w2, _⟩ := hS.label hN hdl
      rw [hdw] at w1
      cases w1
      rw [w2, if_neg hcb]
    have hone : cnt s' y aw + cnt s' y bw = 1 := by
      have hc := hP.more hab (k := aw) (Or.inl rfl) (fun d hd => by
        obtain ⟨y, y1, y2, _⟩ := hS.label hN hd
        exact ⟨y, y1, by rw [fold_keep]; exact y2⟩) (by rw [hS.hw, hS.hw]) y aw
      rw [if_pos rfl] at hc
      rw [← hc]
      have hex := hG _ d y r hy hdw0 (hN.nest.outs r hr).2 aw haw
      exact (hex.2 (.single hpa)).resolve_left haw0
    have hbt := containsWire_walk hg h' hne ((hml _).2 (Or.inl haw)) haw0 hcs hc0 t1 t2 t3 t4 t5 hta htc hb hy' hdw
    have hA : ∀ z, Relation.ReflTransGen (Share s') (s.outer r) z → z ∈ s'.wid.live → z ≠ 0 → ∃ k u, Sees s' k u ∧ s'.wire k = some z := by
      intro z _ hz hz0
      obtain ⟨k, _, k2, k3⟩ := h'.wires.seg z hz hz0
      obtain ⟨u, hu⟩ := sees_ex h'.links h'.planar (d := k) k2
      exact ⟨k, u, hu, k3⟩
    have hbw0 : bw ≠ 0 := fun hh => k1 (hh ▸ hN.nest.w0)
    have hsymm : ∀ {x y}, Relation.ReflTransGen (Share s') x y → Relation.ReflTransGen (Share s') y x := fun hxy =>
      share_back hxy
    have hra : Relation.ReflTransGen (Share s') (s.outer r) aw ∨ Relation.ReflTransGen (Share s') (s.outer r) bw := by
      rcases hS.reach hca hcomp with ⟨_, k⟩ | k
      · exact absurd rfl k
      · exact k
    rcases hra with hra | hra
    · obtain ⟨k, u, hu, hk⟩ := hA aw hra ((hml _).2 (Or.inl haw)) haw0
      have hz := (hS.apart hg h hG h' hout hn hsep hu).1 hk
      rw [← cnt_reach hg h' hra (fun hh => hsep ((hsymm hra).trans hh)) d y k u hy' hdw hu hk] at hz
      rw [hz, add_zero] at hone
      rw [if_pos (hbt.2 hone)]
      exact hra
    · obtain ⟨k, u, hu, hk⟩ := hA bw hra ((hml _).2 (Or.inr rfl)) hbw0
      have hz := (hS.apart hg h hG h' hout hn hsep hu).2 hk
      rw [← cnt_reach hg h' hra (fun hh => hsep ((hsymm hh).trans hra)) d y k u hy' hdw hu hk] at hz
      have hbf : ¬ b = true := fun hh => by
        rw [hbt.1 hh] at hz
        exact absurd hz (by decide)
      rw [if_neg hbf]
      exact hra

/-- `delete_segment` of a segment that holds the parts of a hole together: all wires are placed by the segments. -/
theorem deleteSegment_placed (hg : ArgOk g) {e : Id} {s s' : St K} (hs : deleteSegment g e s = .ok s') (h : Tiled g s)
    (he : e ∈ s.sid.live) (hd : s.wire (e, true) = s.wire (e, false)) (hn : ∀ v, s.next (e, v) ≠ some (e, !v))
    (ho : ∀ q ∈ s.qid.live, s.wire (e, true) ≠ some (s.outer q)) (hne : Near g s') : Placed s' := by
  have hN := h.drawn.nested
  have hfan := deleteSegment_fan hs hN.inv he h.drawn.fan
  have h0 := h.quiet
  have hN0 := hN.quiet
  cases deleteSegment_cases hs with
  | wire hn' _ => exact absurd (hn' true) (hn true)
  | dendrite tip ht _ _ => exact absurd ht (hn tip)
  | join _ hd' _ => exact absurd hd hd'
  | split _ _ hs' =>
    obtain ⟨_, aw, bw, q, l, bn, r0, r1, hS⟩ := splitWire_eff (T := True) hs' hN0.inv.links he hN0.free
      (fun _ w q hw hq => hN0.polyLive (d := (e, true)) he hw hq) (hn false) (hn true)
    have hD := hS.del
    refine splitWire_placed hg hs' h0.drawn h0.good ⟨?_, ?_, ?_, hfan⟩ hne he hn ho
    · exact (deleteSegment_inv hs hN.inv he).links
    · exact deleteSegment_wires hs hN.inv hN.wires he (hN.delOk he)
    · exact h.drawn.planar.less (fun p hp => hD.pid ▸ hp) (fun j hj => ((hD.live j).1 hj).2) hD.vtx hD.xy

/-- The removal of a segment that holds the parts of a hole together is a step of a drawing if the points that `contains_wire` tests
are beside the segments afterwards. -/
theorem unline_hole (hg : ArgOk g) {s s' : St K} {e : Id} (h : Drawing g s) (he : e ∈ s.sid.live)
    (ho : ∀ q ∈ s.qid.live, s.wire (e, true) ≠ some (s.outer q)) (hs : deleteSegment g e s = .ok s') (hne : Near g s') : Drawing g s' :=
  .unline h he (fun hd hn => deleteSegment_placed hg hs (h.tiled hg) he hd hn ho hne) hs

/-- A segment with the wire of a hole on both sides is removed: each point off the segments that remain is in the polygon it was in,
no other polygon contains it, and the number of polygons stays. -/
theorem hole_bridge (hg : ArgOk g) {s s' : St K} {e : Id} (h : Drawing g s) (he : e ∈ s.sid.live)
    (hd : s.wire (e, true) = s.wire (e, false)) (hn : ∀ v, s.next (e, v) ≠ some (e, !v))
    (ho : ∀ q ∈ s.qid.live, s.wire (e, true) ≠ some (s.outer q)) (hs : deleteSegment g e s = .ok s') (hne : Near g s') :
    s'.qid = s.qid ∧ ∀ x, Off s x → ∀ q ∈ s.qid.live, polyContains s' q x = polyContains s q x := by
  have hT := h.tiled hg
  have hT0 := hT.quiet
  have h' := unline_hole hg h he ho hs hne
  have hT' := h'.tiled hg
  have hN0 := hT.drawn.nested.quiet
  cases deleteSegment_cases hs with
  | wire hn' _ => exact absurd (hn' true) (hn true)
  | dendrite tip ht _ _ => exact absurd ht (hn tip)
  | join _ hd' _ => exact absurd hd hd'
  | split _ _ hs' =>
    obtain ⟨_, _, _, aw, bw, q, l, bn, r0, r1, hS, hK⟩ := splitWire_kind hs' hN0 he hn hT'.drawn.nested.wires
      (deleteSegment_placed hg hs hT he hd hn ho hne)
    obtain ⟨_, k2⟩ := hS.good hg hT0.drawn hT0.good hT'.drawn hK
    refine ⟨hS.qid, fun x hx q hq => ?_⟩
    have hx' : Off s' x := fun j hj => by
      have := hx j (hS.del.plus.live j hj)
      rwa [show s.xy (s.vtx (j, false)) = s'.xy (s'.vtx (j, false)) from (by rw [hS.del.vtx, hS.del.xy]; rfl),
        show s.xy (s.vtx (j, true)) = s'.xy (s'.vtx (j, true)) from (by rw [hS.del.vtx, hS.del.xy]; rfl)] at this
    obtain ⟨q0, h0, he0⟩ := exact_ex hT0.drawn hT0.good (s := quiet s) hx
    rw [polyContains_exact hT'.drawn.nested (hS.qid ▸ h0) (k2 x q0 h0 hx' he0) (hS.qid ▸ hq),
      polyContains_exact hT.drawn.nested h0 he0 hq]

end
end Verif.Decomp
