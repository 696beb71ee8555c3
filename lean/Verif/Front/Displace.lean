import Verif.Front.Trace
import Verif.Decomp.Props

/-! What `check_displacment` checks. -/

namespace Verif.Front
open Verif.Decomp (St Id HE Geom)
open Verif.Plane (parametric projectPoint intersection dist2)

variable {K : Type} [Field K] [LinearOrder K]

/-- The wire `w'` is `w` or is nested in it, by the lists of childs. -/
inductive Below (s : St K) (w : Id) : Id → Prop
  | refl : Below s w w
  | child {v v' : Id} : Below s w v → v' ∈ s.childs v → Below s w v'

theorem withChilds_mem {s : St K} : ∀ {n : Nat} {ws l : List Id}, withChilds s n ws = .ok l →
    (∀ w ∈ ws, w ∈ l) ∧ ∀ v ∈ l, ∀ v' ∈ s.childs v, v' ∈ l
  | n, [], l, h => by
    cases n <;> (cases h; simp)
  | 0, w :: ws, l, h => by cases h
  | n + 1, w :: ws, l, h => by
    rw [withChilds] at h
    simp only [Verif.Decomp.bind_ok] at h
    obtain ⟨r, hr, h⟩ := h
    cases h
    obtain ⟨h1, h2⟩ := withChilds_mem hr
    refine ⟨fun v hv => ?_, fun v hv v' hv' => ?_⟩
    · rcases List.mem_cons.1 hv with rfl | hv
      · simp
      · exact List.mem_cons_of_mem _ (h1 v (by simp [hv]))
    · rcases List.mem_cons.1 hv with rfl | hv
      · exact List.mem_cons_of_mem _ (h1 v' (by simp [hv']))
      · exact List.mem_cons_of_mem _ (h2 v hv v' hv')

theorem withChilds_below {s : St K} {n : Nat} {ws l : List Id} (h : withChilds s n ws = .ok l) {w w' : Id} (hw : w ∈ ws)
    (hb : Below s w w') : w' ∈ l := by
  obtain ⟨h1, h2⟩ := withChilds_mem h
  induction hb with
  | refl => exact h1 w hw
  | child _ hc ih => exact h2 _ ih _ hc

theorem changedWires_mem {s : St K} : ∀ {hs : List HE} {l : List Id}, changedWires s hs = .ok l → ∀ h ∈ hs, ∀ v q,
    Verif.Decomp.polyAt s (h.1, v) = .ok q → s.outer q ∈ l
  | [], l, h, d, hd, v, q, hq => by cases hd
  | x :: hs, l, h, d, hd, v, q, hq => by
    rw [changedWires] at h
    simp only [Verif.Decomp.bind_ok] at h
    obtain ⟨q0, h0, q1, h1, r, hr, h⟩ := h
    cases h
    rcases List.mem_cons.1 hd with rfl | hd
    · cases v
      · rw [h0] at hq; cases hq; simp
      · rw [h1] at hq; cases hq; simp
    · exact List.mem_cons_of_mem _ (List.mem_cons_of_mem _ (changedWires_mem hr d hd v q hq))

theorem envelope_mem {s : St K} {mv : List HE} : ∀ {ws l : List Id}, envelope s mv ws = .ok l → ∀ w ∈ ws,
    ∃ a, Verif.Decomp.wireAll s w = .ok a ∧ ∀ g ∈ a, g ∉ mv → Verif.Decomp.flip g ∉ mv → g.1 ∈ l
  | [], l, h, w, hw => by cases hw
  | x :: ws, l, h, w, hw => by
    rw [envelope] at h
    simp only [Verif.Decomp.bind_ok] at h
    obtain ⟨a, ha, r, hr, h⟩ := h
    cases h
    rcases List.mem_cons.1 hw with rfl | hw
    · refine ⟨a, ha, fun g hg h1 h2 => ?_⟩
      rw [List.mem_append]
      exact Or.inl (List.mem_map.2 ⟨g, List.mem_filter.2 ⟨hg, by simp [h1, h2]⟩, rfl⟩)
    · obtain ⟨a', ha', h'⟩ := envelope_mem hr w hw
      exact ⟨a', ha', fun g hg h1 h2 => List.mem_append.2 (Or.inr (h' g hg h1 h2))⟩

/-- The moving sides are those at the points that move. -/
theorem movingSegs_mem {g : Geom K} {s : St K} (hr : Verif.Decomp.Reach g s) : ∀ {ps : List Id} {l : List HE},
    movingSegs s ps = .ok l → (∀ p ∈ ps, p ∈ s.pid.live) →
      ∀ h : HE, h ∈ l ↔ h.1 ∈ s.sid.live ∧ s.vtx h ∈ ps
  | [], l, h, _, d => by cases h; simp
  | p :: ps, l, h, hp, d => by
    rw [movingSegs] at h
    simp only [Verif.Decomp.bind_ok] at h
    obtain ⟨a, ha, r, hr', h⟩ := h
    cases h
    rw [List.mem_append, movingSegs_mem hr hr' (fun q hq => hp q (by simp [hq]))]
    have hL := hr.inv.links
    have key : d ∈ a ↔ d.1 ∈ s.sid.live ∧ s.vtx d = p := by
      cases hps : s.pseg p with
      | none =>
        rw [hps] at ha
        cases ha
        simp only [List.not_mem_nil, false_iff, not_and]
        exact hL.no_seg (hp p (by simp)) (by simp) hps d
      | some k =>
        rw [hps] at ha
        obtain ⟨k1, k2⟩ := hL.pseg_vtx (hp p (by simp)) (by simp) hps
        obtain ⟨a', h1, _, h3⟩ := Verif.Decomp.around_exact hr k1
        change Verif.Decomp.around s k = .ok a at ha
        rw [h1] at ha
        cases ha
        rw [h3, k2]
    rw [key, List.mem_cons]
    tauto

/-- **C121.** If `check_displacment` returns `True`, no segment beside the moving ones is hit: for each polygon next to a moving
segment and each segment of its outer wire, or of a wire nested in it, that does not move, neither the way of a point nor the new
place of a moving segment crosses it (in the sense of `seg_intersection`). Missing: segments of other wires and free points
(`free_displacement_allowed`). -/
theorem displacement_clear_partial {c : Cfg K} {f : Fr K} (hr : Verif.Decomp.SoundReach c.geo f.dec) {ps : List Id}
    (hps : ∀ p ∈ ps, p ∈ f.dec.pid.live) {d : K × K} (h : checkDisplacement c ps d f = .ok true)
    {k : HE} (hk : k.1 ∈ f.dec.sid.live) (hkp : f.dec.vtx k ∈ ps) {v : Bool} {w q : Id} (hw : f.dec.wire (k.1, v) = some w)
    (hq : f.dec.wpoly w = some q) {e : HE} {w' : Id} (he : e.1 ∈ f.dec.sid.live) (hew : f.dec.wire e = some w')
    (hb : Below f.dec (f.dec.outer q) w') (h0 : ∀ u, f.dec.vtx (e.1, u) ∉ ps) :
    (∀ p ∈ ps, intersection c.eps (f.dec.xy (f.dec.vtx (e.1, false))) (f.dec.vec e.1) (f.dec.xy p)
      ((f.dec.xy p).1 + d.1, (f.dec.xy p).2 + d.2) = none) ∧
    ∀ m : HE, m.1 ∈ f.dec.sid.live → f.dec.vtx m ∈ ps →
      intersection c.eps (f.dec.xy (f.dec.vtx (e.1, false))) (f.dec.vec e.1)
        ((f.dec.xy (f.dec.vtx m)).1 + d.1, (f.dec.xy (f.dec.vtx m)).2 + d.2)
        (if f.dec.vtx (m.1, !m.2) ∈ ps then
          ((f.dec.xy (f.dec.vtx (m.1, !m.2))).1 + d.1, (f.dec.xy (f.dec.vtx (m.1, !m.2))).2 + d.2)
        else f.dec.xy (f.dec.vtx (m.1, !m.2))) = none := by
  unfold checkDisplacement at h
  rw [liftD_ok] at h
  simp only [Verif.Decomp.bind_ok, Except.ok.injEq] at h
  obtain ⟨mv, hmv, ws, hws, ws', hws', l, hl, h⟩ := h
  have hmem := movingSegs_mem hr.reach hmv hps
  obtain ⟨h1, h2, h3⟩ := Verif.Decomp.wires_exact_partial hr
  have hpa : Verif.Decomp.polyAt f.dec (k.1, v) = .ok q := by
    simp [Verif.Decomp.polyAt, hw, hq, Verif.Decomp.need, bind, Except.bind]
  have hout := changedWires_mem hws k ((hmem k).2 ⟨hk, hkp⟩) v q hpa
  have hin := withChilds_below hws' hout hb
  obtain ⟨a, ha, hall⟩ := envelope_mem hl w' hin
  obtain ⟨w1, hw1, hw2, hw3⟩ := h1 e he
  rw [hew] at hw1
  cases hw1
  obtain ⟨a', ha', _, _, hmem'⟩ := h3 w' hw2 hw3
  rw [ha] at ha'
  cases ha'
  have hel : e.1 ∈ l := hall e ((hmem' e).2 ⟨he, hew⟩)
    (fun hh => h0 e.2 ((hmem _).1 hh).2) (fun hh => h0 (!e.2) ((hmem _).1 hh).2)
  rw [List.all_eq_true] at h
  have hc := h e.1 hel
  simp only [clearOf, Bool.and_eq_true, List.all_eq_true, Option.isNone_iff_eq_none] at hc
  refine ⟨fun p hp => hc.1 p hp, fun m hm hmp => ?_⟩
  have := hc.2 m ((hmem m).2 ⟨hm, hmp⟩)
  simp only [movedEnds, plus, Verif.Decomp.flip] at this
  have hiff : ((m.1, !m.2) : HE) ∈ mv ↔ f.dec.vtx (m.1, !m.2) ∈ ps := by
    rw [hmem]; simp [hm]
  simpa only [hiff] using this

/-- **C121.** Points without segments may be moved anywhere: `check_displacment` returns `True` for every displacement. -/
theorem free_displacement_allowed (c : Cfg K) (f : Fr K) (ps : List Id) (hps : ∀ p ∈ ps, f.dec.pseg p = none) (d : K × K) :
    checkDisplacement c ps d f = .ok true := by
  have hmv : movingSegs f.dec ps = .ok [] := by
    induction ps with
    | nil => rfl
    | cons p ps ih =>
      rw [movingSegs, ih (fun q hq => hps q (by simp [hq])), hps p (by simp)]
      rfl
  unfold checkDisplacement
  rw [hmv]
  cases hd : c.depth <;> simp [changedWires, withChilds, envelope, liftD, bind, Except.bind]

end Verif.Front
