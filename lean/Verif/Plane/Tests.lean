import Verif.Plane.Split

/-! What the tests in the splitting of a polygon decide. -/

namespace Verif.Decomp
open Verif.Plane

section
variable {K : Type} [Field K] [LinearOrder K]

theorem walkGo_congr {s s' : St K} (h : s'.next = s.next) {a b : HE} : ∀ {n : Nat} {d : HE}, walkGo s' a b n d = walkGo s a b n d := by
  intro n
  induction n with
  | zero => intro d; rfl
  | succ n ih =>
    intro d
    unfold walkGo
    rw [h]
    simp only [ih]

/-- `contains_point` depends on the links, the coordinates and on whether the wire is the root. -/
theorem containsPoint_congr {s s' : St K} (h1 : s'.next = s.next) (h2 : s'.sid = s.sid) (h3 : s'.wseg = s.wseg) (h4 : s'.vtx = s.vtx)
    (h5 : s'.xy = s.xy) {w : Id} (hp : s'.parent w = none ↔ s.parent w = none) (x : K × K) :
    containsPoint s' w x = containsPoint s w x := by
  have hw : wireAll s' w = wireAll s w := by
    unfold wireAll
    simp only [hp, h3, walkGo_congr h1, fuel, h2]
  unfold containsPoint
  simp only [hp, hw, h4, h5]

theorem containsWire_congr {g : Geom K} {s s' : St K} (h1 : s'.next = s.next) (h2 : s'.sid = s.sid) (h3 : s'.wseg = s.wseg)
    (h4 : s'.vtx = s.vtx) (h5 : s'.xy = s.xy) (h6 : s'.vec = s.vec) {w v : Id} (hp : s'.parent w = none ↔ s.parent w = none)
    (hv : s'.parent v = none ↔ s.parent v = none) : containsWire g s' w v = containsWire g s w v := by
  have hs : ∀ d, sidePoint g s' d = sidePoint g s d := by
    intro d
    unfold sidePoint
    rw [h4, h5, h6]
  unfold containsWire
  simp only [hp, hv, h3, hs, containsPoint_congr h1 h2 h3 h4 h5 hp]

/-- The holes given to the new polygon are those for which `contains_wire` is true. -/
theorem splitHoles_test {g : Geom K} {q' : Id} {l : List Id} : ∀ {s s' : St K}, splitHoles g q' l s = .ok s' →
    (∀ c ∈ l, s.parent c ≠ none) → ∃ P C Q, s' = { s with parent := P, childs := C, wpoly := Q } ∧
      (∀ c, P c = none ↔ s.parent c = none) ∧ (∀ c ∈ l, ∃ b, containsWire g s (s.outer q') c = .ok b) ∧
      ∀ c, (c ∈ l ∧ containsWire g s (s.outer q') c = .ok true ∧ P c = some (s.outer q') ∧ Q c = some q') ∨
        (¬ (c ∈ l ∧ containsWire g s (s.outer q') c = .ok true) ∧ P c = s.parent c ∧ Q c = s.wpoly c) := by
  induction l with
  | nil =>
    intro s s' h _
    simp only [splitHoles, Except.ok.injEq] at h
    exact ⟨s.parent, s.childs, s.wpoly, by subst h; rfl, fun _ => Iff.rfl, by simp, fun c => Or.inr ⟨by simp, rfl, rfl⟩⟩
  | cons x l ih =>
    intro s s' h hl
    simp only [splitHoles, bind_ok] at h
    obtain ⟨b, hb, s1, h1, h2⟩ := h
    have hx := hl x (by simp)
    obtain ⟨P1, C1, Q1, e1, n1, t1⟩ : ∃ P C Q, s1 = { s with parent := P, childs := C, wpoly := Q } ∧
        (∀ c, P c = none ↔ s.parent c = none) ∧
        ∀ c, (c = x ∧ b = true ∧ P c = some (s.outer q') ∧ Q c = some q') ∨ (¬ (c = x ∧ b = true) ∧ P c = s.parent c ∧ Q c = s.wpoly c) := by
      cases b with
      | true =>
        simp only [if_true] at h1
        unfold giveHole at h1
        simp only [bind_ok, Except.ok.injEq] at h1
        obtain ⟨s2, h3, rfl⟩ := h1
        obtain ⟨C1, rfl⟩ := setParent_eq h3
        refine ⟨_, _, _, rfl, fun c => ?_, fun c => ?_⟩
        · by_cases hc : c = x
          · subst hc; simp [upd, hx]
          · simp [upd, hc]
        · by_cases hc : c = x
          · exact Or.inl ⟨hc, rfl, by subst hc; simp [upd], by subst hc; simp [upd]⟩
          · exact Or.inr ⟨fun hh => hc hh.1, by simp [upd, hc], by simp [upd, hc]⟩
      | false =>
        simp only [Bool.false_eq_true, if_false, Except.ok.injEq] at h1
        subst h1
        exact ⟨s.parent, s.childs, s.wpoly, rfl, fun _ => Iff.rfl, fun c => Or.inr ⟨by simp, rfl, rfl⟩⟩
    subst e1
    have hc : ∀ c, containsWire g ({ s with parent := P1, childs := C1, wpoly := Q1 } : St K) (s.outer q') c =
        containsWire g s (s.outer q') c := fun c =>
        containsWire_congr (s := s) (s' := { s with parent := P1, childs := C1, wpoly := Q1 }) rfl rfl rfl rfl rfl rfl (n1 _) (n1 _)
    obtain ⟨P, C, Q, rfl, n2, ex, t2⟩ := ih h2 fun c hc hh => hl c (by simp [hc]) ((n1 c).1 hh)
    refine ⟨P, C, Q, rfl, fun c => (n2 c).trans (n1 c), fun c hcl => ?_, fun c => ?_⟩
    · rcases List.mem_cons.1 hcl with rfl | hcl
      · exact ⟨b, hb⟩
      · obtain ⟨b', hb'⟩ := ex c hcl
        exact ⟨b', (hc c).symm.trans hb'⟩
    · have t2 := t2 c
      simp only [hc] at t2
      rcases t2 with ⟨k1, k2, k3, k4⟩ | ⟨k1, k3, k4⟩
      · exact Or.inl ⟨by simp [k1], k2, k3, k4⟩
      · rcases t1 c with ⟨rfl, rfl, j3, j4⟩ | ⟨j1, j3, j4⟩
        · exact Or.inl ⟨by simp, hb, k3.trans j3, k4.trans j4⟩
        · refine Or.inr ⟨?_, k3.trans j3, k4.trans j4⟩
          rintro ⟨m, hm⟩
          rcases List.mem_cons.1 m with rfl | m
          · rw [hb] at hm
            cases hm
            exact j1 ⟨rfl, rfl⟩
          · exact k1 ⟨m, hm⟩

omit [Field K] [LinearOrder K] in
theorem setPolygon_ppoly {p q : Id} {s s' : St K} (hF : s.pseg p = none) (h : setPolygon p q s = .ok s') :
    ∃ fp, s' = { s with ppoly := upd s.ppoly p (some q), fpts := fp } := by
  unfold setPolygon at h
  simp only [bind_ok, Except.ok.injEq] at h
  obtain ⟨s1, h1, h2⟩ := h
  obtain ⟨fp, rfl⟩ := leavePoly_eq h1
  subst h2
  refine ⟨upd fp q (insertSet p (fp q)), ?_⟩
  have : upd s.pseg p none = s.pseg := by rw [← hF]; exact Function.update_eq_self _ _
  simp only [this]

/-- The free points given to the new polygon are those for which `contains_point` of its outer wire is true. -/
theorem splitPoints_test {q' : Id} {l : List Id} : ∀ {s s' : St K}, splitPoints q' l s = .ok s' → (∀ p ∈ l, s.pseg p = none) →
    ∃ pp fp, s' = { s with ppoly := pp, fpts := fp } ∧ (∀ p ∈ l, ∃ b, containsPoint s (s.outer q') (s.xy p) = .ok b) ∧
      ∀ p, (p ∈ l ∧ containsPoint s (s.outer q') (s.xy p) = .ok true ∧ pp p = some q') ∨
        (¬ (p ∈ l ∧ containsPoint s (s.outer q') (s.xy p) = .ok true) ∧ pp p = s.ppoly p) := by
  induction l with
  | nil =>
    intro s s' h _
    simp only [splitPoints, Except.ok.injEq] at h
    exact ⟨s.ppoly, s.fpts, by subst h; rfl, by simp, fun p => Or.inr ⟨by simp, rfl⟩⟩
  | cons x l ih =>
    intro s s' h hl
    simp only [splitPoints, bind_ok] at h
    obtain ⟨b, hb, s1, h1, h2⟩ := h
    obtain ⟨pp1, fp1, e1, t1⟩ : ∃ pp fp, s1 = { s with ppoly := pp, fpts := fp } ∧
        ∀ p, (p = x ∧ b = true ∧ pp p = some q') ∨ (¬ (p = x ∧ b = true) ∧ pp p = s.ppoly p) := by
      cases b with
      | true =>
        simp only [if_true] at h1
        obtain ⟨fp, rfl⟩ := setPolygon_ppoly (hl x (by simp)) h1
        refine ⟨_, _, rfl, fun p => ?_⟩
        by_cases hp : p = x
        · exact Or.inl ⟨hp, rfl, by subst hp; simp [upd]⟩
        · exact Or.inr ⟨fun hh => hp hh.1, by simp [upd, hp]⟩
      | false =>
        simp only [Bool.false_eq_true, if_false, Except.ok.injEq] at h1
        subst h1
        exact ⟨s.ppoly, s.fpts, rfl, fun p => Or.inr ⟨by simp, rfl⟩⟩
    subst e1
    have hc : ∀ y, containsPoint ({ s with ppoly := pp1, fpts := fp1 } : St K) (s.outer q') y = containsPoint s (s.outer q') y :=
      fun y => containsPoint_congr (s := s) (s' := { s with ppoly := pp1, fpts := fp1 }) rfl rfl rfl rfl rfl Iff.rfl y
    obtain ⟨pp, fp, rfl, ex, t2⟩ := ih h2 fun c hc => hl c (by simp [hc])
    refine ⟨pp, fp, rfl, fun p hp => ?_, fun p => ?_⟩
    · rcases List.mem_cons.1 hp with rfl | hp
      · exact ⟨b, hb⟩
      · obtain ⟨b', hb'⟩ := ex p hp
        exact ⟨b', (hc _).symm.trans hb'⟩
    · have t2 := t2 p
      simp only [hc] at t2
      rcases t2 with ⟨k1, k2, k3⟩ | ⟨k1, k3⟩
      · exact Or.inl ⟨by simp [k1], k2, k3⟩
      · rcases t1 p with ⟨rfl, rfl, j3⟩ | ⟨j1, j3⟩
        · exact Or.inl ⟨by simp, hb, k3.trans j3⟩
        · refine Or.inr ⟨?_, k3.trans j3⟩
          rintro ⟨m, hm⟩
          rcases List.mem_cons.1 m with rfl | m
          · rw [hb] at hm
            cases hm
            exact j1 ⟨rfl, rfl⟩
          · exact k1 ⟨m, hm⟩

end
end Verif.Decomp
