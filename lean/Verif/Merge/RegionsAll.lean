import Verif.Merge.RegionsDemo

/-! Over a list of decompositions the maps of polygons stay right in the plane: what the map of a decomposition tells of a place after
its own intersection is what it tells of that place in the final result. -/

namespace Verif.Merge
open Verif.Decomp (St Id HE Off Tiled ArgOk polyContains offB offB_ok)
open Verif.Front (Fr Cfg Err Range Good Wide demoCfg)

section
variable {K : Type} [Field K] [LinearOrder K] [IsStrictOrderedRing K]

/-- The polygons of the result of the intersections `st` are in the polygons of `f` that the maps `maps_self` lead to. -/
theorem stages_regions {c : Cfg K} (hg : ArgOk c.geo) (hge : 0 < c.geo.eps) {r : Range K} {tol : K} (hn : Nums c r tol) :
    ∀ {ds : List (Fr K)} {f : Fr K} {st : List (Maps × Log K × Fr K)}, Common c r f → (∀ o ∈ ds, Given r o.dec) →
      Stages c tol f ds st → (∀ x ∈ st, Fine c x.2.1) → ∀ {x : K × K}, Off (result f st).dec x → Off f.dec x ∧
        ∀ q ∈ (result f st).dec.qid.live, back2 st q ∈ f.dec.qid.live ∧
          (polyContains (result f st).dec q x = .ok true → polyContains f.dec (back2 st q) x = .ok true)
  | [], f, st, _, _, hst, _, x, hx => by
    cases hst
    exact ⟨hx, fun q hq => ⟨hq, fun h => h⟩⟩
  | o :: ds, f, st, hC, hd, hst, hF, x, hx => by
    cases hst with
    | @cons _ f1 _ _ m g st h1 hst =>
    have hg1 : Fine c g := hF (m, g, f1) (by simp)
    have ho : Given r o.dec := hd o (by simp)
    obtain ⟨k1, k2⟩ := stages_regions hg hge hn (.step hC hn ho h1 hg1) (fun o ho => hd o (by simp [ho])) hst
      (fun x hx => hF x (by simp [hx])) (x := x) hx
    obtain ⟨j1, _, j2, j3⟩ := intersect_regions_self hg hge hn ho hC h1 hg1 k1
    refine ⟨j1, fun q hq => ?_⟩
    obtain ⟨m1, m2⟩ := k2 q hq
    exact ⟨j2 _ m1, fun h => (j3 _ (j2 _ m1)).2 ⟨_, m1, rfl, m2 h⟩⟩

theorem composed_regions {c : Cfg K} (hg : ArgOk c.geo) (hge : 0 < c.geo.eps) {r : Range K} {tol : K} (hn : Nums c r tol) :
    ∀ {ds : List (Fr K)} {f : Fr K} {st : List (Maps × Log K × Fr K)} {ms : List Dims}, Common c r f → (∀ o ∈ ds, Given r o.dec) →
      Stages c tol f ds st → (∀ x ∈ st, Fine c x.2.1) → Composed st ms → ∀ {x : K × K}, Off (result f st).dec x →
        List.Forall₂ (fun d y => Off y.2.2.dec x ∧ ∀ q ∈ (result f st).dec.qid.live, polyContains (result f st).dec q x = .ok true →
          ∃ q1 ∈ y.2.2.dec.qid.live, polyContains y.2.2.dec q1 x = .ok true ∧ get d.polys q = (get y.1.other2 q1).join) ms st
  | [], f, st, ms, _, _, hst, _, hms, x, hx => by
    cases hst
    cases hms
    exact .nil
  | o :: ds, f, st, ms, hC, hd, hst, hF, hms, x, hx => by
    cases hst with
    | @cons _ f1 _ _ m g st h1 hst =>
    cases hms with
    | @cons _ _ _ _ d ms _ _ e3 hms =>
    have hC1 : Common c r f1 := .step hC hn (hd o (by simp)) h1 (hF (m, g, f1) (by simp))
    have hd1 : ∀ o ∈ ds, Given r o.dec := fun o ho => hd o (by simp [ho])
    have hF1 : ∀ x ∈ st, Fine c x.2.1 := fun x hx => hF x (by simp [hx])
    obtain ⟨k1, k2⟩ := stages_regions hg hge hn hC1 hd1 hst hF1 (x := x) hx
    exact .cons ⟨k1, fun q hq h => ⟨_, (k2 q hq).1, (k2 q hq).2 h, e3 q⟩⟩ (composed_regions hg hge hn hC1 hd1 hst hF1 hms hx)

/-- **C180.** For each decomposition of the list, the final map of polygons has at the polygon around a place `x` the value that the map
`maps_other[2]` of its own intersection had at the polygon around `x` then. Each place is in one polygon of each of these results. -/
theorem intersect_regions_all {c : Cfg K} (hg : ArgOk c.geo) (hge : 0 < c.geo.eps) {r : Range K} {tol : K} {ds : List (Fr K)}
    {st : List (Maps × Log K × Fr K)} {ms : List Dims} {f' : Fr K} (h : RunAll c r tol ds st ms f') (hF : ∀ x ∈ st, Fine c x.2.1)
    {x : K × K} (hx : Off f'.dec x) :
    List.Forall₂ (fun d y => Off y.2.2.dec x ∧ ∀ q ∈ f'.dec.qid.live, polyContains f'.dec q x = .ok true →
      ∃ q1 ∈ y.2.2.dec.qid.live, polyContains y.2.2.dec q1 x = .ok true ∧ get d.polys q = (get y.1.other2 q1).join) ms st := by
  have hs := h.ran
  unfold intersectDecompositions at hs
  split at hs
  · exact absurd rfl h.many
  · have := intersectAll_result hs h.stages
    subst this
    exact composed_regions hg hge h.nums (.empty h.start) h.given h.stages hF h.ok.2.2.1 hx

end

/-- Two squares that overlap and a square in their common part. -/
def rowed : List (Fr ℚ) := [made (square (0, 0) 10), made (square (5, 5) 10), made (square (6, 6) 2)]

/-- Test of the run below. -/
def rowedB (st : List (Maps × Log ℚ × Fr ℚ)) (ms : List Dims) (f : Fr ℚ) : Bool :=
  (st.all fun x => fineB x.2.1) && offB f.dec (7, 7) && offB f.dec (9, 9) && decide (f.dec.qid.live = [0, 1, 2, 3, 4] ∧
    polyContains f.dec 4 (7, 7) = .ok true ∧ polyContains f.dec 3 (9, 9) = .ok true ∧
    ms.map (fun d => [3, 4].map (get d.polys)) = [[some 1, some 1], [some 1, some 1], [some 0, some 1]])

theorem rowed_tested : tested rowed rowedB = true := by decide +kernel

/-- The hypotheses of C180 hold for two squares that overlap and a third in their common part. The third divides the common part, and
the places of both parts are still in the first two squares by the maps. -/
theorem regions_all_case : ∃ st ms f, RunAll demoCfg mergeRange (1 / 1000) rowed st ms f ∧ (∀ x ∈ st, Fine demoCfg x.2.1) ∧
    f.dec.qid.live = [0, 1, 2, 3, 4] ∧ Off f.dec (7, 7) ∧ polyContains f.dec 4 (7, 7) = .ok true ∧
    Off f.dec (9, 9) ∧ polyContains f.dec 3 (9, 9) = .ok true ∧
    ms.map (fun d => [3, 4].map (get d.polys)) = [[some 1, some 1], [some 1, some 1], [some 0, some 1]] := by
  obtain ⟨st, ms, f, h1, h2⟩ := tested_ok (by decide) rowed_tested
  simp only [rowedB, Bool.and_eq_true, decide_eq_true_eq] at h2
  obtain ⟨⟨⟨a1, a2⟩, a3⟩, b1, b2, b3, b4⟩ := h2
  exact ⟨st, ms, f, h1, fun x hx => fineB_ok (List.all_eq_true.1 a1 x hx), b1, offB_ok a2, b2, offB_ok a3, b3, b4⟩

end Verif.Merge
