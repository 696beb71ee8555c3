import Verif.Decomp.Demo

/-! `Polygon.depth` (polygon.py:22-33). -/
namespace Verif.Decomp

variable {K : Type}

/-- The loop of `Polygon.depth` (polygon.py:29-33) from a wire, stopped after `n` turns. -/
def depthGo (s : St K) : Nat → Id → Except Err Nat
  | 0, _ => .error .diverges
  | n + 1, w =>
    match s.parent w with
    | none => .ok 0
    | some q => do
      let d ← depthGo s n q
      .ok (d + 1)

/-- `Polygon.depth` (polygon.py:22-33), stopped after `n` turns of the loop. -/
def depth (s : St K) (n : Nat) (q : Id) : Except Err Nat := depthGo s n (s.outer q)

/-- The number of turns allowed does not change the result. -/
theorem depthGo_mono {s : St K} : ∀ {n : Nat} {w : Id} {d : Nat}, depthGo s n w = .ok d → ∀ m, n ≤ m → depthGo s m w = .ok d := by
  intro n
  induction n with
  | zero => intro w d h; simp [depthGo] at h
  | succ n ih =>
    intro w d h m hm
    obtain ⟨m, rfl⟩ : ∃ k, m = k + 1 := ⟨m - 1, by omega⟩
    unfold depthGo at h ⊢
    split at h
    · exact h
    · next q hp =>
      simp only [bind, Except.bind] at h ⊢
      split at h
      · cases h
      · next e he => rw [ih he m (by omega)]; exact h

/-- Each polygon around counts twice: the parent of the outer wire is the hole, its parent the outer wire of the next polygon. -/
theorem depth_twice {s : St K} {q q' h d n : Nat} (h1 : s.parent (s.outer q') = some h) (h2 : s.parent h = some (s.outer q))
    (h3 : depth s n q = .ok d) : depth s (n + 2) q' = .ok (d + 2) := by
  unfold depth at h3 ⊢
  simp only [depthGo, h1, h2, bind, Except.bind, h3]

/-- A polygon of the plane is inside the outer polygon only; its depth is two. -/
theorem depth_of_triangle :
    ∃ s : St ℚ, SoundReach demo s ∧ ReachBy demo (Proper demo) s ∧ s.qid.live = [0, 1] ∧
      s.parent (s.outer 1) = some 1 ∧ s.parent 1 = some (s.outer 0) ∧ (depth s 1 0).toOption = some 0 ∧
      ∀ n, (depth s (n + 3) 1).toOption = some 2 := by
  have hg := after_good (l := bridge.take 6) (by decide +kernel)
  have h1 : (after (bridge.take 6)).parent ((after (bridge.take 6)).outer 1) = some 1 := by decide +kernel
  have h2 : (after (bridge.take 6)).parent 1 = some ((after (bridge.take 6)).outer 0) := by decide +kernel
  have h3 : depth (after (bridge.take 6)) 1 0 = .ok 0 := by
    unfold depth depthGo
    rw [show (after (bridge.take 6)).parent ((after (bridge.take 6)).outer 0) = none by decide +kernel]
  refine ⟨_, hg.1, hg.2, by decide +kernel, h1, h2, by rw [h3]; rfl, fun n => ?_⟩
  have := depth_twice h1 h2 h3
  unfold depth at this ⊢
  rw [depthGo_mono this (n + 3) (by omega)]
  rfl

/-- A wire that is its own parent: the loop does not end. -/
theorem depthGo_self {s : St K} {w : Id} (h : s.parent w = some w) : ∀ n, depthGo s n w = .error .diverges
  | 0 => rfl
  | n + 1 => by simp only [depthGo, h, bind, Except.bind, depthGo_self h n]

/-- In a forest the loop ends exactly for wires inside a wire without parent, after as many turns as there are wires
around. -/
theorem depthGo_chain {s : St K} : ∀ {l : List Id} {w : Id}, List.IsChain (fun a b => s.parent a = some b) (w :: l) →
    s.parent ((w :: l).getLast (by simp)) = none → depthGo s (l.length + 1) w = .ok l.length := by
  intro l
  induction l with
  | nil => intro w _ h; simp only [List.getLast_singleton] at h; simp [depthGo, h]
  | cons x l ih =>
    intro w hc h
    rw [List.isChain_cons_cons] at hc
    rw [List.getLast_cons (by simp)] at h
    have := ih hc.2 h
    rw [List.length_cons, depthGo]
    simp only [hc.1, bind, Except.bind, this]

example : (after bridge).parent 3 = some 3 := by decide +kernel

/-! ### Free points -/

/-- The run `bridge`, then the segment inside gets a branch, the triangle is opened and the branch is deleted. -/
def strayRun : List (Op ℚ) :=
  bridge ++ [.addPoint (3, 2) 1, .newSegment 4 5, .deleteSegment 0, .deleteSegment 4]

/-- A free point can be registered in a polygon that was removed: no polygon of the decomposition has it. -/
theorem stray_free_point : ∃ s : St ℚ, SoundReach demo s ∧ ReachBy demo (Proper demo) s ∧ 5 ∈ s.pid.live ∧
    s.ppoly 5 = some 1 ∧ 1 ∉ s.qid.live ∧ ∀ q ∈ s.qid.live, 5 ∉ s.fpts q := by
  have hg := after_good (l := strayRun) (by decide +kernel)
  exact ⟨after strayRun, hg.1, hg.2, by decide +kernel, by decide +kernel, by decide +kernel, by decide +kernel⟩

end Verif.Decomp
